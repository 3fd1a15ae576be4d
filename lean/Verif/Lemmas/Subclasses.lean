import Verif.Model.ClassNames

namespace Smol

def PyClass.name : PyClass → List Char | .mk n _ _ _ => n
def PyClass.abstract : PyClass → Bool | .mk _ a _ _ => a
def PyClass.id : PyClass → ℕ | .mk _ _ i _ => i
def PyClass.subs : PyClass → List PyClass | .mk _ _ _ s => s

/-- A class that is not abstract is derived from another, directly or not. -/
inductive Derived : PyClass → List Char → ℕ → Prop
  | child (b c : PyClass) (hc : c ∈ b.subs) (ha : c.abstract = false) : Derived b c.name c.id
  | deeper (b c : PyClass) (hc : c ∈ b.subs) (n : List Char) (i : ℕ) (h : Derived c n i) : Derived b n i

theorem mem_nameDictSet {d : List (List Char × ℕ)} {k : List Char} {v : ℕ} {p : List Char × ℕ}
    (h : p ∈ nameDictSet d k v) : p = (k, v) ∨ p ∈ d := by
  unfold nameDictSet at h
  split at h
  · obtain ⟨q, hq, rfl⟩ := List.mem_map.1 h
    split
    · exact .inl rfl
    · exact .inr hq
  · rcases List.mem_append.1 h with h | h
    · exact .inr h
    · exact .inl (by simpa using h)

theorem keys_nameDictSet (d : List (List Char × ℕ)) (k : List Char) (v : ℕ) (n : List Char) :
    n ∈ (nameDictSet d k v).map Prod.fst ↔ n = k ∨ n ∈ d.map Prod.fst := by
  unfold nameDictSet
  split
  · rename_i h
    simp only [List.any_eq_true, beq_iff_eq] at h
    obtain ⟨q, hq, rfl⟩ := h
    have e : (d.map fun p => if p.1 = q.1 then (q.1, v) else p).map Prod.fst = d.map Prod.fst := by
      rw [List.map_map]
      refine List.map_congr_left fun p _ => ?_
      simp only [Function.comp]
      split
      · rename_i h; exact h.symm
      · rfl
    rw [e]
    constructor
    · exact .inr
    · rintro (rfl | h)
      · exact List.mem_map_of_mem hq
      · exact h
  · simp [or_comm]

theorem mem_dictUpdate {e : List (List Char × ℕ)} : ∀ {d : List (List Char × ℕ)} {p : List Char × ℕ},
    p ∈ dictUpdate d e → p ∈ d ∨ p ∈ e := by
  induction e with
  | nil => intro d p h; exact .inl h
  | cons q e ih =>
    intro d p h
    rw [dictUpdate, List.foldl_cons] at h
    rcases ih h with h | h
    · rcases mem_nameDictSet h with h | h
      · exact .inr (by rw [h]; simp)
      · exact .inl h
    · exact .inr (List.mem_cons_of_mem _ h)

theorem keys_dictUpdate (e : List (List Char × ℕ)) (n : List Char) : ∀ d : List (List Char × ℕ),
    n ∈ (dictUpdate d e).map Prod.fst ↔ n ∈ d.map Prod.fst ∨ n ∈ e.map Prod.fst := by
  induction e with
  | nil => intro d; simp [dictUpdate]
  | cons q e ih =>
    intro d
    have := ih (nameDictSet d q.1 q.2)
    rw [dictUpdate] at this
    rw [dictUpdate, List.foldl_cons, this, keys_nameDictSet, List.map_cons, List.mem_cons]
    tauto

mutual
theorem subclassEntry_mem (c : PyClass) (d : List (List Char × ℕ)) (p : List Char × ℕ)
    (h : p ∈ subclassEntry d c) :
    p ∈ d ∨ (c.abstract = false ∧ p = (c.name, c.id)) ∨ Derived c p.1 p.2 := by
  match c with
  | .mk name abstract id subs =>
    rw [subclassEntry] at h
    have key : p ∈ dictUpdate d (subclassesGo [] subs) → p ∈ d ∨ Derived (.mk name abstract id subs) p.1 p.2 := by
      intro h
      rcases mem_dictUpdate h with h | h
      · exact .inl h
      · rcases subclassesGo_mem subs [] p h with h | ⟨c, hc, h⟩
        · exact absurd h (by simp)
        · rcases h with ⟨ha, rfl⟩ | h
          · exact .inr (.child _ c hc ha)
          · exact .inr (Derived.deeper (.mk name abstract id subs) c hc _ _ h)
    cases abstract with
    | true =>
      simp only [if_true] at h
      rcases key h with h | h
      · exact .inl h
      · exact .inr (.inr h)
    | false =>
      simp only [Bool.false_eq_true, if_false] at h
      rcases mem_nameDictSet h with h | h
      · exact .inr (.inl ⟨rfl, h⟩)
      · rcases key h with h | h
        · exact .inl h
        · exact .inr (.inr h)
theorem subclassesGo_mem (cs : List PyClass) (d : List (List Char × ℕ)) (p : List Char × ℕ)
    (h : p ∈ subclassesGo d cs) :
    p ∈ d ∨ ∃ c ∈ cs, (c.abstract = false ∧ p = (c.name, c.id)) ∨ Derived c p.1 p.2 := by
  match cs with
  | [] => exact .inl h
  | c :: cs =>
    rw [subclassesGo] at h
    rcases subclassesGo_mem cs _ p h with h | ⟨x, hx, h⟩
    · rcases subclassEntry_mem c d p h with h | h
      · exact .inl h
      · exact .inr ⟨c, by simp, h⟩
    · exact .inr ⟨x, by simp [hx], h⟩
end

theorem subclassEntry_mono (c : PyClass) (d : List (List Char × ℕ)) (n : List Char)
    (h : n ∈ d.map Prod.fst) : n ∈ (subclassEntry d c).map Prod.fst := by
  match c with
  | .mk name abstract id subs =>
    rw [subclassEntry]
    have h1 := (keys_dictUpdate (subclassesGo [] subs) n d).2 (.inl h)
    cases abstract with
    | true => simpa using h1
    | false => exact (keys_nameDictSet _ _ _ _).2 (.inr h1)

theorem subclassesGo_mono (cs : List PyClass) : ∀ (d : List (List Char × ℕ)) (n : List Char),
    n ∈ d.map Prod.fst → n ∈ (subclassesGo d cs).map Prod.fst := by
  induction cs with
  | nil => intro d n h; exact h
  | cons c cs ih =>
    intro d n h
    rw [subclassesGo]
    exact ih _ _ (subclassEntry_mono c d n h)

theorem subclassesGo_keys (cs : List PyClass) (c : PyClass) (hc : c ∈ cs) (n : List Char)
    (h : (c.abstract = false ∧ n = c.name) ∨ n ∈ (getSubclasses c).map Prod.fst) :
    ∀ d : List (List Char × ℕ), n ∈ (subclassesGo d cs).map Prod.fst := by
  induction cs with
  | nil => exact absurd hc (by simp)
  | cons x cs ih =>
    intro d
    rw [subclassesGo]
    rcases List.mem_cons.1 hc with rfl | hc
    · apply subclassesGo_mono
      match c with
      | .mk name abstract id subs =>
        rw [subclassEntry]
        rcases h with ⟨ha, hn⟩ | h
        · simp only [PyClass.abstract] at ha
          subst ha
          exact (keys_nameDictSet _ _ _ _).2 (.inl hn)
        · have h1 := (keys_dictUpdate (subclassesGo [] subs) n d).2 (.inr h)
          cases abstract with
          | true => simpa using h1
          | false => exact (keys_nameDictSet _ _ _ _).2 (.inr h1)
    · exact ih hc _

theorem getSubclasses_mem {b : PyClass} {p : List Char × ℕ} (h : p ∈ getSubclasses b) :
    Derived b p.1 p.2 := by
  match b with
  | .mk name abstract id subs =>
    rcases subclassesGo_mem subs [] p h with h | ⟨c, hc, ⟨ha, rfl⟩ | h⟩
    · exact absurd h (by simp)
    · exact .child _ c hc ha
    · exact Derived.deeper (.mk name abstract id subs) c hc _ _ h

theorem getSubclasses_keys {b : PyClass} {n : List Char} {i : ℕ} (h : Derived b n i) :
    n ∈ (getSubclasses b).map Prod.fst := by
  induction h with
  | child b c hc ha =>
    match b with
    | .mk name abstract id subs => exact subclassesGo_keys subs c hc _ (.inl ⟨ha, rfl⟩) []
  | deeper b c hc n i h ih =>
    match b with
    | .mk name abstract id subs => exact subclassesGo_keys subs c hc _ (.inr ih) []

theorem lookup_some_mem {d : List (List Char × ℕ)} {n : List Char} {i : ℕ} (h : d.lookup n = some i) :
    (n, i) ∈ d := by
  induction d with
  | nil => exact absurd h (by simp)
  | cons p d ih =>
    rw [List.lookup_cons] at h
    split at h
    · rename_i e
      have e : n = p.1 := by simpa using e
      simp only [Option.some.injEq] at h
      subst h e
      simp
    · exact List.mem_cons_of_mem _ (ih h)

theorem lookup_none_keys {d : List (List Char × ℕ)} {n : List Char} (h : d.lookup n = none) :
    n ∉ d.map Prod.fst := by
  induction d with
  | nil => simp
  | cons p d ih =>
    rw [List.lookup_cons] at h
    split at h
    · exact absurd h (by simp)
    · rename_i e
      have e : n ≠ p.1 := by simpa using e
      simp only [List.map_cons, List.mem_cons, not_or]
      exact ⟨e, ih h⟩

/-- If no two derived classes share a name, the name gives the class. -/
theorem lookup_derived {b : PyClass} (hu : ∀ n i j, Derived b n i → Derived b n j → i = j)
    (n : List Char) (i : ℕ) : (getSubclasses b).lookup n = some i ↔ Derived b n i := by
  constructor
  · intro h; exact getSubclasses_mem (lookup_some_mem h)
  · intro h
    cases hl : (getSubclasses b).lookup n with
    | none => exact absurd (getSubclasses_keys h) (lookup_none_keys hl)
    | some j => rw [hu n j i (getSubclasses_mem (lookup_some_mem hl)) h]

theorem not_derived_leaf {b : PyClass} (hb : b.subs = []) {n : List Char} {i : ℕ} :
    ¬ Derived b n i := by
  intro h
  cases h with
  | child b c hc ha => rw [hb] at hc; cases hc
  | deeper b c hc n i h => rw [hb] at hc; cases hc

end Smol
