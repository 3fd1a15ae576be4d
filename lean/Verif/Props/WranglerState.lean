import Verif.Model.WranglerState
import Verif.Lemmas.Sublattice

/-!
# C56 Data index sets; C63 property vectors
-/

namespace Smol

variable {K : Type*}

/-! ## tags and indices -/

theorem removeProp_tags (k : String) (l : List (WEntry K)) :
    (removeProp k l).map WEntry.tag = l.map WEntry.tag := by
  induction l with
  | nil => rfl
  | cons e es ih =>
    unfold removeProp
    split
    · rw [List.map_cons, ih]; rfl
    · rfl

theorem zipWith_tags (f : WEntry K → K → WEntry K) (hf : ∀ e x, (f e x).tag = e.tag)
    (l : List (WEntry K)) : ∀ v : List K, l.length = v.length →
    (List.zipWith f l v).map WEntry.tag = l.map WEntry.tag := by
  induction l with
  | nil => intro v _; rfl
  | cons e es ih =>
    intro v hv
    cases v with
    | nil => simp at hv
    | cons x v =>
      rw [List.zipWith_cons_cons, List.map_cons, List.map_cons, hf, ih v (by simpa using hv)]

theorem appendAll_tags (es : List (WEntry K)) : ∀ s : WState K,
    (s.appendAll es).1.inds = s.inds ∧ ∃ t, (s.appendAll es).1.entries = s.entries ++ t := by
  induction es with
  | nil => intro s; exact ⟨rfl, [], by simp [WState.appendAll]⟩
  | cons e es ih =>
    intro s
    unfold WState.appendAll
    split_ifs
    · obtain ⟨h1, t, h2⟩ := ih { s with entries := s.entries ++ [e] }
      exact ⟨h1, e :: t, by rw [h2]; simp⟩
    · exact ⟨rfl, [], by simp⟩

/-- Operations that remove structures. -/
def WOp.removes : WOp K → Bool
  | .remove _ => true
  | .removeAll => true
  | _ => false

/-- Operations that set the index set of a key. -/
def WOp.sets (k : String) : WOp K → Bool
  | .addInds k' _ => decide (k' = k)
  | _ => false

theorem apply_tags (s : WState K) (o : WOp K) (ho : o.removes = false) :
    ∃ t, ((s.apply o).1.entries.map WEntry.tag) = s.entries.map WEntry.tag ++ t := by
  cases o with
  | add e props weights matched =>
    simp only [WState.apply]
    split_ifs
    · exact ⟨[], by simp⟩
    · exact ⟨[], by simp⟩
    · exact ⟨[e.tag], by simp [WEntry.processed]⟩
  | append es =>
    obtain ⟨-, t, h⟩ := appendAll_tags es s
    exact ⟨t.map WEntry.tag, by simp only [WState.apply, h, List.map_append]⟩
  | addWeights k v =>
    simp only [WState.apply]
    split_ifs with h
    · exact ⟨[], by simp⟩
    · exact ⟨[], by
        rw [List.append_nil]
        exact zipWith_tags (fun e x => { e with weights := e.weights.put k x }) (fun _ _ => rfl) _ v (by simpa using h)⟩
  | addProps k v =>
    simp only [WState.apply]
    split_ifs with h
    · exact ⟨[], by simp⟩
    · exact ⟨[], by
        rw [List.append_nil]
        exact zipWith_tags (fun e x => { e with props := e.props.put k x }) (fun _ _ => rfl) _ v (by simpa using h)⟩
  | removeProps ks =>
    refine ⟨[], ?_⟩
    simp only [WState.apply, List.append_nil]
    generalize s.entries = l
    clear ho
    induction ks generalizing l with
    | nil => rfl
    | cons k ks ih => rw [List.foldl_cons, ih, removeProp_tags]
  | remove same => cases ho
  | removeAll => cases ho
  | addInds k l =>
    simp only [WState.apply]
    split_ifs <;> exact ⟨[], by simp⟩

theorem apply_inds (s : WState K) (o : WOp K) (k : String) (ho : o.sets k = false) :
    (s.apply o).1.inds k = s.inds k := by
  cases o with
  | add e props weights matched => simp only [WState.apply]; split_ifs <;> rfl
  | append es => simp only [WState.apply]; rw [(appendAll_tags es s).1]
  | addWeights k v => simp only [WState.apply]; split_ifs <;> rfl
  | addProps k v => simp only [WState.apply]; split_ifs <;> rfl
  | removeProps ks => rfl
  | remove same => rfl
  | removeAll => rfl
  | addInds k' l =>
    simp only [WState.apply]
    split_ifs
    · simp only [WOp.sets, decide_eq_false_iff_not] at ho
      simp only [Function.update_of_ne (Ne.symm ho)]
    · rfl

/-- C56. An index set is stored exactly as given when all its indices are in range, and refused with
no effect otherwise. -/
theorem C56_indices_checked (s : WState K) (k : String) (l : List ℕ) :
    ((∀ i ∈ l, i < s.entries.length) → (s.apply (.addInds k l)).2 = false ∧
      (s.apply (.addInds k l)).1.inds k = some l ∧
      (s.apply (.addInds k l)).1.entries = s.entries ∧
      ∀ k', k' ≠ k → (s.apply (.addInds k l)).1.inds k' = s.inds k') ∧
    (¬ (∀ i ∈ l, i < s.entries.length) → s.apply (.addInds k l) = (s, true)) := by
  simp only [WState.apply]
  constructor
  · intro h
    rw [if_pos (by simpa [List.all_eq_true] using h)]
    exact ⟨rfl, by simp, rfl, fun k' hk => by simp [Function.update_of_ne hk]⟩
  · intro h
    rw [if_neg (by simpa [List.all_eq_true] using h)]

/-- C56. Through any sequence of operations that removes nothing, whether they raise or not, an index
set stays as it is and every index keeps pointing at the same structure.  What is missing:
removals (`C56_removal_shifts`, `C56_removal_breaks`). -/
theorem C56_stable_without_removal_partial (ops : List (WOp K)) (k : String)
    (hr : ∀ o ∈ ops, o.removes = false) (hk : ∀ o ∈ ops, o.sets k = false) (s : WState K) :
    (s.run ops).inds k = s.inds k ∧ ∀ i < s.entries.length,
      ((s.run ops).entries[i]?).map WEntry.tag = (s.entries[i]?).map WEntry.tag := by
  induction ops generalizing s with
  | nil => exact ⟨rfl, fun _ _ => rfl⟩
  | cons o os ih =>
    obtain ⟨h1, h2⟩ := ih (fun o ho => hr o (List.mem_cons_of_mem _ ho))
      (fun o ho => hk o (List.mem_cons_of_mem _ ho)) (s.apply o).1
    obtain ⟨t, ht⟩ := apply_tags s o (hr o (by simp))
    have hlen := congrArg List.length ht
    simp only [List.length_map, List.length_append] at hlen
    refine ⟨h1.trans (apply_inds s o k (hk o (by simp))), fun i hi => ?_⟩
    refine (h2 i (by omega)).trans ?_
    rw [← List.getElem?_map, ← List.getElem?_map, ht, List.getElem?_append_left (by simpa using hi)]

/-- C56. What removing a structure does: the first equal entry goes, indices before it point where
they did, the ones from it on at the next structure, and no index set changes. -/
theorem C56_removal_shifts (s : WState K) (same : WEntry K → Bool) :
    (s.apply (.remove same)).1.inds = s.inds ∧
    (∀ i < s.entries.findIdx same, (s.apply (.remove same)).1.entries[i]? = s.entries[i]?) ∧
    (∀ i, s.entries.findIdx same ≤ i → (s.apply (.remove same)).1.entries[i]? = s.entries[i + 1]?) := by
  refine ⟨rfl, fun i hi => ?_, fun i hi => ?_⟩
  · simp only [WState.apply]
    rw [List.getElem?_eraseIdx, if_pos hi]
  · simp only [WState.apply]
    rw [List.getElem?_eraseIdx, if_neg (by omega)]

/-- C56. With distinguishable structures, an index keeps pointing at its structure through a removal
exactly when it comes before the removed one. -/
theorem C56_removal_breaks (s : WState K) (hn : (s.entries.map WEntry.tag).Nodup)
    (same : WEntry K → Bool) (i : ℕ) (hi : i < s.entries.length) :
    ((s.apply (.remove same)).1.entries[i]?).map WEntry.tag = (s.entries[i]?).map WEntry.tag ↔
      i < s.entries.findIdx same := by
  obtain ⟨-, h2, h3⟩ := C56_removal_shifts s same
  constructor
  · intro h
    by_contra hlt
    rw [h3 i (by omega)] at h
    rw [← List.getElem?_map, ← List.getElem?_map, List.getElem?_eq_getElem (i := i) (by simpa using hi)] at h
    obtain ⟨h', e⟩ := List.getElem?_eq_some_iff.1 h
    have := (hn.getElem_inj_iff (hi := h') (hj := by simpa using hi)).1 e
    omega
  · intro h
    rw [h2 i h]

/-- C56, what the code does not do: after removing a structure an index set points at another
structure, or at none. -/
theorem C56_not_updated :
    ∃ (s : WState ℚ) (same : WEntry ℚ → Bool), s.inds "train" = some [1] ∧ s.inds "test" = some [2] ∧
      (s.entries[1]?).map WEntry.tag = some 11 ∧
      (s.apply (.remove same)).1.inds "train" = some [1] ∧
      ((s.apply (.remove same)).1.entries[1]?).map WEntry.tag = some 12 ∧
      (s.apply (.remove same)).1.inds "test" = some [2] ∧
      (s.apply (.remove same)).1.entries[2]? = none ∧
      (s.apply .removeAll).1.inds "train" = some [1] ∧ (s.apply .removeAll).1.entries = [] :=
  ⟨WState.new.run [.append [⟨10, 1, [], []⟩, ⟨11, 1, [], []⟩, ⟨12, 1, [], []⟩], .addInds "train" [1],
      .addInds "test" [2]], fun e => e.tag == 10,
    by decide +kernel, by decide +kernel, by decide +kernel, by decide +kernel, by decide +kernel,
    by decide +kernel, by decide +kernel, by decide +kernel, by decide +kernel⟩

example : (∀ o ∈ ([.append [⟨7, 2, [], []⟩], .addProps "energy" [3, 4], .addInds "b" [1],
      .removeProps ["energy"]] : List (WOp ℚ)), o.removes = false ∧ o.sets "a" = false) := by
  decide

/-! ## dictionaries -/

theorem lookup_isSome_iff {V : Type*} (d : SDict V) (k : String) :
    (d.lookup k).isSome = true ↔ k ∈ d.keysOf := by
  induction d with
  | nil => simp [SDict.keysOf]
  | cons p d ih =>
    obtain ⟨a, v⟩ := p
    rw [List.lookup_cons]
    unfold SDict.keysOf at ih ⊢
    rw [List.map_cons, List.mem_cons]
    by_cases h : k = a
    · subst h; simp
    · rw [show (k == a) = false by simpa using h]
      simp only [h, false_or]
      exact ih

theorem lookup_map_replace {V : Type*} (d : SDict V) (k k' : String) (v : V) :
    List.lookup k' (d.map fun p => if p.1 = k then (k, v) else p) =
      if k' = k then (if k ∈ d.keysOf then some v else none) else d.lookup k' := by
  induction d with
  | nil => simp [SDict.keysOf]
  | cons p d ih =>
    obtain ⟨a, w⟩ := p
    unfold SDict.keysOf at ih ⊢
    rw [List.map_cons, List.lookup_cons]
    by_cases ha : a = k
    · subst ha
      simp only [if_true]
      by_cases hk : k' = a
      · subst hk; simp
      · rw [show (k' == a) = false by simpa using hk]
        rw [List.lookup_cons, show (k' == a) = false by simpa using hk]
        simp only [ih, if_neg hk]
    · simp only [if_neg ha]
      by_cases hk : k' = a
      · subst hk
        rw [if_neg ha]; simp
      · rw [show (k' == a) = false by simpa using hk]
        simp only [ih]
        rw [List.lookup_cons, show (k' == a) = false by simpa using hk]
        have : (k ∈ (a, w).1 :: List.map Prod.fst d) ↔ k ∈ List.map Prod.fst d := by
          rw [List.mem_cons]
          exact ⟨fun h => h.resolve_left fun e => ha e.symm, Or.inr⟩
        rw [List.map_cons]
        simp only [this]

theorem lookup_append_one {V : Type*} (d : SDict V) (k k' : String) (v : V) :
    List.lookup k' (d ++ [(k, v)]) = (d.lookup k').or (if k' = k then some v else none) := by
  induction d with
  | nil =>
    rw [List.nil_append, List.lookup_cons]
    by_cases h : k' = k
    · subst h; simp
    · rw [show (k' == k) = false by simpa using h]; simp [h]
  | cons p d ih =>
    obtain ⟨a, w⟩ := p
    rw [List.cons_append, List.lookup_cons, List.lookup_cons]
    by_cases h : k' = a
    · subst h; simp
    · rw [show (k' == a) = false by simpa using h]; exact ih

theorem lookup_put {V : Type*} (d : SDict V) (k k' : String) (v : V) :
    (d.put k v).lookup k' = if k' = k then some v else d.lookup k' := by
  unfold SDict.put
  by_cases h : k ∈ d.keysOf
  · rw [if_pos h, lookup_map_replace, if_pos h]
  · rw [if_neg h, lookup_append_one]
    by_cases hk : k' = k
    · subst hk
      have : d.lookup k' = none := by
        rw [← Option.not_isSome_iff_eq_none, lookup_isSome_iff]; exact h
      rw [this]; simp
    · simp [hk]

theorem keysOf_put {V : Type*} (d : SDict V) (k k' : String) (v : V) :
    k' ∈ (d.put k v).keysOf ↔ k' = k ∨ k' ∈ d.keysOf := by
  rw [← lookup_isSome_iff, ← lookup_isSome_iff, lookup_put]
  by_cases h : k' = k <;> simp [h]

theorem lookup_filter_ne {V : Type*} (d : SDict V) (k k' : String) :
    List.lookup k' (d.filter fun p => decide (p.1 ≠ k)) = if k' = k then none else d.lookup k' := by
  induction d with
  | nil => simp
  | cons p d ih =>
    obtain ⟨a, w⟩ := p
    rw [List.filter_cons]
    by_cases ha : a = k
    · subst ha
      rw [if_neg (by simp), ih, List.lookup_cons]
      by_cases hk : k' = a
      · simp [hk]
      · rw [show (k' == a) = false by simpa using hk]
    · rw [if_pos (by simpa using ha), List.lookup_cons, List.lookup_cons, ih]
      by_cases hk : k' = a
      · subst hk; simp [ha]
      · rw [show (k' == a) = false by simpa using hk]

theorem keysOf_update {V : Type*} (other : SDict V) : ∀ (d : SDict V) (k : String),
    k ∈ (d.updateWith other).keysOf ↔ k ∈ d.keysOf ∨ k ∈ other.keysOf := by
  induction other with
  | nil => intro d k; simp [SDict.updateWith, SDict.keysOf]
  | cons p other ih =>
    intro d k
    show k ∈ (SDict.updateWith (d.put p.1 p.2) other).keysOf ↔ _
    rw [ih, keysOf_put]
    show _ ↔ k ∈ d.keysOf ∨ k ∈ (p :: other).map Prod.fst
    rw [List.map_cons, List.mem_cons]
    unfold SDict.keysOf
    tauto

/-! ## property vectors -/

/-- All structures have the same properties. -/
def UniformProps (s : WState K) : Prop :=
  ∀ e ∈ s.entries, ∀ e' ∈ s.entries, ∀ k, k ∈ e.props.keysOf ↔ k ∈ e'.props.keysOf

theorem mem_available {s : WState K} {k : String} :
    k ∈ s.available ↔ ∃ e ∈ s.entries, k ∈ e.props.keysOf := List.mem_flatMap

theorem UniformProps.mem_iff {s : WState K} (h : UniformProps s) {e : WEntry K} (he : e ∈ s.entries)
    (k : String) : k ∈ e.props.keysOf ↔ k ∈ s.available := by
  rw [mem_available]
  exact ⟨fun hk => ⟨e, he, hk⟩, fun ⟨e', he', hk⟩ => (h e he e' he' k).2 hk⟩

theorem sameKeys_iff (a b : List String) : sameKeys a b = true ↔ ∀ k, k ∈ a ↔ k ∈ b := by
  unfold sameKeys
  rw [decide_eq_true_eq]
  exact ⟨fun h k => ⟨h.1 k, h.2 k⟩, fun h => ⟨fun k hk => (h k).1 hk, fun k hk => (h k).2 hk⟩⟩

theorem UniformProps.append_one {s : WState K} (h : UniformProps s) (e : WEntry K)
    (he : s.entries = [] ∨ ∀ k, k ∈ e.props.keysOf ↔ k ∈ s.available) (ind : String → Option (List ℕ)) :
    UniformProps ⟨s.entries ++ [e], ind⟩ := by
  have key : ∀ x ∈ s.entries, ∀ k, k ∈ x.props.keysOf ↔ k ∈ e.props.keysOf := by
    intro x hx k
    rcases he with he | he
    · rw [he] at hx; cases hx
    · rw [he, h.mem_iff hx]
  intro x hx y hy k
  simp only [List.mem_append, List.mem_singleton] at hx hy
  rcases hx with hx | rfl <;> rcases hy with hy | rfl
  · exact h x hx y hy k
  · exact key x hx k
  · exact (key y hy k).symm
  · rfl

theorem appendAll_uniform (es : List (WEntry K)) : ∀ s : WState K, UniformProps s →
    UniformProps (s.appendAll es).1 := by
  induction es with
  | nil => intro s h; exact h
  | cons e es ih =>
    intro s h
    unfold WState.appendAll
    split_ifs with hc
    · apply ih
      apply h.append_one
      exact hc.imp id fun h => (sameKeys_iff _ _).1 h.1
    · exact h

/-- the entry with some of its properties -/
def WEntry.keep (e : WEntry K) (P : String → Bool) : WEntry K :=
  ⟨e.tag, e.size, e.props.filter fun p => P p.1, e.weights⟩

theorem mem_removeProp (k : String) (l : List (WEntry K))
    (hl : (∀ e ∈ l, k ∈ e.props.keysOf) ∨ ∀ e ∈ l, k ∉ e.props.keysOf) :
    removeProp k l = l.map fun e => e.keep fun x => decide (x ≠ k) := by
  induction l with
  | nil => rfl
  | cons e es ih =>
    unfold removeProp SDict.del?
    rcases hl with hl | hl
    · rw [if_pos (hl e (by simp)), List.map_cons,
        ih (Or.inl fun e he => hl e (List.mem_cons_of_mem _ he))]
      rfl
    · rw [if_neg (hl e (by simp))]
      have hid : ∀ e' ∈ e :: es, (e'.keep fun x => decide (x ≠ k)) = e' := by
        intro e' he'
        unfold WEntry.keep
        have : (e'.props.filter fun p => decide (p.1 ≠ k)) = e'.props := by
          rw [List.filter_eq_self]
          intro p hp
          have : p.1 ≠ k := fun e => hl e' he' (List.mem_map.2 ⟨p, hp, e⟩)
          simpa using this
        rw [this]
      rw [List.map_congr_left hid]
      simp

theorem keysOf_filter_ne {V : Type*} (d : SDict V) (k k' : String) :
    k' ∈ SDict.keysOf (d.filter fun p => decide (p.1 ≠ k)) ↔ k' ≠ k ∧ k' ∈ d.keysOf := by
  rw [← lookup_isSome_iff, ← lookup_isSome_iff, lookup_filter_ne]
  by_cases h : k' = k <;> simp [h]

theorem removeProp_uniform {s : WState K} (h : UniformProps s) (k : String) :
    removeProp k s.entries =
      s.entries.map fun e => e.keep fun x => decide (x ≠ k) := by
  apply mem_removeProp
  by_cases hk : k ∈ s.available
  · exact Or.inl fun e he => (h.mem_iff he k).2 hk
  · exact Or.inr fun e he hk' => hk ((h.mem_iff he k).1 hk')

theorem removeProps_fold (ks : List String) : ∀ s : WState K, UniformProps s →
    UniformProps ⟨ks.foldl (fun es k => removeProp k es) s.entries, s.inds⟩ ∧
    ks.foldl (fun es k => removeProp k es) s.entries =
      s.entries.map fun e => e.keep fun x => decide (x ∉ ks) := by
  induction ks with
  | nil =>
    intro s h
    refine ⟨h, ?_⟩
    simp [WEntry.keep]
  | cons k ks ih =>
    intro s h
    rw [List.foldl_cons, removeProp_uniform h]
    have hu : UniformProps (⟨s.entries.map fun e => e.keep fun x => decide (x ≠ k), s.inds⟩ : WState K) := by
      intro x hx y hy k'
      obtain ⟨x, hx', rfl⟩ := List.mem_map.1 hx
      obtain ⟨y, hy', rfl⟩ := List.mem_map.1 hy
      unfold WEntry.keep
      rw [keysOf_filter_ne, keysOf_filter_ne, h x hx' y hy']
    obtain ⟨h1, h2⟩ := ih _ hu
    refine ⟨h1, h2.trans ?_⟩
    rw [List.map_map]
    apply List.map_congr_left
    intro e _
    simp only [Function.comp_apply, WEntry.keep, List.filter_filter, List.mem_cons, not_or]
    congr 1
    apply List.filter_congr
    intro p _
    rw [← Bool.decide_and]
    exact decide_eq_decide.2 and_comm

/-- The uses for which properties stay uniform: entries are added with a dictionary of properties
(and none of their own) which is compared with the available ones, or there is nothing to compare. -/
def WOp.Careful (s : WState K) : WOp K → Prop
  | .add e props _ _ => e.props = [] ∧ ∃ p, props = some p ∧
      (s.available ≠ [] ∨ s.entries = [] ∨ p = [])
  | _ => True

theorem apply_uniform (s : WState K) (h : UniformProps s) (o : WOp K) (ho : o.Careful s) :
    UniformProps (s.apply o).1 := by
  cases o with
  | add e props weights matched =>
    obtain ⟨he, p, rfl, hp⟩ := ho
    simp only [WState.apply]
    split_ifs with h1 h2
    · exact h
    · exact h
    · apply h.append_one
      have hkeys : ∀ k, k ∈ (e.processed p (weights.getD [])).props.keysOf ↔ k ∈ p.keysOf := by
        intro k
        unfold WEntry.processed
        rw [keysOf_update, he]
        simp [SDict.keysOf]
      by_cases hemp : s.entries = []
      · exact Or.inl hemp
      · right
        intro k
        rw [Option.getD_some, hkeys]
        by_cases hav : s.available = []
        · rcases hp with hp | hp | hp
          · exact (hp hav).elim
          · exact (hemp hp).elim
          · rw [hp, hav]; simp [SDict.keysOf]
        · unfold WState.accepts at h1
          rw [if_neg (by tauto)] at h1
          simp only [Bool.not_eq_true, Bool.not_eq_false', Bool.and_eq_true] at h1
          exact (sameKeys_iff _ _).1 h1.1 k
  | append es => exact appendAll_uniform es s h
  | addWeights k v =>
    simp only [WState.apply]
    split_ifs with hl
    · exact h
    · have key : ∀ x ∈ List.zipWith (fun (e : WEntry K) x => { e with weights := e.weights.put k x })
          s.entries v, ∃ e ∈ s.entries, x.props = e.props := by
        intro x hx
        obtain ⟨i, hi, rfl⟩ := List.mem_iff_getElem.1 hx
        rw [List.getElem_zipWith]
        exact ⟨_, List.getElem_mem _, rfl⟩
      intro x hx y hy k'
      obtain ⟨x', hx', e1⟩ := key x hx
      obtain ⟨y', hy', e2⟩ := key y hy
      rw [e1, e2]; exact h x' hx' y' hy' k'
  | addProps k v =>
    simp only [WState.apply]
    split_ifs with hl
    · exact h
    · have key : ∀ x ∈ List.zipWith (fun (e : WEntry K) x => { e with props := e.props.put k x })
          s.entries v, ∃ e ∈ s.entries, ∀ k', k' ∈ x.props.keysOf ↔ k' = k ∨ k' ∈ e.props.keysOf := by
        intro x hx
        obtain ⟨i, hi, rfl⟩ := List.mem_iff_getElem.1 hx
        rw [List.getElem_zipWith]
        exact ⟨_, List.getElem_mem _, fun k' => keysOf_put _ _ _ _⟩
      intro x hx y hy k'
      obtain ⟨x', hx', e1⟩ := key x hx
      obtain ⟨y', hy', e2⟩ := key y hy
      rw [e1, e2, h x' hx' y' hy' k']
  | removeProps ks => exact (removeProps_fold ks s h).1
  | remove same =>
    intro x hx y hy k
    exact h x (List.mem_of_mem_eraseIdx hx) y (List.mem_of_mem_eraseIdx hy) k
  | removeAll => intro x hx; cases hx
  | addInds k l =>
    simp only [WState.apply]
    split_ifs <;> exact h

/-- C63. In every state reached by a sequence of operations in which entries are added with
properties to compare, all structures have the same properties.  What is missing:
`C63_missing_property_accepted`. -/
theorem C63_uniform_partial (ops : List (WOp K))
    (h : ∀ pre o post, ops = pre ++ o :: post → o.Careful ((WState.new : WState K).run pre)) :
    UniformProps ((WState.new : WState K).run ops) := by
  have key : ∀ (ops : List (WOp K)) (s : WState K), UniformProps s →
      (∀ pre o post, ops = pre ++ o :: post → o.Careful (s.run pre)) → UniformProps (s.run ops) := by
    intro ops
    induction ops with
    | nil => intro s hs _; exact hs
    | cons o os ih =>
      intro s hs hc
      apply ih (s.apply o).1 (apply_uniform s hs o (hc [] o os rfl))
      intro pre o' post e
      exact hc (o :: pre) o' post (by rw [e]; rfl)
  exact key ops _ (fun x hx => by cases hx) h

/-- C63. With uniform properties the vector of an available property has the value of every
structure, in order, divided by its size when normalised. -/
theorem C63_property_vector [Field K] (s : WState K) (h : UniformProps s) (k : String)
    (hk : k ∈ s.available) (normalize : Bool) :
    ∃ v, s.propertyVector k normalize = some v ∧ v.length = s.entries.length ∧
      ∀ (i : ℕ) (e : WEntry K), s.entries[i]? = some e → ∃ x, e.props.lookup k = some x ∧
        v[i]? = some (if normalize then x / (e.size : K) else x) := by
  unfold WState.propertyVector
  rw [if_pos hk]
  have hlook : ∀ e ∈ s.entries, ∃ x, e.props.lookup k = some x := by
    intro e he
    have := (h.mem_iff he k).2 hk
    rw [← lookup_isSome_iff, Option.isSome_iff_exists] at this
    exact this
  revert hlook
  generalize s.entries = l
  intro hlook
  clear hk h
  induction l with
  | nil => exact ⟨[], rfl, rfl, by simp⟩
  | cons e l ih =>
    obtain ⟨v, h1, h2, h3⟩ := ih fun e he => hlook e (List.mem_cons_of_mem _ he)
    obtain ⟨x, hx⟩ := hlook e (by simp)
    refine ⟨(if normalize then x / (e.size : K) else x) :: v, ?_, by simp [h2], ?_⟩
    · rw [List.mapM_cons, h1, hx]; rfl
    · intro i e' he'
      cases i with
      | zero =>
        simp only [List.getElem?_cons_zero, Option.some.injEq] at he'
        subst he'
        exact ⟨x, hx, by simp⟩
      | succ i =>
        rw [List.getElem?_cons_succ] at he' ⊢
        exact h3 i e' he'

/-- C63. `add_properties` stores one value per structure, or refuses a vector of another length;
the vector read back without normalisation is the one given. -/
theorem C63_add_properties [Field K] (s : WState K) (k : String) (v : List K) :
    (s.entries.length ≠ v.length → s.apply (.addProps k v) = (s, true)) ∧
    (s.entries.length = v.length → v ≠ [] →
      (s.apply (.addProps k v)).1.propertyVector k false = some v ∧
      ∀ k', k' ≠ k → ∀ i : ℕ, (((s.apply (.addProps k v)).1.entries[i]?).map fun e => e.props.lookup k') =
        (s.entries[i]?).map fun e => e.props.lookup k') := by
  constructor
  · intro h
    simp only [WState.apply, if_pos h]
  · intro h hne
    simp only [WState.apply, if_neg (not_not.2 h)]
    constructor
    · unfold WState.propertyVector
      rw [if_pos]
      · generalize s.entries = l at h
        dsimp only
        simp only [Bool.false_eq_true, if_false, Option.map_id']
        induction v generalizing l with
        | nil => simp
        | cons x v ih =>
          cases l with
          | nil => simp at h
          | cons e l =>
            rw [List.zipWith_cons_cons, List.mapM_cons]
            simp only [lookup_put, if_true]
            by_cases hv : v = []
            · subst hv
              rw [List.zipWith_nil_right]; rfl
            · rw [ih hv l (by simpa using h)]; rfl
      · rw [mem_available]
        obtain ⟨x, v', rfl⟩ := List.exists_cons_of_ne_nil hne
        cases he : s.entries with
        | nil => rw [he] at h; simp at h
        | cons e l =>
          simp only [List.zipWith_cons_cons]
          exact ⟨_, List.mem_cons_self, by rw [keysOf_put]; exact Or.inl rfl⟩
    · intro k' hk i
      simp only [List.getElem?_zipWith]
      by_cases hi : i < s.entries.length
      · rw [List.getElem?_eq_getElem hi, List.getElem?_eq_getElem (by omega)]
        simp [lookup_put, hk]
      · rw [List.getElem?_eq_none (by omega)]

/-- C63. `remove_properties` on uniform data removes the named properties of all structures and no
other. -/
theorem C63_remove_properties (s : WState K) (h : UniformProps s) (ks : List String) :
    let s' := (s.apply (.removeProps ks)).1
    (∀ k, k ∈ s'.available ↔ k ∈ s.available ∧ k ∉ ks) ∧
      s'.entries.map WEntry.tag = s.entries.map WEntry.tag ∧
      ∀ k, k ∉ ks → ∀ i : ℕ, ((s'.entries[i]?).map fun e => e.props.lookup k) =
        (s.entries[i]?).map fun e => e.props.lookup k := by
  intro s'
  have hs' : s'.entries = s.entries.map fun e => e.keep fun x => decide (x ∉ ks) := (removeProps_fold ks s h).2
  have hlook : ∀ (d : SDict K) k, List.lookup k (d.filter fun p => decide (p.1 ∉ ks)) =
      if k ∈ ks then none else d.lookup k := by
    intro d k
    induction d with
    | nil => simp
    | cons p d ih =>
      obtain ⟨a, w⟩ := p
      rw [List.filter_cons]
      by_cases ha : a ∈ ks
      · rw [if_neg (by simpa using ha), ih, List.lookup_cons]
        by_cases hk : k = a
        · subst hk; simp [ha]
        · rw [show (k == a) = false by simpa using hk]
      · rw [if_pos (by simpa using ha), List.lookup_cons, List.lookup_cons, ih]
        by_cases hk : k = a
        · subst hk; simp [ha]
        · rw [show (k == a) = false by simpa using hk]
  refine ⟨fun k => ?_, ?_, fun k hk i => ?_⟩
  · rw [mem_available, mem_available, hs']
    constructor
    · rintro ⟨x, hx, hk⟩
      obtain ⟨e, he, rfl⟩ := List.mem_map.1 hx
      rw [← lookup_isSome_iff] at hk
      simp only [WEntry.keep, hlook] at hk
      by_cases hks : k ∈ ks
      · rw [if_pos hks] at hk; cases hk
      · rw [if_neg hks, lookup_isSome_iff] at hk
        exact ⟨⟨e, he, hk⟩, hks⟩
    · rintro ⟨⟨e, he, hk⟩, hks⟩
      refine ⟨_, List.mem_map.2 ⟨e, he, rfl⟩, ?_⟩
      rw [← lookup_isSome_iff]
      simp only [WEntry.keep, hlook]
      rw [if_neg hks, lookup_isSome_iff]
      exact hk
  · rw [hs', List.map_map]; rfl
  · rw [hs', List.getElem?_map, Option.map_map]
    congr 1
    funext e
    simp only [Function.comp_apply, WEntry.keep, hlook, if_neg hk]

/-- C63, what the code does not do: an entry without properties is accepted among entries that have
them, and the property vector can no longer be read; likewise properties for the second entry when
the first has none. -/
theorem C63_missing_property_accepted :
    ∃ (s : WState ℚ) (o o' : WOp ℚ), UniformProps s ∧ (s.propertyVector "gap" true).isSome = true ∧
      (s.apply o).2 = false ∧ "gap" ∈ (s.apply o).1.available ∧
      (s.apply o).1.propertyVector "gap" true = none ∧
      ((WState.new.run [o, o']).propertyVector "gap" true) = none ∧
      "gap" ∈ (WState.new.run [o, o']).available :=
  ⟨WState.new.run [.add ⟨0, 1, [], []⟩ (some [("gap", 2)]) none true],
    .add ⟨1, 1, [], []⟩ none none true, .add ⟨2, 1, [], []⟩ (some [("gap", 1)]) none true,
    by
      apply C63_uniform_partial
      intro pre o post e
      cases pre with
      | nil =>
        simp only [List.nil_append, List.cons.injEq] at e
        rw [← e.1]
        exact ⟨rfl, _, rfl, Or.inr (Or.inl rfl)⟩
      | cons a pre => simp at e,
    by decide +kernel, by decide +kernel, by decide +kernel, by decide +kernel, by decide +kernel,
    by decide +kernel⟩

/-- C63. A vector of weights has the weight of each structure under the given key, in order; it is
not available exactly if a structure has none. -/
theorem C63_weight_vector (s : WState K) (k : String) (v : List K) :
    s.weightVector k = some v ↔ List.Forall₂ (fun e x => e.weights.lookup k = some x) s.entries v :=
  mapM_eq_some_forall₂ _ _ _

/-- Two structures with a weight each; the second has another one. -/
example : (WState.new.run [.add ⟨0, 1, [], []⟩ none (some [("hull", 1/2)]) true,
      .add ⟨1, 1, [], []⟩ none (some [("comp", 1/3), ("hull", 1/4)]) true] : WState ℚ).weightVector
        "hull" = some [1/2, 1/4] := by decide +kernel

/-- C63, what the code does not do: the weights of a new entry are not compared with the available
ones unless there are properties. -/
theorem C63_weights_unchecked :
    ∃ (ops : List (WOp ℚ)) (s : WState ℚ), s = WState.new.run ops ∧ s.entries.length = 2 ∧
      s.weightVector "hull" = none ∧ s.weightVector "comp" = none :=
  ⟨[.add ⟨0, 1, [], []⟩ none (some [("hull", 1/2)]) true,
    .add ⟨1, 1, [], []⟩ none (some [("comp", 1/3)]) true], _, rfl, by decide +kernel, by decide +kernel,
    by decide +kernel⟩

/-- Two structures of sizes 2 and 4. -/
example : (WState.new.run [.add ⟨0, 2, [], []⟩ (some [("gap", 3), ("e", 1)]) none true,
      .add ⟨1, 4, [], []⟩ (some [("e", 8), ("gap", 2)]) none true,
      .add ⟨2, 4, [], []⟩ (some [("e", 8)]) none true] : WState ℚ).propertyVector "e" true =
    some [1/2, 2] := by decide +kernel

end Smol
