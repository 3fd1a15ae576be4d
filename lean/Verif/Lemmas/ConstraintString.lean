import Verif.Model.ConstraintString
import Verif.Spec.ConstraintString
import Mathlib.Algebra.BigOperators.Ring.Finset
import Mathlib.Tactic.LinearCombination

namespace Smol
open Spec

/-! ### Literals of a written expression -/

def signLit (b : Bool) : Lit := if b then .plus else .minus

def Spec.Term.lits (t : Term) : List Lit :=
  t.signs.map signLit ++ ((t.coef.map Lit.num).toList ++ [.sp t.species t.sub])

def interceptLits : Option (List Bool × ℚ) → List Lit
  | none => []
  | some (signs, q) => signs.map signLit ++ [.num q]

def Spec.Side.lits (s : Side) : List Lit := s.terms.flatMap Term.lits ++ interceptLits s.intercept

def Spec.Term.packed (t : Term) : PackedTerm := (t.coefficient, t.species, t.sub)

/-- Empty, or starting with a literal that is not a symbol. -/
def NoSym : List Lit → Prop
  | .plus :: _ => False
  | .minus :: _ => False
  | _ => True

/-- Empty, or starting with a species. -/
def SpFirst : List Lit → Prop
  | [] => True
  | .sp _ _ :: _ => True
  | _ => False

theorem SpFirst.noSym {l : List Lit} (h : SpFirst l) : NoSym l := by
  unfold SpFirst at h
  split at h
  · trivial
  · trivial
  · exact h.elim

theorem symsBack_noSym {l : List Lit} (h : NoSym l) : symsBack l = (1, 0) := by
  unfold NoSym at h
  split at h
  · exact h.elim
  · exact h.elim
  · rename_i h1 h2
    unfold symsBack
    split
    · exact (h1 _ rfl).elim
    · exact (h2 _ rfl).elim
    · rfl

theorem signOf_reverse (l : List Bool) : signOf l.reverse = signOf l := by
  unfold signOf
  rw [List.map_reverse, List.prod_reverse]

theorem symsBack_signs (l : List Bool) {r : List Lit} (h : NoSym r) :
    symsBack (l.map signLit ++ r) = (signOf l, l.length) := by
  induction l with
  | nil => simpa [signOf] using symsBack_noSym h
  | cons b l ih =>
    cases b
    · simp only [List.map_cons, List.cons_append, signLit, Bool.false_eq_true, if_false, symsBack, ih]
      simp [signOf]
    · simp only [List.map_cons, List.cons_append, signLit, if_true, symsBack, ih]
      simp [signOf]

theorem symsBack_signs_reverse (l : List Bool) {r : List Lit} (h : NoSym r) :
    symsBack ((l.map signLit).reverse ++ r) = (signOf l, l.length) := by
  rw [← List.map_reverse, symsBack_signs _ h, signOf_reverse, List.length_reverse]

theorem packGo_skip (l : List Lit) (hl : ∀ x ∈ l, ∀ s k, x ≠ .sp s k) (pre rest : List Lit) :
    packGo pre (l ++ rest) = packGo (l.reverse ++ pre) rest := by
  induction l generalizing pre with
  | nil => rfl
  | cons x l ih =>
    have hx := hl x (List.mem_cons_self ..)
    have := ih (fun y hy => hl y (List.mem_cons_of_mem _ hy)) (x :: pre)
    cases x with
    | sp s k => exact absurd rfl (hx s k)
    | plus => simpa [packGo] using this
    | minus => simpa [packGo] using this
    | num q => simpa [packGo] using this

theorem signLit_ne_sp (b : Bool) (s : ℕ) (k : Option ℕ) : signLit b ≠ .sp s k := by
  cases b <;> simp [signLit]

theorem signLit_ne_num (b : Bool) (q : ℚ) : signLit b ≠ .num q := by
  cases b <;> simp [signLit]

theorem numsBack_signs (l : List Bool) {r : List Lit} (h : SpFirst r) :
    numsBack ((l.map signLit).reverse ++ r) = [] := by
  rw [← List.map_reverse]
  cases l.reverse with
  | nil =>
    unfold SpFirst at h
    split at h
    · rfl
    · rfl
    · exact h.elim
  | cons b l => cases b <;> rfl

theorem packGo_terms (ts : List Term) (pre : List Lit) (h : SpFirst pre) :
    packGo pre (ts.flatMap Term.lits) = some (ts.map Term.packed) := by
  induction ts generalizing pre with
  | nil => rfl
  | cons t ts ih =>
    rw [List.flatMap_cons, Term.lits, List.append_assoc]
    rw [packGo_skip _ (by
      intro x hx s k
      obtain ⟨b, -, rfl⟩ := List.mem_map.1 hx
      exact signLit_ne_sp b s k)]
    have hsp : ∀ pre', SpFirst (.sp t.species t.sub :: pre') := fun _ => trivial
    cases hc : t.coef with
    | none =>
      simp only [Option.map_none, Option.toList_none, List.nil_append, List.cons_append, packGo,
        numsBack_signs t.signs h, ih _ (hsp _), Option.map_some, List.map_cons]
      rw [symsBack_signs_reverse _ h.noSym]
      simp [Term.packed, Term.coefficient, hc]
    | some q =>
      simp only [Option.map_some, Option.toList_some, List.cons_append, List.nil_append, packGo,
        numsBack, numsBack_signs t.signs h, ih _ (hsp _), List.map_cons, List.drop_one, List.tail_cons]
      rw [symsBack_signs_reverse _ h.noSym]
      simp [Term.packed, Term.coefficient, hc]

theorem terms_reverse_spFirst (ts : List Term) : SpFirst (ts.flatMap Term.lits).reverse := by
  induction ts using List.reverseRecOn with
  | nil => trivial
  | append_singleton ts t _ =>
    rw [List.flatMap_append, List.reverse_append]
    simp only [List.flatMap_cons, List.flatMap_nil, List.append_nil, Term.lits, List.reverse_append,
      List.reverse_cons, List.reverse_nil, List.nil_append, List.cons_append]
    trivial

theorem handleLits_side (s : Side) (h : s.terms ≠ [] ∨ s.intercept ≠ none) :
    handleLits s.lits = some (s.terms.map Term.packed, s.constant) := by
  unfold handleLits
  cases hi : s.intercept with
  | none =>
    have ht : s.terms ≠ [] := h.resolve_right (by simp [hi])
    have e : takeIntercept s.lits = some (0, s.lits) := by
      have hsp := terms_reverse_spFirst s.terms
      have hl : s.lits = s.terms.flatMap Term.lits := by simp [Side.lits, hi, interceptLits]
      have hne : s.lits ≠ [] := by
        rw [hl]
        obtain ⟨t, ts, hts⟩ := List.exists_cons_of_ne_nil ht
        rw [hts, List.flatMap_cons, Term.lits]
        simp
      rw [← hl] at hsp
      unfold takeIntercept
      cases hr : s.lits.reverse with
      | nil => exact absurd (by simpa using hr) hne
      | cons x r =>
        rw [hr] at hsp
        cases x with
        | sp a b =>
          have hb : s.lits = (.sp a b :: r : List Lit).reverse := by rw [← hr, List.reverse_reverse]
          simp only
          rw [← hb]
        | plus => exact hsp.elim
        | minus => exact hsp.elim
        | num q => exact hsp.elim
    rw [e, Option.bind_some]
    simp only [Side.lits, hi, interceptLits, List.append_nil]
    rw [packGo_terms s.terms [] trivial]
    simp [Side.constant, hi]
  | some p =>
    obtain ⟨signs, q⟩ := p
    have e : takeIntercept s.lits = some (signOf signs * q, s.terms.flatMap Term.lits) := by
      unfold takeIntercept
      simp only [Side.lits, hi, interceptLits, List.reverse_append, List.reverse_cons, List.reverse_nil,
        List.nil_append, List.cons_append]
      rw [symsBack_signs_reverse _ (terms_reverse_spFirst s.terms).noSym]
      have hl : signs.length = ((signs.map signLit).reverse).length := by simp
      simp only
      rw [hl, List.drop_left, List.reverse_reverse]
    rw [e, Option.bind_some]
    simp only
    rw [packGo_terms s.terms [] trivial]
    simp [Side.constant, hi]

/-! ### Coefficient vectors -/

/-- The left-hand side of a stored constraint at a composition. -/
def dotv (dims : ℕ) (v n : ℕ → ℚ) : ℚ := ∑ d ∈ Finset.range dims, v d * n d

theorem dotv_bump {dims d : ℕ} (h : d < dims) (v n : ℕ → ℚ) (x : ℚ) :
    dotv dims (bump v d x) n = dotv dims v n + x * n d := by
  unfold dotv
  rw [← Finset.add_sum_erase _ _ (Finset.mem_range.2 h),
    ← Finset.add_sum_erase (a := d) _ (fun d => v d * n d) (Finset.mem_range.2 h)]
  have : ∑ k ∈ (Finset.range dims).erase d, bump v d x k * n k =
      ∑ k ∈ (Finset.range dims).erase d, v k * n k := by
    refine Finset.sum_congr rfl fun k hk => ?_
    rw [bump, Function.update_of_ne (Finset.ne_of_mem_erase hk)]
  rw [this, bump, Function.update_self]
  ring

theorem dimIdsFrom_get (bits : List (List ℕ)) (st k : ℕ) (species : List ℕ)
    (h : bits[k]? = some species) :
    (dimIdsFrom st bits)[k]? =
      some (List.range' (st + (bits.take k).flatten.length) species.length) := by
  induction bits generalizing st k with
  | nil => simp at h
  | cons sp bits ih =>
    cases k with
    | zero =>
      simp only [List.getElem?_cons_zero, Option.some.injEq] at h
      subst h
      simp [dimIdsFrom]
    | succ k =>
      rw [List.getElem?_cons_succ] at h
      rw [dimIdsFrom, List.getElem?_cons_succ, ih _ k h]
      simp [add_assoc]

theorem range'_getD (st len i : ℕ) (h : i < len) : (List.range' st len).getD i 0 = st + i := by
  simp [List.getD_eq_getElem?_getD, List.getElem?_range' h]

theorem take_flatten_lt (bits : List (List ℕ)) (k : ℕ) (species : List ℕ) (h : bits[k]? = some species)
    {i : ℕ} (hi : i < species.length) : (bits.take k).flatten.length + i < bits.flatten.length := by
  induction bits generalizing k with
  | nil => simp at h
  | cons sp bits ih =>
    cases k with
    | zero =>
      simp only [List.getElem?_cons_zero, Option.some.injEq] at h
      subst h
      simp only [List.take_zero, List.flatten_nil, List.length_nil, List.flatten_cons, List.length_append]
      omega
    | succ k =>
      rw [List.getElem?_cons_succ] at h
      have := ih k h
      simp only [List.take_succ_cons, List.flatten_cons, List.length_append]
      omega

theorem fold_all (n : ℕ → ℚ) (s : ℕ) (x : ℚ) (dims : ℕ) (bits : List (List ℕ)) (st : ℕ)
    (hst : st + bits.flatten.length ≤ dims) (v : ℕ → ℚ) :
    dotv dims ((bits.zip (dimIdsFrom st bits)).foldl (fun v p =>
        if s ∈ p.1 then bump v (p.2.getD (p.1.idxOf s) 0) x else v) v) n =
      dotv dims v n + x * countFrom n s st bits := by
  induction bits generalizing st v with
  | nil => simp [dimIdsFrom, countFrom]
  | cons sp bits ih =>
    rw [List.flatten_cons, List.length_append] at hst
    rw [dimIdsFrom, List.zip_cons_cons, List.foldl_cons, ih _ (by omega)]
    simp only [countFrom]
    by_cases hs : s ∈ sp
    · have hi := List.idxOf_lt_length_of_mem hs
      rw [if_pos hs, if_pos hs, range'_getD _ _ _ hi, dotv_bump (by omega)]
      ring
    · rw [if_neg hs, if_neg hs]
      ring

theorem addTerm_spec (bits : List (List ℕ)) (sgn : ℚ) (v : ℕ → ℚ) (t : PackedTerm) :
    (Present bits t.2.1 t.2.2 → ∃ v', addTerm bits sgn v t = some v' ∧
      ∀ n, dotv bits.flatten.length v' n = dotv bits.flatten.length v n +
        sgn * (t.1 * countOf bits n t.2.1 t.2.2)) ∧
    (¬ Present bits t.2.1 t.2.2 → addTerm bits sgn v t = none) := by
  obtain ⟨c, s, sub⟩ := t
  cases sub with
  | none =>
    have hmem : s ∈ bits.flatten ↔ Present bits s none := by
      simp only [List.mem_flatten, Present]
    simp only [addTerm]
    refine ⟨fun h => ⟨_, if_pos (hmem.2 h), fun n => ?_⟩, fun h => if_neg (fun h' => h (hmem.1 h'))⟩
    rw [dimIds, fold_all n s _ bits.flatten.length bits 0 (by omega)]
    simp only [countOf]
    ring
  | some k =>
    simp only [addTerm, Present]
    cases hk : bits[k]? with
    | none => exact ⟨fun ⟨sp, h, _⟩ => absurd h (by simp), fun _ => rfl⟩
    | some sp =>
      have hd : (dimIds bits)[k]? = some _ := dimIdsFrom_get bits 0 k sp hk
      rw [hd]
      simp only
      refine ⟨?_, fun h => if_neg fun h' => h ⟨sp, rfl, h'⟩⟩
      rintro ⟨sp', h1, h2⟩
      simp only [Option.some.injEq] at h1
      subst h1
      have hi := List.idxOf_lt_length_of_mem h2
      refine ⟨_, if_pos h2, fun n => ?_⟩
      rw [range'_getD _ _ _ hi, dotv_bump (by
        have := take_flatten_lt bits k sp hk hi
        omega)]
      simp only [countOf, zero_add, List.getD_eq_getElem?_getD, hk, Option.getD_some]
      ring

theorem addTerms_spec (bits : List (List ℕ)) (sgn : ℚ) (ts : List PackedTerm) (v : ℕ → ℚ) :
    ((∀ t ∈ ts, Present bits t.2.1 t.2.2) → ∃ v', addTerms bits sgn v ts = some v' ∧
      ∀ n, dotv bits.flatten.length v' n = dotv bits.flatten.length v n +
        sgn * (ts.map fun t => t.1 * countOf bits n t.2.1 t.2.2).sum) ∧
    (¬ (∀ t ∈ ts, Present bits t.2.1 t.2.2) → addTerms bits sgn v ts = none) := by
  induction ts generalizing v with
  | nil => exact ⟨fun _ => ⟨v, rfl, fun n => by simp⟩, fun h => absurd (by simp) h⟩
  | cons t ts ih =>
    obtain ⟨a1, a2⟩ := addTerm_spec bits sgn v t
    constructor
    · intro h
      obtain ⟨v1, e1, f1⟩ := a1 (h t (List.mem_cons_self ..))
      obtain ⟨v2, e2, f2⟩ := (ih v1).1 fun u hu => h u (List.mem_cons_of_mem _ hu)
      refine ⟨v2, ?_, fun n => ?_⟩
      · unfold addTerms at e2 ⊢
        rw [List.foldlM_cons, e1]
        exact e2
      · rw [f2, f1, List.map_cons, List.sum_cons]
        ring
    · intro h
      unfold addTerms
      rw [List.foldlM_cons]
      by_cases ht : Present bits t.2.1 t.2.2
      · obtain ⟨v1, e1, -⟩ := a1 ht
        rw [e1]
        refine (ih v1).2 fun h' => h fun u hu => ?_
        rcases List.mem_cons.1 hu with rfl | hu
        · exact ht
        · exact h' u hu
      · rw [a2 ht]
        rfl

/-! ### Words -/

theorem splitWsGo_word (w : List Char) (hw : ∀ c ∈ w, isWs c = false) (cur rest : List Char) :
    splitWsGo cur (w ++ rest) = splitWsGo (w.reverse ++ cur) rest := by
  induction w generalizing cur with
  | nil => rfl
  | cons c w ih =>
    have hc := hw c (List.mem_cons_self ..)
    rw [List.cons_append, splitWsGo, hc]
    simp only [Bool.false_eq_true, if_false]
    rw [ih (fun d hd => hw d (List.mem_cons_of_mem _ hd))]
    simp

/-! ### The relation symbol -/

/-- The ways to write the relations. -/
def relString : Rel → List (List Char)
  | .eq => [['='], ['=', '=']]
  | .leq => [['<', '=']]
  | .geq => [['>', '=']]

theorem strip_id {c d : Char} {s : List Char} (hc : isWs c = false) (hd : isWs d = false) :
    strip (c :: (s ++ [d])) = c :: (s ++ [d]) := by
  unfold strip
  rw [List.dropWhile_cons_of_neg (by simp [hc])]
  have : (c :: (s ++ [d])).reverse = d :: (s.reverse ++ [c]) := by simp
  rw [this, List.dropWhile_cons_of_neg (by simp [hd]), ← this, List.reverse_reverse]

/-! ### Numbers out of place -/

theorem packGo_two_numbers (p q : ℚ) (s : ℕ) (k : Option ℕ) (b : List Lit) :
    ∀ (a pre : List Lit), packGo pre (a ++ .num p :: .num q :: .sp s k :: b) = none := by
  intro a
  induction a with
  | nil => intro pre; simp [packGo, numsBack]
  | cons x a ih =>
    intro pre
    cases x with
    | sp t j =>
      simp only [List.cons_append, packGo]
      split <;> simp [ih]
    | _ => simp only [List.cons_append, packGo]; exact ih _

theorem symsBack_drop_sp (r : List Lit) (s : ℕ) (k : Option ℕ) (t : List Lit) :
    ∃ r', (r ++ .sp s k :: t).drop (symsBack (r ++ .sp s k :: t)).2 = r' ++ .sp s k :: t := by
  induction r with
  | nil => exact ⟨[], by simp [symsBack]⟩
  | cons x r ih =>
    obtain ⟨r', h⟩ := ih
    cases x with
    | plus => exact ⟨r', by simpa [symsBack] using h⟩
    | minus => exact ⟨r', by simpa [symsBack] using h⟩
    | num q => exact ⟨.num q :: r, by simp [symsBack]⟩
    | sp q j => exact ⟨.sp q j :: r, by simp [symsBack]⟩

theorem takeIntercept_sp (a b : List Lit) (s : ℕ) (k : Option ℕ) :
    ∃ x b', takeIntercept (a ++ .sp s k :: b) = some (x, a ++ .sp s k :: b') := by
  unfold takeIntercept
  rw [List.reverse_append, List.reverse_cons, List.append_assoc]
  rcases hb : b.reverse with _ | ⟨y, r⟩
  · exact ⟨0, [], by simp⟩
  · cases y with
    | num q =>
      obtain ⟨r', h⟩ := symsBack_drop_sp r s k a.reverse
      refine ⟨(symsBack (r ++ .sp s k :: a.reverse)).1 * q, r'.reverse, ?_⟩
      simp only [List.cons_append, List.nil_append, Option.some.injEq, Prod.mk.injEq, h]
      exact ⟨trivial, by simp⟩
    | plus => exact ⟨1, r.reverse, by simp⟩
    | minus => exact ⟨-1, r.reverse, by simp⟩
    | sp t j => exact ⟨0, r.reverse ++ [.sp t j], by simp⟩

theorem numsBack_tail (pre : List Lit) (x : Lit) (q : ℚ) (hx : x = .plus ∨ x = .minus) :
    numsBack (pre ++ [x, .num q]) = numsBack (pre ++ [x]) := by
  induction pre with
  | nil => rcases hx with rfl | rfl <;> simp [numsBack]
  | cons y pre ih => cases y <;> simp_all [numsBack]

theorem symsBack_tail (pre : List Lit) (q : ℚ) : symsBack (pre ++ [.num q]) = symsBack pre := by
  induction pre with
  | nil => simp [symsBack]
  | cons y pre ih => cases y <;> simp_all [symsBack]

theorem packGo_tail (x : Lit) (q : ℚ) (hx : x = .plus ∨ x = .minus) (l : List Lit) :
    ∀ pre : List Lit, packGo (pre ++ [x, .num q]) l = packGo (pre ++ [x]) l := by
  induction l with
  | nil => intro pre; simp [packGo]
  | cons y l ih =>
    intro pre
    have ih' := ih (y :: pre)
    simp only [List.cons_append] at ih'
    have hs : symsBack (pre ++ [x, .num q]) = symsBack (pre ++ [x]) := by
      have := symsBack_tail (pre ++ [x]) q
      simpa using this
    cases y with
    | sp s k =>
      simp only [packGo, numsBack_tail pre x q hx, ih', hs]
      split
      · rfl
      · have hp : pre ≠ [] := by
          rintro rfl
          rename_i h
          rcases hx with rfl | rfl <;> simp [numsBack] at h
        obtain ⟨z, pre, rfl⟩ := List.exists_cons_of_ne_nil hp
        have := symsBack_tail (pre ++ [x]) q
        simp only [List.cons_append, List.drop_succ_cons, List.drop_zero]
        rw [show pre ++ [x, Lit.num q] = pre ++ [x] ++ [Lit.num q] by simp, this]
      · rfl
    | _ => simp only [packGo]; exact ih'

end Smol
