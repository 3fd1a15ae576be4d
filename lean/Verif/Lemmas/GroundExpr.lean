import Verif.Spec.GroundTerms
import Mathlib.Data.List.Sort
import Mathlib.Algebra.BigOperators.Group.List.Basic
import Mathlib.Algebra.Order.BigOperators.Group.List
import Mathlib.Algebra.Order.Field.Basic
import Mathlib.Tactic.Linarith
import Mathlib.Tactic.Ring

namespace Smol
open Spec

variable {K : Type*} [Field K]

/-- value of a dict of products -/
def dictValue (d : List (List ℕ × K)) (v : ℕ → ℤ) : K :=
  (d.map fun p => p.2 * (((p.1.map v).prod : ℤ) : K)).sum

theorem prod_sortInds (inds : List ℕ) (v : ℕ → ℤ) :
    ((sortInds inds).map v).prod = (inds.map v).prod :=
  ((List.perm_insertionSort (· ≤ ·) inds).map v).prod_eq

theorem dictValue_addTerm (key : List ℕ) (c : K) (d : List (List ℕ × K)) (v : ℕ → ℤ) :
    dictValue (addGroundTerm key c d) v = dictValue d v + c * (((key.map v).prod : ℤ) : K) := by
  induction d with
  | nil => simp [addGroundTerm, dictValue]
  | cons p d ih =>
    unfold addGroundTerm
    split
    · rename_i h
      simp only [dictValue, List.map_cons, List.sum_cons, ← h]
      ring
    · have : ∀ q : List ℕ × K, ∀ e, dictValue (q :: e) v =
          q.2 * (((q.1.map v).prod : ℤ) : K) + dictValue e v := fun q e => by
        simp [dictValue]
      rw [this, this, ih]; ring

theorem dictValue_collect (terms : List (GroundTerm K)) (v : ℕ → ℤ) :
    dictValue (collectTerms terms) v = termsValue terms v := by
  have key : ∀ (terms : List (GroundTerm K)) (d : List (List ℕ × K)),
      dictValue (terms.foldl (fun d t => addGroundTerm (sortInds t.1) (t.2.1 * t.2.2) d) d) v =
        dictValue d v + termsValue terms v := by
    intro terms
    induction terms with
    | nil => intro d; simp [termsValue]
    | cons t terms ih =>
      intro d
      rw [List.foldl_cons, ih, dictValue_addTerm, prod_sortInds]
      simp only [termsValue, List.map_cons, List.sum_cons]
      ring
  have := key terms []
  rw [show dictValue ([] : List (List ℕ × K)) v = 0 from rfl, zero_add] at this
  exact this

theorem keys_addTerm (key : List ℕ) (c : K) (d : List (List ℕ × K)) :
    (addGroundTerm key c d).map Prod.fst =
      if key ∈ d.map Prod.fst then d.map Prod.fst else d.map Prod.fst ++ [key] := by
  induction d with
  | nil => simp [addGroundTerm]
  | cons p d ih =>
    unfold addGroundTerm
    by_cases h : p.1 = key
    · simp [h]
    · rw [if_neg h, List.map_cons, ih, List.map_cons]
      by_cases h2 : key ∈ d.map Prod.fst
      · rw [if_pos h2, if_pos (List.mem_cons_of_mem _ h2)]
      · rw [if_neg h2, if_neg]
        · rfl
        · rw [List.mem_cons]; rintro (rfl | h3)
          · exact h rfl
          · exact h2 h3

theorem collect_keys (terms : List (GroundTerm K)) :
    ((collectTerms terms).map Prod.fst).Nodup ∧ (collectTerms terms).length ≤ terms.length ∧
      ∀ k, k ∈ (collectTerms terms).map Prod.fst ↔ ∃ t ∈ terms, sortInds t.1 = k := by
  have key : ∀ (terms : List (GroundTerm K)) (d : List (List ℕ × K)), (d.map Prod.fst).Nodup →
      let r := terms.foldl (fun d t => addGroundTerm (sortInds t.1) (t.2.1 * t.2.2) d) d
      (r.map Prod.fst).Nodup ∧ r.length ≤ d.length + terms.length ∧
        ∀ k, k ∈ r.map Prod.fst ↔ k ∈ d.map Prod.fst ∨ ∃ t ∈ terms, sortInds t.1 = k := by
    intro terms
    induction terms with
    | nil => intro d hd; simp [hd]
    | cons t terms ih =>
      intro d hd
      have e := keys_addTerm (sortInds t.1) (t.2.1 * t.2.2) d
      have hd' : ((addGroundTerm (sortInds t.1) (t.2.1 * t.2.2) d).map Prod.fst).Nodup := by
        rw [e]
        split
        · exact hd
        · rename_i hn
          rw [List.nodup_append]
          refine ⟨hd, by simp, ?_⟩
          intro a ha b hb
          rw [List.mem_singleton] at hb
          rintro rfl
          exact hn (hb ▸ ha)
      have hl : (addGroundTerm (sortInds t.1) (t.2.1 * t.2.2) d).length ≤ d.length + 1 := by
        rw [← List.length_map (f := Prod.fst), e]
        split <;> simp
      obtain ⟨h1, h2, h3⟩ := ih _ hd'
      refine ⟨h1, ?_, ?_⟩
      · simp only [List.foldl_cons, List.length_cons] at h2 ⊢; omega
      · intro k
        simp only [List.foldl_cons]
        rw [h3 k, e]
        have : (k ∈ if sortInds t.1 ∈ d.map Prod.fst then d.map Prod.fst
            else d.map Prod.fst ++ [sortInds t.1]) ↔ k ∈ d.map Prod.fst ∨ sortInds t.1 = k := by
          split
          · rename_i hm
            constructor
            · exact Or.inl
            · rintro (h | rfl)
              · exact h
              · exact hm
          · rw [List.mem_append, List.mem_singleton, eq_comm (a := k)]
        rw [this]
        simp [or_assoc]
  obtain ⟨h1, h2, h3⟩ := key terms [] (by simp)
  refine ⟨h1, ?_, ?_⟩
  · rw [List.length_nil, zero_add] at h2; exact h2
  intro k
  have := h3 k
  simp only [List.map_nil, List.not_mem_nil, false_or] at this
  exact this

section order

variable [LinearOrder K]

theorem perm_simplified (terms : List (GroundTerm K)) (cutoff : K) :
    (simplifiedTerms terms cutoff).Perm
      ((collectTerms terms).filter fun p => decide (cutoff ≤ |p.2|)) :=
  List.perm_insertionSort _ _

omit [Field K] in
theorem sorted_simplified (l : List (List ℕ × K)) :
    (l.insertionSort termLe).Pairwise fun a b => a.1.length ≤ b.1.length := by
  have : Std.Total (termLe (K := K)) := ⟨fun a b => by
    unfold termLe
    rcases lt_trichotomy a.1.length b.1.length with h | h | h
    · exact Or.inl (Or.inl h)
    · rcases le_total a.2 b.2 with h2 | h2
      · exact Or.inl (Or.inr ⟨h, h2⟩)
      · exact Or.inr (Or.inr ⟨h.symm, h2⟩)
    · exact Or.inr (Or.inl h)⟩
  have : IsTrans (List ℕ × K) termLe := ⟨fun a b c h1 h2 => by
    unfold termLe at *
    rcases h1 with h1 | ⟨h1, h1'⟩ <;> rcases h2 with h2 | ⟨h2, h2'⟩
    · left; omega
    · left; omega
    · left; omega
    · right; exact ⟨h1.trans h2, h1'.trans h2'⟩⟩
  refine (List.pairwise_insertionSort termLe l).imp ?_
  intro a b h
  rcases h with h | h <;> omega

omit [Field K] [LinearOrder K] in
theorem groundSlices {l : List (List ℕ × K)} (h : l.Pairwise fun a b => a.1.length ≤ b.1.length) :
    l = (l.filter fun p => decide (p.1.length = 0)) ++ (l.filter fun p => decide (p.1.length = 1)) ++
      (l.filter fun p => decide (1 < p.1.length)) := by
  induction l with
  | nil => rfl
  | cons a l ih =>
    obtain ⟨h1, h2⟩ := List.pairwise_cons.1 h
    have ih := ih h2
    have e0 : a.1.length ≠ 0 → (l.filter fun p => decide (p.1.length = 0)) = [] := by
      intro ha
      rw [List.filter_eq_nil_iff]
      intro b hb; have := h1 b hb; simp; intro h; rw [h] at this; simp at this; exact ha (by simp [this])
    have e1 : 1 < a.1.length → (l.filter fun p => decide (p.1.length = 1)) = [] := by
      intro ha
      rw [List.filter_eq_nil_iff]
      intro b hb; have := h1 b hb; simp; omega
    have f0 : (a :: l).filter (fun p => decide (p.1.length = 0)) =
        if a.1.length = 0 then a :: l.filter (fun p => decide (p.1.length = 0))
        else l.filter (fun p => decide (p.1.length = 0)) := by
      rw [List.filter_cons]; exact if_congr (by simp) rfl rfl
    have f1 : (a :: l).filter (fun p => decide (p.1.length = 1)) =
        if a.1.length = 1 then a :: l.filter (fun p => decide (p.1.length = 1))
        else l.filter (fun p => decide (p.1.length = 1)) := by
      rw [List.filter_cons]; exact if_congr (by simp) rfl rfl
    have f2 : (a :: l).filter (fun p => decide (1 < p.1.length)) =
        if 1 < a.1.length then a :: l.filter (fun p => decide (1 < p.1.length))
        else l.filter (fun p => decide (1 < p.1.length)) := by
      rw [List.filter_cons]; exact if_congr (by simp) rfl rfl
    rw [f0, f1, f2]
    rcases Nat.lt_trichotomy a.1.length 1 with h | h | h
    · rw [if_pos (by omega), if_neg (by omega), if_neg (by omega), List.cons_append,
        List.cons_append, ← ih]
    · rw [e0 (by omega), List.nil_append] at ih
      rw [if_neg (by omega), if_pos (by omega), if_neg (by omega), e0 (by omega), List.nil_append,
        List.cons_append, ← ih]
    · rw [e0 (by omega), e1 h, List.nil_append, List.nil_append] at ih
      rw [if_neg (by omega), if_neg (by omega), if_pos (by omega), e0 (by omega), e1 h,
        List.nil_append, List.nil_append, ← ih]

/-- The parts of the objective. -/
theorem groundExpr_eq (terms : List (GroundTerm K)) (cutoff : K) :
    let st := simplifiedTerms terms cutoff
    (groundExpr terms cutoff = none ↔ ∀ p ∈ st, p.1 = []) ∧
    ∀ e, groundExpr terms cutoff = some e →
      (∀ v, e.const + dictValue e.points v + dictValue e.many v = dictValue st v) ∧
      (∀ p ∈ e.points, p.1.length = 1) ∧ (∀ p ∈ e.many, 1 < p.1.length) := by
  intro st
  have hs : st.Pairwise fun a b => a.1.length ≤ b.1.length := sorted_simplified _
  have hsl := groundSlices hs
  set A := st.filter fun p => decide (p.1.length = 0) with hA
  set B := st.filter fun p => decide (p.1.length = 1) with hB
  set C := st.filter fun p => decide (1 < p.1.length) with hC
  have hdef : groundExpr terms cutoff = if B.length = 0 ∧ C.length = 0 then none
      else some ⟨if A.length = 1 then (st.getD 0 ([], 0)).2 else 0,
        (st.drop A.length).take B.length, (st.drop (A.length + B.length)).take C.length⟩ := rfl
  constructor
  · rw [hdef]
    split
    · rename_i h
      simp only [true_iff]
      have hB0 : B = [] := List.length_eq_zero_iff.1 h.1
      have hC0 : C = [] := List.length_eq_zero_iff.1 h.2
      intro p hp
      rw [hsl, hB0, hC0, List.append_nil, List.append_nil, hA] at hp
      have := (List.mem_filter.1 hp).2
      simpa using this
    · rename_i h
      simp only [reduceCtorEq, false_iff]
      intro hall
      apply h
      constructor
      · rw [List.length_eq_zero_iff, hB, List.filter_eq_nil_iff]
        intro p hp; rw [hall p hp]; simp
      · rw [List.length_eq_zero_iff, hC, List.filter_eq_nil_iff]
        intro p hp; rw [hall p hp]; simp
  · intro e he
    rw [hdef] at he
    split at he
    · cases he
    rw [Option.some.injEq] at he
    have hp : (st.drop A.length).take B.length = B := by
      conv_lhs => rw [hsl]
      rw [List.append_assoc, List.drop_left, List.take_left]
    have hm : (st.drop (A.length + B.length)).take C.length = C := by
      conv_lhs => rw [hsl]
      rw [← List.length_append, List.drop_left, List.take_length]
    have hA1 : A.length ≤ 1 := by
      have hn : (A.map Prod.fst).Nodup := by
        have h1 : (st.map Prod.fst).Nodup :=
          ((perm_simplified terms cutoff).map Prod.fst).nodup_iff.2
            ((List.filter_sublist.map Prod.fst).nodup (collect_keys terms).1)
        exact (List.filter_sublist.map Prod.fst).nodup h1
      have hnil : ∀ p ∈ A, p.1 = [] := by
        intro p hp; have := (List.mem_filter.1 hp).2; simpa using this
      match hAA : A, hn, hnil with
      | [], _, _ => simp
      | [a], _, _ => simp
      | a :: b :: l, hn, hnil =>
        have h1 := hnil a (by simp)
        have h2 := hnil b (by simp)
        simp [h1, h2] at hn
    have hc : ∀ v, (if A.length = 1 then (st.getD 0 ([], 0)).2 else 0) = dictValue A v := by
      intro v
      match hAA : A, hA1 with
      | [], _ => simp [dictValue]
      | [a], _ =>
        have ha : a.1 = [] := by
          have : a ∈ A := by rw [hAA]; simp
          have := (List.mem_filter.1 this).2; simpa using this
        rw [hsl]
        simp [dictValue, ha]
      | a :: b :: l, h => simp at h
    subst he
    simp only [hp, hm]
    refine ⟨?_, ?_, ?_⟩
    · intro v
      have e : dictValue st v = dictValue A v + dictValue B v + dictValue C v := by
        conv_lhs => rw [hsl]
        simp only [dictValue, List.map_append, List.sum_append]
      rw [hc v, e]
    · intro p hp
      have := (List.mem_filter.1 hp).2; simpa using this
    · intro p hp
      have := (List.mem_filter.1 hp).2; simpa using this

end order

/-- A binary value squeezed by the constraints is the product. -/
theorem aux_eq_prod {v : ℕ → ℤ} (hv : Binary v) (inds : List ℕ) (x : ℤ) (hx : x = 0 ∨ x = 1) :
    ((∀ i ∈ inds, x ≤ v i) ∧ (inds.map v).sum + 1 - (inds.length : ℤ) ≤ x) ↔
      x = (inds.map v).prod := by
  have hall : (∀ i ∈ inds, v i = 1) → (inds.map v).prod = 1 ∧ (inds.map v).sum = inds.length := by
    intro h
    have : inds.map v = List.replicate inds.length 1 := by
      rw [List.eq_replicate_iff]
      refine ⟨by simp, ?_⟩
      intro b hb
      obtain ⟨i, hi, rfl⟩ := List.mem_map.1 hb
      exact h i hi
    rw [this]; simp
  have hle : (inds.map v).sum ≤ inds.length := by
    clear hall
    induction inds with
    | nil => simp
    | cons a l ih =>
      simp only [List.map_cons, List.sum_cons, List.length_cons]
      rcases hv a with h | h <;> push_cast <;> omega
  have hlt : (∃ i ∈ inds, v i = 0) → (inds.map v).prod = 0 ∧ (inds.map v).sum < inds.length := by
    rintro ⟨i, hi, h0⟩
    refine ⟨List.prod_eq_zero (List.mem_map.2 ⟨i, hi, h0⟩), ?_⟩
    clear hall hle
    induction inds with
    | nil => simp at hi
    | cons a l ih =>
      have hle : (l.map v).sum ≤ l.length := by
        clear ih hi
        induction l with
        | nil => simp
        | cons a l ih =>
          simp only [List.map_cons, List.sum_cons, List.length_cons]
          rcases hv a with h | h <;> push_cast <;> omega
      simp only [List.map_cons, List.sum_cons, List.length_cons]
      rcases List.mem_cons.1 hi with rfl | hi
      · push_cast; omega
      · have := ih hi
        rcases hv a with h | h <;> push_cast <;> omega
  by_cases h : ∀ i ∈ inds, v i = 1
  · obtain ⟨h1, h2⟩ := hall h
    rw [h1, h2]
    constructor
    · rintro ⟨-, h3⟩
      rcases hx with rfl | rfl <;> omega
    · rintro rfl
      exact ⟨fun i hi => by rw [h i hi], by omega⟩
  · push Not at h
    obtain ⟨i, hi, h1⟩ := h
    have h0 : v i = 0 := (hv i).resolve_right h1
    obtain ⟨h2, h3⟩ := hlt ⟨i, hi, h0⟩
    rw [h2]
    constructor
    · rintro ⟨h4, -⟩
      have := h4 i hi
      rcases hx with rfl | rfl <;> omega
    · rintro rfl
      exact ⟨fun j _ => by rcases hv j with h | h <;> omega, by omega⟩

end Smol
