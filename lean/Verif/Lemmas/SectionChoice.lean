import Verif.Spec.SectionChoice
import Mathlib.Tactic.Linarith
import Mathlib.Tactic.FieldSimp
import Mathlib.Tactic.Ring
import Mathlib.Algebra.Order.BigOperators.Group.List

/-! Lemmas for choices by weight. -/

namespace Smol
open Smol.Spec

variable {K : Type*} [Field K] [LinearOrder K] [IsStrictOrderedRing K]

theorem searchRight_iff (p : List K) (hp : ∀ x ∈ p, 0 ≤ x) (acc u : K) (h1 : acc ≤ u) (h2 : u < acc + p.sum)
    (i : ℕ) : searchRight (runSums acc p) u = i ↔
      i < p.length ∧ acc + (p.take i).sum ≤ u ∧ u < acc + (p.take (i + 1)).sum := by
  induction p generalizing acc i with
  | nil => simp at h2; exact absurd h2 (not_lt.2 h1)
  | cons x xs ih =>
    have hx : 0 ≤ x := hp x (by simp)
    have hxs : ∀ y ∈ xs, 0 ≤ y := fun y hy => hp y (by simp [hy])
    have hs : ∀ j, 0 ≤ (xs.take j).sum := fun j =>
      List.sum_nonneg fun y hy => hxs y (List.mem_of_mem_take hy)
    by_cases h : acc + x ≤ u
    · have ih' := ih hxs (acc + x) h (by rw [List.sum_cons, ← add_assoc] at h2; exact h2)
      have he : searchRight (runSums acc (x :: xs)) u = searchRight (runSums (acc + x) xs) u + 1 := by
        simp [searchRight, runSums, h]
      rw [he]
      cases i with
      | zero => simp [not_lt.2 h]
      | succ j =>
        rw [Nat.add_right_cancel_iff, ih' j]
        simp [add_assoc]
    · have he : searchRight (runSums acc (x :: xs)) u = 0 := by
        simp [searchRight, runSums, h]
      rw [he]
      cases i with
      | zero => simp [h1, not_le.1 h]
      | succ j =>
        have := hs j
        simp only [List.take_succ_cons, List.sum_cons]
        constructor
        · intro h0
          omega
        · rintro ⟨-, h3, -⟩
          exact absurd (by linarith : acc + x ≤ u) h

omit [LinearOrder K] [IsStrictOrderedRing K] in
theorem sum_map_div_weights (w : List K) (s : K) : (w.map (· / s)).sum = w.sum / s := by
  induction w with
  | nil => simp
  | cons x xs ih => simp [ih, add_div]

theorem npChoice_iff (w : List K) (hw : ∀ x ∈ w, 0 ≤ x) (hs : 0 < w.sum) (u : K) (h0 : 0 ≤ u) (h1 : u < 1)
    (i : ℕ) : npChoice (w.map (· / w.sum)) u = some i ↔ FallsTo w u i := by
  have hsum : (w.map (· / w.sum)).sum = 1 := by rw [sum_map_div_weights, div_self hs.ne']
  have hp : ∀ x ∈ w.map (· / w.sum), 0 ≤ x := by
    intro x hx
    obtain ⟨y, hy, rfl⟩ := List.mem_map.1 hx
    exact div_nonneg (hw y hy) hs.le
  have hne : w ≠ [] := by
    rintro rfl
    simp at hs
  unfold npChoice
  rw [if_neg, hsum]
  · have hid : (runSums 0 (w.map (· / w.sum))).map (· / (1 : K)) = runSums 0 (w.map (· / w.sum)) := by
      simp
    rw [hid, Option.some.injEq, searchRight_iff _ hp 0 u h0 (by rw [hsum]; linarith)]
    unfold FallsTo
    rw [← List.map_take, ← List.map_take, sum_map_div_weights, sum_map_div_weights, zero_add, zero_add, List.length_map,
      div_le_iff₀ hs, lt_div_iff₀ hs]
  · rintro (h | ⟨x, hx, hx'⟩ | h)
    · exact hne (List.map_eq_nil_iff.1 h)
    · exact absurd hx' (not_lt.2 (hp x hx))
    · exact h hsum

theorem allNegligible_iff (atol : K) (w : List K) :
    allNegligible atol w = true ↔ ∀ x ∈ w, |x| ≤ atol := by
  unfold allNegligible
  simp [List.all_eq_true, abs_le]

theorem sum_pos_of_not_negligible {atol : K} (ha : 0 ≤ atol) {w : List K} (hw : ∀ x ∈ w, 0 ≤ x) {y : K}
    (hy : y ∈ w) (h : atol < y) : 0 < w.sum :=
  lt_of_lt_of_le (lt_of_le_of_lt ha h) (List.single_le_sum hw y hy)

end Smol
