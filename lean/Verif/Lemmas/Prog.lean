import Verif.Model.Prog
import Mathlib.Data.Real.Basic
import Mathlib.Algebra.BigOperators.Fin
import Mathlib.Algebra.Order.BigOperators.Ring.Finset

namespace Smol
namespace Prog

variable {α β γ : Type} {R : Type*} [Field R]

@[simp] theorem expect_ret (a : α) (f : α → R) : (ret a).expect f = f a := rfl

theorem expect_bind (p : Prog α) (g : α → Prog β) (f : β → R) :
    (p.bind g).expect f = p.expect fun a => (g a).expect f := by
  induction p with
  | ret a => rfl
  | pick r n w k ih =>
    simp only [bind, expect]
    exact Finset.sum_congr rfl fun i _ => by rw [ih]

theorem expect_congr (p : Prog α) (f g : α → R) (h : ∀ a, p.Outcome a → f a = g a) :
    p.expect f = p.expect g := by
  induction p with
  | ret a => exact h a rfl
  | pick r n w k ih =>
    simp only [expect]
    refine Finset.sum_congr rfl fun i _ => ?_
    by_cases hw : w i = 0
    · simp [hw]
    · rw [ih i fun a ha => h a ⟨i, hw, ha⟩]

theorem expect_zero (p : Prog α) (f : α → R) (h : ∀ a, p.Outcome a → f a = 0) :
    p.expect f = 0 := by
  rw [expect_congr p f (fun _ => 0) h]
  induction p with
  | ret a => rfl
  | pick r n w k ih =>
    simp only [expect]
    refine Finset.sum_eq_zero fun i _ => ?_
    by_cases hw : w i = 0
    · simp [hw]
    · rw [ih i fun a ha => h a ⟨i, hw, ha⟩, mul_zero]

theorem expect_add (p : Prog α) (f g : α → R) :
    p.expect (fun a => f a + g a) = p.expect f + p.expect g := by
  induction p with
  | ret a => rfl
  | pick r n w k ih =>
    simp only [expect, ih, mul_add, Finset.sum_add_distrib]

theorem expect_mul_right (p : Prog α) (f : α → R) (c : R) :
    p.expect (fun a => f a * c) = p.expect f * c := by
  induction p with
  | ret a => rfl
  | pick r n w k ih =>
    simp only [expect, ih, Finset.sum_mul]
    exact Finset.sum_congr rfl fun i _ => by ring

theorem expect_mul_left (p : Prog α) (f : α → R) (c : R) :
    p.expect (fun a => c * f a) = c * p.expect f := by
  simp only [mul_comm c]; exact expect_mul_right p f c

theorem expect_sum {ι : Type*} (p : Prog α) (s : Finset ι) (f : ι → α → R) :
    p.expect (fun a => ∑ i ∈ s, f i a) = ∑ i ∈ s, p.expect (f i) := by
  induction p with
  | ret a => rfl
  | pick r n w k ih =>
    simp only [expect, ih, Finset.mul_sum]
    rw [Finset.sum_comm]

theorem outcome_bind (p : Prog α) (g : α → Prog β) (b : β) :
    (p.bind g).Outcome b ↔ ∃ a, p.Outcome a ∧ (g a).Outcome b := by
  induction p with
  | ret a => simp [bind, Outcome]
  | pick r n w k ih =>
    simp only [bind, Outcome, ih]
    constructor
    · rintro ⟨i, hw, a, h1, h2⟩; exact ⟨a, ⟨i, hw, h1⟩, h2⟩
    · rintro ⟨a, ⟨i, hw, h1⟩, h2⟩; exact ⟨i, hw, a, h1, h2⟩

theorem outcome_choose (g : Rng) (l : List α) (a : α) : (choose g l).Outcome a ↔ a ∈ l := by
  simp only [choose, Outcome, List.mem_iff_getElem]
  constructor
  · rintro ⟨i, _, rfl⟩; exact ⟨i.1, i.2, rfl⟩
  · rintro ⟨i, hi, rfl⟩
    refine ⟨⟨i, hi⟩, ?_, rfl⟩
    have : (l.length : ℚ) ≠ 0 := by
      have : 0 < l.length := by omega
      positivity
    positivity

theorem outcome_chooseW (g : Rng) (l : List α) (w : List ℚ) (a : α)
    (h : (chooseW g l w).Outcome a) : a ∈ l := by
  obtain ⟨i, _, rfl⟩ := h; exact List.getElem_mem _

theorem expect_choose (g : Rng) (l : List α) (f : α → R) :
    (choose g l).expect f = (l.map fun a => (1 / (l.length : R)) * f a).sum := by
  simp only [choose, expect]
  rw [← List.sum_ofFn]
  congr 1
  apply List.ext_getElem
  · simp
  · intro i h1 h2; simp

theorem expect_chooseW (g : Rng) (l : List α) (w : List ℚ) (f : α → R) :
    (chooseW g l w).expect f =
      ∑ i : Fin l.length, ((w.getD i 0 : ℚ) : R) * f l[i] := rfl


end Prog
end Smol

namespace Smol
namespace Prog

/-- the results, listed -/
def results {α : Type} : Prog α → List α
  | ret a => [a]
  | pick _ n w k => (List.finRange n).flatMap fun i => if w i ≠ 0 then (k i).results else []

theorem outcome_of_results {α : Type} {p : Prog α} {a : α} (h : a ∈ p.results) : p.Outcome a := by
  induction p with
  | ret b => simpa [results, Outcome] using h
  | pick g n w k ih =>
    rw [results, List.mem_flatMap] at h
    obtain ⟨i, _, h⟩ := h
    split_ifs at h with hw
    · exact ⟨i, hw, ih i h⟩
    · simp at h

theorem expect_cast {α : Type} (p : Prog α) (f : α → ℚ) :
    p.expect (fun a => ((f a : ℚ) : ℝ)) = ((p.expect f : ℚ) : ℝ) := by
  induction p with
  | ret a => rfl
  | pick g n w k ih =>
    simp only [expect, ih, Rat.cast_id]
    rw [show ((∑ i, (w i : ℚ) * (k i).expect f : ℚ) : ℝ) =
      ∑ i, (((w i : ℚ) * (k i).expect f : ℚ) : ℝ) from map_sum (Rat.castHom ℝ) _ _]
    simp only [Rat.cast_mul]

end Prog
end Smol
