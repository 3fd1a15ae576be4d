import Verif.Model.IntLinAlg
import Mathlib.LinearAlgebra.Matrix.NonsingularInverse
import Mathlib.Algebra.BigOperators.Fin
import Mathlib.Data.Int.GCD
import Mathlib.Tactic.Ring
import Mathlib.Tactic.LinearCombination
import Mathlib.Tactic.Linarith

/-! Lemmas on integer matrices. -/

namespace Smol

theorem fmod_natAbs_lt (b : ℤ) {a : ℤ} (h : a ≠ 0) : (b.fmod a).natAbs < a.natAbs := by
  rcases lt_or_gt_of_ne h with h' | h'
  · have h1 := Int.fmod_nonneg_of_pos (-b) (show 0 < -a by omega)
    have h2 := Int.fmod_lt_of_pos (-b) (show 0 < -a by omega)
    rw [Int.neg_fmod_neg] at h1 h2
    omega
  · have h1 := Int.fmod_nonneg_of_pos b h'
    have h2 := Int.fmod_lt_of_pos b h'
    omega

theorem gcdexAux_mono (n k : ℕ) (a b : ℤ) (hn : a.natAbs ≤ n) :
    gcdexAux (n + k) a b = gcdexAux n a b := by
  induction n generalizing a b with
  | zero =>
    have ha : a = 0 := by omega
    subst ha
    cases k with
    | zero => rfl
    | succ k => simp [gcdexAux]
  | succ n ih =>
    rw [show n + 1 + k = (n + k) + 1 by omega, gcdexAux, gcdexAux]
    split_ifs with h
    · rfl
    · have := fmod_natAbs_lt b h
      rw [ih _ _ (by omega)]

/-- The recursion of the code. -/
theorem gcdex_eq (a b : ℤ) : gcdex a b =
    if a = 0 then (0, 1, b)
    else ((gcdex (b.fmod a) a).2.1 - b.fdiv a * (gcdex (b.fmod a) a).1, (gcdex (b.fmod a) a).1,
      (gcdex (b.fmod a) a).2.2) := by
  split_ifs with h
  · subst h; rfl
  · have hlt := fmod_natAbs_lt b h
    obtain ⟨n, hn⟩ := Nat.exists_eq_succ_of_ne_zero (show a.natAbs ≠ 0 by omega)
    have : gcdex (b.fmod a) a = gcdexAux n (b.fmod a) a := by
      rw [gcdex]
      obtain ⟨k, rfl⟩ := Nat.exists_eq_add_of_le (show (b.fmod a).natAbs ≤ n by omega)
      rw [gcdexAux_mono _ _ _ _ (le_refl _)]
    rw [this]
    unfold gcdex
    rw [hn, Nat.succ_eq_add_one, gcdexAux, if_neg h]

theorem gcdex_spec (a b : ℤ) : (gcdex a b).1 * a + (gcdex a b).2.1 * b = (gcdex a b).2.2 ∧
    (gcdex a b).2.2.natAbs = Int.gcd a b := by
  suffices H : ∀ n : ℕ, ∀ a b : ℤ, a.natAbs = n →
      (gcdex a b).1 * a + (gcdex a b).2.1 * b = (gcdex a b).2.2 ∧
      (gcdex a b).2.2.natAbs = Int.gcd a b from H _ a b rfl
  intro n
  induction n using Nat.strong_induction_on with
  | _ n ih =>
    intro a b hn
    rw [gcdex_eq]
    split_ifs with h
    · subst h
      simp
    · have hlt := fmod_natAbs_lt b h
      obtain ⟨h1, h2⟩ := ih _ (by omega) (b.fmod a) a rfl
      have hdm := Int.mul_fdiv_add_fmod b a
      constructor
      · simp only
        linear_combination h1 - (gcdex (b.fmod a) a).1 * hdm
      · simp only
        rw [h2]
        have : b.fmod a = b - a * b.fdiv a := by linarith
        rw [this, Int.gcd_comm, mul_comm, Int.gcd_sub_mul_right_right]

/-! ### Matrices -/

/-- The array as a matrix of the given shape. -/
def toM (p q : ℕ) (m : IMat) : Matrix (Fin p) (Fin q) ℤ := fun i j => m i j

theorem toM_one (p : ℕ) : toM p p IMat.one = 1 := by
  ext i j
  simp only [toM, IMat.one, Matrix.one_apply, Fin.ext_iff]

theorem leftmult_mul (p q : ℕ) (m : IMat) {i0 i1 : ℕ} (h0 : i0 < p) (h1 : i1 < p) (a b c d : ℤ) :
    toM p q (leftmult m i0 i1 a b c d) =
      toM p p (leftmult IMat.one i0 i1 a b c d) * toM p q m := by
  ext i j
  have key : ∀ (x y : ℤ) , ∑ k : Fin p, (x * (if i0 = (k : ℕ) then 1 else 0) +
      y * (if i1 = (k : ℕ) then 1 else 0)) * m k j = x * m i0 j + y * m i1 j := by
    intro x y
    simp only [add_mul, Finset.sum_add_distrib]
    congr 1
    · rw [Finset.sum_eq_single ⟨i0, h0⟩]
      · simp
      · intro k _ hk
        have : i0 ≠ (k : ℕ) := fun e => hk (Fin.ext e.symm)
        simp [this]
      · simp
    · rw [Finset.sum_eq_single ⟨i1, h1⟩]
      · simp
      · intro k _ hk
        have : i1 ≠ (k : ℕ) := fun e => hk (Fin.ext e.symm)
        simp [this]
      · simp
  rw [Matrix.mul_apply]
  simp only [toM, leftmult, IMat.one]
  split_ifs with e1 e2
  · rw [key]
  · rw [key]
  · rw [Finset.sum_eq_single i]
    · simp
    · intro k _ hk
      have : (i : ℕ) ≠ k := fun e => hk (Fin.ext e.symm)
      simp [this]
    · simp

theorem rightmult_transpose (m : IMat) (j0 j1 : ℕ) (a b c d : ℤ) :
    rightmult m j0 j1 a b c d = fun i j => leftmult (fun i j => m j i) j0 j1 a c b d j i := by
  funext i j
  simp only [rightmult, leftmult]

theorem rightmult_mul (p q : ℕ) (m : IMat) {j0 j1 : ℕ} (h0 : j0 < q) (h1 : j1 < q) (a b c d : ℤ) :
    toM p q (rightmult m j0 j1 a b c d) =
      toM p q m * toM q q (rightmult IMat.one j0 j1 a b c d) := by
  rw [rightmult_transpose, rightmult_transpose]
  have h := leftmult_mul q p (fun i j => m j i) h0 h1 a c b d
  have hs : (fun i j => IMat.one j i) = IMat.one := by
    funext i j; simp only [IMat.one, eq_comm]
  rw [hs]
  have := congrArg Matrix.transpose h
  rw [Matrix.transpose_mul] at this
  exact this

/-- Row operations with determinant `e = ±1` are unimodular. -/
theorem leftmult_one_unit (p : ℕ) {i0 i1 : ℕ} (h0 : i0 < p) (h1 : i1 < p) (hne : i0 ≠ i1)
    (a b c d e : ℤ) (he : e * (a * d - b * c) = 1) :
    IsUnit (toM p p (leftmult IMat.one i0 i1 a b c d)).det := by
  apply Matrix.isUnit_det_of_left_inverse
    (B := toM p p (leftmult IMat.one i0 i1 (e * d) (-(e * b)) (-(e * c)) (e * a)))
  rw [← leftmult_mul p p _ h0 h1, ← toM_one]
  congr 1
  funext i j
  simp only [leftmult, if_neg hne, if_true, if_neg hne.symm]
  split_ifs with g1 g2
  · subst g1; linear_combination (IMat.one i j) * he
  · subst g2; linear_combination (IMat.one i j) * he
  · rfl

theorem rightmult_one_unit (q : ℕ) {j0 j1 : ℕ} (h0 : j0 < q) (h1 : j1 < q) (hne : j0 ≠ j1)
    (a b c d e : ℤ) (he : e * (a * d - b * c) = 1) :
    IsUnit (toM q q (rightmult IMat.one j0 j1 a b c d)).det := by
  have hs : (fun i j => IMat.one j i) = IMat.one := by
    funext i j; simp only [IMat.one, eq_comm]
  have h := leftmult_one_unit q h0 h1 hne a c b d e (by linear_combination he)
  rw [← Matrix.det_transpose] at h
  rw [rightmult_transpose, hs]
  exact h

/-- `m = s a t` with unimodular `s`, `t`. -/
structure Snf.Good (p q : ℕ) (a : IMat) (x : Snf) : Prop where
  eq : toM p q x.m = toM p p x.s * toM p q a * toM q q x.t
  su : IsUnit (toM p p x.s).det
  tu : IsUnit (toM q q x.t).det

theorem Snf.Good.rowOp {p q : ℕ} {a : IMat} {x : Snf} (h : x.Good p q a) {i0 i1 : ℕ} (h0 : i0 < p)
    (h1 : i1 < p) (hne : i0 ≠ i1) (α β γ δ e : ℤ) (he : e * (α * δ - β * γ) = 1) :
    (x.rowOp i0 i1 α β γ δ).Good p q a where
  eq := by
    simp only [Snf.rowOp]
    rw [leftmult_mul p q _ h0 h1, leftmult_mul p p x.s h0 h1, h.eq]
    simp only [Matrix.mul_assoc]
  su := by
    simp only [Snf.rowOp]
    rw [leftmult_mul p p _ h0 h1, Matrix.det_mul]
    exact (leftmult_one_unit p h0 h1 hne α β γ δ e he).mul h.su
  tu := h.tu

theorem Snf.Good.colOp {p q : ℕ} {a : IMat} {x : Snf} (h : x.Good p q a) {j0 j1 : ℕ} (h0 : j0 < q)
    (h1 : j1 < q) (hne : j0 ≠ j1) (α β γ δ e : ℤ) (he : e * (α * δ - β * γ) = 1) :
    (x.colOp j0 j1 α β γ δ).Good p q a where
  eq := by
    simp only [Snf.colOp]
    rw [rightmult_mul p q _ h0 h1, rightmult_mul q q x.t h0 h1, h.eq]
    simp only [Matrix.mul_assoc]
  su := h.su
  tu := by
    simp only [Snf.colOp]
    rw [rightmult_mul q q _ h0 h1, Matrix.det_mul]
    exact h.tu.mul (rightmult_one_unit q h0 h1 hne α β γ δ e he)

theorem rightmult_swap_self (m : IMat) (j : ℕ) : rightmult m j j 0 1 1 0 = m := by
  funext i j'
  simp only [rightmult]
  split_ifs with h
  · subst h; ring
  · rfl

/-- The gcd coefficients give a matrix of determinant one. -/
theorem gcdex_det {a b : ℤ} (h : a ≠ 0) :
    (gcdex a b).1 * a.fdiv (gcdex a b).2.2 + (gcdex a b).2.1 * b.fdiv (gcdex a b).2.2 = 1 ∧
    (gcdex a b).2.2 ≠ 0 ∧ a.fdiv (gcdex a b).2.2 * (gcdex a b).2.2 = a ∧
    b.fdiv (gcdex a b).2.2 * (gcdex a b).2.2 = b := by
  obtain ⟨h1, h2⟩ := gcdex_spec a b
  set g := (gcdex a b).2.2 with hg
  have hg0 : g ≠ 0 := by
    intro h0
    rw [h0] at h2
    simp only [Int.natAbs_zero] at h2
    exact h (Int.gcd_eq_zero_iff.1 h2.symm).1
  have hga : g ∣ a := by
    rw [← Int.natAbs_dvd, h2]; exact Int.gcd_dvd_left _ _
  have hgb : g ∣ b := by
    rw [← Int.natAbs_dvd, h2]; exact Int.gcd_dvd_right _ _
  have ea : a.fdiv g * g = a := by rw [mul_comm]; exact Int.mul_fdiv_cancel_of_dvd hga
  have eb : b.fdiv g * g = b := by rw [mul_comm]; exact Int.mul_fdiv_cancel_of_dvd hgb
  refine ⟨?_, hg0, ea, eb⟩
  apply mul_right_cancel₀ hg0
  linear_combination h1 + (gcdex a b).1 * ea + (gcdex a b).2.1 * eb

end Smol
