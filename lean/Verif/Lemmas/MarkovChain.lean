import Mathlib.LinearAlgebra.Matrix.ToLin
import Mathlib.LinearAlgebra.Dimension.Constructions
import Mathlib.LinearAlgebra.FiniteDimensional.Lemmas
import Mathlib.Data.Real.Basic
import Mathlib.Algebra.Order.Ring.Pow

/-! Finite Markov chains: averages over a run and distribution after many steps. -/

namespace Smol.Markov

open Matrix

variable {Ω : Type*} [Fintype Ω] [DecidableEq Ω]

/-- rows are probability distributions -/
structure Stochastic (P : Matrix Ω Ω ℝ) : Prop where
  nonneg : ∀ x y, 0 ≤ P x y
  row : ∀ x, ∑ y, P x y = 1

/-- every state can be reached from every other -/
def Connected (P : Matrix Ω Ω ℝ) : Prop := ∀ x y, ∃ n, 0 < (P ^ n) x y

/-- `w` is left as it is -/
def Stationary (w : Ω → ℝ) (P : Matrix Ω Ω ℝ) : Prop := ∀ y, ∑ x, w x * P x y = w y

theorem Stochastic.one : Stochastic (1 : Matrix Ω Ω ℝ) := by
  refine ⟨fun x y => ?_, fun x => ?_⟩
  · rw [Matrix.one_apply]; split_ifs <;> norm_num
  · simp [Matrix.one_apply]

omit [DecidableEq Ω] in
theorem Stochastic.mul {P Q : Matrix Ω Ω ℝ} (hP : Stochastic P) (hQ : Stochastic Q) :
    Stochastic (P * Q) := by
  refine ⟨fun x y => ?_, fun x => ?_⟩
  · rw [Matrix.mul_apply]
    exact Finset.sum_nonneg fun z _ => mul_nonneg (hP.nonneg _ _) (hQ.nonneg _ _)
  · simp only [Matrix.mul_apply]
    rw [Finset.sum_comm]
    simp only [← Finset.mul_sum, hQ.row, mul_one, hP.row]

theorem Stochastic.pow {P : Matrix Ω Ω ℝ} (hP : Stochastic P) (n : ℕ) : Stochastic (P ^ n) := by
  induction n with
  | zero => rw [pow_zero]; exact Stochastic.one
  | succ n ih => rw [pow_succ]; exact ih.mul hP

theorem Stationary.pow {w : Ω → ℝ} {P : Matrix Ω Ω ℝ} (h : Stationary w P) (n : ℕ) :
    Stationary w (P ^ n) := by
  induction n with
  | zero => intro y; simp [Matrix.one_apply]
  | succ n ih =>
    intro y
    rw [pow_succ]
    simp only [Matrix.mul_apply, Finset.mul_sum]
    rw [Finset.sum_comm]
    simp only [← mul_assoc, ← Finset.sum_mul, ih _, h y]

omit [DecidableEq Ω] in
theorem Stationary.mulVec {w : Ω → ℝ} {P : Matrix Ω Ω ℝ} (h : Stationary w P) (f : Ω → ℝ) :
    ∑ x, w x * (P *ᵥ f) x = ∑ x, w x * f x := by
  simp only [Matrix.mulVec, dotProduct, Finset.mul_sum]
  rw [Finset.sum_comm]
  simp only [← mul_assoc, ← Finset.sum_mul, h _]

theorem pow_mul_le {P : Matrix Ω Ω ℝ} (hP : Stochastic P) (m n : ℕ) (x y z : Ω) :
    (P ^ m) x y * (P ^ n) y z ≤ (P ^ (m + n)) x z := by
  rw [pow_add, Matrix.mul_apply]
  exact Finset.single_le_sum (f := fun y => (P ^ m) x y * (P ^ n) y z)
    (fun i _ => mul_nonneg ((hP.pow m).nonneg _ _) ((hP.pow n).nonneg _ _)) (Finset.mem_univ y)

theorem loop_pos {P : Matrix Ω Ω ℝ} (hP : Stochastic P) (z : Ω) (hz : 0 < P z z) (n : ℕ) :
    0 < (P ^ n) z z := by
  induction n with
  | zero => simp
  | succ n ih =>
    refine lt_of_lt_of_le (mul_pos ih ?_) (pow_mul_le hP n 1 z z z)
    rwa [pow_one]

theorem Connected.pow {P : Matrix Ω Ω ℝ} (hP : Stochastic P) (hc : Connected P) (z : Ω)
    (hz : 0 < P z z) (k : ℕ) (hk : 0 < k) : Connected (P ^ k) := by
  intro x y
  obtain ⟨a, ha⟩ := hc x z
  obtain ⟨b, hb⟩ := hc z y
  refine ⟨a + b, ?_⟩
  rw [← pow_mul]
  obtain ⟨j, hj⟩ : ∃ j, k * (a + b) = a + j + b := ⟨k * (a + b) - (a + b), by
    have : a + b ≤ k * (a + b) := Nat.le_mul_of_pos_left _ hk
    omega⟩
  rw [hj]
  refine lt_of_lt_of_le (mul_pos (lt_of_lt_of_le (mul_pos ha (loop_pos hP z hz j))
    (pow_mul_le hP a j x z z)) hb) (pow_mul_le hP (a + j) b x z y)

theorem pow_mulVec_fix {P : Matrix Ω Ω ℝ} {h : Ω → ℝ} (hh : P *ᵥ h = h) (n : ℕ) :
    (P ^ n) *ᵥ h = h := by
  induction n with
  | zero => simp
  | succ n ih => rw [pow_succ, ← Matrix.mulVec_mulVec, hh, ih]

/-- harmonic functions are constant -/
theorem harmonic_const {P : Matrix Ω Ω ℝ} (hP : Stochastic P) (hc : Connected P) {h : Ω → ℝ}
    (hh : P *ᵥ h = h) (a b : Ω) : h a = h b := by
  have : Nonempty Ω := ⟨a⟩
  obtain ⟨x, hx⟩ := Finite.exists_max h
  have key : ∀ y, h y = h x := by
    intro y
    obtain ⟨n, hn⟩ := hc x y
    have h1 : ((P ^ n) *ᵥ h) x = h x := by rw [pow_mulVec_fix hh]
    have h2 : ∑ z, (P ^ n) x z * (h x - h z) = 0 := by
      simp only [mul_sub, Finset.sum_sub_distrib, ← Finset.sum_mul, (hP.pow n).row, one_mul]
      rw [← h1]
      simp [Matrix.mulVec, dotProduct]
    have h3 := (Finset.sum_eq_zero_iff_of_nonneg fun z _ =>
      mul_nonneg ((hP.pow n).nonneg x z) (sub_nonneg.2 (hx z))).1 h2 y (Finset.mem_univ y)
    rcases mul_eq_zero.1 h3 with h4 | h4
    · exact absurd h4 hn.ne'
    · linarith
  rw [key a, key b]

/-- the Poisson equation has a solution -/
theorem poisson {P : Matrix Ω Ω ℝ} (hP : Stochastic P) (hc : Connected P) {w : Ω → ℝ}
    (hw : ∀ x, 0 < w x) (hs : Stationary w P) (g : Ω → ℝ) (hg : ∑ x, w x * g x = 0) :
    ∃ h : Ω → ℝ, ∀ x, g x = h x - (P *ᵥ h) x := by
  rcases isEmpty_or_nonempty Ω with he | ⟨⟨x0⟩⟩
  · exact ⟨0, fun x => he.elim x⟩
  let L : (Ω → ℝ) →ₗ[ℝ] (Ω → ℝ) := LinearMap.id - P.mulVecLin
  let φ : (Ω → ℝ) →ₗ[ℝ] ℝ := ∑ x, w x • LinearMap.proj x
  have hφ : ∀ f, φ f = ∑ x, w x * f x := by
    intro f
    simp [φ, LinearMap.sum_apply]
  have hle : LinearMap.range L ≤ LinearMap.ker φ := by
    rintro _ ⟨f, rfl⟩
    rw [LinearMap.mem_ker, hφ]
    have : ∀ x, w x * (L f) x = w x * f x - w x * (P *ᵥ f) x := by
      intro x
      simp [L, mul_sub]
    simp only [this, Finset.sum_sub_distrib, hs.mulVec, sub_self]
  have hker : Module.finrank ℝ (LinearMap.ker L) ≤ 1 := by
    refine finrank_le_one (⟨fun _ => 1, ?_⟩ : LinearMap.ker L) ?_
    · rw [LinearMap.mem_ker]
      funext x
      have : (P *ᵥ fun _ => (1 : ℝ)) x = 1 := by
        simp [Matrix.mulVec, dotProduct, hP.row]
      simp [L, this]
    · rintro ⟨h, hh⟩
      rw [LinearMap.mem_ker] at hh
      have h1 : P *ᵥ h = h := by
        have : h - P *ᵥ h = 0 := by simpa [L] using hh
        exact (sub_eq_zero.1 this).symm
      refine ⟨h x0, Subtype.ext ?_⟩
      funext x
      simp [harmonic_const hP hc h1 x0 x]
  have hφs : LinearMap.range φ = ⊤ := by
    rw [LinearMap.range_eq_top]
    intro r
    refine ⟨Pi.single x0 (r / w x0), ?_⟩
    rw [hφ]
    rw [Finset.sum_eq_single x0]
    · rw [Pi.single_eq_same]
      field_simp [(hw x0).ne']
    · intro y _ hy
      rw [Pi.single_eq_of_ne hy, mul_zero]
    · intro h; exact absurd (Finset.mem_univ _) h
  have e1 := LinearMap.finrank_range_add_finrank_ker L
  have e2 := LinearMap.finrank_range_add_finrank_ker φ
  rw [hφs, finrank_top, Module.finrank_self] at e2
  have heq : LinearMap.range L = LinearMap.ker φ :=
    Submodule.eq_of_le_of_finrank_le hle (by omega)
  have : g ∈ LinearMap.range L := by
    rw [heq, LinearMap.mem_ker, hφ, hg]
  obtain ⟨h, hh⟩ := this
  refine ⟨h, fun x => ?_⟩
  rw [← hh]
  simp [L]

/-! ### runs -/

/-- expectation of `F` of the states visited in `n` steps from `x` -/
def runE (P : Matrix Ω Ω ℝ) : ℕ → Ω → (List Ω → ℝ) → ℝ
  | 0, _, F => F []
  | n + 1, x, F => ∑ y, P x y * runE P n y fun l => F (y :: l)

omit [DecidableEq Ω] in
theorem runE_congr (P : Matrix Ω Ω ℝ) (n : ℕ) (x : Ω) (F G : List Ω → ℝ)
    (h : ∀ l, l.length = n → F l = G l) : runE P n x F = runE P n x G := by
  induction n generalizing x F G with
  | zero => exact h [] rfl
  | succ n ih =>
    unfold runE
    refine Finset.sum_congr rfl fun y _ => ?_
    rw [ih y _ (fun l => G (y :: l)) fun l hl => h (y :: l) (by simp [hl])]

omit [DecidableEq Ω] in
theorem runE_add (P : Matrix Ω Ω ℝ) (n : ℕ) (x : Ω) (F G : List Ω → ℝ) :
    runE P n x (fun l => F l + G l) = runE P n x F + runE P n x G := by
  induction n generalizing x F G with
  | zero => rfl
  | succ n ih =>
    unfold runE
    rw [← Finset.sum_add_distrib]
    refine Finset.sum_congr rfl fun y _ => ?_
    rw [ih, mul_add]

omit [DecidableEq Ω] in
theorem runE_mul (P : Matrix Ω Ω ℝ) (n : ℕ) (x : Ω) (c : ℝ) (F : List Ω → ℝ) :
    runE P n x (fun l => c * F l) = c * runE P n x F := by
  induction n generalizing x F with
  | zero => rfl
  | succ n ih =>
    unfold runE
    rw [Finset.mul_sum]
    refine Finset.sum_congr rfl fun y _ => ?_
    rw [ih]
    ring

omit [DecidableEq Ω] in
theorem runE_const {P : Matrix Ω Ω ℝ} (hP : Stochastic P) (n : ℕ) (x : Ω) (c : ℝ) :
    runE P n x (fun _ => c) = c := by
  induction n generalizing x with
  | zero => rfl
  | succ n ih =>
    unfold runE
    simp only [ih, ← Finset.sum_mul, hP.row, one_mul]

omit [DecidableEq Ω] in
theorem runE_mono {P : Matrix Ω Ω ℝ} (hP : Stochastic P) (n : ℕ) (x : Ω) (F G : List Ω → ℝ)
    (h : ∀ l, F l ≤ G l) : runE P n x F ≤ runE P n x G := by
  induction n generalizing x F G with
  | zero => exact h []
  | succ n ih =>
    exact Finset.sum_le_sum fun y _ => mul_le_mul_of_nonneg_left
      (ih y _ _ fun l => h (y :: l)) (hP.nonneg x y)

/-- mean of the sum along a run -/
theorem runE_sum {P : Matrix Ω Ω ℝ} (hP : Stochastic P) (g h : Ω → ℝ)
    (hg : ∀ x, g x = h x - (P *ᵥ h) x) (n : ℕ) (x : Ω) :
    runE P n x (fun l => (l.map g).sum) = (P *ᵥ h) x - ((P ^ (n + 1)) *ᵥ h) x := by
  induction n generalizing x with
  | zero => simp [runE]
  | succ n ih =>
    unfold runE
    have : ∀ y, runE P n y (fun l => ((y :: l).map g).sum) = h y - ((P ^ (n + 1)) *ᵥ h) y := by
      intro y
      have e : (fun l : List Ω => ((y :: l).map g).sum) = fun l => g y + (l.map g).sum := by
        funext l; simp
      rw [e, runE_add P n y (fun _ => g y) (fun l => (l.map g).sum), runE_const hP, ih, hg]
      ring
    simp only [this, mul_sub, Finset.sum_sub_distrib]
    congr 1
    rw [pow_succ' P (n + 1), ← Matrix.mulVec_mulVec]
    rfl

omit [DecidableEq Ω] in
theorem mulVec_abs_le {P : Matrix Ω Ω ℝ} (hP : Stochastic P) (h : Ω → ℝ) (A : ℝ)
    (hA : ∀ x, |h x| ≤ A) (x : Ω) : |(P *ᵥ h) x| ≤ A := by
  unfold Matrix.mulVec dotProduct
  calc |∑ y, P x y * h y| ≤ ∑ y, |P x y * h y| := Finset.abs_sum_le_sum_abs _ _
    _ ≤ ∑ y, P x y * A := Finset.sum_le_sum fun y _ => by
        rw [abs_mul, abs_of_nonneg (hP.nonneg x y)]
        exact mul_le_mul_of_nonneg_left (hA y) (hP.nonneg x y)
    _ = A := by rw [← Finset.sum_mul, hP.row, one_mul]

/-- second moment of the sum along a run -/
theorem runE_sq {P : Matrix Ω Ω ℝ} (hP : Stochastic P) (g h : Ω → ℝ)
    (hg : ∀ x, g x = h x - (P *ᵥ h) x) (A G : ℝ) (hA : ∀ x, |h x| ≤ A) (hG : ∀ x, |g x| ≤ G)
    (n : ℕ) (x : Ω) :
    runE P n x (fun l => (l.map g).sum ^ 2) ≤ n * (G ^ 2 + 4 * G * A) := by
  induction n generalizing x with
  | zero => simp [runE]
  | succ n ih =>
    unfold runE
    have hb : ∀ y, runE P n y (fun l => ((y :: l).map g).sum ^ 2) ≤
        (G ^ 2 + 4 * G * A) + n * (G ^ 2 + 4 * G * A) := by
      intro y
      have e : (fun l : List Ω => ((y :: l).map g).sum ^ 2) =
          fun l => (g y ^ 2 + (2 * g y) * (l.map g).sum) + (l.map g).sum ^ 2 := by
        funext l; simp; ring
      rw [e, runE_add P n y (fun l => g y ^ 2 + (2 * g y) * (l.map g).sum),
        runE_add P n y (fun _ => g y ^ 2), runE_const hP, runE_mul, runE_sum hP g h hg]
      have h1 : g y ^ 2 ≤ G ^ 2 := sq_le_sq' (by linarith [(abs_le.1 (hG y)).1])
        (abs_le.1 (hG y)).2
      have h2 : 2 * g y * ((P *ᵥ h) y - ((P ^ (n + 1)) *ᵥ h) y) ≤ 4 * G * A := by
        have h3 := mulVec_abs_le hP h A hA y
        have h4 := mulVec_abs_le (hP.pow (n + 1)) h A hA y
        have h5 : |(P *ᵥ h) y - ((P ^ (n + 1)) *ᵥ h) y| ≤ 2 * A := by
          refine (abs_sub _ _).trans ?_
          linarith
        calc 2 * g y * ((P *ᵥ h) y - ((P ^ (n + 1)) *ᵥ h) y)
            ≤ |2 * g y * ((P *ᵥ h) y - ((P ^ (n + 1)) *ᵥ h) y)| := le_abs_self _
          _ = 2 * |g y| * |(P *ᵥ h) y - ((P ^ (n + 1)) *ᵥ h) y| := by
              rw [abs_mul, abs_mul, abs_two]
          _ ≤ 2 * G * (2 * A) := mul_le_mul (by linarith [hG y]) h5 (abs_nonneg _)
              (by linarith [abs_nonneg (g y), hG y])
          _ = 4 * G * A := by ring
      linarith [ih y]
    calc ∑ y, P x y * runE P n y (fun l => ((y :: l).map g).sum ^ 2)
        ≤ ∑ y, P x y * ((G ^ 2 + 4 * G * A) + n * (G ^ 2 + 4 * G * A)) :=
          Finset.sum_le_sum fun y _ => mul_le_mul_of_nonneg_left (hb y) (hP.nonneg x y)
      _ = ((n + 1 : ℕ) : ℝ) * (G ^ 2 + 4 * G * A) := by
          rw [← Finset.sum_mul, hP.row]
          push_cast
          ring

/-- the mean square error of the average over a run is at most `C / n` -/
theorem mean_square {P : Matrix Ω Ω ℝ} (hP : Stochastic P) (hc : Connected P) {w : Ω → ℝ}
    (hw : ∀ x, 0 < w x) (hs : Stationary w P) (f : Ω → ℝ) :
    ∃ C : ℝ, ∀ (n : ℕ) (x : Ω), 0 < n →
      runE P n x (fun l => ((l.map f).sum / n - (∑ y, w y * f y) / ∑ y, w y) ^ 2) ≤ C / n := by
  rcases isEmpty_or_nonempty Ω with he | hne
  · exact ⟨0, fun n x => he.elim x⟩
  set m := (∑ y, w y * f y) / ∑ y, w y with hm
  have hW : 0 < ∑ y, w y := Finset.sum_pos (fun y _ => hw y) Finset.univ_nonempty
  have hg0 : ∑ x, w x * (f x - m) = 0 := by
    simp only [mul_sub, Finset.sum_sub_distrib, ← Finset.sum_mul]
    rw [hm, mul_div_cancel₀ _ hW.ne', sub_self]
  obtain ⟨h, hh⟩ := poisson hP hc hw hs (fun x => f x - m) hg0
  obtain ⟨xA, hxA⟩ := Finite.exists_max fun x => |h x|
  obtain ⟨xG, hxG⟩ := Finite.exists_max fun x => |f x - m|
  set A := |h xA|
  set G := |f xG - m|
  refine ⟨G ^ 2 + 4 * G * A, fun n x hn => ?_⟩
  have hn' : (0 : ℝ) < n := Nat.cast_pos.2 hn
  have key := runE_sq hP (fun x => f x - m) h hh A G hxA hxG n x
  rw [runE_congr P n x _ (fun l => ((n : ℝ) ^ 2)⁻¹ * (l.map fun x => f x - m).sum ^ 2) ?_, runE_mul]
  · rw [inv_mul_le_iff₀ (by positivity)]
    refine key.trans (le_of_eq ?_)
    field_simp
  · intro l hl
    have : (l.map fun x => f x - m).sum = (l.map f).sum - n * m := by
      rw [← hl]
      clear hl key
      induction l with
      | nil => simp
      | cons a l ih => simp [ih]; ring
    rw [this]
    field_simp

/-! ### distribution after many steps -/

theorem exists_all_pos {P : Matrix Ω Ω ℝ} (hP : Stochastic P) (hc : Connected P) (z : Ω)
    (hz : 0 < P z z) : ∃ N, 0 < N ∧ ∀ x y, 0 < (P ^ N) x y := by
  choose a ha using fun x => hc x z
  choose b hb using fun y => hc z y
  refine ⟨∑ x, a x + ∑ y, b y + 1, by omega, fun x y => ?_⟩
  have h1 : a x ≤ ∑ x, a x := Finset.single_le_sum (fun _ _ => Nat.zero_le _) (Finset.mem_univ x)
  have h2 : b y ≤ ∑ y, b y := Finset.single_le_sum (fun _ _ => Nat.zero_le _) (Finset.mem_univ y)
  obtain ⟨j, hj⟩ : ∃ j, ∑ x, a x + ∑ y, b y + 1 = a x + j + b y :=
    ⟨∑ x, a x + ∑ y, b y + 1 - a x - b y, by omega⟩
  rw [hj]
  exact lt_of_lt_of_le (mul_pos (lt_of_lt_of_le (mul_pos (ha x) (loop_pos hP z hz j))
    (pow_mul_le hP (a x) j x z z)) (hb y)) (pow_mul_le hP (a x + j) (b y) x z y)

omit [DecidableEq Ω] in
/-- contraction of the spread -/
theorem spread_le {Q : Matrix Ω Ω ℝ} (hQ : Stochastic Q) (δ : ℝ) (hδ : ∀ x y, δ ≤ Q x y)
    (hδ0 : 0 ≤ δ) (f : Ω → ℝ) (d : ℝ) (hd : ∀ x y, f x - f y ≤ d) (x x' : Ω) :
    (Q *ᵥ f) x - (Q *ᵥ f) x' ≤ (1 - δ) * d := by
  have : Nonempty Ω := ⟨x⟩
  obtain ⟨y0, hy0⟩ := Finite.exists_min f
  have hd0 : 0 ≤ d := by simpa using hd x x
  have e : (Q *ᵥ f) x - (Q *ᵥ f) x' =
      ∑ y, (Q x y - δ) * (f y - f y0) - ∑ y, (Q x' y - δ) * (f y - f y0) := by
    simp only [Matrix.mulVec, dotProduct]
    rw [← Finset.sum_sub_distrib, ← Finset.sum_sub_distrib]
    have h0 : ∑ y, (Q x y - Q x' y) * f y0 = 0 := by
      rw [← Finset.sum_mul, Finset.sum_sub_distrib, hQ.row, hQ.row, sub_self, zero_mul]
    rw [← sub_zero (∑ y, (Q x y * f y - Q x' y * f y)), ← h0, ← Finset.sum_sub_distrib]
    exact Finset.sum_congr rfl fun y _ => by ring
  rw [e]
  have h1 : ∑ y, (Q x y - δ) * (f y - f y0) ≤ ∑ y, (Q x y - δ) * d :=
    Finset.sum_le_sum fun y _ => mul_le_mul_of_nonneg_left (hd y y0) (sub_nonneg.2 (hδ x y))
  have h2 : 0 ≤ ∑ y, (Q x' y - δ) * (f y - f y0) :=
    Finset.sum_nonneg fun y _ => mul_nonneg (sub_nonneg.2 (hδ x' y)) (sub_nonneg.2 (hy0 y))
  have h3 : ∑ y, (Q x y - δ) * d = (1 - Fintype.card Ω * δ) * d := by
    rw [← Finset.sum_mul, Finset.sum_sub_distrib, hQ.row]
    simp
  have h4 : (1 : ℝ) ≤ Fintype.card Ω := by
    exact_mod_cast Fintype.card_pos
  have h5 : (1 - Fintype.card Ω * δ) * d ≤ (1 - δ) * d :=
    mul_le_mul_of_nonneg_right (by nlinarith) hd0
  linarith

/-- the distribution after `n` steps converges geometrically -/
theorem converges {P : Matrix Ω Ω ℝ} (hP : Stochastic P) (hc : Connected P) {w : Ω → ℝ}
    (hw : ∀ x, 0 < w x) (hs : Stationary w P) (z : Ω) (hz : 0 < P z z) (f : Ω → ℝ) :
    ∃ C ρ : ℝ, 0 < ρ ∧ ρ < 1 ∧ ∀ (n : ℕ) (x : Ω),
      |((P ^ n) *ᵥ f) x - (∑ y, w y * f y) / ∑ y, w y| ≤ C * ρ ^ n := by
  have : Nonempty Ω := ⟨z⟩
  obtain ⟨N, hN, hpos⟩ := exists_all_pos hP hc z hz
  obtain ⟨p0, hp0⟩ := Finite.exists_min fun p : Ω × Ω => (P ^ N) p.1 p.2
  set δ := min ((P ^ N) p0.1 p0.2) (1 / 2) with hδ
  have hδ0 : 0 < δ := lt_min (hpos _ _) (by norm_num)
  have hδ1 : δ ≤ 1 / 2 := min_le_right _ _
  have hδle : ∀ x y, δ ≤ (P ^ N) x y := fun x y => (min_le_left _ _).trans (hp0 (x, y))
  obtain ⟨q, hq⟩ := Finite.exists_max fun p : Ω × Ω => f p.1 - f p.2
  set d := f q.1 - f q.2 with hd
  have hN' : (1 : ℝ) ≤ N := by exact_mod_cast hN
  have hNpos : (0 : ℝ) < N := by linarith
  set ρ := 1 - δ / N with hρ
  have hdiv : δ / N ≤ δ := div_le_self hδ0.le hN'
  have hdiv0 : 0 < δ / N := div_pos hδ0 hNpos
  have hρ0 : 0 < ρ := by rw [hρ]; linarith
  have hρ1 : ρ < 1 := by rw [hρ]; linarith
  have hbern : 1 - δ ≤ ρ ^ N := by
    have := one_add_mul_le_pow (a := -(δ / N)) (by linarith) N
    have e : (N : ℝ) * -(δ / N) = -δ := by field_simp
    rw [e] at this
    rw [hρ, sub_eq_add_neg, sub_eq_add_neg]
    exact this
  have hd0 : 0 ≤ d := by have := hq (z, z); simpa using this
  -- spread after `k` blocks and `r` single steps
  have hblock : ∀ k : ℕ, ∀ x y, (((P ^ N) ^ k) *ᵥ f) x - (((P ^ N) ^ k) *ᵥ f) y ≤ (1 - δ) ^ k * d := by
    intro k
    induction k with
    | zero => intro x y; simpa using hq (x, y)
    | succ k ih =>
      intro x y
      rw [pow_succ' (P ^ N) k, ← Matrix.mulVec_mulVec, pow_succ' (1 - δ), mul_assoc]
      exact spread_le (hP.pow N) δ hδle hδ0.le _ _ ih x y
  have hspread : ∀ n x y, ((P ^ n) *ᵥ f) x - ((P ^ n) *ᵥ f) y ≤ (1 - δ) ^ (n / N) * d := by
    intro n x y
    have e : P ^ n = P ^ (n % N) * (P ^ N) ^ (n / N) := by
      rw [← pow_mul, ← pow_add, Nat.mod_add_div]
    rw [e, ← Matrix.mulVec_mulVec]
    have := spread_le (hP.pow (n % N)) 0 (fun x y => (hP.pow _).nonneg x y) le_rfl _ _
      (hblock (n / N)) x y
    simpa using this
  refine ⟨d / ρ ^ N, ρ, hρ0, hρ1, fun n x => ?_⟩
  have hW : 0 < ∑ y, w y := Finset.sum_pos (fun y _ => hw y) Finset.univ_nonempty
  have hm : (∑ y, w y * f y) / ∑ y, w y = (∑ y, w y * ((P ^ n) *ᵥ f) y) / ∑ y, w y := by
    rw [(hs.pow n).mulVec]
  have hbound : |((P ^ n) *ᵥ f) x - (∑ y, w y * f y) / ∑ y, w y| ≤ (1 - δ) ^ (n / N) * d := by
    rw [hm]
    have e : ((P ^ n) *ᵥ f) x - (∑ y, w y * ((P ^ n) *ᵥ f) y) / ∑ y, w y =
        (∑ y, w y * (((P ^ n) *ᵥ f) x - ((P ^ n) *ᵥ f) y)) / ∑ y, w y := by
      simp only [mul_sub, Finset.sum_sub_distrib, ← Finset.sum_mul]
      field_simp
    rw [e, abs_div, abs_of_pos hW, div_le_iff₀ hW, Finset.mul_sum]
    refine (Finset.abs_sum_le_sum_abs _ _).trans (Finset.sum_le_sum fun y _ => ?_)
    rw [abs_mul, abs_of_pos (hw y), mul_comm]
    refine mul_le_mul_of_nonneg_right (abs_le.2 ⟨?_, hspread n x y⟩) (hw y).le
    linarith [hspread n y x]
  refine hbound.trans ?_
  have h1 : (1 - δ) ^ (n / N) ≤ (ρ ^ N) ^ (n / N) :=
    pow_le_pow_left₀ (by linarith) hbern _
  have h2 : (ρ ^ N) ^ (n / N) * ρ ^ N ≤ ρ ^ n := by
    rw [← pow_mul, ← pow_add]
    refine pow_le_pow_of_le_one hρ0.le hρ1.le ?_
    have := Nat.div_add_mod n N
    have := Nat.mod_lt n hN
    omega
  have h3 : 0 < ρ ^ N := pow_pos hρ0 N
  calc (1 - δ) ^ (n / N) * d ≤ (ρ ^ N) ^ (n / N) * d := mul_le_mul_of_nonneg_right h1 hd0
    _ = d / ρ ^ N * ((ρ ^ N) ^ (n / N) * ρ ^ N) := by field_simp
    _ ≤ d / ρ ^ N * ρ ^ n := mul_le_mul_of_nonneg_left h2 (div_nonneg hd0 h3.le)

end Smol.Markov
