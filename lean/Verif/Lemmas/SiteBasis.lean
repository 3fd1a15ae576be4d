import Verif.Model.SiteBasis
import Mathlib.Algebra.Polynomial.Sequence
import Mathlib.Algebra.Polynomial.Roots
import Mathlib.Analysis.SpecialFunctions.Complex.Log
import Mathlib.Algebra.Field.GeomSum
import Mathlib.Algebra.BigOperators.Field

namespace Smol
open Polynomial

/-! ### The function array -/

theorem funRows_eq (fl : Flavor) (m : ℕ) (hm : 2 ≤ m) :
    funRows fl m = some (List.replicate m 1 ::
      (List.range (m - 1)).map fun k => (List.range m).map fun s => siteFn fl m k s) := by
  obtain ⟨n, rfl⟩ := Nat.exists_eq_add_of_le' (n := m) (m := 2) hm
  unfold funRows
  simp only
  have : ((List.range (n + 2)).map fun k => siteFn fl (n + 2) k).dropLast =
      (List.range (n + 1)).map fun k => siteFn fl (n + 2) k := by
    rw [List.range_succ (n := n + 1), List.map_append, List.map_singleton, List.dropLast_concat]
  rw [this, if_neg]
  · simp [List.map_map, Function.comp_def]
  · simp [List.range_succ]

theorem funRows_none (fl : Flavor) (m : ℕ) (hm : m < 2) : funRows fl m = none := by
  have : m = 0 ∨ m = 1 := by omega
  rcases this with rfl | rfl <;> simp [funRows]

/-- entries of the function array -/
noncomputable def arrayAt (fl : Flavor) (m : ℕ) (k s : ℕ) : ℝ :=
  if k = 0 then 1 else siteFn fl m (k - 1) s

theorem init_eq (fl : Flavor) {m : ℕ} (hm : 2 ≤ m) (measure : Fin m → ℝ) :
    SiteBasis.init fl measure = some ⟨measure, fun k s => arrayAt fl m k s, none, 1⟩ := by
  unfold SiteBasis.init
  rw [funRows_eq fl m hm, Option.map_some]
  congr 2
  funext k s
  obtain ⟨k, hk⟩ := k
  obtain ⟨s, hs⟩ := s
  unfold arrayAt
  cases k with
  | zero => simp [List.getD_eq_getElem?_getD, hs]
  | succ k =>
    simp only [List.getD_cons_succ, Nat.add_sub_cancel, Nat.succ_ne_zero, if_false]
    have hk' : k < m - 1 := by omega
    simp [List.getD_eq_getElem?_getD, hk', hs]

/-! ### Independence -/

theorem unique_of_independent {m : ℕ} (A : Matrix (Fin m) (Fin m) ℝ)
    (h : ∀ c : Fin m → ℝ, (∀ s, ∑ k, c k * A k s = 0) → c = 0) (g : Fin m → ℝ) :
    ∃! c : Fin m → ℝ, ∀ s, g s = ∑ k, c k * A k s := by
  have hinj : Function.Injective A.vecMul := by
    intro a b hab
    have : a - b = 0 := by
      apply h
      intro s
      have h1 := congrFun hab s
      simp only [Matrix.vecMul, dotProduct] at h1
      simp only [Pi.sub_apply, sub_mul, Finset.sum_sub_distrib, h1, sub_self]
    exact sub_eq_zero.1 this
  have hsur : Function.Surjective A.vecMul :=
    Matrix.vecMul_surjective_iff_isUnit.2 (Matrix.vecMul_injective_iff_isUnit.1 hinj)
  obtain ⟨c, hc⟩ := hsur g
  refine ⟨c, fun s => by rw [← hc]; rfl, ?_⟩
  intro d hd
  apply hinj
  rw [hc]
  funext s
  exact (hd s).symm

theorem indep_indicator {m : ℕ} (hm : 2 ≤ m) (c : Fin m → ℝ)
    (h : ∀ s : Fin m, ∑ k : Fin m, c k * arrayAt .indicator m k s = 0) : c = 0 := by
  obtain ⟨n, rfl⟩ : ∃ n, m = n + 1 := ⟨m - 1, by omega⟩
  have hs : ∀ s : Fin (n + 1), c 0 + (if hh : (s : ℕ) + 1 < n + 1 then c ⟨s + 1, hh⟩ else 0) = 0 := by
    intro s
    have := h s
    rw [Fin.sum_univ_succ] at this
    have h0 : arrayAt .indicator (n + 1) (0 : Fin (n + 1)) s = 1 := by simp [arrayAt]
    rw [h0, mul_one] at this
    refine Eq.trans ?_ this
    refine congrArg (c 0 + ·) ?_
    have hk : ∀ k : Fin n, c k.succ * arrayAt .indicator (n + 1) (k.succ : Fin (n + 1)) s =
        if (s : ℕ) = k then c k.succ else 0 := by
      intro k
      simp [arrayAt, siteFn]
    simp only [hk]
    split
    · rename_i hh
      have hsn : (s : ℕ) < n := by omega
      rw [Finset.sum_eq_single (⟨s, hsn⟩ : Fin n)]
      · simp
      · intro b _ hb
        rw [if_neg]
        intro e; exact hb (Fin.ext e.symm)
      · simp
    · rename_i hh
      symm
      apply Finset.sum_eq_zero
      intro k _
      rw [if_neg]
      intro e
      exact hh (by omega)
  have h0 : c 0 = 0 := by
    have := hs (Fin.last n)
    rw [dif_neg (by simp)] at this
    simpa using this
  funext k
  refine Fin.cases h0 (fun k => ?_) k
  have := hs k.castSucc
  rw [h0, zero_add, dif_pos (by simp)] at this
  exact this

/-- polynomials with a three-term recurrence -/
noncomputable def recPoly (a b : ℕ → ℝ) : ℕ → ℝ[X]
  | 0 => 1
  | 1 => X
  | k + 2 => C (a k) * X * recPoly a b (k + 1) - C (b k) * recPoly a b k

theorem degree_recPoly (a b : ℕ → ℝ) (ha : ∀ k, a k ≠ 0) (k : ℕ) :
    (recPoly a b k).degree = k := by
  induction k using Nat.strong_induction_on with
  | _ k ih =>
    match k with
    | 0 => simp [recPoly]
    | 1 => simp [recPoly]
    | k + 2 =>
      have h1 := ih (k + 1) (by omega)
      have h0 := ih k (by omega)
      rw [recPoly]
      have hd : (C (a k) * X * recPoly a b (k + 1)).degree = ((k + 2 : ℕ) : WithBot ℕ) := by
        rw [mul_assoc, degree_C_mul (ha k), mul_comm, degree_mul_X, h1]
        norm_cast
      rw [degree_sub_eq_left_of_degree_lt, hd]
      rw [hd]
      rw [← smul_eq_C_mul]
      refine lt_of_le_of_lt (degree_smul_le _ _) ?_
      rw [h0]
      exact_mod_cast (by omega : k < k + 2)

theorem eval_cheb (x : ℝ) (k : ℕ) : (recPoly (fun _ => 2) (fun _ => 1) k).eval x = chebAt x k := by
  induction k using Nat.strong_induction_on with
  | _ k ih =>
    match k with
    | 0 => simp [recPoly, chebAt]
    | 1 => simp [recPoly, chebAt]
    | k + 2 =>
      rw [recPoly, chebAt, eval_sub, eval_mul, eval_mul, eval_mul, ih _ (by omega),
        ih _ (by omega)]
      simp

theorem eval_leg (x : ℝ) (k : ℕ) :
    (recPoly (fun k => (2 * (k : ℝ) + 3) / ((k : ℝ) + 2)) (fun k => ((k : ℝ) + 1) / ((k : ℝ) + 2))
      k).eval x = legAt x k := by
  induction k using Nat.strong_induction_on with
  | _ k ih =>
    match k with
    | 0 => simp [recPoly, legAt]
    | 1 => simp [recPoly, legAt]
    | k + 2 =>
      rw [recPoly, legAt, eval_sub, eval_mul, eval_mul, eval_mul, ih _ (by omega),
        ih _ (by omega)]
      simp only [eval_C, eval_X]
      have : (k : ℝ) + 2 ≠ 0 := by positivity
      field_simp

theorem linspace_injective {m : ℕ} (hm : 2 ≤ m) :
    Function.Injective fun s : Fin m => linspace m s := by
  intro a b h
  have hm' : ((m : ℝ) - 1) ≠ 0 := by
    have : (2 : ℝ) ≤ m := by exact_mod_cast hm
    linarith
  simp only [linspace] at h
  have h2 : 2 * (a : ℝ) / ((m : ℝ) - 1) = 2 * (b : ℝ) / ((m : ℝ) - 1) := by linarith
  rw [div_left_inj' hm'] at h2
  have : ((a : ℕ) : ℝ) = ((b : ℕ) : ℝ) := by linarith
  exact Fin.ext (by exact_mod_cast this)

theorem indep_poly {m : ℕ} (hm : 2 ≤ m) (p : ℕ → ℝ[X]) (hp : ∀ k, (p k).degree = k) (c : Fin m → ℝ)
    (h : ∀ s : Fin m, ∑ k : Fin m, c k * (p k).eval (linspace m s) = 0) : c = 0 := by
  set P : ℝ[X] := ∑ k : Fin m, c k • p k with hP
  have hdeg : P.degree < m := by
    refine lt_of_le_of_lt (degree_sum_le _ _) ?_
    rw [Finset.sup_lt_iff (by exact WithBot.bot_lt_coe m)]
    intro k _
    refine lt_of_le_of_lt (degree_smul_le _ _) ?_
    rw [hp]
    exact_mod_cast k.2
  have hz : P = 0 := by
    apply eq_zero_of_natDegree_lt_card_of_eval_eq_zero P (linspace_injective hm)
    · intro s
      rw [← h s, hP, eval_finsetSum]
      exact Finset.sum_congr rfl fun k _ => by rw [smul_eq_C_mul, eval_mul, eval_C]
    · rw [Fintype.card_fin]
      by_cases h0 : P = 0
      · rw [h0]; simp; omega
      · exact (natDegree_lt_iff_degree_lt h0).2 hdeg
  let S : Polynomial.Sequence ℝ := ⟨p, hp⟩
  have hli := (Polynomial.Sequence.linearIndependent S (R := ℝ)).comp (fun k : Fin m => (k : ℕ))
    Fin.val_injective
  rw [Fintype.linearIndependent_iff] at hli
  funext k
  exact hli c (by rw [← hz, hP]; rfl) k

/-! ### Sums of sines and cosines -/

theorem expSum (m : ℕ) (hm : 0 < m) (a : ℤ) :
    ∑ s ∈ Finset.range m, Complex.exp (2 * Real.pi * a * s / m * Complex.I) =
      if (m : ℤ) ∣ a then (m : ℂ) else 0 := by
  have hm0 : (m : ℂ) ≠ 0 := by exact_mod_cast hm.ne'
  have hpow : ∀ s : ℕ, Complex.exp (2 * Real.pi * a * s / m * Complex.I) =
      Complex.exp (2 * Real.pi * a / m * Complex.I) ^ s := by
    intro s
    rw [← Complex.exp_nat_mul]
    congr 1
    ring
  simp only [hpow]
  have hiff : Complex.exp (2 * Real.pi * a / m * Complex.I) = 1 ↔ (m : ℤ) ∣ a := by
    rw [Complex.exp_eq_one_iff]
    have h2 : (2 * (Real.pi : ℂ) * Complex.I) ≠ 0 := Complex.two_pi_I_ne_zero
    constructor
    · rintro ⟨n, hn⟩
      refine ⟨n, ?_⟩
      have : (a : ℂ) / m * (2 * Real.pi * Complex.I) = n * (2 * Real.pi * Complex.I) := by
        rw [← hn]; ring
      have := mul_right_cancel₀ h2 this
      rw [div_eq_iff hm0] at this
      have h3 : ((a : ℤ) : ℂ) = ((m * n : ℤ) : ℂ) := by push_cast; rw [this]; ring
      exact_mod_cast h3
    · rintro ⟨n, rfl⟩
      refine ⟨n, ?_⟩
      push_cast
      field_simp
  split
  · rename_i h
    rw [hiff.2 h]
    simp
  · rename_i h
    have hne : Complex.exp (2 * Real.pi * a / m * Complex.I) ≠ 1 := fun e => h (hiff.1 e)
    rw [geom_sum_eq hne]
    have : Complex.exp (2 * Real.pi * a / m * Complex.I) ^ m = 1 := by
      rw [← Complex.exp_nat_mul, Complex.exp_eq_one_iff]
      refine ⟨a, ?_⟩
      field_simp
    rw [this, sub_self, zero_div]

theorem cosSinSum (m : ℕ) (hm : 0 < m) (a : ℤ) :
    (∑ s ∈ Finset.range m, Real.cos (2 * Real.pi * a * s / m) =
      if (m : ℤ) ∣ a then (m : ℝ) else 0) ∧
    ∑ s ∈ Finset.range m, Real.sin (2 * Real.pi * a * s / m) = 0 := by
  have h := expSum m hm a
  have hterm : ∀ s : ℕ, Complex.exp (2 * Real.pi * a * s / m * Complex.I) =
      Complex.exp (((2 * Real.pi * a * s / m : ℝ) : ℂ) * Complex.I) := by
    intro s; push_cast; rfl
  simp only [hterm] at h
  constructor
  · have := congrArg Complex.re h
    rw [Complex.re_sum] at this
    simp only [Complex.exp_ofReal_mul_I_re] at this
    rw [this]
    split <;> simp
  · have := congrArg Complex.im h
    rw [Complex.im_sum] at this
    simp only [Complex.exp_ofReal_mul_I_im] at this
    rw [this]
    split <;> simp

/-! ### Rotations -/

open Matrix in
theorem rotationMat_mulVec {m : ℕ} (v1 v2 : Fin m → ℝ) (θ : ℝ) (x : Fin m → ℝ) (s : Fin m) :
    (rotationMat v1 v2 θ *ᵥ x) s = x s +
      (v1 s * (v2 ⬝ᵥ x) - v2 s * (v1 ⬝ᵥ x)) * Real.sin θ +
      (v1 s * (v1 ⬝ᵥ x) + v2 s * (v2 ⬝ᵥ x)) * (Real.cos θ - 1) := by
  have e : ∀ b, rotationMat v1 v2 θ s b * x b = (if s = b then x b else 0) +
      ((v1 s * Real.sin θ + v2 s * (Real.cos θ - 1)) * (v2 b * x b) +
       (v1 s * (Real.cos θ - 1) - v2 s * Real.sin θ) * (v1 b * x b)) := by
    intro b
    unfold rotationMat
    split <;> ring
  simp only [Matrix.mulVec, dotProduct]
  rw [Finset.sum_congr rfl fun b _ => e b, Finset.sum_add_distrib, Finset.sum_add_distrib,
    ← Finset.mul_sum, ← Finset.mul_sum, Finset.sum_ite_eq, if_pos (Finset.mem_univ _)]
  ring

open Matrix in
theorem rotationMat_mulVec' {m : ℕ} (v1 v2 : Fin m → ℝ) (θ : ℝ) (x : Fin m → ℝ) :
    rotationMat v1 v2 θ *ᵥ x = x +
      ((v2 ⬝ᵥ x * Real.sin θ + v1 ⬝ᵥ x * (Real.cos θ - 1)) • v1 +
       (v2 ⬝ᵥ x * (Real.cos θ - 1) - v1 ⬝ᵥ x * Real.sin θ) • v2) := by
  funext s
  rw [rotationMat_mulVec]
  simp only [Pi.add_apply, Pi.smul_apply, smul_eq_mul]
  ring

open Matrix in
/-- a rotation in an orthonormal plane keeps scalar products -/
theorem rotationMat_isometry {m : ℕ} (v1 v2 : Fin m → ℝ) (h11 : v1 ⬝ᵥ v1 = 1) (h22 : v2 ⬝ᵥ v2 = 1)
    (h12 : v1 ⬝ᵥ v2 = 0) (θ : ℝ) (x y : Fin m → ℝ) :
    (rotationMat v1 v2 θ *ᵥ x) ⬝ᵥ (rotationMat v1 v2 θ *ᵥ y) = x ⬝ᵥ y := by
  rw [rotationMat_mulVec', rotationMat_mulVec']
  have h21 : v2 ⬝ᵥ v1 = 0 := by rw [dotProduct_comm]; exact h12
  simp only [dotProduct_add, add_dotProduct, dotProduct_smul, smul_dotProduct, smul_eq_mul, h11,
    h22, h12, h21]
  rw [dotProduct_comm x v1, dotProduct_comm x v2]
  have hcs := Real.sin_sq_add_cos_sq θ
  have : Real.sin θ ^ 2 = 1 - Real.cos θ ^ 2 := by linarith
  ring_nf
  rw [this]
  ring

open Matrix in
theorem rotationMat_plane {m : ℕ} (v1 v2 : Fin m → ℝ) (θ φ : ℝ) :
    rotationMat (Real.cos θ • v1 - Real.sin θ • v2) (Real.sin θ • v1 + Real.cos θ • v2) φ =
      rotationMat v1 v2 φ := by
  funext a b
  unfold rotationMat
  simp only [Pi.sub_apply, Pi.add_apply, Pi.smul_apply, smul_eq_mul]
  have : Real.sin θ ^ 2 = 1 - Real.cos θ ^ 2 := by linarith [Real.sin_sq_add_cos_sq θ]
  ring_nf
  rw [this]
  ring

open Matrix in
theorem rotationMat_first {m : ℕ} (v1 v2 : Fin m → ℝ) (h11 : v1 ⬝ᵥ v1 = 1)
    (h12 : v1 ⬝ᵥ v2 = 0) (θ : ℝ) :
    rotationMat v1 v2 θ *ᵥ v1 = Real.cos θ • v1 - Real.sin θ • v2 := by
  have h21 : v2 ⬝ᵥ v1 = 0 := by rw [dotProduct_comm]; exact h12
  rw [rotationMat_mulVec', h11, h21]
  funext s
  simp only [Pi.add_apply, Pi.sub_apply, Pi.smul_apply, smul_eq_mul]
  ring

open Matrix in
theorem rotationMat_second {m : ℕ} (v1 v2 : Fin m → ℝ) (h22 : v2 ⬝ᵥ v2 = 1)
    (h12 : v1 ⬝ᵥ v2 = 0) (θ : ℝ) :
    rotationMat v1 v2 θ *ᵥ v2 = Real.sin θ • v1 + Real.cos θ • v2 := by
  rw [rotationMat_mulVec', h22, h12]
  funext s
  simp only [Pi.add_apply, Pi.smul_apply, smul_eq_mul]
  ring

open Matrix in
theorem rotationMat_other {m : ℕ} (v1 v2 : Fin m → ℝ) (x : Fin m → ℝ) (h1 : v1 ⬝ᵥ x = 0)
    (h2 : v2 ⬝ᵥ x = 0) (θ : ℝ) : rotationMat v1 v2 θ *ᵥ x = x := by
  rw [rotationMat_mulVec', h1, h2]
  simp

open Matrix in
theorem rotationMat_same {m : ℕ} (v : Fin m → ℝ) (h : v ⬝ᵥ v = 1) (θ : ℝ) :
    rotationMat v v θ *ᵥ v = (2 * Real.cos θ - 1) • v := by
  rw [rotationMat_mulVec', h]
  funext s
  simp only [Pi.add_apply, Pi.smul_apply, smul_eq_mul]
  ring

open Matrix in
theorem rotationMat_mul {m : ℕ} (v1 v2 : Fin m → ℝ) (h11 : v1 ⬝ᵥ v1 = 1) (h22 : v2 ⬝ᵥ v2 = 1)
    (h12 : v1 ⬝ᵥ v2 = 0) (θ φ : ℝ) :
    rotationMat v1 v2 φ * rotationMat v1 v2 θ = rotationMat v1 v2 (θ + φ) := by
  rw [ext_iff_mulVec]
  intro x
  have h21 : v2 ⬝ᵥ v1 = 0 := by rw [dotProduct_comm]; exact h12
  rw [← mulVec_mulVec, rotationMat_mulVec' v1 v2 θ, rotationMat_mulVec', rotationMat_mulVec']
  simp only [dotProduct_add, dotProduct_smul, smul_eq_mul, h11, h22, h12, h21, Real.sin_add,
    Real.cos_add]
  funext s
  simp only [Pi.add_apply, Pi.smul_apply, smul_eq_mul]
  ring

/-! ### The sinusoid functions are orthogonal -/

/-- row `n` of a sinusoid array, up to sign -/
noncomputable def sinRow (m n s : ℕ) : ℝ := arrayAt .sinusoid m n s

theorem sinRow_even (m n s : ℕ) (h0 : n ≠ 0) (h : n % 2 = 0) :
    sinRow m n s = -Real.sin (2 * Real.pi * ((n / 2 : ℕ) : ℝ) * s / m) := by
  obtain ⟨k, rfl⟩ : ∃ k, n = k + 1 := ⟨n - 1, by omega⟩
  have : (k + 1 + 1) / 2 = (k + 1) / 2 := by omega
  simp only [sinRow, arrayAt, siteFn, sinusoidAt, Nat.succ_ne_zero, if_false, Nat.add_sub_cancel, h,
    if_true, this]

theorem sinRow_odd (m n s : ℕ) (h : n % 2 = 1) :
    sinRow m n s = -Real.cos (2 * Real.pi * (((n + 1) / 2 : ℕ) : ℝ) * s / m) := by
  obtain ⟨k, rfl⟩ : ∃ k, n = k + 1 := ⟨n - 1, by omega⟩
  have h' : ¬ (k + 1) % 2 = 0 := by omega
  simp only [sinRow, arrayAt, siteFn, sinusoidAt, Nat.succ_ne_zero, if_false, Nat.add_sub_cancel, h']

theorem sum_cos_cos (m : ℕ) (hm : 0 < m) (a b : ℕ) :
    ∑ s ∈ Finset.range m, Real.cos (2 * Real.pi * a * s / m) * Real.cos (2 * Real.pi * b * s / m) =
      ((if (m : ℤ) ∣ (a : ℤ) - b then (m : ℝ) else 0) +
       (if (m : ℤ) ∣ (a : ℤ) + b then (m : ℝ) else 0)) / 2 := by
  rw [← (cosSinSum m hm ((a : ℤ) - b)).1, ← (cosSinSum m hm ((a : ℤ) + b)).1,
    ← Finset.sum_add_distrib, Finset.sum_div]
  apply Finset.sum_congr rfl
  intro s _
  have e1 : 2 * Real.pi * (((a : ℤ) - b : ℤ) : ℝ) * s / m =
      2 * Real.pi * a * s / m - 2 * Real.pi * b * s / m := by push_cast; ring
  have e2 : 2 * Real.pi * (((a : ℤ) + b : ℤ) : ℝ) * s / m =
      2 * Real.pi * a * s / m + 2 * Real.pi * b * s / m := by push_cast; ring
  rw [e1, e2, Real.cos_sub, Real.cos_add]
  ring

theorem sum_sin_sin (m : ℕ) (hm : 0 < m) (a b : ℕ) :
    ∑ s ∈ Finset.range m, Real.sin (2 * Real.pi * a * s / m) * Real.sin (2 * Real.pi * b * s / m) =
      ((if (m : ℤ) ∣ (a : ℤ) - b then (m : ℝ) else 0) -
       (if (m : ℤ) ∣ (a : ℤ) + b then (m : ℝ) else 0)) / 2 := by
  rw [← (cosSinSum m hm ((a : ℤ) - b)).1, ← (cosSinSum m hm ((a : ℤ) + b)).1,
    ← Finset.sum_sub_distrib, Finset.sum_div]
  apply Finset.sum_congr rfl
  intro s _
  have e1 : 2 * Real.pi * (((a : ℤ) - b : ℤ) : ℝ) * s / m =
      2 * Real.pi * a * s / m - 2 * Real.pi * b * s / m := by push_cast; ring
  have e2 : 2 * Real.pi * (((a : ℤ) + b : ℤ) : ℝ) * s / m =
      2 * Real.pi * a * s / m + 2 * Real.pi * b * s / m := by push_cast; ring
  rw [e1, e2, Real.cos_sub, Real.cos_add]
  ring

theorem sum_sin_cos (m : ℕ) (hm : 0 < m) (a b : ℕ) :
    ∑ s ∈ Finset.range m, Real.sin (2 * Real.pi * a * s / m) * Real.cos (2 * Real.pi * b * s / m) =
      0 := by
  have h : ∑ s ∈ Finset.range m,
      Real.sin (2 * Real.pi * a * s / m) * Real.cos (2 * Real.pi * b * s / m) =
      (∑ s ∈ Finset.range m, Real.sin (2 * Real.pi * (((a : ℤ) + b : ℤ) : ℝ) * s / m) +
       ∑ s ∈ Finset.range m, Real.sin (2 * Real.pi * (((a : ℤ) - b : ℤ) : ℝ) * s / m)) / 2 := by
    rw [← Finset.sum_add_distrib, Finset.sum_div]
    apply Finset.sum_congr rfl
    intro s _
    have e1 : 2 * Real.pi * (((a : ℤ) - b : ℤ) : ℝ) * s / m =
        2 * Real.pi * a * s / m - 2 * Real.pi * b * s / m := by push_cast; ring
    have e2 : 2 * Real.pi * (((a : ℤ) + b : ℤ) : ℝ) * s / m =
        2 * Real.pi * a * s / m + 2 * Real.pi * b * s / m := by push_cast; ring
    rw [e1, e2, Real.sin_sub, Real.sin_add]
    ring
  rw [h, (cosSinSum m hm _).2, (cosSinSum m hm _).2]
  simp

/-- angular frequency of a row, and whether it is a sine -/
theorem sinRow_form (m n : ℕ) : ∃ σ : ℝ, σ ^ 2 = 1 ∧
    ((n % 2 = 1 ∨ n = 0) ∧ (∀ s, sinRow m n s = σ * Real.cos (2 * Real.pi * (((n + 1) / 2 : ℕ) : ℝ) * s / m))
    ∨ (n % 2 = 0 ∧ n ≠ 0) ∧
      ∀ s, sinRow m n s = σ * Real.sin (2 * Real.pi * (((n + 1) / 2 : ℕ) : ℝ) * s / m)) := by
  by_cases h0 : n = 0
  · subst h0
    exact ⟨1, by norm_num, .inl ⟨.inr rfl, fun s => by simp [sinRow, arrayAt]⟩⟩
  · by_cases h : n % 2 = 0
    · refine ⟨-1, by norm_num, .inr ⟨⟨h, h0⟩, fun s => ?_⟩⟩
      rw [sinRow_even m n s h0 h]
      have : (n + 1) / 2 = n / 2 := by omega
      rw [this]; ring
    · refine ⟨-1, by norm_num, .inl ⟨.inl (by omega), fun s => ?_⟩⟩
      rw [sinRow_odd m n s (by omega)]; ring

theorem dvd_small {m : ℕ} {a : ℤ} (h1 : 0 ≤ a) (h2 : a ≤ m) :
    (m : ℤ) ∣ a ↔ a = 0 ∨ a = m := by
  constructor
  · intro h
    by_cases ha : a = 0
    · exact .inl ha
    · have := Int.le_of_dvd (by omega) h
      omega
  · rintro (rfl | rfl) <;> simp

theorem sinRow_gram (m : ℕ) (hm : 0 < m) (n n' : ℕ) (hn : n < m) (hn' : n' < m) :
    ∑ s ∈ Finset.range m, sinRow m n s * sinRow m n' s =
      if n = n' then (if n = 0 ∨ (n % 2 = 1 ∧ n + 1 = m) then (m : ℝ) else m / 2) else 0 := by
  obtain ⟨σ, hσ, h⟩ := sinRow_form m n
  obtain ⟨τ, hτ, h'⟩ := sinRow_form m n'
  have hsub : (m : ℤ) ∣ (((n + 1) / 2 : ℕ) : ℤ) - (((n' + 1) / 2 : ℕ) : ℤ) ↔
      (n + 1) / 2 = (n' + 1) / 2 := by
    constructor
    · intro hd
      by_contra hne
      have := Int.eq_zero_of_abs_lt_dvd hd (by rw [abs_lt]; constructor <;> omega)
      omega
    · intro he; rw [he]; simp
  have hadd : (m : ℤ) ∣ (((n + 1) / 2 : ℕ) : ℤ) + (((n' + 1) / 2 : ℕ) : ℤ) ↔
      ((((n + 1) / 2 : ℕ) : ℤ) + (((n' + 1) / 2 : ℕ) : ℤ) = 0 ∨
       (((n + 1) / 2 : ℕ) : ℤ) + (((n' + 1) / 2 : ℕ) : ℤ) = m) :=
    dvd_small (by omega) (by omega)
  have pull : ∀ F G : ℕ → ℝ, ∑ s ∈ Finset.range m, σ * F s * (τ * G s) =
      σ * τ * ∑ s ∈ Finset.range m, F s * G s := by
    intro F G
    rw [Finset.mul_sum]
    exact Finset.sum_congr rfl fun s _ => by ring
  rcases h with ⟨hc, h⟩ | ⟨hc, h⟩ <;> rcases h' with ⟨hc', h'⟩ | ⟨hc', h'⟩ <;>
    simp only [h, h', pull]
  · rw [sum_cos_cos m hm]
    by_cases he : n = n'
    · subst he
      have hst : σ * τ = 1 := by
        have := h 0
        rw [h' 0] at this
        simp at this
        rw [this]; nlinarith
      rw [if_pos rfl, hst, one_mul, if_pos (hsub.2 rfl)]
      by_cases hb : n = 0 ∨ (n % 2 = 1 ∧ n + 1 = m)
      · rw [if_pos hb, if_pos (hadd.2 (by omega))]; ring
      · rw [if_neg hb, if_neg (by rw [hadd]; omega)]; ring
    · rw [if_neg he, if_neg (by rw [hsub]; omega), if_neg (by rw [hadd]; omega)]; ring
  · have : ∀ a b : ℕ, ∑ s ∈ Finset.range m,
        Real.cos (2 * Real.pi * a * s / m) * Real.sin (2 * Real.pi * b * s / m) = 0 := by
      intro a b
      rw [← sum_sin_cos m hm b a]
      exact Finset.sum_congr rfl fun s _ => mul_comm _ _
    rw [this, if_neg (by omega), mul_zero]
  · rw [sum_sin_cos m hm, if_neg (by omega), mul_zero]
  · rw [sum_sin_sin m hm]
    by_cases he : n = n'
    · subst he
      have hst : σ * τ = 1 := by
        obtain ⟨s, hs⟩ : ∃ s : ℕ, Real.sin (2 * Real.pi * (((n + 1) / 2 : ℕ) : ℝ) * s / m) ≠ 0 := by
          by_contra hcon
          push Not at hcon
          have hs := sum_sin_sin m hm ((n + 1) / 2) ((n + 1) / 2)
          rw [Finset.sum_eq_zero fun s _ => by rw [hcon s, zero_mul], if_pos (hsub.2 rfl),
            if_neg (by rw [hadd]; omega)] at hs
          have : (0 : ℝ) < m := by exact_mod_cast hm
          linarith
        have h2 := h s
        rw [h' s] at h2
        have := mul_right_cancel₀ hs h2
        rw [this]; nlinarith
      rw [if_pos rfl, hst, one_mul, if_pos (hsub.2 rfl), if_neg (by rw [hadd]; omega),
        if_neg (by omega)]
      ring
    · rw [if_neg he, if_neg (by rw [hsub]; omega), if_neg (by rw [hadd]; omega)]; ring

end Smol
