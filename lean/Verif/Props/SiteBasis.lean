import Verif.Lemmas.SiteBasis
import Mathlib.RingTheory.Polynomial.Chebyshev

/-!
# C65: site basis functions

Functions of a basis are rows; row 0 is the constant function, row `k + 1` is `function_array[k]`.
-/

namespace Smol
open Matrix

namespace Spec

/-- `k`-th function of a flavour (from 1) at species `s` of `m`, as in the literature
(Legendre polynomials by Bonnet's recurrence). -/
noncomputable def flavorFn (fl : Flavor) (m k s : ℕ) : ℝ :=
  match fl with
  | .indicator => if s + 1 = k then 1 else 0
  | .sinusoid =>
    if Even k then -Real.sin (2 * Real.pi * ((k / 2 : ℕ) : ℝ) * s / m)
    else -Real.cos (2 * Real.pi * (((k + 1) / 2 : ℕ) : ℝ) * s / m)
  | .polynomial => (2 * (s : ℝ) / ((m : ℝ) - 1) - 1) ^ k
  | .chebyshev => (Polynomial.Chebyshev.T ℝ k).eval (2 * (s : ℝ) / ((m : ℝ) - 1) - 1)
  | .legendre => legAt (2 * (s : ℝ) / ((m : ℝ) - 1) - 1) k

/-- Scalar product of site functions under the measure. -/
noncomputable def siteInner {m : ℕ} (measure g h : Fin m → ℝ) : ℝ := ∑ s, measure s * (g s * h s)

/-- The python index `i` names the function `p` of `m - 1`. -/
def NamesFn (m : ℕ) (i : ℤ) (p : ℕ) : Prop :=
  p + 1 < m ∧ (i = p ∨ i = (p : ℤ) - ((m : ℤ) - 1))

end Spec

open Spec

theorem chebAt_eq (x : ℝ) (k : ℕ) : chebAt x k = (Polynomial.Chebyshev.T ℝ k).eval x := by
  induction k using Nat.strong_induction_on with
  | _ k ih =>
    match k with
    | 0 => simp [chebAt]
    | 1 => simp [chebAt]
    | k + 2 =>
      rw [chebAt, ih _ (by omega), ih _ (by omega)]
      push_cast
      rw [Polynomial.Chebyshev.T_add_two]
      simp

/-! ### Construction -/

/-- A basis can be built exactly when there are two species or more; its rows are the constant one
and the functions of its flavour. -/
theorem C65_function_array (fl : Flavor) {m : ℕ} (measure : Fin m → ℝ) :
    (m < 2 → SiteBasis.init fl measure = none) ∧
    (2 ≤ m → ∃ B, SiteBasis.init fl measure = some B ∧ B.measure = measure ∧ B.rot = 1 ∧
      B.r = none ∧
      ∀ k s : Fin m, B.f k s = if (k : ℕ) = 0 then 1 else flavorFn fl m k s) := by
  constructor
  · intro h
    rw [SiteBasis.init, funRows_none fl m h, Option.map_none]
  · intro h
    refine ⟨_, init_eq fl h measure, rfl, rfl, rfl, ?_⟩
    intro k s
    show arrayAt fl m k s = _
    unfold arrayAt
    split
    · rfl
    · rename_i hk
      obtain ⟨n, hn⟩ : ∃ n, (k : ℕ) = n + 1 := ⟨(k : ℕ) - 1, by omega⟩
      have hl : linspace m s = 2 * (s : ℝ) / ((m : ℝ) - 1) - 1 := by unfold linspace; ring
      rw [hn]
      cases fl
      · simp [siteFn, flavorFn]
      · simp only [siteFn, flavorFn, sinusoidAt, Nat.add_sub_cancel, Nat.even_iff]
        split
        · have : (n + 1 + 1) / 2 = (n + 1) / 2 := by omega
          rw [this]
        · rfl
      all_goals simp only [siteFn, flavorFn, Nat.add_sub_cancel, hl, chebAt_eq]

/-- Whatever the flavour, the rows are a basis of the functions of the site: each function of the
species is a combination of them in exactly one way. -/
theorem C65_independent (fl : Flavor) {m : ℕ} (measure : Fin m → ℝ) (B : SiteBasis m)
    (hB : SiteBasis.init fl measure = some B) (g : Fin m → ℝ) :
    ∃! c : Fin m → ℝ, ∀ s, g s = ∑ k, c k * B.f k s := by
  have hm : 2 ≤ m := by
    by_contra h
    rw [(C65_function_array fl measure).1 (by omega)] at hB
    exact absurd hB (by simp)
  rw [init_eq fl hm] at hB
  obtain rfl := Option.some.inj hB
  apply unique_of_independent
  intro c hc
  cases fl
  · exact indep_indicator hm c hc
  · funext j
    have hz : ∑ s : Fin m, (∑ k : Fin m, c k * arrayAt .sinusoid m k s) * arrayAt .sinusoid m j s = 0 := by
      apply Finset.sum_eq_zero
      intro s _
      rw [hc s, zero_mul]
    have hswap : ∑ s : Fin m, (∑ k : Fin m, c k * arrayAt .sinusoid m k s) *
        arrayAt .sinusoid m j s =
        ∑ k : Fin m, c k * ∑ s ∈ Finset.range m, sinRow m k s * sinRow m j s := by
      simp only [Finset.sum_mul]
      rw [Finset.sum_comm]
      apply Finset.sum_congr rfl
      intro k _
      rw [Finset.mul_sum, Finset.sum_range]
      apply Finset.sum_congr rfl
      intro s _
      unfold sinRow
      ring
    rw [hswap] at hz
    rw [Finset.sum_eq_single j] at hz
    · rw [sinRow_gram m (by omega) j j j.2 j.2, if_pos rfl] at hz
      have hm' : (0 : ℝ) < m := by exact_mod_cast (by omega : 0 < m)
      rcases mul_eq_zero.1 hz with h | h
      · exact h
      · exfalso
        revert h
        split <;> intro h <;> linarith
    · intro k _ hk
      rw [sinRow_gram m (by omega) k j k.2 j.2, if_neg, mul_zero]
      intro e; exact hk (Fin.ext e)
    · simp
  · apply indep_poly hm (fun k => Polynomial.X ^ k) (fun k => Polynomial.degree_X_pow k) c
    intro s
    rw [← hc s]
    apply Finset.sum_congr rfl
    intro k _
    have : arrayAt .polynomial m k s = (Polynomial.X ^ (k : ℕ)).eval (linspace m s) := by
      unfold arrayAt
      split
      · rename_i h; simp [h]
      · rename_i h
        have : (k : ℕ) - 1 + 1 = k := by omega
        simp [siteFn, this]
    show _ = c k * arrayAt .polynomial m k s
    rw [this]
  · apply indep_poly hm (recPoly (fun _ => 2) (fun _ => 1)) (degree_recPoly _ _ (by norm_num)) c
    intro s
    rw [← hc s]
    apply Finset.sum_congr rfl
    intro k _
    have : arrayAt .chebyshev m k s = chebAt (linspace m s) k := by
      unfold arrayAt
      split
      · rename_i h; simp [h, chebAt]
      · rename_i h
        have : (k : ℕ) - 1 + 1 = k := by omega
        simp [siteFn, this]
    show _ = c k * arrayAt .chebyshev m k s
    rw [this, eval_cheb]
  · apply indep_poly hm (recPoly (fun k => (2 * (k : ℝ) + 3) / ((k : ℝ) + 2))
      (fun k => ((k : ℝ) + 1) / ((k : ℝ) + 2))) (degree_recPoly _ _ (fun k => by positivity)) c
    intro s
    rw [← hc s]
    apply Finset.sum_congr rfl
    intro k _
    have : arrayAt .legendre m k s = legAt (linspace m s) k := by
      unfold arrayAt
      split
      · rename_i h; simp [h, legAt]
      · rename_i h
        have : (k : ℕ) - 1 + 1 = k := by omega
        simp [siteFn, this]
    show _ = c k * arrayAt .legendre m k s
    rw [this, eval_leg]

/-! ### Orthogonality -/

theorem prods_eq {m : ℕ} (B : SiteBasis m) (j k : Fin m) :
    B.prods j k = siteInner B.measure (B.f j) (B.f k) := by
  unfold SiteBasis.prods siteInner
  exact Finset.sum_congr rfl fun s _ => by ring

/-- `is_orthogonal` says that different rows have product zero and no row is null. -/
theorem C65_is_orthogonal {m : ℕ} (B : SiteBasis m) :
    B.isOrthogonal ↔
      (∀ j k, j ≠ k → siteInner B.measure (B.f j) (B.f k) = 0) ∧
      ∀ k, siteInner B.measure (B.f k) (B.f k) ≠ 0 := by
  unfold SiteBasis.isOrthogonal
  simp only [prods_eq]
  constructor
  · rintro ⟨h0, h⟩
    refine ⟨fun j k hjk => ?_, h0⟩
    have := h j k
    rw [if_neg hjk, div_eq_zero_iff] at this
    exact this.resolve_right (h0 k)
  · rintro ⟨h, h0⟩
    refine ⟨h0, fun j k => ?_⟩
    by_cases hjk : j = k
    · subst hjk; rw [if_pos rfl, div_self (h0 j)]
    · rw [if_neg hjk, h j k hjk, zero_div]

/-- The sinusoid basis of any number of species is orthogonal under equal concentrations, and
needs no normalization exactly for two species. -/
theorem C65_sinusoid_orthogonal {m : ℕ} (B : SiteBasis m)
    (hB : SiteBasis.init .sinusoid (fun _ : Fin m => 1 / (m : ℝ)) = some B) :
    B.isOrthogonal ∧ (B.isOrthonormal ↔ m = 2) := by
  have hm : 2 ≤ m := by
    by_contra h
    rw [(C65_function_array .sinusoid _).1 (by omega)] at hB
    exact absurd hB (by simp)
  rw [init_eq .sinusoid hm] at hB
  obtain rfl := Option.some.inj hB
  have hm' : (0 : ℝ) < m := by exact_mod_cast (by omega : 0 < m)
  have hp : ∀ j k : Fin m, siteInner (fun _ : Fin m => 1 / (m : ℝ))
      (fun s => arrayAt .sinusoid m j s) (fun s => arrayAt .sinusoid m k s) =
      if j = k then (if (j : ℕ) = 0 ∨ ((j : ℕ) % 2 = 1 ∧ (j : ℕ) + 1 = m) then 1 else 1 / 2)
      else 0 := by
    intro j k
    have : siteInner (fun _ : Fin m => 1 / (m : ℝ))
      (fun s => arrayAt .sinusoid m j s) (fun s => arrayAt .sinusoid m k s) =
      1 / m * ∑ s ∈ Finset.range m, sinRow m j s * sinRow m k s := by
      rw [Finset.sum_range, Finset.mul_sum]
      rfl
    rw [this, sinRow_gram m (by omega) j k j.2 k.2]
    simp only [Fin.ext_iff]
    split
    · split
      · field_simp
      · field_simp
    · simp
  constructor
  · rw [C65_is_orthogonal]
    constructor
    · intro j k hjk
      show siteInner (fun _ : Fin m => 1 / (m : ℝ))
        (fun s => arrayAt .sinusoid m j s) (fun s => arrayAt .sinusoid m k s) = 0
      rw [hp, if_neg hjk]
    · intro k
      show siteInner (fun _ : Fin m => 1 / (m : ℝ))
        (fun s => arrayAt .sinusoid m k s) (fun s => arrayAt .sinusoid m k s) ≠ 0
      rw [hp, if_pos rfl]
      split <;> norm_num
  · unfold SiteBasis.isOrthonormal
    constructor
    · intro h
      have := congrFun (congrFun h ⟨1, by omega⟩) ⟨1, by omega⟩
      rw [prods_eq] at this
      change siteInner (fun _ : Fin m => 1 / (m : ℝ))
        (fun s => arrayAt .sinusoid m (⟨1, by omega⟩ : Fin m) s)
        (fun s => arrayAt .sinusoid m (⟨1, by omega⟩ : Fin m) s) = _ at this
      rw [hp, if_pos rfl, Matrix.one_apply_eq] at this
      by_contra hne
      rw [if_neg (by simp; omega)] at this
      norm_num at this
    · intro h
      funext j k
      rw [prods_eq]
      change siteInner (fun _ : Fin m => 1 / (m : ℝ))
        (fun s => arrayAt .sinusoid m j s) (fun s => arrayAt .sinusoid m k s) = _
      rw [hp, Matrix.one_apply]
      split
      · rw [if_pos]; omega
      · rfl

/-- `orthonormalize`: for whatever QR factors, the constant function stays on top, the functions
become orthonormal (if the concentrations add up to 1), and the stored matrix takes the new
functions back to the old ones. -/
theorem C65_orthonormalize {m : ℕ} (B : SiteBasis m) (z : Fin m) (hz : (z : ℕ) = 0)
    (hpos : ∀ s, 0 < B.measure s) (hone : ∀ s, B.f z s = 1)
    (Q R : Matrix (Fin m) (Fin m) ℝ) (hqr : IsQR B.toFactor Q R) :
    (∀ s, (B.orthonormalize z Q R).f z s = 1) ∧
    (∀ j k, siteInner B.measure ((B.orthonormalize z Q R).f j) ((B.orthonormalize z Q R).f k) =
      if j = k then ∑ s, B.measure s else 0) ∧
    ((∑ s, B.measure s = 1) → (B.orthonormalize z Q R).isOrthonormal) ∧
    ∃ r, (B.orthonormalize z Q R).r = some r ∧ r * (B.orthonormalize z Q R).f = B.f := by
  set w := R z z with hw
  have hQz : ∀ s, Real.sqrt (B.measure s) = Q s z * w := by
    intro s
    have h1 := congrFun (congrFun hqr.product s) z
    rw [SiteBasis.toFactor, hone s, mul_one, Matrix.mul_apply, Finset.sum_eq_single z] at h1
    · exact h1
    · intro b _ hb
      rw [hqr.upper b z, mul_zero]
      have : (b : ℕ) ≠ (z : ℕ) := fun e => hb (Fin.ext e)
      exact Fin.lt_def.2 (by omega)
    · simp
  have hs0 : ∀ s, Real.sqrt (B.measure s) ≠ 0 := fun s => (Real.sqrt_pos.2 (hpos s)).ne'
  have hw0 : w ≠ 0 := by
    intro h
    exact hs0 z (by rw [hQz z, h, mul_zero])
  have hQ0 : ∀ s, Q s z ≠ 0 := by
    intro s h
    exact hs0 s (by rw [hQz s, h, zero_mul])
  have horth : ∀ j k, ∑ s, Q s j * Q s k = if j = k then 1 else 0 := by
    intro j k
    have := congrFun (congrFun hqr.orthogonal j) k
    rw [Matrix.mul_apply, Matrix.one_apply] at this
    exact this
  have hmeas : ∀ s, B.measure s = Q s z * Q s z * w ^ 2 := by
    intro s
    have := Real.mul_self_sqrt (hpos s).le
    rw [hQz s] at this
    rw [← this]; ring
  have hsum : ∑ s, B.measure s = w ^ 2 := by
    simp only [hmeas]
    rw [← Finset.sum_mul, horth, if_pos rfl, one_mul]
  have hgram : ∀ j k, siteInner B.measure ((B.orthonormalize z Q R).f j)
      ((B.orthonormalize z Q R).f k) = if j = k then ∑ s, B.measure s else 0 := by
    intro j k
    have : siteInner B.measure ((B.orthonormalize z Q R).f j) ((B.orthonormalize z Q R).f k) =
        w ^ 2 * ∑ s, Q s j * Q s k := by
      rw [Finset.mul_sum]
      apply Finset.sum_congr rfl
      intro s _
      rw [hmeas s]
      show _ * (Q s j / Q s z * (Q s k / Q s z)) = _
      have := hQ0 s
      field_simp
    rw [this, horth, hsum]
    split <;> simp
  refine ⟨fun s => div_self (hQ0 s), hgram, ?_, _, rfl, ?_⟩
  · intro h1
    funext j k
    rw [prods_eq]
    show siteInner B.measure ((B.orthonormalize z Q R).f j) ((B.orthonormalize z Q R).f k) = _
    rw [hgram, h1, Matrix.one_apply]
  · funext k s
    have e : ∀ j, Q j z / Real.sqrt (B.measure j) * R j k * (Q s j / Q s z) =
        (Q s j * R j k) / (w * Q s z) := by
      intro j
      rw [hQz j]
      have := hQ0 j
      have := hQ0 s
      field_simp
    have hprod : ∑ j, Q s j * R j k = Real.sqrt (B.measure s) * B.f k s := by
      have := congrFun (congrFun hqr.product s) k
      rw [Matrix.mul_apply] at this
      exact this.symm
    show ∑ j, Q j z / Real.sqrt (B.measure j) * R j k * (Q s j / Q s z) = _
    rw [Finset.sum_congr rfl fun j _ => e j, ← Finset.sum_div, hprod, hQz s]
    have := hQ0 s
    field_simp

/-! ### Rotation -/

theorem rotate_some {m : ℕ} (B B' : SiteBasis m) (θ : ℝ) (i j : ℤ) (hm : m ≠ 2)
    (h : B.rotate θ i j = some B') :
    ((∀ s t, B.measure s = B.measure t) → B.isOrthogonal) ∧ |i| ≤ (m : ℤ) - 2 ∧ |j| ≤ (m : ℤ) - 2 ∧
    i ≠ j ∧ B'.measure = B.measure ∧ B'.r = B.r ∧
    ∃ R, R = rotationMat (unitVec (rowOf B.f (fnRow m i))) (unitVec (rowOf B.f (fnRow m j))) θ ∧
      (∀ k : Fin m, B'.f k = if (k : ℕ) = 0 then B.f k else R *ᵥ B.f k) ∧ B'.rot = R * B.rot := by
  unfold SiteBasis.rotate at h
  split at h
  · exact absurd h (by simp)
  rename_i h1
  split at h
  · exact absurd h (by simp)
  rename_i h2
  push Not at h2
  obtain ⟨h2, h3, h4⟩ := h2
  obtain rfl := Option.some.inj h
  refine ⟨fun hu => by
    by_contra hno; exact h1 ⟨hu, hno⟩, h3, h4, h2, rfl, rfl, _, rfl, ?_, rfl⟩
  intro k
  funext s
  show (if (k : ℕ) = 0 then B.f k s else _) = _
  split
  · rfl
  · simp only [Matrix.mulVec, dotProduct]
    exact Finset.sum_congr rfl fun t _ => mul_comm _ _

theorem fnRow_names {m : ℕ} {i : ℤ} {p : ℕ} (h : NamesFn m i p) (hb : |i| ≤ (m : ℤ) - 2) :
    fnRow m i = p + 1 := by
  obtain ⟨hp, h⟩ := h
  rw [abs_le] at hb
  unfold fnRow
  rcases h with rfl | rfl
  · rw [if_neg (by omega), Int.toNat_natCast]
  · rw [if_pos (by omega)]
    omega

theorem unitVec_dot_self {m : ℕ} (v : Fin m → ℝ) (h : v ⬝ᵥ v ≠ 0) :
    unitVec v ⬝ᵥ unitVec v = 1 := by
  have h0 : 0 ≤ v ⬝ᵥ v := Finset.sum_nonneg fun s _ => mul_self_nonneg _
  have : unitVec v ⬝ᵥ unitVec v = v ⬝ᵥ v / (Real.sqrt (v ⬝ᵥ v) * Real.sqrt (v ⬝ᵥ v)) := by
    simp only [unitVec, dotProduct]
    rw [Finset.sum_div]
    exact Finset.sum_congr rfl fun s _ => by rw [div_mul_div_comm]
  rw [this, Real.mul_self_sqrt h0, div_self h]

theorem unitVec_eq {m : ℕ} (v : Fin m → ℝ) : unitVec v = (1 / Real.sqrt (v ⬝ᵥ v)) • v := by
  funext s
  simp only [unitVec, Pi.smul_apply, smul_eq_mul, dotProduct]
  ring

theorem smul_unitVec {m : ℕ} (v : Fin m → ℝ) (h : v ⬝ᵥ v ≠ 0) :
    Real.sqrt (v ⬝ᵥ v) • unitVec v = v := by
  have h0 : 0 ≤ v ⬝ᵥ v := Finset.sum_nonneg fun s _ => mul_self_nonneg _
  have : Real.sqrt (v ⬝ᵥ v) ≠ 0 := by
    rw [Real.sqrt_ne_zero h0]; exact h
  rw [unitVec_eq, smul_smul, mul_one_div_cancel this, one_smul]

theorem uniform_inner {m : ℕ} (B : SiteBasis m) (w : ℝ) (hw : ∀ s, B.measure s = w) (x y : Fin m → ℝ) :
    siteInner B.measure x y = w * x ⬝ᵥ y := by
  simp only [siteInner, dotProduct, Finset.mul_sum]
  exact Finset.sum_congr rfl fun s _ => by rw [hw s]

theorem uniform_dot {m : ℕ} (B : SiteBasis m) (w : ℝ) (hw : ∀ s, B.measure s = w)
    (ho : B.isOrthogonal) :
    (∀ j k, j ≠ k → B.f j ⬝ᵥ B.f k = 0) ∧ ∀ k, B.f k ⬝ᵥ B.f k ≠ 0 := by
  rw [C65_is_orthogonal] at ho
  simp only [uniform_inner B w hw] at ho
  obtain ⟨h1, h2⟩ := ho
  refine ⟨fun j k hjk => ?_, fun k => right_ne_zero_of_mul (h2 k)⟩
  exact (mul_eq_zero.1 (h1 j k hjk)).resolve_left (left_ne_zero_of_mul (h2 k))

/-- A rotation under equal concentrations turns the two named functions (scaled to equal length)
in their plane and leaves every other function as it was. -/
theorem C65_rotate {m : ℕ} (hm : m ≠ 2) (B B' : SiteBasis m) (θ : ℝ) (i j : ℤ) (p q : ℕ)
    (hp : NamesFn m i p) (hq : NamesFn m j q) (hpq : p ≠ q) (w : ℝ) (hw : ∀ s, B.measure s = w)
    (h : B.rotate θ i j = some B') :
    let P : Fin m := ⟨p + 1, hp.1⟩
    let Q : Fin m := ⟨q + 1, hq.1⟩
    let len := fun k : Fin m => Real.sqrt (B.f k ⬝ᵥ B.f k)
    B'.f P = Real.cos θ • B.f P - (Real.sin θ * (len P / len Q)) • B.f Q ∧
    B'.f Q = (Real.sin θ * (len Q / len P)) • B.f P + Real.cos θ • B.f Q ∧
    (∀ k, k ≠ P → k ≠ Q → B'.f k = B.f k) ∧ B'.measure = B.measure := by
  intro P Q len
  obtain ⟨ho, hi, hj, hij, hmeas, -, R, hR, hf, -⟩ := rotate_some B B' θ i j hm h
  obtain ⟨horth, hnz⟩ := uniform_dot B w hw (ho fun s t => by rw [hw, hw])
  have hPQ : P ≠ Q := by
    intro e
    have := congrArg Fin.val e
    exact hpq (by simpa [P, Q] using this)
  have hrP : rowOf B.f (fnRow m i) = B.f P := by
    rw [fnRow_names hp hi]
    funext s
    rw [rowOf, dif_pos hp.1]
  have hrQ : rowOf B.f (fnRow m j) = B.f Q := by
    rw [fnRow_names hq hj]
    funext s
    rw [rowOf, dif_pos hq.1]
  rw [hrP, hrQ] at hR
  have h11 := unitVec_dot_self _ (hnz P)
  have h22 := unitVec_dot_self _ (hnz Q)
  have h12 : unitVec (B.f P) ⬝ᵥ unitVec (B.f Q) = 0 := by
    rw [unitVec_eq, unitVec_eq, smul_dotProduct, dotProduct_smul, horth P Q hPQ]
    simp
  have hfk : ∀ k : Fin m, k = P ∨ k = Q → B'.f k = R *ᵥ B.f k := by
    intro k hk
    rw [hf k, if_neg]
    rcases hk with rfl | rfl <;> simp [P, Q]
  refine ⟨?_, ?_, ?_, hmeas⟩
  · rw [hfk P (.inl rfl), hR]
    conv_lhs => rw [← smul_unitVec _ (hnz P), mulVec_smul]
    have hu : unitVec (Real.sqrt (B.f P ⬝ᵥ B.f P) • unitVec (B.f P)) = unitVec (B.f P) := by
      rw [smul_unitVec _ (hnz P)]
    rw [hu, rotationMat_first _ _ h11 h12, smul_sub, smul_smul, mul_comm _ (Real.cos θ), ← smul_smul,
      smul_unitVec _ (hnz P), unitVec_eq (B.f Q), smul_smul, smul_smul]
    congr 2
    simp only [len]
    ring
  · rw [hfk Q (.inr rfl), hR]
    conv_lhs => rw [← smul_unitVec _ (hnz Q), mulVec_smul]
    have hu : unitVec (Real.sqrt (B.f Q ⬝ᵥ B.f Q) • unitVec (B.f Q)) = unitVec (B.f Q) := by
      rw [smul_unitVec _ (hnz Q)]
    rw [hu, rotationMat_second _ _ h22 h12, smul_add, smul_smul _ (Real.cos θ),
      mul_comm _ (Real.cos θ), ← smul_smul, smul_unitVec _ (hnz Q), unitVec_eq (B.f P), smul_smul,
      smul_smul]
    congr 2
    simp only [len]
    ring
  · intro k hkP hkQ
    rw [hf k]
    split
    · rfl
    · rw [hR]
      apply rotationMat_other
      · rw [unitVec_eq, smul_dotProduct, horth P k (Ne.symm hkP), smul_zero]
      · rw [unitVec_eq, smul_dotProduct, horth Q k (Ne.symm hkQ), smul_zero]

theorem isometry_of_orthogonal {m : ℕ} {R : Matrix (Fin m) (Fin m) ℝ} (h : R.transpose * R = 1)
    (x y : Fin m → ℝ) : (R *ᵥ x) ⬝ᵥ (R *ᵥ y) = x ⬝ᵥ y := by
  rw [dotProduct_mulVec, ← mulVec_transpose, mulVec_mulVec, h, one_mulVec]

theorem orthogonal_of_isometry {m : ℕ} {R : Matrix (Fin m) (Fin m) ℝ}
    (h : ∀ x y : Fin m → ℝ, (R *ᵥ x) ⬝ᵥ (R *ᵥ y) = x ⬝ᵥ y) : R.transpose * R = 1 := by
  ext a b
  have := h (Pi.single a 1) (Pi.single b 1)
  rw [mulVec_single_one, mulVec_single_one, single_dotProduct, one_mul] at this
  rw [Matrix.mul_apply, Matrix.one_apply]
  simp only [dotProduct, Matrix.col_apply, Pi.single_apply] at this
  rw [← this]
  rfl

/-- an allowed rotation under equal concentrations is an orthogonal matrix applied to all rows -/
theorem rotate_orthogonal {m : ℕ} (hm : m ≠ 2) (B B' : SiteBasis m) (θ : ℝ) (i j : ℤ) (p q : ℕ)
    (hp : NamesFn m i p) (hq : NamesFn m j q) (hpq : p ≠ q) (w : ℝ) (hw : ∀ s, B.measure s = w)
    (h : B.rotate θ i j = some B') :
    ∃ R : Matrix (Fin m) (Fin m) ℝ, R.transpose * R = 1 ∧ (∀ k, B'.f k = R *ᵥ B.f k) ∧
      B'.rot = R * B.rot ∧ B'.measure = B.measure ∧ ∀ k : Fin m, (k : ℕ) = 0 → B'.f k = B.f k := by
  obtain ⟨ho, hi, hj, hij, hmeas, -, R, hR, hf, hrot⟩ := rotate_some B B' θ i j hm h
  obtain ⟨horth, hnz⟩ := uniform_dot B w hw (ho fun s t => by rw [hw, hw])
  let P : Fin m := ⟨p + 1, hp.1⟩
  let Q : Fin m := ⟨q + 1, hq.1⟩
  have hPQ : P ≠ Q := by
    intro e
    have := congrArg Fin.val e
    exact hpq (by simpa [P, Q] using this)
  have hrP : rowOf B.f (fnRow m i) = B.f P := by
    rw [fnRow_names hp hi]
    funext s
    rw [rowOf, dif_pos hp.1]
  have hrQ : rowOf B.f (fnRow m j) = B.f Q := by
    rw [fnRow_names hq hj]
    funext s
    rw [rowOf, dif_pos hq.1]
  rw [hrP, hrQ] at hR
  have h11 := unitVec_dot_self _ (hnz P)
  have h22 := unitVec_dot_self _ (hnz Q)
  have h12 : unitVec (B.f P) ⬝ᵥ unitVec (B.f Q) = 0 := by
    rw [unitVec_eq, unitVec_eq, smul_dotProduct, dotProduct_smul, horth P Q hPQ]
    simp
  have hall : ∀ k, B'.f k = R *ᵥ B.f k := by
    intro k
    rw [hf k]
    split
    · rename_i hk
      rw [hR]
      symm
      apply rotationMat_other
      · rw [unitVec_eq, smul_dotProduct, horth P k (by intro e; rw [← e] at hk; simp [P] at hk),
          smul_zero]
      · rw [unitVec_eq, smul_dotProduct, horth Q k (by intro e; rw [← e] at hk; simp [Q] at hk),
          smul_zero]
    · rfl
  refine ⟨R, ?_, hall, hrot, hmeas, fun k hk => by rw [hf k, if_pos hk]⟩
  apply orthogonal_of_isometry
  intro x y
  rw [hR]
  exact rotationMat_isometry _ _ h11 h22 h12 θ _ _

/-- all scalar products of an allowed rotation under equal concentrations are kept -/
theorem rotate_gram {m : ℕ} (hm : m ≠ 2) (B B' : SiteBasis m) (θ : ℝ) (i j : ℤ) (p q : ℕ)
    (hp : NamesFn m i p) (hq : NamesFn m j q) (hpq : p ≠ q) (w : ℝ) (hw : ∀ s, B.measure s = w)
    (h : B.rotate θ i j = some B') (a b : Fin m) :
    B'.f a ⬝ᵥ B'.f b = B.f a ⬝ᵥ B.f b := by
  obtain ⟨R, hR, hf, -⟩ := rotate_orthogonal hm B B' θ i j p q hp hq hpq w hw h
  rw [hf a, hf b, isometry_of_orthogonal hR]

/-- A rotation of two different functions under equal concentrations keeps every scalar product:
an orthogonal (orthonormal) basis stays so. -/
theorem C65_rotate_preserves {m : ℕ} (B B' : SiteBasis m) (θ : ℝ) (i j : ℤ) (p q : ℕ)
    (hd : m = 2 ∨ NamesFn m i p ∧ NamesFn m j q ∧ p ≠ q) (w : ℝ)
    (hw : ∀ s, B.measure s = w) (h : B.rotate θ i j = some B') (a b : Fin m) :
    siteInner B'.measure (B'.f a) (B'.f b) = siteInner B.measure (B.f a) (B.f b) := by
  by_cases hm : m = 2
  · subst hm
    unfold SiteBasis.rotate at h
    split at h
    · exact absurd h (by simp)
    rename_i h1
    rw [if_pos rfl] at h
    have ho : B.isOrthogonal := by
      by_contra hno
      exact h1 ⟨fun s t => by rw [hw, hw], hno⟩
    obtain rfl := Option.some.inj h
    obtain ⟨hz, -⟩ := (C65_is_orthogonal B).1 ho
    have hf : ∀ k : Fin 2, (fun s => if (k : ℕ) = 1 then -1 * B.f k s else B.f k s) =
        (if (k : ℕ) = 1 then (-1 : ℝ) else 1) • B.f k := by
      intro k
      funext s
      simp only [Pi.smul_apply, smul_eq_mul]
      split <;> simp
    show siteInner B.measure (fun s => if (a : ℕ) = 1 then -1 * B.f a s else B.f a s)
      (fun s => if (b : ℕ) = 1 then -1 * B.f b s else B.f b s) = _
    rw [hf, hf]
    rw [uniform_inner B w hw, uniform_inner B w hw, smul_dotProduct, dotProduct_smul]
    by_cases hab : a = b
    · subst hab
      split <;> simp
    · have := hz a b hab
      rw [uniform_inner B w hw] at this
      simp only [smul_eq_mul]
      linear_combination ((if (a : ℕ) = 1 then (-1 : ℝ) else 1) *
        (if (b : ℕ) = 1 then (-1 : ℝ) else 1) - 1) * this
  · obtain ⟨hp, hq, hpq⟩ := hd.resolve_left hm
    obtain ⟨-, -, -, -, hmeas, -⟩ := rotate_some B B' θ i j hm h
    rw [hmeas, uniform_inner B w hw, uniform_inner B w hw,
      rotate_gram hm B B' θ i j p q hp hq hpq w hw h a b]

/-- Rotations in one plane add up: turning by `θ` and then by `φ` is turning by `θ + φ`, for the
functions and for the stored rotation matrix. -/
theorem C65_rotate_additive {m : ℕ} (hm : m ≠ 2) (B B1 B2 B3 : SiteBasis m) (θ φ : ℝ) (i j : ℤ)
    (p q : ℕ) (hp : NamesFn m i p) (hq : NamesFn m j q) (hpq : p ≠ q) (w : ℝ)
    (hw : ∀ s, B.measure s = w) (h1 : B.rotate θ i j = some B1) (h2 : B1.rotate φ i j = some B2)
    (h3 : B.rotate (θ + φ) i j = some B3) : B2 = B3 := by
  have hg := rotate_gram hm B B1 θ i j p q hp hq hpq w hw h1
  obtain ⟨hfP, hfQ, -, -⟩ := C65_rotate hm B B1 θ i j p q hp hq hpq w hw h1
  obtain ⟨ho, hi, hj, hij, hmeas, hr, R, hR, hf, hrot⟩ := rotate_some B B1 θ i j hm h1
  obtain ⟨-, -, -, -, hmeas2, hr2, R2, hR2, hf2, hrot2⟩ := rotate_some B1 B2 φ i j hm h2
  obtain ⟨-, -, -, -, hmeas3, hr3, R3, hR3, hf3, hrot3⟩ := rotate_some B B3 (θ + φ) i j hm h3
  obtain ⟨horth, hnz⟩ := uniform_dot B w hw (ho fun s t => by rw [hw, hw])
  set P : Fin m := ⟨p + 1, hp.1⟩ with hPdef
  set Q : Fin m := ⟨q + 1, hq.1⟩ with hQdef
  have hPQ : P ≠ Q := by
    intro e
    have := congrArg Fin.val e
    exact hpq (by simpa [P, Q] using this)
  have hrP : ∀ A : SiteBasis m, rowOf A.f (fnRow m i) = A.f P := by
    intro A
    rw [fnRow_names hp hi]
    funext s
    rw [rowOf, dif_pos hp.1]
  have hrQ : ∀ A : SiteBasis m, rowOf A.f (fnRow m j) = A.f Q := by
    intro A
    rw [fnRow_names hq hj]
    funext s
    rw [rowOf, dif_pos hq.1]
  rw [hrP, hrQ] at hR hR2 hR3
  have h11 := unitVec_dot_self _ (hnz P)
  have h22 := unitVec_dot_self _ (hnz Q)
  have h12 : unitVec (B.f P) ⬝ᵥ unitVec (B.f Q) = 0 := by
    rw [unitVec_eq, unitVec_eq, smul_dotProduct, dotProduct_smul, horth P Q hPQ]
    simp
  have hlen : ∀ k, Real.sqrt (B.f k ⬝ᵥ B.f k) ≠ 0 := by
    intro k
    have h0 : 0 ≤ B.f k ⬝ᵥ B.f k := Finset.sum_nonneg fun s _ => mul_self_nonneg _
    rw [Real.sqrt_ne_zero h0]
    exact hnz k
  have huP : unitVec (B1.f P) = Real.cos θ • unitVec (B.f P) - Real.sin θ • unitVec (B.f Q) := by
    rw [unitVec_eq, hg, hfP, unitVec_eq, unitVec_eq, smul_sub, smul_smul, smul_smul, smul_smul,
      smul_smul]
    have := hlen P
    have := hlen Q
    congr 2
    · ring
    · field_simp
  have huQ : unitVec (B1.f Q) = Real.sin θ • unitVec (B.f P) + Real.cos θ • unitVec (B.f Q) := by
    rw [unitVec_eq, hg, hfQ, unitVec_eq, unitVec_eq, smul_add, smul_smul, smul_smul, smul_smul,
      smul_smul]
    have := hlen P
    have := hlen Q
    congr 2
    · field_simp
    · ring
  rw [huP, huQ, rotationMat_plane] at hR2
  have hmul : R2 * R = R3 := by
    rw [hR2, hR, hR3]
    exact rotationMat_mul _ _ h11 h22 h12 θ φ
  have e1 : B2.measure = B3.measure := by rw [hmeas2, hmeas, hmeas3]
  have e2 : B2.f = B3.f := by
    funext k
    rw [hf2 k, hf3 k, hf k]
    split
    · rfl
    · rw [mulVec_mulVec, hmul]
  have e3 : B2.r = B3.r := by rw [hr2, hr, hr3]
  have e4 : B2.rot = B3.rot := by rw [hrot2, hrot, hrot3, ← hmul, Matrix.mul_assoc]
  cases B2; cases B3
  simp only at e1 e2 e3 e4
  rw [e1, e2, e3, e4]

theorem rotations_tracks {m : ℕ} (hm : m ≠ 2) (l : List (ℝ × ℤ × ℤ)) : ∀ B B' : SiteBasis m,
    B.rotations l = some B' → ∃ T, B'.rot = T * B.rot ∧
      ∀ k : Fin m, (k : ℕ) ≠ 0 → B'.f k = T *ᵥ B.f k := by
  induction l with
  | nil =>
    intro B B' h
    obtain rfl := Option.some.inj h
    exact ⟨1, by rw [Matrix.one_mul], fun k _ => by rw [one_mulVec]⟩
  | cons x xs ih =>
    intro B B' h
    rw [SiteBasis.rotations] at h
    obtain ⟨B1, h1, h2⟩ := Option.bind_eq_some_iff.1 h
    obtain ⟨T, hT, hf⟩ := ih B1 B' h2
    obtain ⟨-, -, -, -, -, -, R, -, hf1, hrot⟩ := rotate_some B B1 _ _ _ hm h1
    refine ⟨T * R, by rw [hT, hrot, Matrix.mul_assoc], ?_⟩
    intro k hk
    rw [hf k hk, hf1 k, if_neg hk, mulVec_mulVec]

/-- With more than two species the stored rotation matrix is the product of all rotations made, of
any number and in any planes: it takes the first functions to the present ones. -/
theorem C65_rotation_array {m : ℕ} (hm : m ≠ 2) (l : List (ℝ × ℤ × ℤ)) (B B' : SiteBasis m)
    (h0 : B.rot = 1) (h : B.rotations l = some B') (k : Fin m) (hk : (k : ℕ) ≠ 0) :
    B'.f k = B'.rot *ᵥ B.f k := by
  obtain ⟨T, hT, hf⟩ := rotations_tracks hm l B B' h
  rw [hf k hk, hT, h0, Matrix.mul_one]

theorem binary_rotations (l : List (ℝ × ℤ × ℤ)) : ∀ B B' : SiteBasis 2,
    B.rotations l = some B' →
      (∀ k s, B'.f k s = (if (k : ℕ) = 1 then (-1) ^ l.length else 1) * B.f k s) ∧
      (B.rot = 1 ∨ B.rot = -1 → B'.rot = if l = [] then B.rot else -1) := by
  induction l with
  | nil =>
    intro B B' h
    obtain rfl := Option.some.inj h
    simp
  | cons x xs ih =>
    intro B B' h
    rw [SiteBasis.rotations] at h
    obtain ⟨B1, h1, h2⟩ := Option.bind_eq_some_iff.1 h
    obtain ⟨hf, hr⟩ := ih B1 B' h2
    unfold SiteBasis.rotate at h1
    split at h1
    · exact absurd h1 (by simp)
    rw [if_pos rfl] at h1
    obtain rfl := Option.some.inj h1
    constructor
    · intro k s
      rw [hf k s]
      show _ * (if (k : ℕ) = 1 then -1 * B.f k s else B.f k s) = _
      split
      · rw [List.length_cons, pow_succ]; ring
      · rfl
    · intro hB
      have hneg : (-1 : ℝ) • B.rot * B.rot = -1 := by
        rcases hB with h | h <;> rw [h] <;> simp
      rw [hr (.inr hneg)]
      simp only [reduceCtorEq, if_false]
      split
      · exact hneg
      · rfl

/-- With two species the stored matrix is right after no rotation or an odd number of them and wrong
after an even number: line 295 already multiplies with the matrix that line 331 multiplies again. -/
theorem C65_rotation_array_binary (l : List (ℝ × ℤ × ℤ)) (B B' : SiteBasis 2) (h0 : B.rot = 1)
    (hne : ∃ s, B.f 1 s ≠ 0) (h : B.rotations l = some B') :
    (∀ k : Fin 2, (k : ℕ) ≠ 0 → B'.f k = B'.rot *ᵥ B.f k) ↔ (l = [] ∨ Odd l.length) := by
  obtain ⟨hf, hr⟩ := binary_rotations l B B' h
  have hr := hr (.inl h0)
  have hf1 : B'.f 1 = ((-1 : ℝ) ^ l.length) • B.f 1 := by
    funext s
    rw [hf 1 s]
    simp
  constructor
  · intro hall
    by_contra hcon
    push Not at hcon
    obtain ⟨hl, hodd⟩ := hcon
    have := hall 1 (by simp)
    rw [hr, if_neg hl, hf1, (Nat.not_odd_iff_even.1 hodd).neg_one_pow, one_smul, neg_mulVec,
      one_mulVec] at this
    obtain ⟨s, hs⟩ := hne
    have h2 := congrFun this s
    simp only [Pi.neg_apply] at h2
    exact hs (by linarith)
  · intro hl k hk
    have hk1 : k = 1 := by
      fin_cases k
      · simp at hk
      · rfl
    subst hk1
    rw [hf1, hr]
    rcases hl with rfl | hodd
    · simp [h0]
    · rw [if_neg (by rintro rfl; simp at hodd), hodd.neg_one_pow, neg_mulVec, one_mulVec, neg_smul,
        one_smul]

/-- The claim of `C65_rotation_array` for two species is false: two rotations bring the functions
back but leave the stored matrix at `-1`. -/
theorem C65_rotation_array_binary_fails :
    ∃ (B B' : SiteBasis 2) (l : List (ℝ × ℤ × ℤ)), SiteBasis.init .sinusoid (fun _ => 1 / 2) = some B ∧
      B.rotations l = some B' ∧ B'.f = B.f ∧ B'.rot = -1 ∧ B.rot = 1 := by
  obtain ⟨B, hB, hmeas, hrot, -, -⟩ := (C65_function_array .sinusoid (m := 2) (fun _ => 1 / 2)).2 le_rfl
  have ho : B.isOrthogonal := (C65_sinusoid_orthogonal B (by rw [← hB]; norm_num)).1
  have hrt : ∀ A : SiteBasis 2, A.isOrthogonal → A.rotate 0 0 1 = some { A with
      f := fun k s => if (k : ℕ) = 1 then -1 * A.f k s else A.f k s
      rot := (-1 : ℝ) • A.rot * A.rot } := by
    intro A hA
    unfold SiteBasis.rotate
    rw [if_neg (by rintro ⟨-, h⟩; exact h hA), if_pos rfl]
  have h1 := hrt B ho
  set B1 : SiteBasis 2 := { B with
      f := fun k s => if (k : ℕ) = 1 then -1 * B.f k s else B.f k s
      rot := (-1 : ℝ) • B.rot * B.rot } with hB1
  have hw : ∀ s, B.measure s = 1 / 2 := fun s => by rw [hmeas]
  have ho1 : B1.isOrthogonal := by
    rw [C65_is_orthogonal]
    have hpres := C65_rotate_preserves B B1 0 0 1 0 0 (.inl rfl) (1 / 2) hw h1
    simp only [hpres]
    exact (C65_is_orthogonal B).1 ho
  have h2 := hrt B1 ho1
  have hl : B.rotations [(0, 0, 1), (0, 0, 1)] = some { B1 with
      f := fun k s => if (k : ℕ) = 1 then -1 * B1.f k s else B1.f k s
      rot := (-1 : ℝ) • B1.rot * B1.rot } := by
    rw [SiteBasis.rotations, h1, Option.bind_some, SiteBasis.rotations, h2, Option.bind_some,
      SiteBasis.rotations]
  obtain ⟨hf, hr⟩ := binary_rotations _ B _ hl
  refine ⟨B, _, _, hB, hl, ?_, ?_, hrot⟩
  · funext k s
    rw [hf k s]
    simp
  · rw [hr (.inl hrot), if_neg (by simp)]

/-- The check that the two functions differ compares the numbers given, not what they name: the
last function is also number `-1`, and "rotating" it with itself multiplies it by `2 cos θ - 1`. -/
theorem C65_rotate_same_function {m : ℕ} (hm : 3 ≤ m) (B : SiteBasis m) (ho : B.isOrthogonal)
    (w : ℝ) (hw : ∀ s, B.measure s = w) (θ : ℝ) :
    ∃ B', B.rotate θ ((m : ℤ) - 2) (-1) = some B' ∧
      B'.f ⟨m - 1, by omega⟩ = (2 * Real.cos θ - 1) • B.f ⟨m - 1, by omega⟩ := by
  obtain ⟨horth, hnz⟩ := uniform_dot B w hw ho
  have hacc : ∃ B', B.rotate θ ((m : ℤ) - 2) (-1) = some B' := by
    unfold SiteBasis.rotate
    rw [if_neg (by rintro ⟨-, h⟩; exact h ho), if_neg (by omega), if_neg]
    · exact ⟨_, rfl⟩
    · rw [abs_of_nonneg (by omega : (0 : ℤ) ≤ (m : ℤ) - 2)]
      simp only [abs_neg, abs_one]
      omega
  obtain ⟨B', hB'⟩ := hacc
  refine ⟨B', hB', ?_⟩
  obtain ⟨-, hi, hj, -, -, -, R, hR, hf, -⟩ := rotate_some B B' θ _ _ (by omega) hB'
  have e1 : fnRow m ((m : ℤ) - 2) = m - 1 := by
    rw [fnRow_names (p := m - 2) ⟨by omega, .inl (by omega)⟩ hi]; omega
  have e2 : fnRow m (-1) = m - 1 := by
    rw [fnRow_names (p := m - 2) ⟨by omega, .inr (by omega)⟩ hj]; omega
  have hrow : rowOf B.f (m - 1) = B.f ⟨m - 1, by omega⟩ := by
    funext s
    rw [rowOf, dif_pos]
  rw [e1, e2, hrow] at hR
  rw [hf, if_neg (by simp; omega), hR]
  conv_lhs => rw [← smul_unitVec _ (hnz ⟨m - 1, by omega⟩), mulVec_smul]
  have hu : unitVec (Real.sqrt (B.f ⟨m - 1, by omega⟩ ⬝ᵥ B.f ⟨m - 1, by omega⟩) •
      unitVec (B.f ⟨m - 1, by omega⟩)) = unitVec (B.f ⟨m - 1, by omega⟩) := by
    rw [smul_unitVec _ (hnz _)]
  rw [hu, rotationMat_same _ (unitVec_dot_self _ (hnz _)), smul_smul, mul_comm, ← smul_smul,
    smul_unitVec _ (hnz _)]

/-- By 60 degrees that removes the function: the rows no longer span the functions of the site. -/
theorem C65_rotate_same_function_destroys :
    ∃ B B' : SiteBasis 3, SiteBasis.init .sinusoid (fun _ => 1 / (3 : ℝ)) = some B ∧
      B.rotate (Real.pi / 3) 1 (-1) = some B' ∧ (∀ s, B'.f 2 s = 0) ∧ ¬ B'.isOrthogonal := by
  obtain ⟨B, hB, hmeas, -, -, -⟩ :=
    (C65_function_array .sinusoid (m := 3) (fun _ => 1 / (3 : ℝ))).2 (by norm_num)
  have ho : B.isOrthogonal := (C65_sinusoid_orthogonal B (by rw [← hB]; norm_num)).1
  obtain ⟨B', h1, h2⟩ := C65_rotate_same_function le_rfl B ho (1 / 3) (fun s => by rw [hmeas])
    (Real.pi / 3)
  have hz : ∀ s, B'.f 2 s = 0 := by
    intro s
    have := congrFun h2 s
    rw [Real.cos_pi_div_three] at this
    simpa using this
  refine ⟨B, B', hB, h1, hz, ?_⟩
  rw [C65_is_orthogonal]
  rintro ⟨-, h⟩
  apply h 2
  unfold siteInner
  apply Finset.sum_eq_zero
  intro s _
  rw [hz s]
  ring

/-- Rotating the basis of a sublattice of a cluster subspace: every basis object on a site with
that site space is rotated, exactly once, however many orbits and sites share it; no other is. -/
theorem C65_each_basis_once (space : ℕ → ℕ) (first : ℕ) (orbits : List (List ℕ)) :
    (rotatedObjects space first orbits).Nodup ∧
    ∀ b, b ∈ rotatedObjects space first orbits ↔
      b = first ∨ (space b = space first ∧ ∃ o ∈ orbits, b ∈ o) := by
  have key : ∀ (l acc : List ℕ), acc.Nodup →
      let r := l.foldl (fun rotated b =>
        if space b = space first ∧ b ∉ rotated then rotated ++ [b] else rotated) acc
      r.Nodup ∧ ∀ b, b ∈ r ↔ b ∈ acc ∨ (space b = space first ∧ b ∈ l) := by
    intro l
    induction l with
    | nil => intro acc h; simp [h]
    | cons x xs ih =>
      intro acc hacc
      simp only [List.foldl_cons]
      by_cases hx : space x = space first ∧ x ∉ acc
      · rw [if_pos hx]
        have hnd : (acc ++ [x]).Nodup := by
          rw [List.nodup_append]
          refine ⟨hacc, by simp, ?_⟩
          intro a ha b hb
          rw [List.mem_singleton] at hb
          subst hb
          intro e; subst e; exact hx.2 ha
        obtain ⟨h1, h2⟩ := ih (acc ++ [x]) hnd
        refine ⟨h1, fun b => ?_⟩
        rw [h2 b, List.mem_append, List.mem_singleton, List.mem_cons]
        constructor
        · rintro ((h | rfl) | ⟨h, h'⟩)
          · exact .inl h
          · exact .inr ⟨hx.1, .inl rfl⟩
          · exact .inr ⟨h, .inr h'⟩
        · rintro (h | ⟨h, rfl | h'⟩)
          · exact .inl (.inl h)
          · exact .inl (.inr rfl)
          · exact .inr ⟨h, h'⟩
      · rw [if_neg hx]
        obtain ⟨h1, h2⟩ := ih acc hacc
        refine ⟨h1, fun b => ?_⟩
        rw [h2 b, List.mem_cons]
        constructor
        · rintro (h | ⟨h, h'⟩)
          · exact .inl h
          · exact .inr ⟨h, .inr h'⟩
        · rintro (h | ⟨h, rfl | h'⟩)
          · exact .inl h
          · left
            by_contra hb
            exact hx ⟨h, hb⟩
          · exact .inr ⟨h, h'⟩
  obtain ⟨h1, h2⟩ := key orbits.flatten [first] (by simp)
  refine ⟨h1, fun b => ?_⟩
  rw [rotatedObjects, h2 b, List.mem_singleton, List.mem_flatten]

/-! ### The hypotheses can be met -/

-- the sinusoid basis of three species with equal concentrations can be rotated
example (θ : ℝ) : ∃ B B' : SiteBasis 3, SiteBasis.init .sinusoid (fun _ => 1 / ((3 : ℕ) : ℝ)) = some B ∧
    B.rotations [(θ, 0, 1)] = some B' ∧ NamesFn 3 0 0 ∧ NamesFn 3 1 1 := by
  obtain ⟨B, hB, -⟩ := (C65_function_array .sinusoid (m := 3) (fun _ => 1 / ((3 : ℕ) : ℝ))).2 (by norm_num)
  have ho : B.isOrthogonal := (C65_sinusoid_orthogonal B hB).1
  have : ∃ B', B.rotations [(θ, 0, 1)] = some B' := by
    rw [SiteBasis.rotations, SiteBasis.rotate, if_neg (by rintro ⟨-, h⟩; exact h ho),
      if_neg (by norm_num), if_neg (by norm_num)]
    exact ⟨_, rfl⟩
  obtain ⟨B', hB'⟩ := this
  exact ⟨B, B', hB, hB', ⟨by norm_num, .inl rfl⟩, ⟨by norm_num, .inl rfl⟩⟩

-- QR factors of the indicator basis of two species with concentrations 1/2
example : ∃ B : SiteBasis 2, SiteBasis.init .indicator (fun _ => 1 / 2) = some B ∧
    ∃ Q R, IsQR B.toFactor Q R := by
  obtain ⟨B, hB, hmeas, -, -, hf⟩ := (C65_function_array .indicator (m := 2) (fun _ => 1 / 2)).2 le_rfl
  have hs : Real.sqrt (1 / 2) * Real.sqrt (1 / 2) = 1 / 2 := Real.mul_self_sqrt (by norm_num)
  set r := Real.sqrt (1 / 2) with hr
  refine ⟨B, hB, !![r, r; r, -r], !![1, 1 / 2; 0, 1 / 2], ⟨?_, ?_, ?_⟩⟩
  · ext i j
    fin_cases i <;> fin_cases j <;> simp [Matrix.mul_apply, hs] <;> norm_num
  · intro i j hij
    fin_cases i <;> fin_cases j <;> simp_all
  · ext s k
    have : B.toFactor s k = r * B.f k s := by rw [SiteBasis.toFactor, hmeas]
    rw [this, hf k s]
    fin_cases s <;> fin_cases k <;> simp [flavorFn, Matrix.mul_apply]; ring

example : rotatedObjects (fun b => b % 2) 1 [[1, 2], [1, 3], [3, 4, 1]] = [1, 3] := by decide

end Smol
