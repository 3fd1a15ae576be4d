import Verif.Props.NatSolutions
import Verif.Props.IntLinAlg
import Verif.Lemmas.Composition
import Mathlib.Algebra.BigOperators.Ring.Finset
import Mathlib.Algebra.BigOperators.Field
import Mathlib.Data.Rat.Lemmas
import Mathlib.LinearAlgebra.Dimension.Finite

/-!
# Coordinates: integer and rational kernels
-/

namespace Smol
open Spec

/-- `Σⱼ a j * w j` over the first `d` indices. -/
def dsum {K : Type} [CommRing K] (d : ℕ) (a w : ℕ → K) : K := ∑ j ∈ Finset.range d, a j * w j

/-- `Σₖ yₖ vₖ` at `j`. -/
def lincomb {K : Type} [CommRing K] (vs : List (ℕ → ℤ)) (y : ℕ → K) (j : ℕ) : K :=
  ∑ k ∈ Finset.range vs.length, y k * ((vs.getD k (fun _ => 0) j : ℤ) : K)

/-- The basis generates the kernel freely, over the integers. -/
structure FreeKernel (K : Type) [CommRing K] (rows d : ℕ) (a : IMat) (vs : List (ℕ → ℤ)) : Prop where
  solves : ∀ y : ℕ → K, ∀ r < rows, dsum d (fun j => ((a r j : ℤ) : K)) (lincomb vs y) = 0
  spans : ∀ w : ℕ → K, (∀ r < rows, dsum d (fun j => ((a r j : ℤ) : K)) w = 0) →
    ∃ y : ℕ → K, ∀ j < d, w j = lincomb vs y j
  free : ∀ y : ℕ → K, (∀ j < d, lincomb vs y j = 0) → ∀ k < vs.length, y k = 0

theorem mulVec_eq_dsum {rows d : ℕ} (a : IMat) (w : ℕ → ℤ) (r : Fin rows) :
    (asMatrix rows d a).mulVec (restrict d w) r = dsum d (a r) w := by
  rw [dsum, Finset.sum_range]
  rfl

theorem lincomb_eq_fin {d : ℕ} (vs : List (ℕ → ℤ)) (y : ℕ → ℤ) (j : Fin d) :
    lincomb vs y j = ∑ i : Fin (vs.map (restrict d)).length, y i * (vs.map (restrict d))[i] j := by
  rw [lincomb, Finset.sum_range]
  refine Fintype.sum_equiv (finCongr (by simp)) _ _ fun i => ?_
  simp only [finCongr_apply, Fin.val_cast, Fin.getElem_fin, List.getElem_map, restrict, Int.cast_id]
  rw [List.getD_eq_getElem?_getD, List.getElem?_eq_getElem i.2, Option.getD_some]
  rfl

theorem freeKernel_int {rows d : ℕ} {a : IMat} {b : Fin rows → ℤ} {n0 : ℕ → ℤ} {vs : List (ℕ → ℤ)}
    (hgen : IsGeneralSolution (asMatrix rows d a) b (restrict d n0) (vs.map (restrict d)))
    (hbase : (asMatrix rows d a).mulVec (restrict d n0) = b) : FreeKernel ℤ rows d a vs where
  solves y r hr := by
    have := congrFun (generalSolution_solves hgen hbase fun i => y i) ⟨r, hr⟩
    have e : (fun j : Fin d => ∑ i : Fin (vs.map (restrict d)).length, y i * (vs.map (restrict d))[i] j) =
        restrict d (lincomb vs y) := by
      funext j
      exact (lincomb_eq_fin vs y j).symm
    rw [e, mulVec_eq_dsum] at this
    exact this
  spans w hw := by
    have h : (asMatrix rows d a).mulVec (restrict d n0 + restrict d w) = b := by
      rw [Matrix.mulVec_add, hbase]
      funext r
      rw [Pi.add_apply, mulVec_eq_dsum]
      have := hw r r.2
      simp only [Int.cast_id] at this
      rw [this, add_zero]
    obtain ⟨y, hy, -⟩ := (hgen _).1 h
    refine ⟨fun k => if hk : k < (vs.map (restrict d)).length then y ⟨k, hk⟩ else 0, fun j hj => ?_⟩
    have := congrFun hy ⟨j, hj⟩
    rw [Pi.add_apply] at this
    have h' := add_left_cancel this
    refine (show w j = restrict d w ⟨j, hj⟩ from rfl).trans (h'.trans ?_)
    refine Eq.trans ?_ (lincomb_eq_fin vs _ (⟨j, hj⟩ : Fin d)).symm
    exact Finset.sum_congr rfl fun i _ => by rw [dif_pos i.2]
  free y hy k hk := by
    have := generalSolution_unique hgen hbase (y := fun i => y i) (y' := fun _ => 0) (fun r => by
      rw [← lincomb_eq_fin, hy r r.2]
      simp)
    exact congrFun this ⟨k, by simpa using hk⟩

/-- A common denominator. -/
theorem exists_common_den (m : ℕ) (y : ℕ → ℚ) : ∃ D : ℕ, 0 < D ∧ ∃ z : ℕ → ℤ, ∀ k < m, (z k : ℚ) = D * y k := by
  refine ⟨∏ k ∈ Finset.range m, (y k).den, Finset.prod_pos fun k _ => (y k).den_pos,
    fun k => (y k).num * ((∏ k ∈ Finset.range m, (y k).den) / (y k).den : ℕ), fun k hk => ?_⟩
  have hd : (y k).den ∣ ∏ k ∈ Finset.range m, (y k).den :=
    Finset.dvd_prod_of_mem (fun k => (y k).den) (Finset.mem_range.2 hk)
  obtain ⟨q, hq⟩ := hd
  simp only
  rw [hq, Nat.mul_div_cancel_left _ (y k).den_pos]
  push_cast
  rw [mul_right_comm, Rat.den_mul_eq_num]

theorem lincomb_smul (vs : List (ℕ → ℤ)) (c : ℚ) (y : ℕ → ℚ) (j : ℕ) :
    lincomb vs (fun k => c * y k) j = c * lincomb vs y j := by
  simp only [lincomb, Finset.mul_sum, mul_assoc]

theorem lincomb_cast (vs : List (ℕ → ℤ)) (y : ℕ → ℤ) (j : ℕ) :
    ((lincomb vs y j : ℤ) : ℚ) = lincomb vs (fun k => (y k : ℚ)) j := by
  simp [lincomb]

theorem lincomb_congr {K : Type} [CommRing K] {vs : List (ℕ → ℤ)} {y z : ℕ → K}
    (h : ∀ k < vs.length, y k = z k) (j : ℕ) : lincomb vs y j = lincomb vs z j :=
  Finset.sum_congr rfl fun k hk => by rw [h k (Finset.mem_range.1 hk)]

theorem dsum_congr {K : Type} [CommRing K] {d : ℕ} {a w v : ℕ → K} (h : ∀ j < d, w j = v j) :
    dsum d a w = dsum d a v :=
  Finset.sum_congr rfl fun k hk => by rw [h k (Finset.mem_range.1 hk)]

theorem dsum_smul (d : ℕ) (a w : ℕ → ℚ) (c : ℚ) : dsum d a (fun j => c * w j) = c * dsum d a w := by
  simp only [dsum, Finset.mul_sum]
  exact Finset.sum_congr rfl fun _ _ => by ring

theorem dsum_cast (d : ℕ) (a w : ℕ → ℤ) :
    ((dsum d a w : ℤ) : ℚ) = dsum d (fun j => (a j : ℚ)) fun j => (w j : ℚ) := by
  simp [dsum]

/-- From the integers to the rationals. -/
theorem freeKernel_rat {rows d : ℕ} {a : IMat} {vs : List (ℕ → ℤ)} (h : FreeKernel ℤ rows d a vs) :
    FreeKernel ℚ rows d a vs where
  solves y r hr := by
    obtain ⟨D, hD, z, hz⟩ := exists_common_den vs.length y
    have h1 := h.solves z r hr
    have h2 : dsum d (fun j => (a r j : ℚ)) (fun j => (D : ℚ) * lincomb vs y j) = 0 := by
      have : ∀ j < d, (D : ℚ) * lincomb vs y j = ((lincomb vs z j : ℤ) : ℚ) := fun j _ => by
        rw [← lincomb_smul, lincomb_cast]
        exact lincomb_congr (fun k hk => (hz k hk).symm) j
      rw [dsum_congr this, ← dsum_cast]
      simp only [Int.cast_id] at h1
      rw [h1, Int.cast_zero]
    rw [dsum_smul] at h2
    rcases mul_eq_zero.1 h2 with h3 | h3
    · exact absurd h3 (by positivity)
    · exact h3
  spans w hw := by
    obtain ⟨D, hD, z, hz⟩ := exists_common_den d w
    obtain ⟨y, hy⟩ := h.spans z (fun r hr => by
      have h1 : ((dsum d (a r) z : ℤ) : ℚ) = D * dsum d (fun j => (a r j : ℚ)) w := by
        rw [dsum_cast, dsum_congr hz, dsum_smul]
      rw [hw r hr, mul_zero] at h1
      simp only [Int.cast_id]
      exact_mod_cast h1)
    refine ⟨fun k => (1 / (D : ℚ)) * y k, fun j hj => ?_⟩
    have hD' : (D : ℚ) ≠ 0 := by positivity
    rw [lincomb_smul, ← lincomb_cast, ← hy j hj, hz j hj]
    field_simp
  free y hy k hk := by
    obtain ⟨D, hD, z, hz⟩ := exists_common_den vs.length y
    have := h.free z (fun j hj => by
      have h1 : ((lincomb vs z j : ℤ) : ℚ) = D * lincomb vs y j := by
        rw [lincomb_cast, ← lincomb_smul]
        exact lincomb_congr hz j
      rw [hy j hj, mul_zero] at h1
      exact_mod_cast h1) k hk
    have h2 := hz k hk
    rw [this, Int.cast_zero] at h2
    rcases mul_eq_zero.1 h2.symm with h3 | h3
    · exact absurd h3 (by positivity)
    · exact h3

/-- The defining property of the pseudo-inverse that is used: `B P B = B`, where `B = basis.T`. -/
def IsPinv (d : ℕ) (vs : List (ℕ → ℤ)) (p : ℕ → ℕ → ℚ) : Prop :=
  ∀ i < d, ∀ k < vs.length,
    lincomb vs (fun k' => ∑ i' ∈ Finset.range d, p k' i' * ((vs.getD k (fun _ => 0) i' : ℤ) : ℚ)) i =
      ((vs.getD k (fun _ => 0) i : ℤ) : ℚ)

/-- The pseudo-inverse recovers coefficients. -/
theorem pinv_recovers {rows d : ℕ} {a : IMat} {vs : List (ℕ → ℤ)} (h : FreeKernel ℚ rows d a vs)
    {p : ℕ → ℕ → ℚ} (hp : IsPinv d vs p) (x : ℕ → ℚ) {w : ℕ → ℚ} (hw : ∀ i < d, w i = lincomb vs x i)
    {k : ℕ} (hk : k < vs.length) : ∑ i ∈ Finset.range d, p k i * w i = x k := by
  have key : ∀ j < d, lincomb vs (fun k => ∑ i ∈ Finset.range d, p k i * w i - x k) j = 0 := by
    intro j hj
    have e1 : lincomb vs (fun k => ∑ i ∈ Finset.range d, p k i * w i) j = lincomb vs x j := by
      calc lincomb vs (fun k => ∑ i ∈ Finset.range d, p k i * w i) j
          = ∑ m ∈ Finset.range vs.length, x m * lincomb vs (fun k' => ∑ i' ∈ Finset.range d,
              p k' i' * ((vs.getD m (fun _ => 0) i' : ℤ) : ℚ)) j := by
            have : ∀ k, ∑ i ∈ Finset.range d, p k i * w i = ∑ m ∈ Finset.range vs.length,
                x m * ∑ i' ∈ Finset.range d, p k i' * ((vs.getD m (fun _ => 0) i' : ℤ) : ℚ) := by
              intro k
              simp only [Finset.mul_sum]
              rw [Finset.sum_comm]
              refine Finset.sum_congr rfl fun i hi => ?_
              rw [hw i (Finset.mem_range.1 hi), lincomb, Finset.mul_sum]
              exact Finset.sum_congr rfl fun _ _ => by ring
            unfold lincomb
            simp only [this, Finset.sum_mul, Finset.mul_sum]
            rw [Finset.sum_comm]
            refine Finset.sum_congr rfl fun m _ => Finset.sum_congr rfl fun k _ => ?_
            exact Finset.sum_congr rfl fun _ _ => by ring
        _ = lincomb vs x j := Finset.sum_congr rfl fun m hm => by
            rw [hp j hj m (Finset.mem_range.1 hm)]
    have e2 : lincomb vs (fun k => ∑ i ∈ Finset.range d, p k i * w i - x k) j =
        lincomb vs (fun k => ∑ i ∈ Finset.range d, p k i * w i) j - lincomb vs x j := by
      simp only [lincomb, sub_mul, Finset.sum_sub_distrib]
    rw [e2, e1, sub_self]
  have := h.free _ key k hk
  exact sub_eq_zero.1 this

end Smol
