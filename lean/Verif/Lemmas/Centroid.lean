import Verif.Model.Centroid
import Verif.Spec.Centroid
import Verif.Props.NatSolutions

namespace Smol
open Spec
variable {K : Type*} [Field K] [LinearOrder K] [IsStrictOrderedRing K]

/-- An injective affine map from coordinates to a set of points takes vertices to vertices. -/
theorem extreme_affine {k d : ℕ} (V : Matrix (Fin k) (Fin d) K) (n0 : Fin d → K)
    (hinj : ∀ x y, Matrix.vecMul x V = Matrix.vecMul y V → x = y)
    (S : Set (Fin k → K)) (P : Set (Fin d → K))
    (hS : ∀ x, x ∈ S ↔ Matrix.vecMul x V + n0 ∈ P) (hP : ∀ n ∈ P, ∃ x, n = Matrix.vecMul x V + n0) :
    ∀ n, n ∈ P.extremePoints K ↔ ∃ x ∈ S.extremePoints K, n = Matrix.vecMul x V + n0 := by
  have haff : ∀ (a b : K) (x y : Fin k → K), a + b = 1 →
      a • (Matrix.vecMul x V + n0) + b • (Matrix.vecMul y V + n0) = Matrix.vecMul (a • x + b • y) V + n0 := by
    intro a b x y hab
    rw [Matrix.add_vecMul, Matrix.smul_vecMul, Matrix.smul_vecMul]
    funext i
    simp only [Pi.add_apply, Pi.smul_apply, smul_eq_mul]
    have : n0 i = (a + b) * n0 i := by rw [hab, one_mul]
    linear_combination -this
  intro n
  rw [mem_extremePoints_iff_left]
  constructor
  · rintro ⟨hn, hex⟩
    obtain ⟨x, rfl⟩ := hP n hn
    refine ⟨x, ?_, rfl⟩
    rw [mem_extremePoints_iff_left]
    refine ⟨(hS x).2 hn, ?_⟩
    rintro y hy z hz ⟨a, b, ha, hb, hab, hx⟩
    have := hex _ ((hS y).1 hy) _ ((hS z).1 hz) ⟨a, b, ha, hb, hab, by rw [haff a b y z hab, hx]⟩
    exact hinj _ _ (add_right_cancel this)
  · rintro ⟨x, hx, rfl⟩
    rw [mem_extremePoints_iff_left] at hx
    refine ⟨(hS x).1 hx.1, ?_⟩
    intro n1 h1 n2 h2 hseg
    obtain ⟨y, rfl⟩ := hP n1 h1
    obtain ⟨z, rfl⟩ := hP n2 h2
    obtain ⟨a, b, ha, hb, hab, he⟩ := hseg
    rw [haff a b y z hab] at he
    have := hinj _ _ (add_right_cancel he)
    rw [hx.2 y ((hS y).2 h1) z ((hS z).2 h2) ⟨a, b, ha, hb, hab, this⟩]

omit [LinearOrder K] [IsStrictOrderedRing K] in
/-- Coordinates cover the compositions. -/
theorem compositions_coordinates {r d k : ℕ} {A : Matrix (Fin r) (Fin d) K} {V : Matrix (Fin k) (Fin d) K}
    (hV : IsKernelBasis A V) {n0 : Fin d → K} {b : Fin r → K} (h0 : A.mulVec n0 = b) (n : Fin d → K) :
    A.mulVec n = b ↔ ∃ x, n = Matrix.vecMul x V + n0 := by
  constructor
  · intro h
    obtain ⟨x, hx⟩ := (hV.2 (n - n0)).1 (by rw [Matrix.mulVec_sub, h, h0, sub_self])
    exact ⟨x, by rw [← hx, sub_add_cancel]⟩
  · rintro ⟨x, rfl⟩
    rw [Matrix.mulVec_add, (hV.2 _).2 ⟨x, rfl⟩, h0, zero_add]

theorem halfspaces_coordinates {d k : ℕ} (V : Matrix (Fin k) (Fin d) K) (n0 : Fin d → K) (x : Fin k → K) :
    x ∈ halfspaces ((-1 : K) • V.transpose) n0 ↔ ∀ i, 0 ≤ (Matrix.vecMul x V + n0) i := by
  unfold halfspaces
  simp only [Set.mem_ofPred_eq]
  refine forall_congr' fun i => ?_
  rw [Matrix.smul_mulVec, Matrix.mulVec_transpose, Pi.smul_apply, Pi.add_apply, smul_eq_mul]
  constructor <;> intro h <;> linarith

theorem npRound_of_close {x : ℚ} {y : ℤ} (h : |x - (y : ℚ)| < 1 / 2) : npRound x = y := by
  rw [abs_lt] at h
  have e : ⌊x⌋ = y ∨ ⌊x⌋ = y - 1 := by
    have h1 := Int.floor_le x
    have h2 := Int.lt_floor_add_one x
    have a1 : (y : ℚ) < (⌊x⌋ : ℚ) + 2 := by linarith [h.1]
    have a2 : ((⌊x⌋ : ℤ) : ℚ) < (y : ℚ) + 1 := by linarith [h.2]
    have a1' : y < ⌊x⌋ + 2 := by exact_mod_cast a1
    have a2' : ⌊x⌋ < y + 1 := by exact_mod_cast a2
    omega
  unfold npRound
  rcases e with e | e <;> rw [e]
  · rw [if_pos (by linarith [h.2])]
  · push_cast
    rw [if_neg (by linarith [h.1]), if_pos (by linarith [h.1])]
    omega

theorem columnDot_pointAt (n0 : List ℤ) (vs : List (List ℤ)) (x : List ℤ) (i : ℕ) :
    n0.getD i 0 + columnDot vs i x = pointAt n0 vs x i := by
  unfold columnDot pointAt
  simp only [Int.cast_id, mul_comm]

theorem constraints_allowed {n0 : List ℤ} {vs : List (List ℤ)} (hw : ∀ v ∈ vs, v.length = n0.length)
    (size : ℕ) (leq : List (List ℚ × ℚ)) (x : List ℤ) :
    (∀ c ∈ centroidConstraints n0 vs size leq, c x = true) ↔ Allowed leq size (countsOf n0 vs x) := by
  unfold centroidConstraints Allowed
  simp only [List.mem_append, List.mem_map, List.mem_range]
  constructor
  · intro h
    refine ⟨fun a ha => ?_, fun p hp => ?_⟩
    · obtain ⟨i, hi, rfl⟩ := List.getElem_of_mem ha
      rw [countsOf_length hw] at hi
      have := h _ (Or.inl ⟨i, hi, rfl⟩)
      rw [decide_eq_true_eq, columnDot_pointAt, ← countsOf_getD hw x hi] at this
      rwa [List.getD_eq_getElem?_getD, List.getElem?_eq_getElem (by rwa [countsOf_length hw]),
        Option.getD_some] at this
    · simpa using h _ (Or.inr ⟨p, hp, rfl⟩)
  · rintro ⟨h1, h2⟩ c (⟨i, hi, rfl⟩ | ⟨p, hp, rfl⟩)
    · rw [decide_eq_true_eq, columnDot_pointAt, ← countsOf_getD hw x hi,
        List.getD_eq_getElem?_getD, List.getElem?_eq_getElem (by rwa [countsOf_length hw]), Option.getD_some]
      exact h1 _ (List.getElem_mem _)
    · simpa using h2 p hp

end Smol
