import Verif.Spec.Occupancy
import Mathlib.Data.Fintype.BigOperators
import Mathlib.Data.Real.Basic

/-!
# Specification: means and variances over random occupancies
-/

namespace Smol.Spec

/-- An occupancy of the sites `0 … n-1`. -/
def occOf {n : ℕ} (σ : Fin n → ℕ) : ℕ → ℕ := fun i => if h : i < n then σ ⟨i, h⟩ else 0

/-- Mean of `F` over the occupancies of `n` sites; site `i` holds each of its `q i` species with
probability `mu i`, independently of the other sites. -/
noncomputable def meanOver (n : ℕ) (q : ℕ → ℕ) (mu : ℕ → ℕ → ℝ) (F : (ℕ → ℕ) → ℝ) : ℝ :=
  ∑ σ ∈ Fintype.piFinset fun i : Fin n => Finset.range (q i), (∏ i : Fin n, mu i (σ i)) * F (occOf σ)

/-- Variance in the same sense. -/
noncomputable def varianceOver (n : ℕ) (q : ℕ → ℕ) (mu : ℕ → ℕ → ℝ) (F : (ℕ → ℕ) → ℝ) : ℝ :=
  meanOver n q mu fun occ => (F occ - meanOver n q mu F) ^ 2

end Smol.Spec
