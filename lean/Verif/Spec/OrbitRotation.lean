import Verif.Spec.Orbit
import Mathlib.Data.Real.Basic
import Mathlib.Algebra.BigOperators.Group.Finset.Basic

/-! Specification vocabulary for correlation functions of random occupancies. -/

namespace Smol

namespace Spec

/-- Mean of `F` over the species of the sites `s, s + 1, …` with `shape` species each, the species
of each site drawn with concentrations `mu`, independently. -/
noncomputable def expect (mu : ℕ → ℕ → ℝ) : ℕ → List ℕ → (List ℕ → ℝ) → ℝ
  | _, [], F => F []
  | s, d :: ds, F => ∑ c ∈ Finset.range d, mu s c * expect mu (s + 1) ds fun cs => F (c :: cs)

end Spec

end Smol
