import Mathlib.Analysis.SpecialFunctions.Exp
import Mathlib.Data.Set.Card

/-! The density of states. -/

namespace Smol.Spec

/-- Number of states of `Ω` whose energy lies in bin `b`: between `lo + b * size` and the next
bin. -/
noncomputable def statesInBin {X : Type*} (Ω : Set X) (E : X → ℝ) (lo size : ℝ) (b : ℕ) : ℕ :=
  {x ∈ Ω | lo + b * size ≤ E x ∧ E x < lo + (b + 1) * size}.ncard

end Smol.Spec
