import Mathlib.Analysis.SpecialFunctions.Exp

namespace Smol.Spec

/-- Detailed balance of the transition probabilities `P` with respect to the weight `w` on the
states satisfying `S`. -/
def DetailedBalance {X : Type*} (S : X → Prop) (w : X → ℝ) (P : X → X → ℝ) : Prop :=
  ∀ x y, S x → S y → w x * P x y = w y * P y x

/-- Boltzmann weight with a bias. -/
noncomputable def boltzmann {X : Type*} (beta : ℝ) (H B : X → ℝ) (x : X) : ℝ :=
  Real.exp (-beta * H x + B x)

end Smol.Spec
