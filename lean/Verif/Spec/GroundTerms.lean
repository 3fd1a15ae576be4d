import Verif.Model.GroundTerms

/-!
# Meaning of cluster terms
-/

namespace Smol.Spec

/-- Sum over the terms of both factors times the product of the variables. -/
def termsValue {K : Type*} [Field K] (terms : List (GroundTerm K)) (v : ℕ → ℤ) : K :=
  (terms.map fun t => t.2.1 * t.2.2 * (((t.1.map v).prod : ℤ) : K)).sum

/-- Every value is 0 or 1. -/
def Binary (v : ℕ → ℤ) : Prop := ∀ i, v i = 0 ∨ v i = 1

end Smol.Spec
