import Verif.Model.SectionChoice

/-!
# Specification: choices by weight
-/

namespace Smol.Spec

variable {K : Type*} [Field K] [LinearOrder K]

/-- The uniform number `u` falls to section `i` if sections of the given lengths are laid out one after
the other and scaled to the interval from zero to one. -/
def FallsTo (w : List K) (u : K) (i : ℕ) : Prop :=
  i < w.length ∧ (w.take i).sum ≤ u * w.sum ∧ u * w.sum < (w.take (i + 1)).sum

end Smol.Spec
