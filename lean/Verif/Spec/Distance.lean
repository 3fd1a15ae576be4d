import Mathlib.Algebra.Order.Field.Basic

/-!
# The diameter up to which a target is matched
-/

namespace Smol.Spec

variable {K : Type*} [Zero K] [LinearOrder K]

/-- All features of the orbits of diameter at most `D` are within `tol` of the target. An orbit is
its diameter and its feature indices. -/
def MatchedUpTo (orbits : List (K × List ℕ)) (tol : K) (dist : ℕ → K) (D : K) : Prop :=
  ∀ o ∈ orbits, o.1 ≤ D → ∀ i ∈ o.2, dist i ≤ tol

/-- The largest orbit diameter up to which everything is matched, 0 if there is none. -/
def IsMatchDiameter (orbits : List (K × List ℕ)) (tol : K) (dist : ℕ → K) (L : K) : Prop :=
  (L = 0 ∧ ∀ o ∈ orbits, ¬ MatchedUpTo orbits tol dist o.1) ∨
  ((∃ o ∈ orbits, o.1 = L) ∧ MatchedUpTo orbits tol dist L ∧
    ∀ o ∈ orbits, MatchedUpTo orbits tol dist o.1 → o.1 ≤ L)

end Smol.Spec
