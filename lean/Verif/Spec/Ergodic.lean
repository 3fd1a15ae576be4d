import Verif.Spec.Usher
import Mathlib.Algebra.BigOperators.Finprod
import Mathlib.Data.Real.Basic
import Mathlib.Logic.Relation

/-! Averages over a set of states, and states that can be reached. -/

namespace Smol.Spec

/-- Average of `f` over the states in `Ω` with weights `w`. -/
noncomputable def weightedMean {X : Type*} (w : X → ℝ) (Ω : Set X) (f : X → ℝ) : ℝ :=
  (∑ᶠ x ∈ Ω, w x * f x) / ∑ᶠ x ∈ Ω, w x

/-- States reached from `x` by transitions of positive probability. -/
def reached {X : Type*} (P : X → X → ℝ) (x : X) : Set X :=
  {y | Relation.ReflTransGen (fun a b => 0 < P a b) x y}

/-- All legal occupancies that agree with `x` on the sites that are not active. -/
def legalStates (act : List Sublattice) (x : ℕ → ℕ) : Set (ℕ → ℕ) :=
  {y | LegalOcc act y ∧ ∀ s, (∀ sl ∈ act, s ∉ sl.active) → y s = x s}

end Smol.Spec
