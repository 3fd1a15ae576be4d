import Mathlib.LinearAlgebra.LinearIndependent.Basic
import Mathlib.LinearAlgebra.Span.Basic
import Mathlib.Data.Matrix.Mul

/-! # Specification of flip tables

Compositions and flips as integer vectors, without reference to the model. -/

namespace Smol.Spec

variable {d : ℕ}

/-- All integer combinations of the rows. -/
def Lattice (vs : List (Fin d → ℤ)) : Submodule ℤ (Fin d → ℤ) := Submodule.span ℤ {v | v ∈ vs}

/-- The rows are linearly independent over the rationals. -/
def Independent (vs : List (Fin d → ℤ)) : Prop :=
  LinearIndependent ℚ fun i : Fin vs.length => fun k => ((vs.get i k : ℤ) : ℚ)

/-- The rows generate exactly the flips that keep all constraints. -/
def GeneratesKernel (A vs : List (Fin d → ℤ)) : Prop :=
  ∀ w : Fin d → ℤ, w ∈ Lattice vs ↔ ∀ a ∈ A, dotProduct a w = 0

/-- How many sites a flip changes: the species it adds. -/
def sitesChanged (u : Fin d → ℤ) : ℤ := ∑ k, max (u k) 0

/-- One application of a row of the table, in either direction, leads from one listed composition to
another. -/
def OneFlip (table ns : List (Fin d → ℤ)) (a b : Fin d → ℤ) : Prop :=
  a ∈ ns ∧ b ∈ ns ∧ ∃ u ∈ table, b = a + u ∨ a = b + u

/-- Any composition can be reached from any other. -/
def Ergodic (table ns : List (Fin d → ℤ)) : Prop :=
  ∀ a ∈ ns, ∀ b ∈ ns, Relation.ReflTransGen (OneFlip table ns) a b

/-- The compositions a search for the `k` nearest ones returns, without the composition itself. -/
structure NearOthers (k : ℕ) (ns : List (Fin d → ℤ)) (near : (Fin d → ℤ) → List (Fin d → ℤ)) : Prop where
  length : ∀ n ∈ ns, k ≤ ns.length → (near n).length = k - 1
  mem : ∀ n ∈ ns, ∀ p ∈ near n, p ∈ ns ∧ p ≠ n

end Smol.Spec
