import Verif.Common
import Mathlib.LinearAlgebra.Matrix.NonsingularInverse

/-!
# Superlattices and their symmetry
-/

namespace Smol.Spec

/-- The integer combinations of the columns. -/
def columnLattice (m : Matrix (Fin 3) (Fin 3) ℤ) : Set (Fin 3 → ℤ) :=
  fun v => ∃ c : Fin 3 → ℤ, v = m.mulVec c

/-- The superlattice described by a supercell matrix: the integer combinations of its rows (in
fractional coordinates of the primitive cell). -/
def superlattice (s : Matrix (Fin 3) (Fin 3) ℤ) : Set (Fin 3 → ℤ) :=
  fun v => ∃ c : Fin 3 → ℤ, v = s.vecMul c

/-- Some operation of the list maps the second superlattice onto the first. -/
def SymEquivalent (syms : List (Matrix (Fin 3) (Fin 3) ℤ)) (s t : Matrix (Fin 3) (Fin 3) ℤ) : Prop :=
  ∃ r ∈ syms, ∀ v, v ∈ superlattice s ↔ ∃ w ∈ superlattice t, v = r.mulVec w

/-- The operations contain the identity and the inverse of each of them. -/
structure HasInverses (syms : List (Matrix (Fin 3) (Fin 3) ℤ)) : Prop where
  one : 1 ∈ syms
  inv : ∀ r ∈ syms, ∃ r' ∈ syms, r * r' = 1

end Smol.Spec
