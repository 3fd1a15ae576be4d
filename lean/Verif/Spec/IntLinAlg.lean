import Verif.Common
import Mathlib.LinearAlgebra.Matrix.NonsingularInverse
import Mathlib.LinearAlgebra.Matrix.Rank
import Mathlib.Algebra.BigOperators.Fin

/-!
# What integer linear algebra means

Independent of the code.
-/

namespace Smol.Spec

/-- An array seen as a matrix of the given shape. -/
def asMatrix (p q : ℕ) (m : ℕ → ℕ → ℤ) : Matrix (Fin p) (Fin q) ℤ := fun i j => m i j

/-- A general solution: `v` solves the system exactly when it is the base solution plus a unique
integer combination of the basis. -/
def IsGeneralSolution {n d : ℕ} (A : Matrix (Fin n) (Fin d) ℤ) (b : Fin n → ℤ) (n0 : Fin d → ℤ)
    (vs : List (Fin d → ℤ)) : Prop :=
  ∀ v : Fin d → ℤ, A.mulVec v = b ↔
    ∃! y : Fin vs.length → ℤ, v = fun r => n0 r + ∑ i, y i * vs[i] r

end Smol.Spec
