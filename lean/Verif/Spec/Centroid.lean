import Verif.Spec.NatSolutions
import Mathlib.Analysis.Convex.Extreme
import Mathlib.Data.Matrix.Mul

/-!
# Vertices of a set of compositions and the point nearest to their average

Independent of the code.
-/

namespace Smol.Spec
variable {K : Type*} [Field K] [LinearOrder K] [IsStrictOrderedRing K]

/-- The fractional compositions: `A n = b`, `n ≥ 0`. -/
def compositions {r d : ℕ} (A : Matrix (Fin r) (Fin d) K) (b : Fin r → K) : Set (Fin d → K) :=
  {n | A.mulVec n = b ∧ ∀ i, 0 ≤ n i}

/-- `G x ≤ h`. -/
def halfspaces {d k : ℕ} (G : Matrix (Fin d) (Fin k) K) (h : Fin d → K) : Set (Fin k → K) :=
  {x | ∀ i, G.mulVec x i ≤ h i}

/-- The list holds the vertices (extreme points) of the set, each once. -/
def IsVertices {k : ℕ} (S : Set (Fin k → K)) (l : List (Fin k → K)) : Prop :=
  l.Nodup ∧ ∀ x, x ∈ l ↔ x ∈ S.extremePoints K

/-- The rows of `V` are a basis of the kernel of `A`. -/
def IsKernelBasis {r d k : ℕ} (A : Matrix (Fin r) (Fin d) K) (V : Matrix (Fin k) (Fin d) K) : Prop :=
  (∀ x y, Matrix.vecMul x V = Matrix.vecMul y V → x = y) ∧
    ∀ n, A.mulVec n = 0 ↔ ∃ x, n = Matrix.vecMul x V

/-- Squared distance. -/
def sqDistTo (y : List ℤ) (t : List ℚ) : ℚ := (List.zipWith (fun (a : ℤ) (q : ℚ) => ((a : ℚ) - q) ^ 2) y t).sum

/-- Counts that are natural numbers and satisfy the inequalities `a n ≤ b`, with `b` per primitive
cell. -/
def Allowed (leq : List (List ℚ × ℚ)) (size : ℕ) (n : List ℤ) : Prop :=
  (∀ a ∈ n, 0 ≤ a) ∧ ∀ p ∈ leq, (List.zipWith (fun (a : ℚ) (x : ℤ) => a * x) p.1 n).sum ≤ p.2 * size

end Smol.Spec
