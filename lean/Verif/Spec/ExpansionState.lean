import Verif.Spec.SubspaceState
import Verif.Model.ExpansionState

/-!
Specification vocabulary for expansions: orbits and coefficients, nothing stored.
-/

namespace Smol.Spec

variable {B Sp K : Type*}

/-- Consecutive parts of a list, of given lengths. -/
def chunks {α : Type*} : List ℕ → List α → List (List α)
  | [], _ => []
  | n :: ns, l => l.take n :: chunks ns (l.drop n)

/-- Sums of the terms of the empty cluster and of each orbit; the terms are those of the empty cluster
and of the functions of the orbits in order. -/
def orbitSums [Field K] (C : List (PlainOrb B)) (l : List K) : List K :=
  l.headD 0 :: (chunks (C.map fun o => o.classes.length) l.tail).map List.sum

/-- Multiplicities of the empty cluster and of the orbits. -/
def orbitWeights [Field K] (mult : ℕ → ℕ) (C : List (PlainOrb B)) : List K :=
  1 :: C.map fun o => (mult o.geo : K)

/-- Multiplicities of functions: of the orbit, times the number of equivalent choices. -/
def functionWeights [Field K] (mult : ℕ → ℕ) (C : List (PlainOrb B)) : List K :=
  1 :: C.flatMap fun o => o.classes.map fun cl => (mult o.geo : K) * (cl.length : K)

/-- Coefficients per cluster and choice. -/
def eciOf [Field K] (mult : ℕ → ℕ) (C : List (PlainOrb B)) (coefs : List K) : List K :=
  List.zipWith (· / ·) coefs (functionWeights mult C)

/-- Scalar product of coefficients and values. -/
def weighted [Field K] (coefs v : List K) : K := (List.zipWith (· * ·) coefs v).sum

/-- Positions of numbers below the threshold in size. -/
def positionsBelow [Field K] [LinearOrder K] (threshold : K) (l : List K) : List ℤ :=
  ((List.range l.length).filter fun i => decide (|l.getD i 0| < threshold)).map fun i : ℕ => (i : ℤ)

/-- Orbits and coefficients without the terms below the threshold. -/
def pruneTerms [Field K] [LinearOrder K] (mult : ℕ → ℕ) (threshold : K) (withMult : Bool)
    (P : List (PlainOrb B) × List K) : List (PlainOrb B) × List K :=
  let ids := positionsBelow threshold (if withMult then eciOf mult P.1 P.2 else P.2)
  (dropFunctions ids 1 P.1, unlisted ids 0 P.2)

/-- What an operation makes of orbits and coefficients. -/
def expAfter {Rot Nm Key : Type*} [Field K] [LinearOrder K] [DecidableEq Sp] (L : BasisLib B Sp Rot Nm K)
    (clusters : Key → ℕ → Option (List (List ℕ))) (mult : ℕ → ℕ) (P : List (PlainOrb B) × List K) :
    ExpOp Rot Nm Key K → List (PlainOrb B) × List K
  | .prune t w => pruneTerms mult t w P
  | .edit op => ((after L clusters P.1 op).1, P.2)
  | .setCoefs c => (P.1, c)
  | _ => P

/-- A history. -/
def expAfterAll {Rot Nm Key : Type*} [Field K] [LinearOrder K] [DecidableEq Sp] (L : BasisLib B Sp Rot Nm K)
    (clusters : Key → ℕ → Option (List (List ℕ))) (mult : ℕ → ℕ) (P : List (PlainOrb B) × List K)
    (ops : List (ExpOp Rot Nm Key K)) : List (PlainOrb B) × List K := ops.foldl (expAfter L clusters mult) P

/-- There is a coefficient for the constant, one per function, and one for each external term. -/
def Matching (nExt : ℕ) (P : List (PlainOrb B) × List K) : Prop := P.2.length = 1 + functionCount P.1 + nExt

/-- Operations of the expansion itself: neither the subspace nor the coefficients are changed behind its
back. -/
def Own {Rot Nm Key : Type*} : ExpOp Rot Nm Key K → Prop
  | .setCoefs _ => False
  | .edit (.corr _ _) => True
  | .edit (.look _) => True
  | .edit _ => False
  | _ => True

/-- All functions have choices and all orbits clusters. -/
def Weighty (mult : ℕ → ℕ) (C : List (PlainOrb B)) : Prop :=
  ∀ o ∈ C, 0 < mult o.geo ∧ ∀ cl ∈ o.classes, cl ≠ []

end Smol.Spec
