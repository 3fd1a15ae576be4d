import Verif.Model.GroundVars

/-!
# Histories of a ground-state solver
-/

namespace Smol.Spec

/-- The result of the latest solve since the last reset. -/
def lastSolve : List GsOp → Option (List ℚ × ℚ) → Option (List ℚ × ℚ)
  | [], r => r
  | .solve r :: ops, _ => lastSolve ops r
  | .reset :: ops, _ => lastSolve ops none
  | .readOccupancy :: ops, r => lastSolve ops r
  | .readStructure :: ops, r => lastSolve ops r

/-- No solve follows a successful look at the results without a reset in between. `solved`: there
is a solution; `seen`: results of a solution were read since the last reset. -/
def Unseen : Bool → Bool → List GsOp → Prop
  | _, _, [] => True
  | _, seen, .solve r :: ops => seen = false ∧ Unseen r.isSome seen ops
  | _, _, .reset :: ops => Unseen false false ops
  | solved, seen, .readOccupancy :: ops => Unseen solved (seen || solved) ops
  | solved, seen, .readStructure :: ops => Unseen solved (seen || solved) ops

end Smol.Spec
