import Verif.Common
import Mathlib.Algebra.Order.Floor.Ring
import Mathlib.Data.Rat.Floor

/-! Rounding as done by python and numpy. -/

namespace Smol
variable {K : Type*} [Field K] [LinearOrder K] [FloorRing K]

/-- `np.round`, and python's `round`: to the nearest integer, to the even one of two. -/
def npRound (x : K) : ℤ :=
  if x - ⌊x⌋ < 1 / 2 then ⌊x⌋
  else if 1 / 2 < x - ⌊x⌋ then ⌊x⌋ + 1
  else if ⌊x⌋ % 2 = 0 then ⌊x⌋ else ⌊x⌋ + 1

end Smol
