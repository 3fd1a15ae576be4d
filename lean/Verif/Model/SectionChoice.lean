import Mathlib.Algebra.Order.Field.Basic
import Mathlib.Algebra.BigOperators.Group.List.Basic
import Mathlib.Data.Rat.Defs
import Mathlib.Algebra.Order.Ring.Rat

/-!
# Choices by weight

Models `choose_section_from_partition` (`smol/utils/math.py`), which chooses the direction of a
`TableFlip`, with the choice of numpy from one uniform number.  Numbers are exact; `atol` is the
tolerance of `np.allclose`, `tol` is `NUM_TOL`.
-/

namespace Smol

variable {K : Type*} [Field K] [LinearOrder K]

/-- `np.cumsum`, started at `acc`. -/
def runSums (acc : K) : List K → List K
  | [] => []
  | x :: xs => (acc + x) :: runSums (acc + x) xs

/-- `cdf.searchsorted(u, side="right")` for a sorted array. -/
def searchRight (cdf : List K) (u : K) : ℕ := (cdf.takeWhile (· ≤ u)).length

/-- `Generator.choice(len(p), p=p)` of numpy, with the uniform number `u`; `none` is a `ValueError`: nothing
to choose from, negative probabilities, or a sum other than one. -/
def npChoice (p : List K) (u : K) : Option ℕ :=
  if p = [] ∨ (∃ x ∈ p, x < 0) ∨ p.sum ≠ 1 then none
  else some (searchRight ((runSums 0 p).map (· / p.sum)) u)

/-- `np.allclose(p, 0)`. -/
def allNegligible (atol : K) (w : List K) : Bool := w.all fun x => -atol ≤ x && x ≤ atol

/-- `choose_section_from_partition`, smol/utils/math.py:870-893; `none` is a `ValueError`. -/
def chooseSection (atol tol : K) (w : List K) (u : K) : Option ℕ :=
  let p := if allNegligible atol w then List.replicate w.length 1 else w
  if p.all fun x => -tol ≤ x then npChoice (p.map (· / p.sum)) u else none

end Smol
