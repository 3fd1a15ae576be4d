import Mathlib.Algebra.Order.Field.Basic
import Mathlib.Algebra.Order.Floor.Ring
import Mathlib.Algebra.BigOperators.Group.List.Basic
import Mathlib.Data.Rat.Floor

/-!
# Convergence analysis of samples

Models `smol/moca/analysis/convergence.py`.  Samples are rational numbers; the standard deviation
is never computed, comparisons with it are made by squares.
-/

namespace Smol

/-- `np.average`. -/
def average (xs : List ℚ) : ℚ := xs.sum / xs.length

/-- Square of `np.std`. -/
def variance (xs : List ℚ) : ℚ := average (xs.map fun x => (x - average xs) ^ 2)

/-- `std_prop < min_std`, smol/moca/analysis/convergence.py:44, for a number `minStd`. -/
def stdBelow (xs : List ℚ) (minStd : ℚ) : Bool := decide (0 < minStd ∧ variance xs < minStd ^ 2)

/-- `x < mean_prop + conv_tol and x > mean_prop - conv_tol`; the default tolerance is the standard
deviation, smol/moca/analysis/convergence.py:57-58, 77-78. -/
def nearMean (xs : List ℚ) (tol : Option ℚ) (x : ℚ) : Bool :=
  match tol with
  | some t => decide (x < average xs + t ∧ average xs - t < x)
  | none => decide ((x - average xs) ^ 2 < variance xs)

/-- `np.divide(np.cumsum(a), np.arange(1, n + 1))`, smol/moca/analysis/convergence.py:88: `sum`
and `count` of the entries before. -/
def cumMeans (sum : ℚ) (count : ℕ) : List ℚ → List ℚ
  | [] => []
  | x :: xs => (sum + x) / ((count + 1 : ℕ) : ℚ) :: cumMeans (sum + x) (count + 1) xs

/-- `a[-m:]` of an array, for `m ≤ len(a)`; `a[-0:]` is all of it. -/
def lastSlice (m : ℕ) (xs : List ℚ) : List ℚ := if m = 0 then xs else xs.drop (xs.length - m)

/-- `last_m`, smol/moca/analysis/convergence.py:63-72. -/
def effectiveLast (n : ℕ) : Option ℕ → ℕ
  | none => n / 10
  | some m => if n < m then n / 10 else m

/-- `check_property_converged`, smol/moca/analysis/convergence.py:10-102; `none` is the
`IndexError` of an empty array (line 77; its standard deviation is nan, which is not below
anything). -/
def checkConverged (xs : List ℚ) (tol : Option ℚ) (minStd : ℚ) (lastM : Option ℕ) : Option Bool :=
  match xs.getLast? with
  | none => none
  | some last =>
    if stdBelow xs minStd then some true
    else
      let means := lastSlice (effectiveLast xs.length lastM) (cumMeans 0 0 xs)
      some (nearMean xs tol last && means.all (nearMean xs tol))

/-- The values of `np.arange(init, n - step, step)`, each cut by `int`, with
`step = (n - init) / increment`: `increment - 1` of them,
smol/moca/analysis/convergence.py:141-145.  Exact arithmetic (rounding may add one more value). -/
def discardGrid (n init increment : ℕ) : List ℕ :=
  (List.range (increment - 1)).map fun i : ℕ =>
    ⌊(init : ℚ) + (i : ℚ) * (((n - init : ℕ) : ℚ) / increment)⌋₊

/-- The loop, smol/moca/analysis/convergence.py:142-147 and 155. -/
def firstConverged (xs : List ℚ) : List ℕ → Option ℕ
  | [] => some 0
  | d :: ds =>
    match checkConverged (xs.drop d) none (1 / 10000) none with
    | none => none
    | some true => some d
    | some false => firstConverged xs ds

/-- `init_discard`, smol/moca/analysis/convergence.py:131-139. -/
def initDiscard (n : ℕ) : Option ℕ → ℕ
  | none => n / 10
  | some i => if n < i then n / 10 else i

/-- `determine_discard_number`, smol/moca/analysis/convergence.py:105-155; `none`: division by zero
(`increment = 0`, or a step of zero because everything is discarded). -/
def discardNumber (xs : List ℚ) (init : Option ℕ) (increment : ℕ) : Option ℕ :=
  let n := xs.length
  let init := initDiscard n init
  if increment = 0 ∨ init = n then none else firstConverged xs (discardGrid n init increment)

end Smol
