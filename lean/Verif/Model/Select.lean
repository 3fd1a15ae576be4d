import Verif.Common
import Mathlib.Data.Matrix.Mul
import Mathlib.Data.Fintype.Basic
import Mathlib.Data.Rat.Defs
import Mathlib.Algebra.Order.Ring.Rat
import Mathlib.Algebra.Order.Group.Abs
import Mathlib.Data.List.Sort

/-!
# Structure selection

Models `smol/cofe/wrangling/select.py`.  Random draws are arbitrary numbers; matrices and scores are
exact.
-/

namespace Smol

/-! ### `composition_select`, smol/cofe/wrangling/select.py:79-141 -/

/-- The acceptance test of structure `i` in a pass over the data, select.py:130 and 137:
`dists[size].pmf(size * comp) >= max_probs[size] * rng.random()`.  `pmf i` and `maxProb i` are the
probability of the structure and the largest probability for its size; `u r i` is the draw for
structure `i` in pass `r` (a draw is made for every structure, also for those already selected). -/
def compAccept (pmf maxProb : ℕ → ℚ) (u : ℕ → ℕ → ℚ) (r i : ℕ) : Bool :=
  decide (maxProb i * u r i ≤ pmf i)

/-- One pass of the loop, select.py:134-139.  The list comprehension is evaluated before the list is
extended. -/
def compPass (n : ℕ) (accept : ℕ → Bool) (ids : List ℕ) : List ℕ :=
  ids ++ (List.range n).filter fun i => accept i && decide (i ∉ ids)

/-- `while len(sample_ids) <= num_samples`, select.py:133-140, followed by the sorted first
`num_samples` ids.  `none`: still looping when the fuel is used up. -/
def compLoop (n k : ℕ) (accept : ℕ → ℕ → Bool) : ℕ → ℕ → List ℕ → Option (List ℕ)
  | fuel, r, ids =>
    if ids.length ≤ k then
      match fuel with
      | 0 => none
      | fuel + 1 => compLoop n k accept fuel (r + 1) (compPass n (accept r) ids)
    else some ((ids.take k).insertionSort (· ≤ ·))

/-- `composition_select` on `n` structures asking for `k` samples, with `fuel` passes allowed after the
first. -/
def compSelect (n k : ℕ) (accept : ℕ → ℕ → Bool) (fuel : ℕ) : Option (List ℕ) :=
  compLoop n k accept fuel 1 ((List.range n).filter (accept 0))

/-! ### `gaussian_select`, smol/cofe/wrangling/select.py:42-76 -/

/-- `np.argmax` of the scores of a list of rows: the first one with the largest score.  `none`: the
list is empty, `ValueError`. -/
def argmaxRow (score : ℕ → ℚ) : List ℕ → Option ℕ
  | [] => none
  | i :: l =>
    match argmaxRow score l with
    | none => some i
    | some j => if score i < score j then some j else some i

/-- The loop over the gaussian vectors, select.py:73-75; `score t i = matrix[i] @ gauss[t]`. -/
def gaussLoop (score : ℕ → ℕ → ℚ) : ℕ → List ℕ → List ℕ → ℕ → Option (List ℕ)
  | 0, ids, _, _ => some ids
  | m + 1, ids, compl, t =>
    (argmaxRow (score t) compl).bind fun i =>
      gaussLoop score m (ids ++ [i]) (compl.erase i) (t + 1)

/-- The shape of `multivariate_normal(...).rvs(size=num_samples)` in `cols` dimensions: scipy squeezes
axes of length 1. -/
def rvsShape (numSamples cols : ℕ) : List ℕ := [numSamples, cols].filter (· ≠ 1)

/-- `gaussian_select`, select.py:62-76.  `none`: an exception.  The norm along axis 1 needs two axes
(select.py:71); with `orthogonalize`, `scipy.linalg.orth` keeps `rank` vectors and the division by the
norms reshaped to `(num_samples, 1)` fails when there are fewer. -/
def gaussSelect (rows cols numSamples : ℕ) (orthogonalize : Bool) (rank : ℕ)
    (score : ℕ → ℕ → ℚ) : Option (List ℕ) :=
  if (rvsShape numSamples cols).length ≠ 2 then none
  else if orthogonalize && decide (rank ≠ numSamples) then none
  else (gaussLoop score numSamples [] (List.range rows) 0).map (·.insertionSort (· ≤ ·))

/-! ### `full_row_rank_select`, smol/cofe/wrangling/select.py:12-39 -/

/-- `(abs(u_mat) > tol).argmax(axis=1)` for one row: the first column exceeding the tolerance, and 0 if
there is none, select.py:32. -/
def leadingCol {K m : ℕ} (U : Matrix (Fin K) (Fin m) ℚ) (tol : ℚ) (i : Fin K) : ℕ :=
  ((List.finRange m).find? fun j => decide (tol < |U i j|)).elim 0 fun j => j.val

/-- `np.unique(...)[:nrows]`, then sorted, select.py:32 and 39: the selected rows of the feature
matrix, given the upper triangular factor of its transpose. -/
def rankSelect {K m : ℕ} (U : Matrix (Fin K) (Fin m) ℚ) (tol : ℚ) (nrows : ℕ) : List ℕ :=
  ((List.range m).filter fun j => decide (∃ i, leadingCol U tol i = j)).take nrows

end Smol
