import Verif.Model.IntLinAlg
import Mathlib.Algebra.Order.Round

/-!
# Natural number solutions and composition grids

Models `get_one_dim_solutions` and `get_natural_solutions` of `smol/utils/math.py`, and
`get_composition_grid` of `smol/moca/composition/space.py`.

Floats are rational numbers.  The linear program of `get_first_dim_extremes`
(smol/utils/math.py:450-481) is an argument `lp`.
-/

namespace Smol

/-- `round(x) if abs(x - round(x)) <= integer_tol else x`, smol/utils/math.py:437-438 and 540-541.
(`round` differs from python's on halves, which are never within the tolerance.) -/
def snap (tol x : ℚ) : ℚ := if |x - (round x : ℚ)| ≤ tol then (round x : ℚ) else x

/-- The loop of `get_one_dim_solutions`, smol/utils/math.py:418-431, over pairs `(n0[i], v[i])`;
`none` is the early return, infinite bounds are `none` in the result. -/
def marginLoop : List (ℤ × ℤ) → Option ℚ → Option ℚ → Option (Option ℚ × Option ℚ)
  | [], lo, hi => some (lo, hi)
  | (n, v) :: rest, lo, hi =>
    if 0 < v then
      let m : ℚ := -n / v
      marginLoop rest (if lo.all fun l => m > l then some m else lo) hi
    else if v < 0 then
      let m : ℚ := -n / v
      marginLoop rest lo (if hi.all fun h => m < h then some m else hi)
    else if n < 0 then none
    else marginLoop rest lo hi

/-- `np.arange(a, b, step)` for integers. -/
def arange (a b : ℤ) (step : ℕ) : List ℤ :=
  (List.range (((b - a).toNat + step - 1) / step)).map fun (k : ℕ) => a + k * step

/-- The integers to try, smol/utils/math.py:437-447 and 540-550; `step = 0` raises. -/
def gridRange (tol lo hi : ℚ) (step : ℕ) : Option (List ℤ) :=
  let nMin := ⌈snap tol lo⌉
  let nMax := ⌊snap tol hi⌋
  if nMin > nMax then some []
  else if step = 0 then none
  else some (arange nMin (nMax + 1) step)

/-- `get_one_dim_solutions`, smol/utils/math.py:396-447; `none` is the `ValueError`. -/
def oneDimSolutions (tol : ℚ) (step : ℕ) (n0 v : List ℤ) : Option (List ℤ) :=
  match marginLoop (n0.zip v) none none with
  | none => some []
  | some (some lo, some hi) => gridRange tol lo hi step
  | some _ => none

/-- `m * vs[0, :] + n0`, smol/utils/math.py:551. -/
def shiftBy (m : ℤ) (v n0 : List ℤ) : List ℤ := List.zipWith (fun a n => m * a + n) v n0

/-- `get_natural_solutions`, smol/utils/math.py:484-563.  `lp n0 vs` stands for
`get_first_dim_extremes(-vs.T, n0)`. -/
def naturalSolutions (lp : List ℤ → List (List ℤ) → Option (ℚ × ℚ)) (tol : ℚ) (step : ℕ) :
    List (List ℤ) → List ℤ → Option (List (List ℤ))
  | [], _ => none
  | [v], n0 => (oneDimSolutions tol step n0 v).map fun l => l.map fun x => [x]
  | v :: w :: rest, n0 =>
    match lp n0 (v :: w :: rest) with
    | none => none
    | some (lo, hi) =>
      (gridRange tol lo hi step).bind fun ms =>
        (ms.mapM fun m =>
          (naturalSolutions lp tol step (w :: rest) (shiftBy m v n0)).map fun l =>
            l.map fun x => m :: x).map List.flatten

/-- What the grid of a composition space depends on, smol/moca/composition/space.py:340-401:
`base` is `_n0`, a solution at `minSize` primitive cells (line 360), `basis` the rows of `_vs`,
`leq` the pairs `(a, b)` of `_A_leq`, `_b_leq`. -/
structure CompSpace where
  base : List ℤ
  minSize : ℕ
  basis : List (List ℤ)
  leq : List (List ℚ × ℚ)
  lp : List ℤ → List (List ℤ) → Option (ℚ × ℚ)
  tol : ℚ

/-- `get_supercell_base_solution`, smol/moca/composition/space.py:340-370. -/
def CompSpace.baseSolution (c : CompSpace) (size : ℕ) : Option (List ℤ) :=
  if size % c.minSize ≠ 0 then none
  else some (c.base.map fun x : ℤ => (x * (size : ℤ)).fdiv c.minSize)

/-- `x @ basis + n0`, smol/moca/composition/space.py:480. -/
def countsOf (n0 : List ℤ) (basis : List (List ℤ)) (x : List ℤ) : List ℤ :=
  (basis.zip x).foldl (fun n p => shiftBy p.2 p.1 n) n0

/-- The inequality filter, smol/moca/composition/space.py:481-489. -/
def CompSpace.satisfiesLeq (c : CompSpace) (size : ℕ) (n : List ℤ) : Bool :=
  c.leq.all fun p =>
    decide ((List.zipWith (fun (a : ℚ) (x : ℤ) => a * x) p.1 n).sum / size ≤ p.2 + c.tol)

/-- A grid computed without the cache, smol/moca/composition/space.py:477-492. -/
def CompSpace.direct (c : CompSpace) (size step : ℕ) : Option (List (List ℤ)) :=
  (c.baseSolution size).bind fun n0 =>
    (naturalSolutions c.lp c.tol step c.basis n0).map fun grid =>
      grid.filter fun x => c.satisfiesLeq size (countsOf n0 c.basis x)

/-- The cache `_comp_grids` in insertion order. -/
abbrev GridCache := List ((ℕ × ℕ) × List (List ℤ))

/-- `grid * scale`. -/
def scaleGrid (s : ℕ) (g : List (List ℤ)) : List (List ℤ) := g.map fun x => x.map fun a => a * s

/-- The test of a cached key, smol/moca/composition/space.py:459-464. -/
def cacheMatch (size step : ℕ) (k : ℕ × ℕ) : Bool :=
  size % k.1 = 0 && step % k.2 = 0 && size / k.1 = step / k.2

/-- Cached grids first, smol/moca/composition/space.py:455-471, then the direct computation with
the result stored, 477-492. -/
def CompSpace.gridDirect (c : CompSpace) (cache : GridCache) (size step : ℕ) :
    Option (List (List ℤ)) × GridCache :=
  match c.direct size step with
  | none => (none, cache)
  | some g => (some g, cache ++ [((size, step), g)])

/-- `get_composition_grid`, smol/moca/composition/space.py:441-492. -/
def CompSpace.getGrid (c : CompSpace) (cache : GridCache) (size step : ℕ) :
    Option (List (List ℤ)) × GridCache :=
  match cache.find? fun e => cacheMatch size step e.1 with
  | some e => (some (scaleGrid (size / e.1.1) e.2), cache)
  | none =>
    let s := Nat.gcd size step
    if 1 < s then
      let r := c.getGrid cache (size / s) (step / s)
      (r.1.map (scaleGrid s), r.2)
    else c.gridDirect cache size step
  termination_by size + step
  decreasing_by
    have hs : 1 < Nat.gcd size step := by assumption
    have h1 : size / Nat.gcd size step ≤ size := Nat.div_le_self _ _
    have h2 : step / Nat.gcd size step ≤ step := Nat.div_le_self _ _
    rcases Nat.eq_zero_or_pos size with h | h
    · have : 0 < step := by
        rcases Nat.eq_zero_or_pos step with h' | h'
        · subst h h'; simp at hs
        · exact h'
      have := Nat.div_lt_self this hs
      omega
    · have := Nat.div_lt_self h hs
      omega

/-- A history of calls. -/
def CompSpace.history (c : CompSpace) (calls : List (ℕ × ℕ)) : GridCache :=
  calls.foldl (fun cache p => (c.getGrid cache p.1 p.2).2) []

end Smol
