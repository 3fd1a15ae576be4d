import Verif.Common

/-!
# Integer linear algebra

Models `gcdex`, `compute_snf` and `solve_diophantines` of `smol/utils/math.py`.  Matrices are
functions of row and column with a separate shape.  Simplification: integers do not overflow.
-/

namespace Smol

/-- Recursion of `gcdex` with a bound on its depth. -/
def gcdexAux : ℕ → ℤ → ℤ → ℤ × ℤ × ℤ
  | 0, _, b => (0, 1, b)
  | n + 1, a, b =>
    if a = 0 then (0, 1, b)
    else
      let r := gcdexAux n (b.fmod a) a
      (r.2.1 - b.fdiv a * r.1, r.1, r.2.2)

/-- `gcdex`, smol/utils/math.py:49-58; `%` and `//` round towards minus infinity.  The recursion has
depth at most `|a|` (`gcdex_eq` is the recursive equation of the code). -/
def gcdex (a b : ℤ) : ℤ × ℤ × ℤ := gcdexAux a.natAbs a b

/-- Integer arrays. -/
abbrev IMat := ℕ → ℕ → ℤ

/-- `leftmult`, smol/utils/math.py:162-166 (row `i1` is written last). -/
def leftmult (m : IMat) (i0 i1 : ℕ) (a b c d : ℤ) : IMat := fun i j =>
  if i = i1 then c * m i0 j + d * m i1 j
  else if i = i0 then a * m i0 j + b * m i1 j
  else m i j

/-- `rightmult`, smol/utils/math.py:168-172. -/
def rightmult (m : IMat) (j0 j1 : ℕ) (a b c d : ℤ) : IMat := fun i j =>
  if j = j1 then b * m i j0 + d * m i j1
  else if j = j0 then a * m i j0 + c * m i j1
  else m i j

/-- The three arrays. -/
structure Snf where
  s : IMat
  m : IMat
  t : IMat

/-- A row operation on `m` and `s`. -/
def Snf.rowOp (x : Snf) (i0 i1 : ℕ) (a b c d : ℤ) : Snf :=
  { x with m := leftmult x.m i0 i1 a b c d, s := leftmult x.s i0 i1 a b c d }

/-- A column operation on `m` and `t`. -/
def Snf.colOp (x : Snf) (j0 j1 : ℕ) (a b c d : ℤ) : Snf :=
  { x with m := rightmult x.m j0 j1 a b c d, t := rightmult x.t j0 j1 a b c d }

/-- Body of the loop over rows, smol/utils/math.py:200-211 (`j = i` there). -/
def clearRowEntry (i : ℕ) (p : Snf × Bool) (ii : ℕ) : Snf × Bool :=
  if p.1.m ii i = 0 then p
  else
    let x := p.1
    let x := if (x.m ii i).fmod (x.m i i) ≠ 0 then
        let e := gcdex (x.m i i) (x.m ii i)
        x.rowOp i ii e.1 e.2.1 (-((x.m ii i).fdiv e.2.2)) ((x.m i i).fdiv e.2.2)
      else x
    (x.rowOp i ii 1 0 (-((x.m ii i).fdiv (x.m i i))) 1, true)

/-- Body of the loop over columns, smol/utils/math.py:212-223. -/
def clearColEntry (i : ℕ) (p : Snf × Bool) (jj : ℕ) : Snf × Bool :=
  if p.1.m i jj = 0 then p
  else
    let x := p.1
    let x := if (x.m i jj).fmod (x.m i i) ≠ 0 then
        let e := gcdex (x.m i i) (x.m i jj)
        x.colOp i jj e.1 (-((x.m i jj).fdiv e.2.2)) e.2.1 ((x.m i i).fdiv e.2.2)
      else x
    (x.colOp i jj 1 (-((x.m i jj).fdiv (x.m i i))) 0 1, true)

/-- `while upd`, smol/utils/math.py:197-223, with a bound on the number of passes; `none` if the
bound does not suffice. -/
def pivotLoop (p q i : ℕ) : ℕ → Snf → Option Snf
  | 0, _ => none
  | n + 1, x =>
    let r := (List.range' (i + 1) (p - (i + 1))).foldl (clearRowEntry i) (x, false)
    let r := (List.range' (i + 1) (q - (i + 1))).foldl (clearColEntry i) r
    if r.2 then pivotLoop p q i n r.1 else some r.1

/-- The first column from `i` on that is not zero, smol/utils/math.py:180-184. -/
def findColumn (p q i : ℕ) (m : IMat) : Option ℕ :=
  (List.range' i (q - i)).find? fun j => (List.range p).any fun r => m r j ≠ 0

/-- Bringing a nonzero entry to position `(i, i)`, smol/utils/math.py:185-195. -/
def movePivot (p i j : ℕ) (x : Snf) : Snf :=
  let x := if x.m i j = 0 then
      match (List.range p).find? fun ii => x.m ii j ≠ 0 with
      | some ii => x.rowOp i ii 0 1 1 0
      | none => x
    else x
  x.colOp j i 0 1 1 0

/-- The first loop of `compute_snf`, smol/utils/math.py:178-224, for the rows from `i` on.
`last_j + 1 = i` in every pass. -/
def diagonalise (p q : ℕ) : ℕ → ℕ → Snf → Option Snf
  | 0, _, x => some x
  | n + 1, i, x =>
    match findColumn p q i x.m with
    | none => some x
    | some j =>
      let x := movePivot p i j x
      (pivotLoop p q i ((x.m i i).natAbs + 1) x).bind fun x => diagonalise p q n (i + 1) x

/-- Body of the second loop, smol/utils/math.py:228-236. -/
def mergeDiag (i1 : ℕ) (x : Snf) (i0 : ℕ) : Snf :=
  let e := gcdex (x.m i0 i0) (x.m i1 i1)
  if e.2.2 = 0 then x
  else
    let c3 := (x.m i1 i1).fdiv e.2.2
    let c4 := (x.m i0 i0).fdiv e.2.2
    (x.rowOp i0 i1 1 e.2.1 c3 (e.2.1 * c3 - 1)).colOp i0 i1 e.1 (1 - e.1 * c4) 1 (-c4)

/-- The second loop, smol/utils/math.py:226-236. -/
def mergeAll (n : ℕ) (x : Snf) : Snf :=
  (List.range n).foldl (fun x i1 => (List.range i1).reverse.foldl (mergeDiag i1) x) x

/-- The identity array. -/
def IMat.one : IMat := fun i j => if i = j then 1 else 0

/-- `compute_snf`, smol/utils/math.py:149-240, of a `p` by `q` array. -/
def computeSnf (p q : ℕ) (a : IMat) : Option Snf :=
  (diagonalise p q p 0 ⟨IMat.one, a, IMat.one⟩).map (mergeAll (min p q))

/-- `c // b` for numpy integers: division by zero gives 0. -/
def npDiv (c b : ℤ) : ℤ := c.fdiv b

/-- `c % b` for numpy integers: 0 for `b = 0`. -/
def npMod (c b : ℤ) : ℤ := if b = 0 then 0 else c.fmod b

/-- `k` in `solve_diophantines`, smol/utils/math.py:272-276: the last zero on the diagonal. -/
def lastZero (n d : ℕ) (b : IMat) : ℕ :=
  (((List.range (min n d)).reverse.find? fun i => b i i = 0)).getD (min n d)

/-- `solve_diophantines(A, b)`, smol/utils/math.py:243-293, for an `n` by `d` matrix: base solution
and basis vectors; `none` is the `ValueError`. -/
def solveDioph (n d : ℕ) (a : IMat) (b : ℕ → ℤ) : Option ((ℕ → ℤ) × List (ℕ → ℤ)) :=
  (computeSnf n d a).bind fun x =>
    let c : ℕ → ℤ := fun i => ((List.range n).map fun j => x.s i j * b j).sum
    let k := lastZero n d x.m
    if (List.range k).all fun i => npMod (c i) (x.m i i) = 0 then
      some (fun r => ((List.range k).map fun i => x.t r i * npDiv (c i) (x.m i i)).sum,
        (List.range' k (d - k)).map fun i r => x.t r i)
    else none

/-- The default `b`, smol/utils/math.py:266: `np.zeros(d)`; the product with `U` raises unless
`d = n`. -/
def solveDiophDefault (n d : ℕ) (a : IMat) : Option ((ℕ → ℤ) × List (ℕ → ℤ)) :=
  if n = d then solveDioph n d a fun _ => 0 else none

end Smol
