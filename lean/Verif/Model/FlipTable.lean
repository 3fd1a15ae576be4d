import Mathlib.LinearAlgebra.Matrix.Determinant.Basic
import Mathlib.Data.List.Sort
import Mathlib.Data.Fin.VecNotation

/-!
# Flip tables

Models the flip table utilities of `smol/utils/math.py` (lines 567-829), which build
`CompositionSpace.basis` and `CompositionSpace.flip_table` (`smol/moca/composition/space.py`, lines
371-429).

A composition and a flip are integer vectors.  `np.linalg.matrix_rank` is the exact rank; the k-d tree
is an oracle that returns the neighbours it found.  `np.isclose` between integer points is equality.
An exception is `none`.
-/

namespace Smol

/-- An integer vector of counts. -/
abbrev FVec (d : ℕ) := Fin d → ℤ

variable {d : ℕ}

/-- `flip_size`, smol/utils/math.py:568-590. -/
def flipSize (u : FVec d) : Option ℤ :=
  let l := List.ofFn u
  if l.sum ≠ 0 then none else some (l.filter fun x => 0 < x).sum

/-- `count_row_matches`, smol/utils/math.py:593-607. -/
def countRowMatches (a b : List (FVec d)) : ℕ := (a.dedup.filter fun r => r ∈ b).length

/-- `connectivity`, smol/utils/math.py:610-637. -/
def connectivity (u : FVec d) (ns : List (FVec d)) : ℕ := countRowMatches ns (ns.map (· + u))

/-- `is_connected`, smol/utils/math.py:640-656. -/
def flipConnected (n : FVec d) (vs ns : List (FVec d)) : Bool :=
  (vs ++ vs.map (- ·)).any fun u => u + n ∈ ns

/-- `itertools.combinations(rows, 2)`. -/
def rowPairs : List (FVec d) → List (FVec d × FVec d)
  | [] => []
  | v :: vs => vs.map (fun w => (v, w)) ++ rowPairs vs

/-- The rows tried in one cycle, smol/utils/math.py:729-731. -/
def flipCandidates (vs : List (FVec d)) : List (FVec d) :=
  vs ++ (rowPairs vs).flatMap fun p => [p.1 + p.2, p.1 - p.2]

/-- `key_func(a) <= key_func(b)`, smol/utils/math.py:712-713; the sizes are those of `flipSize`. -/
def flipKeyLe (ns : List (FVec d)) (a b : FVec d) : Bool :=
  let sa := (flipSize a).getD 0
  let sb := (flipSize b).getD 0
  sa < sb || (sa = sb && connectivity b ns ≤ connectivity a ns)

/-- `sorted(V, key=key_func)`, smol/utils/math.py:733; raises if a row does not conserve the number of
sites. -/
def sortFlips (ns V : List (FVec d)) : Option (List (FVec d)) :=
  if V.all fun u => (flipSize u).isSome then some (V.insertionSort fun a b => flipKeyLe ns a b)
  else none

/-- `matrix_rank(V) == min(V.shape)`, smol/utils/math.py:739, for at most as many rows as columns:
the rows are independent exactly when their Gram determinant is not zero. -/
def fullRank (V : List (FVec d)) : Bool :=
  let A : Matrix (Fin V.length) (Fin d) ℤ := fun i => V.get i
  decide ((A * A.transpose).det ≠ 0)

/-- One round of the selection loop, smol/utils/math.py:736-741. -/
def pickFlip (n : ℕ) (acc : List (FVec d)) (v : FVec d) : List (FVec d) :=
  if acc.length = n then acc else if fullRank (acc ++ [v]) then acc ++ [v] else acc

/-- The selection, smol/utils/math.py:734-741. -/
def greedyFlips (n : ℕ) (V : List (FVec d)) : List (FVec d) := V.foldl (pickFlip n) []

/-- `standardize_table` for one row, smol/utils/math.py:716-719. -/
def standardFlip (u : FVec d) : FVec d := if 0 ≤ (List.ofFn u).headD 0 then u else -u

/-- `table_match`, smol/utils/math.py:721-726. -/
def tableMatch (V W : List (FVec d)) : Bool :=
  if V.length ≠ W.length then false
  else countRowMatches (V.map standardFlip) (W.map standardFlip) = V.length

/-- The loop of `get_optimal_basis`, smol/utils/math.py:728-747: at most `loops` cycles. -/
def optimizeLoop (n : ℕ) (ns : List (FVec d)) : ℕ → List (FVec d) → Option (List (FVec d))
  | 0, vs => some vs
  | k + 1, vs => do
    let V ← sortFlips ns (flipCandidates vs)
    let new := greedyFlips n V
    if tableMatch new vs then some vs else optimizeLoop n ns k new

/-- `get_optimal_basis`, smol/utils/math.py:659-747; `ns` are the natural solutions `xs @ vs + n0`. -/
def optimalBasis (vs ns : List (FVec d)) (loops : ℕ) : Option (List (FVec d)) :=
  optimizeLoop vs.length ns loops vs

/-- One difference vector joins the candidates, smol/utils/math.py:808-815. -/
def addCandidate (cands : List (FVec d)) (u : FVec d) : List (FVec d) :=
  if u ∈ cands ∨ -u ∈ cands then cands else cands ++ [u]

/-- The candidates of `get_ergodic_vectors`, smol/utils/math.py:800-815; `near n` are the points the
tree returns for `n`, without `n` itself. -/
def ergodicCandidates (near : FVec d → List (FVec d)) (disc : List (FVec d)) : List (FVec d) :=
  disc.foldl (fun cands n => (near n).foldl (fun cands p => addCandidate cands (p - n)) cands) []

/-- `sorted(candidate_vectors, key=flip_size)`, smol/utils/math.py:817. -/
def sortBySize (V : List (FVec d)) : Option (List (FVec d)) :=
  if V.all fun u => (flipSize u).isSome then
    some (V.insertionSort fun a b => (flipSize a).getD 0 ≤ (flipSize b).getD 0)
  else none

/-- The loop that adds candidates, smol/utils/math.py:819-827. -/
def addUntilConnected (ns : List (FVec d)) :
    List (FVec d) → List (FVec d) → List (FVec d) → List (FVec d)
  | [], sel, _ => sel
  | u :: us, sel, rem =>
    let sel := sel ++ [u]
    let rem := rem.filter fun n => !flipConnected n sel ns
    if rem = [] then sel else addUntilConnected ns us sel rem

/-- `get_ergodic_vectors`, smol/utils/math.py:750-829.  With fewer than `k` points the tree fills its
answer with an index that is out of range, so `ns[point_ids, :]` raises. -/
def ergodicVectors (near : FVec d → List (FVec d)) (k : ℕ) (vs ns : List (FVec d)) :
    Option (List (FVec d)) :=
  let disc := ns.filter fun n => !flipConnected n vs ns
  if disc = [] then some vs
  else if ns.length < k then none
  else do
    let cands ← sortBySize (ergodicCandidates near disc)
    some (addUntilConnected ns cands vs disc)

end Smol
