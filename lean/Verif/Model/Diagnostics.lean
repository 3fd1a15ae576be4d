import Mathlib.Analysis.Real.Sqrt
import Mathlib.LinearAlgebra.Matrix.Rank

/-!
# Diagnostics of a feature matrix

Models the methods of `StructureWrangler` that describe its feature matrix,
smol/cofe/wrangling/wrangler.py:158-241 and 342-397.  The feature matrix is a list of rows of the same
length; floats are reals, `none` is a NaN.
-/

namespace Smol

/-- Integer index of a one-dimensional array; `none` is `IndexError`. -/
def npGet {α : Type*} (l : List α) (i : ℤ) : Option α :=
  if 0 ≤ i then l[i.toNat]? else if 0 ≤ i + l.length then l[(i + l.length).toNat]? else none

/-- `num_features`, smol/cofe/wrangling/wrangler.py:74-77; `none`: the array of no rows has one dimension. -/
def numFeatures {K : Type*} (X : List (List K)) : Option ℕ := X.head?.map List.length

/-- The columns selected, smol/cofe/wrangling/wrangler.py:171 (and 213, 234, 383). -/
def selectedCols {K : Type*} (X : List (List K)) (cols : Option (List ℤ)) : Option (List ℤ) :=
  match cols with
  | some c => some c
  | none => (numFeatures X).map fun m => (List.range m).map fun i : ℕ => (i : ℤ)

/-- `feature_matrix[rows][:, cols]`, smol/cofe/wrangling/wrangler.py:170-172 (and 212-214, 233-235,
382-385).  Column ids are not checked if no rows are selected. -/
def selectMatrix {K : Type*} (X : List (List K)) (rows cols : Option (List ℤ)) : Option (List (List K)) :=
  (selectedCols X cols).bind fun c =>
    if X = [] then none
    else ((rows.getD ((List.range X.length).map fun i : ℕ => (i : ℤ))).mapM (npGet X)).bind fun R =>
      R.mapM fun r => c.mapM (npGet r)

/-- `matrix_rank` is the rank, smol/cofe/wrangling/wrangler.py:158-172. -/
noncomputable def featureRank (X : List (List ℝ)) (rows cols : Option (List ℤ)) : Option ℕ :=
  (selectedCols X cols).bind fun c => (selectMatrix X rows cols).map fun M =>
    (Matrix.of fun (i : Fin M.length) (j : Fin c.length) => (M[i]).getD j 0).rank

/-- `get_feature_matrix_orbit_rank`, smol/cofe/wrangling/wrangler.py:174-192. -/
noncomputable def orbitRank (X : List (List ℝ)) (functionOrbitIds : List ℕ) (orbit : ℕ)
    (rows : Option (List ℤ)) : Option ℕ :=
  featureRank X rows (some ((functionOrbitIds.zipIdx.filter fun p => decide (p.1 = orbit)).map
    fun p => (p.2 : ℤ)))

/-- Division of floats when the dividend is zero with the divisor. -/
noncomputable def nanDiv (x s : ℝ) : Option ℝ := if s = 0 then none else some (x / s)

/-- Product of floats. -/
noncomputable def nanMul (a b : Option ℝ) : Option ℝ := a.bind fun x => b.map fun y => x * y

/-- Sum of floats. -/
noncomputable def nanSum : List (Option ℝ) → Option ℝ
  | [] => some 0
  | a :: l => a.bind fun x => (nanSum l).map fun s => x + s

/-- Diagonal of `matrix.T.dot(matrix)`, smol/cofe/wrangling/wrangler.py:240. -/
def squareSum (M : List (List ℝ)) (j : ℕ) : ℝ := (M.map fun r => r.getD j 0 * r.getD j 0).sum

/-- The matrix, normalized or not, smol/cofe/wrangling/wrangler.py:239-240. -/
noncomputable def gramInput (M : List (List ℝ)) (m : ℕ) (normalize : Bool) : List (List (Option ℝ)) :=
  M.map fun r => (List.range m).map fun j =>
    if normalize then nanDiv (r.getD j 0) (Real.sqrt (squareSum M j)) else some (r.getD j 0)

/-- `get_gram_matrix`, smol/cofe/wrangling/wrangler.py:216-241. -/
noncomputable def gramMatrix (X : List (List ℝ)) (rows cols : Option (List ℤ)) (normalize : Bool) :
    Option (List (List (Option ℝ))) :=
  (selectedCols X cols).bind fun c => (selectMatrix X rows cols).map fun M =>
    let N := gramInput M c.length normalize
    (List.range c.length).map fun i => (List.range c.length).map fun j =>
      nanSum (N.map fun r => nanMul (r.getD i none) (r.getD j none))

/-- `get_constant_features`, smol/cofe/wrangling/wrangler.py:342-357; `none` is `IndexError`. -/
def constantFeatures {K : Type*} [DecidableEq K] [Zero K] (X : List (List K)) : Option (List ℕ) :=
  match X with
  | [] => none
  | r :: _ => some (((List.range r.length).filter fun j =>
      X.all fun s => decide (s.getD j 0 = r.getD j 0)).drop 1)

/-- `np.isclose(a, b, rtol=rtol)`. -/
def isClose {K : Type*} [Field K] [LinearOrder K] (rtol a b : K) : Bool :=
  decide (|a - b| ≤ 1 / 100000000 + rtol * |b|)

/-- `get_similarity_matrix`, smol/cofe/wrangling/wrangler.py:359-397. -/
def similarityMatrix {K : Type*} [Field K] [LinearOrder K] (X : List (List K)) (rows cols : Option (List ℤ))
    (rtol : K) : Option (List (List K)) :=
  (selectedCols X cols).bind fun c => (selectMatrix X rows cols).map fun M =>
    let frac := fun i j => ((M.countP fun r => isClose rtol (r.getD i 0) (r.getD j 0) : ℕ) : K) / (M.length : K)
    (List.range c.length).map fun i => (List.range c.length).map fun j =>
      if i < j then frac i j else if j < i then frac j i else 1

end Smol
