import Verif.Model.NatSolutions
import Verif.Model.Rounding
import Mathlib.Data.Matrix.Mul

/-!
# Vertices and centroid of a composition space

Models `get_nonneg_float_vertices` and `get_natural_centroid` of `smol/utils/math.py`, and
`get_centroid_composition` of `smol/moca/composition/space.py`.

Floats are the elements of an ordered field.  What the libraries return is an argument:
`scipy.linalg.null_space`, `np.linalg.pinv`, `polytope.extreme`, `polytope.is_empty`, the solver
called by `cvxpy`.
-/

namespace Smol

/-- Results of library calls for one matrix `A`: `null_space(A).transpose()`, `pinv(A)`,
`pc.extreme(pc.Polytope(G, h))`, `pc.is_empty(pc.Polytope(G, h))`. -/
structure PolyLib (K : Type*) (r d k : ℕ) where
  nullSpace : Matrix (Fin k) (Fin d) K
  pinv : Matrix (Fin d) (Fin r) K
  extreme : Matrix (Fin d) (Fin k) K → (Fin d → K) → List (Fin k → K)
  isEmpty : Matrix (Fin d) (Fin k) K → (Fin d → K) → Bool

/-- The two `ValueError`s, smol/utils/math.py:325-330. -/
inductive VertexError | infeasible | flat
  deriving DecidableEq

/-- `get_nonneg_float_vertices`, smol/utils/math.py:297-332. -/
def nonnegVertices {K : Type*} [CommRing K] {r d k : ℕ} (L : PolyLib K r d k) (b : Fin r → K) :
    Except VertexError (List (Fin d → K)) :=
  let n0 := L.pinv.mulVec b
  let G := (-1 : K) • L.nullSpace.transpose
  let verts := L.extreme G n0
  if verts.length = 0 then
    if L.isEmpty G n0 then .error .infeasible else .error .flat
  else .ok (verts.map fun x => Matrix.vecMul x L.nullSpace + n0)

/-- Library functions of `get_natural_centroid`: `extreme n0 vs` is
`pc.extreme(pc.Polytope(-vs.transpose(), n0))`; `solve cons target` is `x.value` after minimizing
`sum_squares(x - target)` over integer `x` with the constraints, smol/utils/math.py:374-388. -/
structure CentroidLib where
  extreme : List ℤ → List (List ℤ) → List (List ℚ)
  solve : List (List ℤ → Bool) → List ℚ → Option (List ℚ)

/-- `np.average(points, axis=0)`, smol/utils/math.py:375. -/
def averageOf (k : ℕ) (pts : List (List ℚ)) : List ℚ :=
  (List.range k).map fun j => (pts.map fun p => p.getD j 0).sum / pts.length

/-- `vs[:, i] @ x`. -/
def columnDot (vs : List (List ℤ)) (i : ℕ) (x : List ℤ) : ℤ :=
  (List.zipWith (fun (v : List ℤ) a => v.getD i 0 * a) vs x).sum

/-- The constraints, smol/utils/math.py:377-380.  Without inequalities `leq` is empty. -/
def centroidConstraints (n0 : List ℤ) (vs : List (List ℤ)) (size : ℕ) (leq : List (List ℚ × ℚ)) :
    List (List ℤ → Bool) :=
  ((List.range n0.length).map fun i x => decide (0 ≤ n0.getD i 0 + columnDot vs i x)) ++
    leq.map fun p x =>
      decide ((List.zipWith (fun (a : ℚ) (n : ℤ) => a * n) p.1 (countsOf n0 vs x)).sum ≤ p.2 * size)

/-- `get_natural_centroid`, smol/utils/math.py:339-393; `none` is an exception (the assertion, an
average of nothing, or no feasible point). -/
def naturalCentroid (L : CentroidLib) (n0 : List ℤ) (vs : List (List ℤ)) (size : ℕ)
    (leq : List (List ℚ × ℚ)) : Option (List ℤ) :=
  if vs.any fun v => v.length ≠ n0.length then none
  else
    let pts := L.extreme n0 vs
    if pts.isEmpty then none
    else (L.solve (centroidConstraints n0 vs size leq) (averageOf vs.length pts)).map fun x => x.map npRound

/-- `get_centroid_composition`, smol/moca/composition/space.py:508-527; `minSize` is
`min_supercell_size`. -/
def CompSpace.centroid (c : CompSpace) (L : CentroidLib) (minSize : ℕ) (size : Option ℕ) : Option (List ℤ) :=
  let size := size.getD minSize
  (c.baseSolution size).bind fun n0 => naturalCentroid L n0 c.basis size c.leq

end Smol
