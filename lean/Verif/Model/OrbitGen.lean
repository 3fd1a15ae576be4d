import Verif.Model.Orbit
import Verif.Model.Rounding
import Mathlib.Algebra.Order.Floor.Ring
import Mathlib.Algebra.BigOperators.Fin
import Mathlib.Data.Fintype.Pi

/-!
# Clusters, orbits and their generation from cutoffs

Models `Cluster` (`smol/cofe/space/cluster.py`), the geometric part of `Orbit`
(`smol/cofe/space/orbit.py`) and `_gen_orbits_from_cutoffs`, `_gen_point_orbits`, `_gen_multi_orbits`
(`smol/cofe/space/clusterspace.py`).

Coordinates are exact numbers of an ordered field, so that the tolerance `SITE_TOL` of coordinate
comparisons is 0; the tolerance of the diameters (1e-8) is kept.  Symmetry operations (spglib) and
the search for sites in a sphere (pymatgen) are inputs.  The dimension is arbitrary (3 in the code).
-/

namespace Smol

variable {d : ℕ} {K : Type*} [Field K] [LinearOrder K] [IsStrictOrderedRing K] [FloorRing K]

/-- A symmetry operation in fractional coordinates (pymatgen `SymmOp`). -/
structure SymmOp (d : ℕ) (K : Type*) where
  rot : Fin d → Fin d → K
  trans : Fin d → K

instance [DecidableEq K] : DecidableEq (SymmOp d K) := fun a b =>
  if h : a.rot = b.rot ∧ a.trans = b.trans then
    isTrue (by cases a; cases b; obtain ⟨h1, h2⟩ := h; simp only at h1 h2; subst h1 h2; rfl)
  else isFalse (by rintro rfl; exact h ⟨rfl, rfl⟩)

/-- `operate_multi` at one point. -/
def SymmOp.operate (g : SymmOp d K) (x : Fin d → K) : Fin d → K := fun i =>
  (∑ j, g.rot i j * x j) + g.trans i

/-- `np.average(frac_coords, axis=0)`, smol/cofe/space/cluster.py:56. -/
def centroid (xs : List (Fin d → K)) : Fin d → K := fun i =>
  (xs.map fun x => x i).sum / (xs.length : K)

/-- The `frac_coords` of a new `Cluster`: moved by a lattice vector so that the centroid lies in the
cell, smol/cofe/space/cluster.py:55-59. -/
def mkCluster (xs : List (Fin d → K)) : List (Fin d → K) :=
  xs.map fun x i => x i - (⌊centroid xs i⌋ : ℤ)

/-- `coords + np.round(a.centroid - b.centroid)` -/
def recentered (a b : List (Fin d → K)) : List (Fin d → K) :=
  b.map fun x i => x i + (npRound (centroid a i - centroid b i) : ℤ)

/-- `Cluster.__eq__` (`a == b`), smol/cofe/space/cluster.py:214-219, with `is_coord_subset`. -/
def clusterEq (a b : List (Fin d → K)) : Bool :=
  decide (a.length = b.length) && a.all fun x => decide (x ∈ recentered a b)

/-- Square of the distance of two points, `lattice` holding the lattice vectors as rows. -/
def dist2 (lattice : Fin d → Fin d → K) (x y : Fin d → K) : K :=
  ∑ k, (∑ j, (x j - y j) * lattice j k) ^ 2

/-- Square of `Cluster.diameter`, smol/cofe/space/cluster.py:79-84. -/
def diam2 (lattice : Fin d → Fin d → K) (xs : List (Fin d → K)) : K :=
  (xs.flatMap fun x => xs.map fun y => dist2 lattice x y).foldr max 0

/-- `diameter > cut` -/
def exceeds (d2 cut : K) : Bool := decide (cut < 0 ∨ cut ^ 2 < d2)

/-- Errors raised. -/
inductive OrbitError
  | symmetry  -- `SymmetryError`
  | key       -- `KeyError`: no orbits of the size below
  | value     -- `ValueError`: larger clusters without points
  | runtime   -- `RuntimeError`: a sub-orbit without site mappings
deriving DecidableEq

/-- The loop of `Orbit.clusters`, smol/cofe/space/orbit.py:166-175. -/
def orbitImages (ops : List (SymmOp d K)) (base : List (Fin d → K)) : List (List (Fin d → K)) :=
  ops.foldl (fun equiv g =>
    let c := mkCluster (base.map g.operate)
    if equiv.any fun e => clusterEq e c then equiv else equiv ++ [c]) [base]

/-- `Orbit.cluster_symops`, smol/cofe/space/orbit.py:439-452. -/
def clusterSymops (ops : List (SymmOp d K)) (base : List (Fin d → K)) : List (SymmOp d K) :=
  ops.filter fun g => clusterEq (mkCluster (base.map g.operate)) base

/-- One row of `Orbit.cluster_permutations`: `coord_list_mapping(base, c_sites)`, the positions of the
sites of the base cluster among those of the image; smol/cofe/space/orbit.py:447-451. -/
def clusterPermutation (base : List (Fin d → K)) (g : SymmOp d K) : List ℕ :=
  base.map fun x => (recentered base (mkCluster (base.map g.operate))).idxOf x

/-- `Orbit.cluster_permutations`, smol/cofe/space/orbit.py:435-456. -/
def clusterPermutations (ops : List (SymmOp d K)) (base : List (Fin d → K)) : List (List ℕ) :=
  uniqueRows ((clusterSymops ops base).map (clusterPermutation base))

/-- `Orbit.clusters`, smol/cofe/space/orbit.py:161-180 (the check is repeated in lines 458-459). -/
def orbitClusters (ops : List (SymmOp d K)) (base : List (Fin d → K)) :
    Except OrbitError (List (List (Fin d → K))) :=
  if (orbitImages ops base).length * (clusterSymops ops base).length = ops.length then
    .ok (orbitImages ops base)
  else .error .symmetry

/-- What is generated of an orbit: its base cluster and for each of its sites the number of
non-constant site functions (`bits` are the ranges of these numbers). -/
structure GenOrbit (d : ℕ) (K : Type*) where
  coords : List (Fin d → K)
  bits : List ℕ

/-- `len(orbit)`, smol/cofe/space/orbit.py:489-494. -/
def GenOrbit.numFunctions (ops : List (SymmOp d K)) (o : GenOrbit d K) : ℕ :=
  (bitCombos (o.bits.map List.range) (clusterPermutations ops o.coords)).length

/-- `if new_orbit not in orbits: orbits.append(new_orbit)` with `Orbit.__eq__`
(smol/cofe/space/orbit.py:496-500): the base cluster of a listed orbit is among the clusters of the
new one.  (With an empty list the clusters are first needed by the sorting that follows.) -/
def addOrbit (ops : List (SymmOp d K)) (orbits : List (GenOrbit d K)) (o : GenOrbit d K) :
    Except OrbitError (List (GenOrbit d K)) := do
  let clusters ← orbitClusters ops o.coords
  if orbits.any fun p => clusters.any fun c => clusterEq c p.coords then pure orbits
  else pure (orbits ++ [o])

/-- Order by multiplicity (falling) and number of functions,
smol/cofe/space/clusterspace.py:1385-1393. -/
def pointLE (ops : List (SymmOp d K)) (a b : GenOrbit d K) : Bool :=
  let ma := (orbitImages ops a.coords).length
  let mb := (orbitImages ops b.coords).length
  decide (mb < ma ∨ (ma = mb ∧ a.numFunctions ops ≤ b.numFunctions ops))

/-- Order by diameter, then as for points, smol/cofe/space/clusterspace.py:1467-1475 (diameters are
not rounded). -/
def multiLE (lattice : Fin d → Fin d → K) (ops : List (SymmOp d K)) (a b : GenOrbit d K) : Bool :=
  decide (diam2 lattice a.coords < diam2 lattice b.coords) ||
    (decide (diam2 lattice a.coords = diam2 lattice b.coords) && pointLE ops a b)

/-- `_gen_point_orbits`, smol/cofe/space/clusterspace.py:1353-1394; `sites` are the fractional
coordinates and numbers of non-constant functions of the sites of the expansion structure. -/
def genPointOrbits (ops : List (SymmOp d K)) (sites : List ((Fin d → K) × ℕ)) :
    Except OrbitError (List (GenOrbit d K)) :=
  ((sites.map fun s => ({ coords := mkCluster [fun i => Int.fract (s.1 i)], bits := [s.2] } :
      GenOrbit d K)).foldlM (addOrbit ops) []).map
    fun l => l.insertionSort fun a b => pointLE ops a b = true

/-- The new orbits tried for one size, in order, smol/cofe/space/clusterspace.py:1439-1462;
`neighbors` are the sites found in the sphere, with their numbers of functions. -/
def candidates (lattice : Fin d → Fin d → K) (eps cut : K) (neighbors : List ((Fin d → K) × ℕ))
    (prev : List (GenOrbit d K)) : List (GenOrbit d K) :=
  prev.flatMap fun o =>
    if exceeds (diam2 lattice o.coords) cut then []
    else neighbors.filterMap fun y =>
      if y.1 ∈ o.coords then none
      else
        let coords := mkCluster (o.coords ++ [y.1])
        if exceeds (diam2 lattice coords) (cut + eps) then none
        else some { coords := coords, bits := o.bits ++ [y.2] }

/-- One pass of the loop over sizes, smol/cofe/space/clusterspace.py:1434-1476.  `sphere cut` are
the sites in the sphere around the centre of the cell. -/
def genSize (lattice : Fin d → Fin d → K) (eps : K) (ops : List (SymmOp d K))
    (sphere : K → List ((Fin d → K) × ℕ)) (orbits : List (ℕ × List (GenOrbit d K)))
    (cutoff : ℕ × K) : Except OrbitError (List (ℕ × List (GenOrbit d K))) :=
  match orbits.lookup (cutoff.1 - 1) with
  | none => .error .key
  | some prev => do
    let new ← (candidates lattice eps cutoff.2 (sphere cutoff.2) prev).foldlM (addOrbit ops) []
    if new.isEmpty then pure orbits
    else pure (orbits ++
      [(cutoff.1, new.insertionSort fun a b => multiLE lattice ops a b = true)])

/-- `_gen_orbits_from_cutoffs`, smol/cofe/space/clusterspace.py:1281-1350.  `point` is the entry of
`cutoffs` for size 1, if there is one (`some none`: the value `None`), `cutoffs` the other entries
by increasing size. -/
def genFromCutoffs (lattice : Fin d → Fin d → K) (eps : K) (ops : List (SymmOp d K))
    (sites : List ((Fin d → K) × ℕ)) (sphere : K → List ((Fin d → K) × ℕ))
    (point : Option (Option K)) (cutoffs : List (ℕ × K)) :
    Except OrbitError (List (ℕ × List (GenOrbit d K))) :=
  match point with
  | some none => if cutoffs.isEmpty then .ok [] else .error .value
  | _ => do
    let points ← genPointOrbits ops sites
    cutoffs.foldlM (genSize lattice eps ops sphere) [(1, points)]

end Smol
