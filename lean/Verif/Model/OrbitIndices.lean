import Verif.Model.Supercell

/-!
# Cluster indices of a supercell and their cache

Models `get_orbit_indices` and `_gen_orbit_indices` of `smol/cofe/space/clusterspace.py` together
with the library functions they rest on, as these are implemented in pymatgen (not part of the
repository): `lattice_points_in_supercell`, `Structure.make_supercell` and `coord_list_mapping_pbc`.
All coordinates are fractional coordinates of the primitive cell and rational; tolerances are kept.
-/

namespace Smol

/-- A point or a vector in fractional coordinates. -/
abbrev Vec3 := Fin 3 → ℚ

/-- `np.dot(x, np.linalg.inv(scmatrix))` -/
def fracOf (M : Mat3) (x : Vec3) : Vec3 := fun i =>
  (x 0 * adj3 M 0 i + x 1 * adj3 M 1 i + x 2 * adj3 M 2 i) / det3 M

/-- The corners of the supercell in one coordinate: sums over all subsets of its rows. -/
def cornerCoords (M : Mat3) (j : Fin 3) : List ℤ :=
  [0, 1].flatMap fun a => [0, 1].flatMap fun b => [0, 1].map fun c : ℤ =>
    a * M 0 j + b * M 1 j + c * M 2 j

/-- `np.arange(mins[j], maxes[j])` with `maxes = max + 1`. -/
def boxRange (M : Mat3) (j : Fin 3) : List ℤ :=
  let lo := (cornerCoords M j).foldr min 0
  let hi := (cornerCoords M j).foldr max 0
  (List.range (hi + 1 - lo).toNat).map fun k : ℕ => lo + (k : ℤ)

/-- All integer points of the box, in order. -/
def boxPoints (M : Mat3) : List Vec3 :=
  (boxRange M 0).flatMap fun a : ℤ => (boxRange M 1).flatMap fun b : ℤ =>
    (boxRange M 2).map fun c : ℤ =>
    ![(a : ℚ), (b : ℚ), (c : ℚ)]

/-- `lattice_points_in_supercell`: the points of the box whose fractional coordinates in the
supercell are in `[0, 1)` up to a tolerance (1e-10), in fractional coordinates of the supercell. -/
def latticePoints (tol : ℚ) (M : Mat3) : List Vec3 :=
  ((boxPoints M).map (fracOf M)).filter fun f => decide ((∀ i, f i < 1 - tol) ∧ ∀ i, -tol ≤ f i)

/-- `supercell.frac_coords` after `make_supercell`: for every site of the primitive cell, its images
by all lattice points. -/
def supercellCoords (tol : ℚ) (prim : List Vec3) (M : Mat3) : List Vec3 :=
  prim.flatMap fun x => (latticePoints tol M).map fun p => fun i => fracOf M x i + p i

/-- Equal up to lattice vectors of the supercell and a tolerance. -/
def pbcClose (atol : ℚ) (a b : Vec3) : Bool :=
  decide (∀ i, |a i - b i - round (a i - b i)| ≤ atol)

/-- `coord_list_mapping_pbc` for one point; `none`: `ValueError`, no site there. -/
def siteAt (atol : ℚ) (sites : List Vec3) (x : Vec3) : Option ℕ :=
  sites.findIdx? fun s => pbcClose atol x s

/-- `_gen_orbit_indices`, smol/cofe/space/clusterspace.py:1242-1278: for every orbit, for each of its
clusters and each lattice point, the indices of the sites.  A cluster is the list of coordinates of
its sites. -/
def genOrbitIndices (tol atol : ℚ) (prim : List Vec3) (orbits : List (List (List Vec3))) (M : Mat3) :
    Option (List (List (List ℕ))) :=
  orbits.mapM fun orbit =>
    (orbit.flatMap fun cluster => (latticePoints tol M).map fun p =>
      cluster.map fun x => (fun i => fracOf M x i + p i : Vec3)).mapM fun coords =>
        coords.mapM fun x => siteAt atol (supercellCoords tol prim M) x

/-- The key of the cache: the sorted rows, smol/cofe/space/clusterspace.py:1232. -/
def cacheKey (M : Mat3) : List (List ℤ) :=
  (([0, 1, 2] : List (Fin 3)).map fun i => [M i 0, M i 1, M i 2]).insertionSort (· ≤ ·)

/-- The cache `_supercell_orbit_inds`. -/
abbrev OrbitCache (R : Type*) := List (List (List ℤ) × R)

/-- `get_orbit_indices`, smol/cofe/space/clusterspace.py:1225-1240.  `none`: generating the indices
raised, nothing is stored. -/
def getOrbitIndices {R : Type*} (gen : Mat3 → Option R) (cache : OrbitCache R) (M : Mat3) :
    Option R × OrbitCache R :=
  match cache.lookup (cacheKey M) with
  | some r => (some r, cache)
  | none =>
    match gen M with
    | some r => (some r, (cacheKey M, r) :: cache)
    | none => (none, cache)

/-- The answers to a sequence of requests. -/
def orbitRequests {R : Type*} (gen : Mat3 → Option R) : OrbitCache R → List Mat3 → List (Option R)
  | _, [] => []
  | cache, M :: Ms =>
    (getOrbitIndices gen cache M).1 :: orbitRequests gen (getOrbitIndices gen cache M).2 Ms

end Smol
