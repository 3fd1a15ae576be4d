import Verif.Model.OrbitGen
import Verif.Model.Hierarchy
import Mathlib.Data.List.Sublists

/-!
# Sub-orbits and their site mappings

Models `Orbit.is_sub_orbit`, `Orbit.sub_orbit_mappings` (`smol/cofe/space/orbit.py`) and the loop of
`ClusterSubspace.get_sub_function_ids` (`smol/cofe/space/clusterspace.py`).

As in `Verif/Model/OrbitGen.lean` coordinates are exact, so that the tolerances of `is_coord_subset`
(1e-8 in `sub_orbit_mappings`) and `coord_list_mapping` are 0.
-/

namespace Smol

variable {d : ℕ} {K : Type*} [Field K] [LinearOrder K] [IsStrictOrderedRing K] [FloorRing K]

/-- `Orbit.is_sub_orbit`, smol/cofe/space/orbit.py:354-384.  (The test of the site spaces in line 368
is `np.all` of a generator and always passes.) -/
def isSubOrbit (ops : List (SymmOp d K)) (base sub : List (Fin d → K)) : Except OrbitError Bool :=
  if base.length ≤ sub.length then .ok false
  else match orbitClusters ops sub with
    | .error e => .error e
    | .ok clusters => .ok ((base.sublistsLen sub.length).any fun xs =>
        clusters.any fun c => clusterEq c (mkCluster xs))

/-- The site mappings of one cluster `c` and one choice `inds` of its sites, to the clusters `subs`
of the sub-orbit with base cluster `sub`; smol/cofe/space/orbit.py:417-429. -/
def mappingsAt (sub : List (Fin d → K)) (subs : List (List (Fin d → K))) (c : List (Fin d → K))
    (inds : List ℕ) : List (List ℕ) :=
  let middle := centroid (inds.map fun j => c.getD j 0)
  subs.filterMap fun s =>
    let sites : List (Fin d → K) := s.map fun x i => x i + (npRound (middle i - centroid sub i) : ℤ)
    if sites.all fun x => decide (x ∈ c) then some (sites.map fun x => c.idxOf x) else none

/-- `Orbit.sub_orbit_mappings`, smol/cofe/space/orbit.py:386-436.  `spaceEq` is the comparison of site
spaces, `spaces` and `subSpaces` are the site spaces of the two orbits. -/
def subOrbitMappings (spaceEq : ℕ → ℕ → Bool) (ops : List (SymmOp d K)) (base : List (Fin d → K))
    (spaces : List ℕ) (sub : List (Fin d → K)) (subSpaces : List ℕ) :
    Except OrbitError (List (List ℕ)) :=
  match orbitClusters ops base, orbitClusters ops sub, isSubOrbit ops base sub with
  | .error e, _, _ => .error e
  | _, .error e, _ => .error e
  | _, _, .error e => .error e
  | .ok clusters, .ok subs, .ok isSub =>
    let inds := ((List.range spaces.length).filter fun i =>
      subSpaces.any fun s => spaceEq (spaces.getD i 0) s).sublistsLen subSpaces.length
    let mappings := clusters.flatMap fun c => inds.flatMap fun I => mappingsAt sub subs c I
    if mappings.isEmpty && isSub then .error .runtime
    else .ok (uniqueRows mappings)

/-- What is used of an orbit in a subspace: base cluster, site spaces, function indices of the sites
and the id of its first function. -/
structure SpaceOrbit (d : ℕ) (K : Type*) where
  coords : List (Fin d → K)
  spaces : List ℕ
  bits : List (List ℕ)
  bitId : ℕ

/-- `orbit.bit_combos`, smol/cofe/space/orbit.py:132-149. -/
def SpaceOrbit.combos (ops : List (SymmOp d K)) (o : SpaceOrbit d K) : List (List (List ℕ)) :=
  bitCombos o.bits (clusterPermutations ops o.coords)

/-- The sub-orbits among the orbits searched, smol/cofe/space/clusterspace.py:1128-1133. -/
def subOrbitsOf (ops : List (SymmOp d K)) (o : SpaceOrbit d K) (orbits : List (SpaceOrbit d K)) :
    Except OrbitError (List (SpaceOrbit d K)) :=
  orbits.foldlM (fun acc s =>
    match isSubOrbit ops o.coords s.coords with
    | .error e => .error e
    | .ok b => .ok (if b then acc ++ [s] else acc)) []

/-- `get_sub_function_ids` for a function of the orbit `o` with class `combo`; `orbits` are the
orbits of the sizes searched; smol/cofe/space/clusterspace.py:1158-1170. -/
def subFunctionIds (spaceEq : ℕ → ℕ → Bool) (ops : List (SymmOp d K)) (o : SpaceOrbit d K)
    (combo : List (List ℕ)) (orbits : List (SpaceOrbit d K)) : Except OrbitError (List ℕ) :=
  match subOrbitsOf ops o orbits with
  | .error e => .error e
  | .ok subs => subs.foldlM (fun acc s =>
      match subOrbitMappings spaceEq ops o.coords o.spaces s.coords s.spaces with
      | .error e => .error e
      | .ok inds =>
        .ok (acc ++ (subFunctions combo inds (s.combos ops)).map fun i => s.bitId + i)) []

end Smol
