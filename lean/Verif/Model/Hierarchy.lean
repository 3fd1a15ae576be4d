import Verif.Model.OrbitSpace
import Verif.Model.Orbit

/-!
# Hierarchies of orbits and functions, aliased orbits

Models parts of `smol/cofe/space/clusterspace.py`.  Which orbits are sub-orbits is decided by
coordinates (smol/cofe/space/orbit.py:354-383) and enters as a predicate.
-/

namespace Smol

/-- Body of the inner loop of `invert_mapping`, smol/cofe/space/clusterspace.py:1652-1655;
`none` is the `IndexError` of `inv_mapping[value]`. -/
def invertAdd (i : ℕ) : List (List ℕ) → List ℕ → Option (List (List ℕ))
  | inv, [] => some inv
  | inv, v :: vs =>
    match inv[v]? with
    | none => none
    | some l => invertAdd i (if i ∈ l then inv else inv.set v (l ++ [i])) vs

/-- Outer loop, smol/cofe/space/clusterspace.py:1651-1655: `i` from `k - 1` down to 0. -/
def invertLoop (mapping : List (List ℕ)) : ℕ → List (List ℕ) → Option (List (List ℕ))
  | 0, inv => some inv
  | k + 1, inv => (invertAdd k inv (mapping.getD k [])).bind (invertLoop mapping k)

/-- `invert_mapping`, smol/cofe/space/clusterspace.py:1636-1657. -/
def invertMapping (mapping : List (List ℕ)) : Option (List (List ℕ)) :=
  invertLoop mapping mapping.length (List.replicate mapping.length [])

/-- Append what is not there yet, in order, smol/cofe/space/clusterspace.py:1688-1690. -/
def addNew (l : List ℕ) (vs : List ℕ) : List ℕ :=
  vs.foldl (fun l v => if v ∈ l then l else l ++ [v]) l

/-- Next values, smol/cofe/space/clusterspace.py:1691-1695; `none` is `IndexError`. -/
def nextValues (mapping : List (List ℕ)) : List ℕ → List ℕ → Option (List ℕ)
  | new, [] => some new
  | new, v :: vs =>
    match mapping[v]? with
    | none => none
    | some l => nextValues mapping (addNew new l) vs

/-- How a loop ends within a number of rounds. -/
inductive Loop (α : Type)
  | done (a : α)
  | raised
  | running
  deriving DecidableEq, Repr

/-- The `while` loop for one entry, smol/cofe/space/clusterspace.py:1687-1696. -/
def closeEntry (mapping : List (List ℕ)) : ℕ → List ℕ → List ℕ → Loop (List ℕ)
  | 0, next, entry => if next = [] then .done entry else .running
  | fuel + 1, next, entry =>
    if next = [] then .done entry
    else
      match nextValues mapping [] next with
      | none => .raised
      | some next' => closeEntry mapping fuel next' (addNew entry next)

/-- Loop over the entries of `get_complete_mapping`, last entry first,
smol/cofe/space/clusterspace.py:1684-1696; `acc` holds the entries completed so far. -/
def completeLoop (mapping : List (List ℕ)) (fuel : ℕ) :
    ℕ → List (List ℕ) → Loop (List (List ℕ))
  | 0, acc => .done acc
  | k + 1, acc =>
    match closeEntry mapping fuel (mapping.getD k []) (mapping.getD k []) with
    | .done l => completeLoop mapping fuel k (l :: acc)
    | .raised => .raised
    | .running => .running

/-- `get_complete_mapping`, smol/cofe/space/clusterspace.py:1660-1698, observed for at most `fuel`
rounds of the `while` loop per entry. -/
def completeMapping (mapping : List (List ℕ)) (fuel : ℕ) : Loop (List (List ℕ)) :=
  completeLoop mapping fuel mapping.length []

/-- `stop` in `get_sub_orbits`, smol/cofe/space/clusterspace.py:1119-1124. -/
def searchStop (size : ℤ) (level : Option ℤ) (minSize : ℤ) : ℤ :=
  match level with
  | none => 0
  | some l =>
    if l < 0 ∨ size - l - 1 < 0 then 0
    else if minSize > size - l then minSize - 1
    else size - l - 1

/-- `range(start, stop, -1)`. -/
def downRange (start stop : ℤ) : List ℤ :=
  (List.range (start - stop).toNat).map fun i : ℕ => start - (i : ℤ)

/-- Cluster size of the orbit with an id: the key of the dictionary entry holding it. -/
def OrbitSpace.sizeOf (S : OrbitSpace) (id : ℕ) : Option ℕ :=
  (S.dict.find? fun p => p.2.any fun o => o.id == id).map Prod.fst

/-- `get_sub_orbits`, smol/cofe/space/clusterspace.py:1101-1132; `none` is the `IndexError` for an
unknown id or the `KeyError` of `self._orbits[s]` for a size that has no orbits. -/
def OrbitSpace.subOrbits (S : OrbitSpace) (isSub : ℕ → ℕ → Bool) (id : ℕ) (level : Option ℤ)
    (minSize : ℤ) : Option (List Orb) :=
  if id = 0 then some []
  else
    (S.orbits[id - 1]?).bind fun orb =>
    (S.sizeOf id).bind fun size =>
    ((downRange (size - 1) (searchStop size level minSize)).mapM fun s : ℤ =>
      ((S.dict.find? fun p => decide ((p.1 : ℤ) = s)).map fun p =>
        p.2.filter fun o => isSub orb.tag o.tag)).map List.flatten

/-- `orbit_hierarchy`, smol/cofe/space/clusterspace.py:499-529. -/
def OrbitSpace.orbitHierarchy (S : OrbitSpace) (isSub : ℕ → ℕ → Bool) (level : Option ℤ)
    (minSize : ℤ) : Option (List (List ℕ)) :=
  (S.orbits.mapM fun o => (S.subOrbits isSub o.id level minSize).map fun l => l.map Orb.id).map
    fun subs => [] :: subs

/-- Inner loop of `get_sub_function_ids`, smol/cofe/space/clusterspace.py:1164-1168: positions of
the classes of the sub-orbit whose first row is the restriction of a row of the function's class
along one of the site mappings. -/
def subFunctions (combo : List (List ℕ)) (inds : List (List ℕ)) (subCombos : List (List (List ℕ))) :
    List ℕ :=
  (List.range subCombos.length).filter fun i =>
    combo.any fun row => inds.any fun m => permute row m == (subCombos.getD i []).headD []

/-- The set of sorted site tuples of an orbit in a supercell,
smol/cofe/space/clusterspace.py:895, 901. -/
def sortedMap (rows : List (List ℕ)) : Finset (List ℕ) :=
  (rows.map fun r => r.insertionSort (· ≤ ·)).toFinset

/-- Inner loop of `get_aliased_orbits`, smol/cofe/space/clusterspace.py:897-905: ids of later
orbits, not yet in a group, with the same site sets. -/
def aliasedWith (maps : List (List (List ℕ))) (groups : List (List ℕ)) (i : ℕ) : List ℕ :=
  ((List.range maps.length).filter fun j =>
    decide (¬ (i ≥ j ∨ j + 1 ∈ groups.flatten) ∧
      sortedMap (maps.getD i []) = sortedMap (maps.getD j []))).map fun j => j + 1

/-- Body of the outer loop, smol/cofe/space/clusterspace.py:888-909. -/
def aliasStep (maps : List (List (List ℕ))) (groups : List (List ℕ)) (i : ℕ) : List (List ℕ) :=
  if i + 1 ∈ groups.flatten then groups
  else
    let others := aliasedWith maps groups i
    if others = [] then groups
    else groups ++ [((i + 1) :: others).insertionSort (· ≤ ·)]

/-- `get_aliased_orbits`, smol/cofe/space/clusterspace.py:861-912, for the cluster indices of the
orbits in the supercell. -/
def aliasedOrbits (maps : List (List (List ℕ))) : List (List ℕ) :=
  let groups := (List.range maps.length).foldl (aliasStep maps) []
  groups.dedup.insertionSort (fun a b => a.headD 0 ≤ b.headD 0)

end Smol
