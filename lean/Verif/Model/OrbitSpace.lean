import Verif.Common
import Mathlib.Data.List.Sort
import Mathlib.Data.Int.Basic

/-!
# Orbit and correlation function ids of a cluster subspace

Models the id bookkeeping of `smol/cofe/space/clusterspace.py` and `smol/cofe/space/orbit.py`.
-/

namespace Smol

/-- `Orbit` as far as ids are concerned, smol/cofe/space/orbit.py:55-110.
`tag` names the orbit object, `mult` is its number of clusters (each cluster also gets an id), a
class of equivalent bit orderings is given by a label and the number of its orderings. -/
structure Orb where
  tag : ℕ
  mult : ℕ
  combos : List (ℕ × ℕ)
  id : ℕ
  bitId : ℕ
  deriving DecidableEq, Repr

/-- `assign_ids`, smol/cofe/space/orbit.py:468-488: the orbit with its new ids and the next orbit,
function and cluster ids. -/
def Orb.assign (o : Orb) (c : ℕ × ℕ × ℕ) : Orb × (ℕ × ℕ × ℕ) :=
  ({ o with id := c.1, bitId := c.2.1 }, (c.1 + 1, c.2.1 + o.combos.length, c.2.2 + o.mult))

/-- Inner loop of `_assign_orbit_ids`, smol/cofe/space/clusterspace.py:1218-1219. -/
def assignList : List Orb → ℕ × ℕ × ℕ → List Orb × (ℕ × ℕ × ℕ)
  | [], c => ([], c)
  | o :: l, c =>
    let r := o.assign c
    let s := assignList l r.2
    (r.1 :: s.1, s.2)

/-- Outer loop of `_assign_orbit_ids`, smol/cofe/space/clusterspace.py:1217-1219. -/
def assignDict : List (ℕ × List Orb) → ℕ × ℕ × ℕ → List (ℕ × List Orb) × (ℕ × ℕ × ℕ)
  | [], c => ([], c)
  | (k, os) :: l, c =>
    let r := assignList os c
    let s := assignDict l r.2
    ((k, r.1) :: s.1, s.2)

def keyLe (a b : ℕ × List Orb) : Prop := a.1 ≤ b.1

instance : DecidableRel keyLe := fun a b => inferInstanceAs (Decidable (a.1 ≤ b.1))

/-- The orbits of a `ClusterSubspace`: the dictionary `_orbits` from cluster size to orbits and
the counts.  The insertion order of the dictionary's keys is not modelled: assigning ids leaves
the dictionary sorted by key. -/
structure OrbitSpace where
  dict : List (ℕ × List Orb)
  numOrbits : ℕ
  numCorr : ℕ
  numClusters : ℕ
  deriving DecidableEq, Repr

/-- `_assign_orbit_ids`, smol/cofe/space/clusterspace.py:1210-1223, for a given dictionary. -/
def OrbitSpace.assigned (dict : List (ℕ × List Orb)) : OrbitSpace :=
  let r := assignDict (dict.insertionSort keyLe) (1, 1, 1)
  ⟨r.1, r.2.1, r.2.2.1, r.2.2.2⟩

/-- `orbits`, smol/cofe/space/clusterspace.py:357-360. -/
def OrbitSpace.orbits (S : OrbitSpace) : List Orb :=
  (S.dict.insertionSort keyLe).flatMap Prod.snd

/-- `function_orbit_ids`, smol/cofe/space/clusterspace.py:400-411. -/
def OrbitSpace.functionOrbitIds (S : OrbitSpace) : List ℕ :=
  S.orbits.foldl (fun ids o => ids ++ List.replicate o.combos.length o.id) [0]

/-- `remove_orbits`, smol/cofe/space/clusterspace.py:972-1028; `none` is one of the `ValueError`s
(also that of `min` of an empty list), raised before anything is changed. -/
def OrbitSpace.removeOrbits (S : OrbitSpace) (ids : List ℤ) : Option OrbitSpace :=
  if ids = [] ∨ (∃ i ∈ ids, i < 0) ∨ (0 : ℤ) ∈ ids ∨ (∃ i ∈ ids, (S.numOrbits : ℤ) - 1 < i) then
    none
  else
    let kept := S.dict.map fun p => (p.1, p.2.filter fun o => decide ((o.id : ℤ) ∉ ids))
    some (OrbitSpace.assigned (kept.filter fun p => !p.2.isEmpty))

/-- The positions `to_remove` of the functions of an orbit among `corr_ids`,
smol/cofe/space/clusterspace.py:1056-1059. -/
def Orb.toRemove (o : Orb) (ids : List ℤ) : List ℤ :=
  ((ids.filter fun i => decide ((o.bitId : ℤ) ≤ i)).filter fun i =>
    decide (i < (o.bitId : ℤ) + o.combos.length)).map fun i => i - o.bitId

/-- `remove_bit_combos_by_inds` as far as the stored combos are concerned,
smol/cofe/space/orbit.py:320-333: the combos are stored before the emptiness check raises. -/
def Orb.removeInds (o : Orb) (inds : List ℤ) : Orb :=
  { o with combos :=
      (o.combos.zipIdx.filter fun p => decide ((p.2 : ℤ) ∉ inds)).map Prod.fst }

/-- Body of the loop of `remove_corr_functions`, smol/cofe/space/clusterspace.py:1055-1068. -/
def Orb.removeCorr (o : Orb) (ids : List ℤ) : Orb :=
  if (o.toRemove ids).isEmpty then o else o.removeInds (o.toRemove ids)

/-- `remove_corr_functions`, smol/cofe/space/clusterspace.py:1030-1076.
The ids of orbits that lost all functions are collected in the loop (line 1064). -/
def OrbitSpace.removeCorr (S : OrbitSpace) (ids : List ℤ) : Option OrbitSpace :=
  let dict := S.dict.map fun p => (p.1, p.2.map fun o => o.removeCorr ids)
  let empty := (S.orbits.filter fun o =>
    decide (¬ (o.toRemove ids).isEmpty ∧ (o.removeCorr ids).combos = [])).map fun o => (o.id : ℤ)
  if empty.isEmpty then some (OrbitSpace.assigned dict)
  else OrbitSpace.removeOrbits { S with dict := dict } empty

/-- Requests to a subspace. -/
inductive SpaceOp
  | orbits (ids : List ℤ)
  | functions (ids : List ℤ)
  deriving Repr

/-- A request; when it raises the subspace stays as it is. -/
def OrbitSpace.step (S : OrbitSpace) : SpaceOp → OrbitSpace
  | .orbits ids => (S.removeOrbits ids).getD S
  | .functions ids => (S.removeCorr ids).getD S

/-- A sequence of requests. -/
def OrbitSpace.run (S : OrbitSpace) (ops : List SpaceOp) : OrbitSpace := ops.foldl OrbitSpace.step S

/-- A subspace reached from one with newly assigned ids (every orbit has a function) by requests. -/
def OrbitSpace.Reachable (S : OrbitSpace) : Prop :=
  ∃ d ops, (∀ p ∈ d, ∀ o ∈ p.2, o.combos ≠ []) ∧ S = (OrbitSpace.assigned d).run ops

end Smol
