import Verif.Model.Evaluator
import Verif.Model.Composite
import Mathlib.Algebra.Order.Field.Basic
import Mathlib.Data.List.Sort

/-!
# Distance processors

Models `smol/moca/processor/distance.py`, the two distance functions of
`smol/utils/cluster/evaluator.pyx` and `ClusterSubspace.orbits_by_diameter`.

Floats are elements of a linearly ordered field `K`.  The diameter attached to an orbit is the one
used as key, i.e. already rounded to six decimals.
-/

namespace Smol

variable {K : Type*} [Field K] [LinearOrder K]

/-- `itertools.groupby` with the group made a tuple, the runs of equal keys of a list, as used in
`orbits_by_diameter`, smol/cofe/space/clusterspace.py:373-381. -/
def groupRuns {α : Type*} (key : α → K) : List α → List (K × List α)
  | [] => []
  | a :: l =>
    match groupRuns key l with
    | [] => [(key a, [a])]
    | (d, g) :: rest =>
      if key a = d then (d, a :: g) :: rest else (key a, [a]) :: (d, g) :: rest

/-- `orbits_by_diameter`, clusterspace.py:367-381: the orbits sorted by diameter (stable) and
grouped. -/
def orbitsByDiameter {α : Type*} (key : α → K) (orbits : List α) : List (K × List α) :=
  groupRuns key (orbits.insertionSort fun a b => key a ≤ key b)

/-- The loop of `exact_match_max_diameter`, distance.py:304-317 (correlations) and 443-452
(interactions); `indices` lists the features of an orbit. -/
def matchLoop {α : Type*} (tol : K) (indices : α → List ℕ) (dist : ℕ → K) (best : K) :
    List (K × List α) → K
  | [] => best
  | (d, orbits) :: rest =>
    if (orbits.flatMap indices).all fun i => decide (dist i ≤ tol) then
      matchLoop tol indices dist d rest
    else best

/-- Orbit loop body of `corr_distances_from_occupancies` for one of the two occupancies,
evaluator.pyx:351-376. -/
def corrDistWrites (occ : Occ) (ref : ℕ → K) (o : OrbitData K) (rows : ClusterRows) :
    List (ℕ × K) :=
  (List.range o.numCombos).map fun k =>
    (o.bitId + k,
      |(rows.map fun r => o.corrData (k * o.tensorSize + flatIndex o.tensorIndices r occ)).sum
        / (rows.length : K) - ref (o.bitId + k)|)

/-- `corr_distances_from_occupancies`, evaluator.pyx:319-378: rows 0 (`occI`) and 1 (`occF`). -/
def corrDistances (occF occI : Occ) (ref : ℕ → K) (orbits : List (OrbitData K × ClusterRows)) :
    (ℕ → K) × (ℕ → K) :=
  (applyWrites (fun _ => 0) (orbits.flatMap fun p => corrDistWrites occI ref p.1 p.2),
    applyWrites (fun _ => 0) (orbits.flatMap fun p => corrDistWrites occF ref p.1 p.2))

/-- Orbit loop body of `interaction_distances_from_occupancies`, evaluator.pyx:421-438. -/
def interDistWrites (occ : Occ) (ref : ℕ → K) (o : OrbitData K) (inter : ℕ → K)
    (rows : ClusterRows) : List (ℕ × K) :=
  [(o.id, |(rows.map fun r => inter (flatIndex o.tensorIndices r occ)).sum / (rows.length : K)
    - ref o.id|)]

/-- `interaction_distances_from_occupancies`, evaluator.pyx:380-440. -/
def interDistances (occF occI : Occ) (ref : ℕ → K)
    (orbits : List ((OrbitData K × (ℕ → K)) × ClusterRows)) : (ℕ → K) × (ℕ → K) :=
  (applyWrites (fun _ => 0) (orbits.flatMap fun p => interDistWrites occI ref p.1.1 p.1.2 p.2),
    applyWrites (fun _ => 0) (orbits.flatMap fun p => interDistWrites occF ref p.1.1 p.1.2 p.2))

/-- What both distance processors hold: target vector, its length, tolerance and coefficients,
distance.py:82-95. -/
structure DistPars (K : Type*) where
  target : ℕ → K
  numFeat : ℕ
  tol : K
  coefs : List K

/-- `DistanceProcessor.__init__`, distance.py:73-95; `none` is a `ValueError` (external terms,
negative match weight, wrong number of weights). -/
def distInit (numExternal : ℕ) (target : List K) (matchWeight tol : K) (weights : List K) :
    Option (DistPars K) :=
  if numExternal > 0 then none
  else if matchWeight < 0 then none
  else if weights.length + 1 ≠ target.length then none
  else some ⟨fun i => target.getD i 0, target.length, tol, -matchWeight :: weights⟩

/-- `CorrelationDistanceProcessor`: the parameters, the size of the supercell, and the orbits with
their diameter and index arrays. -/
structure CorrDist (K : Type*) where
  pars : DistPars K
  size : ℕ
  orbits : List (K × OrbitData K × ClusterRows)

/-- The underlying `ClusterExpansionProcessor`. -/
def CorrDist.base (P : CorrDist K) : CEProcessor K :=
  ⟨P.size, P.pars.numFeat, P.orbits.map Prod.snd⟩

/-- `CorrelationDistanceProcessor.exact_match_max_diameter`, distance.py:294-317. -/
def CorrDist.maxDiameter (P : CorrDist K) (dist : ℕ → K) : K :=
  matchLoop P.pars.tol (fun o => (List.range o.2.1.numCombos).map fun k => o.2.1.bitId + k) dist 0
    (orbitsByDiameter Prod.fst P.orbits)

/-- `compute_feature_vector`, distance.py:128-148. -/
def CorrDist.featureVector (P : CorrDist K) (occ : Occ) : ℕ → K :=
  let dist := fun i => |P.base.featureVector occ i / (P.size : K) - P.pars.target i|
  Function.update dist 0 (if P.pars.coefs.getD 0 0 ≠ 0 then P.maxDiameter dist else 0)

/-- `compute_feature_vector_distances`, distance.py:265-292: the occupancy is copied and the flips
are carried out in order. -/
def CorrDist.featureVectorDistances (P : CorrDist K) (occ : Occ) (flips : Step) :
    (ℕ → K) × (ℕ → K) :=
  corrDistances (flips.foldl (fun o f => Function.update o f.1 f.2) occ) occ P.pars.target
    P.base.orbits

/-- `compute_feature_vector_change`, distance.py:150-175. -/
def CorrDist.featureVectorChange (P : CorrDist K) (occ : Occ) (flips : Step) : ℕ → K :=
  let d := P.featureVectorDistances occ flips
  let d := if P.pars.coefs.getD 0 0 ≠ 0 then
    (Function.update d.1 0 (P.maxDiameter d.1), Function.update d.2 0 (P.maxDiameter d.2)) else d
  fun i => d.2 i - d.1 i

/-- `ClusterInteractionDistanceProcessor`. -/
structure InterDist (K : Type*) where
  pars : DistPars K
  size : ℕ
  offset : K
  orbits : List (K × (OrbitData K × (ℕ → K)) × ClusterRows)

/-- The underlying `ClusterDecompositionProcessor`. -/
def InterDist.base (P : InterDist K) : CDProcessor K :=
  ⟨P.size, P.pars.numFeat, P.offset, P.orbits.map Prod.snd⟩

/-- `ClusterInteractionDistanceProcessor.exact_match_max_diameter`, distance.py:433-453. -/
def InterDist.maxDiameter (P : InterDist K) (dist : ℕ → K) : K :=
  matchLoop P.pars.tol (fun o => [o.2.1.1.id]) dist 0 (orbitsByDiameter Prod.fst P.orbits)

/-- `compute_feature_vector`, distance.py:128-148. -/
def InterDist.featureVector (P : InterDist K) (occ : Occ) : ℕ → K :=
  let dist := fun i => |P.base.featureVector occ i / (P.size : K) - P.pars.target i|
  Function.update dist 0 (if P.pars.coefs.getD 0 0 ≠ 0 then P.maxDiameter dist else 0)

/-- `compute_feature_vector_distances`, distance.py:409-431. -/
def InterDist.featureVectorDistances (P : InterDist K) (occ : Occ) (flips : Step) :
    (ℕ → K) × (ℕ → K) :=
  interDistances (flips.foldl (fun o f => Function.update o f.1 f.2) occ) occ P.pars.target
    P.base.orbits

/-- `compute_feature_vector_change`, distance.py:150-175. -/
def InterDist.featureVectorChange (P : InterDist K) (occ : Occ) (flips : Step) : ℕ → K :=
  let d := P.featureVectorDistances occ flips
  let d := if P.pars.coefs.getD 0 0 ≠ 0 then
    (Function.update d.1 0 (P.maxDiameter d.1), Function.update d.2 0 (P.maxDiameter d.2)) else d
  fun i => d.2 i - d.1 i

/-- The processor as used by the ensembles and `compute_property`: arrays of length `numFeat`. -/
def CorrDist.toPart (P : CorrDist K) : PartProc K where
  scalar := false
  coefs := P.pars.coefs
  feature occ := (List.range P.pars.numFeat).map (P.featureVector occ)
  change occ flips := (List.range P.pars.numFeat).map (P.featureVectorChange occ flips)

/-- The same for the interactions. -/
def InterDist.toPart (P : InterDist K) : PartProc K where
  scalar := false
  coefs := P.pars.coefs
  feature occ := (List.range P.pars.numFeat).map (P.featureVector occ)
  change occ flips := (List.range P.pars.numFeat).map (P.featureVectorChange occ flips)

/-- `as_dict` followed by `from_dict`, distance.py:177-201, for the parameters: the target vector
and the match weight are kept, the coefficients and the tolerance are not stored, so that the
weights become ones (distance.py:252-253 and 380-381) and the tolerance the default
`defaultTol` (`1e-5`). -/
def distReload (defaultTol : K) (p : DistPars K) : Option (DistPars K) :=
  distInit 0 ((List.range p.numFeat).map p.target) (-(p.coefs.getD 0 0)) defaultTol
    (List.replicate (p.numFeat - 1) 1)

end Smol
