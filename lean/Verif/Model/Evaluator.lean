import Verif.Model.Basic

/-!
# Cluster space evaluator and the cluster expansion / decomposition processors

Models `smol/utils/cluster/evaluator.pyx` and
`smol/moca/processor/expansion.py`.

Floats are elements of a field `K`.  The output arrays are functions from the
slot index (the slots of an array are `0 .. num_corr - 1`); a loop over orbits
produces a list of slot assignments which are then carried out in order.
-/

namespace Smol

variable {K : Type*} [Field K]

/-- `OrbitC` struct, smol/utils/cluster/container.pyx:84-105: ids, the flattened
correlation tensors (row-major data read without bounds check, hence a total
function of the offset), number of rows (bit combos), row length, and the
tensor strides. -/
structure OrbitData (K : Type*) where
  id : ℕ
  bitId : ℕ
  corrData : ℕ → K
  numCombos : ℕ
  tensorSize : ℕ
  tensorIndices : List ℕ

/-- A cluster index array: one row of site indices per cluster. -/
abbrev ClusterRows := List (List ℕ)

/-- Inner loop over sites of a cluster: `index += tensor_indices[i] * occu[indices[j, i]]`,
evaluator.pyx:160-162.  The two rows have the same length in the code. -/
def flatIndex (strides : List ℕ) (row : List ℕ) (occ : Occ) : ℕ :=
  (List.zipWith (fun s r => s * occ r) strides row).sum

/-- Assign slots in order: `o_view[slot] = value`. -/
def applyWrites (out : ℕ → K) (ws : List (ℕ × K)) : ℕ → K :=
  ws.foldl (fun o w => Function.update o w.1 w.2) out

/-- Body of the orbit loop of `correlations_from_occupancy`, evaluator.pyx:148-166. -/
def corrWrites (occ : Occ) (o : OrbitData K) (rows : ClusterRows) : List (ℕ × K) :=
  (List.range o.numCombos).map fun k =>
    (o.bitId + k,
      (rows.map fun r => o.corrData (k * o.tensorSize + flatIndex o.tensorIndices r occ)).sum
        / (rows.length : K))

/-- `correlations_from_occupancy`, evaluator.pyx:121-168 (serial order of orbits). -/
def correlationsFromOccupancy (orbits : List (OrbitData K × ClusterRows)) (occ : Occ) : ℕ → K :=
  applyWrites (fun i => if i = 0 then 1 else 0)
    (orbits.flatMap fun p => corrWrites occ p.1 p.2)

/-- Body of the orbit loop of `interactions_from_occupancy`, evaluator.pyx:195-207. -/
def interWrites (occ : Occ) (o : OrbitData K) (inter : ℕ → K) (rows : ClusterRows) :
    List (ℕ × K) :=
  [(o.id, (rows.map fun r => inter (flatIndex o.tensorIndices r occ)).sum / (rows.length : K))]

/-- `interactions_from_occupancy`, evaluator.pyx:170-209.  Each orbit comes with its flattened
interaction tensor. -/
def interactionsFromOccupancy (offset : K)
    (orbits : List ((OrbitData K × (ℕ → K)) × ClusterRows)) (occ : Occ) : ℕ → K :=
  applyWrites (fun i => if i = 0 then offset else 0)
    (orbits.flatMap fun p => interWrites occ p.1.1 p.1.2 p.2)

/-- Body of the orbit loop of `delta_correlations_from_occupancies`, evaluator.pyx:244-263. -/
def deltaCorrWrites (occF occI : Occ) (o : OrbitData K) (rows : ClusterRows) (ratio : K) :
    List (ℕ × K) :=
  (List.range o.numCombos).map fun k =>
    (o.bitId + k,
      (rows.map fun r =>
          o.corrData (k * o.tensorSize + flatIndex o.tensorIndices r occF)
            - o.corrData (k * o.tensorSize + flatIndex o.tensorIndices r occI)).sum
        / ratio / (rows.length : K))

/-- Body of the orbit loop of `delta_interactions_from_occupancies`, evaluator.pyx:302-315. -/
def deltaInterWrites (occF occI : Occ) (o : OrbitData K) (inter : ℕ → K)
    (rows : ClusterRows) (ratio : K) : List (ℕ × K) :=
  [(o.id,
      (rows.map fun r =>
          inter (flatIndex o.tensorIndices r occF) - inter (flatIndex o.tensorIndices r occI)).sum
        / ratio / (rows.length : K))]

/-- `_eval_data_by_sites[site]`: for the orbits whose index array mentions the site, the rows that
mention it and the ratio of all rows to these rows, smol/moca/processor/expansion.py:121-135
(and 324-338 for the decomposition).  `α` is the orbit data carried along. -/
def localData {α : Type*} (orbits : List (α × ClusterRows)) (site : ℕ) :
    List (α × ClusterRows × K) :=
  orbits.filterMap fun p =>
    let rows := p.2.filter fun r => decide (site ∈ r)
    if rows = [] then none
    else some (p.1, rows, (p.2.length : K) / (rows.length : K))

/-- `ClusterExpansionProcessor` data used below: prim cells in the supercell, number of correlation
functions, orbits with their index arrays in the supercell. -/
structure CEProcessor (K : Type*) where
  size : ℕ
  numCorr : ℕ
  orbits : List (OrbitData K × ClusterRows)

/-- `compute_feature_vector`, expansion.py:162-180. -/
def CEProcessor.featureVector (P : CEProcessor K) (occ : Occ) : ℕ → K :=
  fun i => correlationsFromOccupancy P.orbits occ i * (P.size : K)

/-- One pass of the loop of `compute_feature_vector_change`, expansion.py:203-210.
`none` is the `KeyError` for a site that is in no cluster. -/
def CEProcessor.deltaCorr (P : CEProcessor K) (occI : Occ) (f : ℕ × ℕ) : Option (ℕ → K) :=
  let loc : List (OrbitData K × ClusterRows × K) := localData P.orbits f.1
  if loc = [] then none
  else
    let occF := Function.update occI f.1 f.2
    some (applyWrites (fun _ => 0)
      (loc.flatMap fun d => deltaCorrWrites occF occI d.1 d.2.1 d.2.2))

/-- The loop over flips, accumulating, expansion.py:201-211. -/
def CEProcessor.deltaLoop (P : CEProcessor K) (occI : Occ) : Step → (ℕ → K) → Option (ℕ → K)
  | [], acc => some acc
  | f :: fs, acc =>
    match P.deltaCorr occI f with
    | none => none
    | some d => P.deltaLoop (Function.update occI f.1 f.2) fs (fun i => acc i + d i)

/-- `compute_feature_vector_change`, expansion.py:182-212. -/
def CEProcessor.featureVectorChange (P : CEProcessor K) (occ : Occ) (flips : Step) :
    Option (ℕ → K) :=
  (P.deltaLoop occ flips (fun _ => 0)).map fun d i => d i * (P.size : K)

/-- `ClusterDecompositionProcessor` data: offset is `interaction_tensors[0]`. -/
structure CDProcessor (K : Type*) where
  size : ℕ
  numOrbits : ℕ
  offset : K
  orbits : List ((OrbitData K × (ℕ → K)) × ClusterRows)

/-- `compute_feature_vector`, expansion.py:370-387. -/
def CDProcessor.featureVector (P : CDProcessor K) (occ : Occ) : ℕ → K :=
  fun i => interactionsFromOccupancy P.offset P.orbits occ i * (P.size : K)

/-- One pass of the loop of `compute_feature_vector_change`, expansion.py:409-418. -/
def CDProcessor.deltaInter (P : CDProcessor K) (occI : Occ) (f : ℕ × ℕ) : Option (ℕ → K) :=
  let loc : List ((OrbitData K × (ℕ → K)) × ClusterRows × K) := localData P.orbits f.1
  if loc = [] then none
  else
    let occF := Function.update occI f.1 f.2
    some (applyWrites (fun _ => 0)
      (loc.flatMap fun d => deltaInterWrites occF occI d.1.1 d.1.2 d.2.1 d.2.2))

/-- The loop over flips, expansion.py:407-418. -/
def CDProcessor.deltaLoop (P : CDProcessor K) (occI : Occ) : Step → (ℕ → K) → Option (ℕ → K)
  | [], acc => some acc
  | f :: fs, acc =>
    match P.deltaInter occI f with
    | none => none
    | some d => P.deltaLoop (Function.update occI f.1 f.2) fs (fun i => acc i + d i)

/-- `compute_feature_vector_change`, expansion.py:389-420. -/
def CDProcessor.featureVectorChange (P : CDProcessor K) (occ : Occ) (flips : Step) :
    Option (ℕ → K) :=
  (P.deltaLoop occ flips (fun _ => 0)).map fun d i => d i * (P.size : K)

end Smol
