import Verif.Common
import Mathlib.Data.List.Lex
import Mathlib.Data.List.Sort
import Mathlib.Data.Finset.Lattice.Fold
import Mathlib.Algebra.Field.Defs

/-!
# Filtering fitting data

Models `get_duplicate_corr_indices` and `get_matching_corr_duplicate_indices` of
`smol/cofe/wrangling/wrangler.py` and the filters and weights of `smol/cofe/wrangling/tools.py`.

The feature matrix is a list of rows.  `np.around(…, decimals)` is an arbitrary function `rnd` of
the entries, `StructureMatcher.fit` an arbitrary relation of structure indices, and the reduced
composition of a structure is an opaque value compared by equality (pymatgen compares amounts up to
1e-8).
-/

namespace Smol

/-- Orbits as far as cutoffs look at them: diameter of the base cluster, `bit_id` and the number of
correlation functions. -/
structure OrbitInfo (K : Type*) where
  diameter : K
  bitId : ℕ
  funcs : ℕ

/-- `orbits_from_cutoffs`, smol/cofe/space/clusterspace.py:585-600, with the default lower cutoff 0.
`orbits` is the dictionary of orbits by size; the cutoffs are a dictionary (a `KeyError`, `none`, for
a size without orbits). -/
def orbitsFromCutoffs {K : Type*} [LinearOrder K] [Zero K] (orbits : List (ℕ × List (OrbitInfo K)))
    (upper : List (ℕ × K)) : Option (List (OrbitInfo K)) :=
  (upper.mapM fun (su : ℕ × K) => (orbits.lookup su.1).map fun os =>
    os.filter fun o => decide (0 ≤ o.diameter ∧ o.diameter ≤ su.2)).map List.flatten

/-- A single number as cutoff is used for every size, smol/cofe/space/clusterspace.py:585-589. -/
def scalarCutoff {K : Type*} (orbits : List (ℕ × List (OrbitInfo K))) (u : K) : List (ℕ × K) :=
  orbits.map fun o => (o.1, u)

/-- `function_inds_from_cutoffs`, smol/cofe/space/clusterspace.py:622-626. -/
def functionIndsFromCutoffs {K : Type*} [LinearOrder K] [Zero K]
    (orbits : List (ℕ × List (OrbitInfo K))) (upper : List (ℕ × K)) : Option (List ℕ) :=
  (orbitsFromCutoffs orbits upper).map fun os => os.flatMap fun o => List.range' o.bitId o.funcs

/-- The groups of equal keys with more than one member, in the order of the keys:
`np.unique(…, return_inverse=True, axis=0)` and the comprehension after it,
smol/cofe/wrangling/wrangler.py:283-288. -/
def duplicateGroups {κ : Type*} [LinearOrder κ] (keys : List κ) : List (List ℕ) :=
  ((keys.dedup.insertionSort (· ≤ ·)).map fun k =>
    (List.range keys.length).filter fun i => decide (keys[i]? = some k)).filter
      fun g => decide (1 < g.length)

/-- The rounded entries of a row in the given columns. -/
def rowKey {K : Type*} [Zero K] (rnd : K → K) (cols : List ℕ) (row : List K) : List K :=
  cols.map fun c => rnd (row.getD c 0)

/-- A wrangler as far as duplicates look at it. -/
structure WranglerData (K : Type*) where
  /-- the feature matrix -/
  rows : List (List K)
  numFeatures : ℕ
  numExternal : ℕ
  orbits : List (ℕ × List (OrbitInfo K))

/-- `get_duplicate_corr_indices`, smol/cofe/wrangling/wrangler.py:263-289.  With
`rm_external_terms=False` the columns are a `range` or an array, which have no `extend`
(`AttributeError`, `none`). -/
def WranglerData.duplicates {K : Type*} [LinearOrder K] [Zero K] (w : WranglerData K)
    (cutoffs : Option (List (ℕ × K))) (rnd : K → K) (rmExternal : Bool) :
    Option (List (List ℕ)) :=
  if w.rows = [] then some []
  else
    let cols := match cutoffs with
      | some u => functionIndsFromCutoffs w.orbits u
      | none => some (List.range (w.numFeatures - w.numExternal))
    cols.bind fun cols =>
      if rmExternal then some (duplicateGroups (w.rows.map (rowKey rnd cols))) else none

/-- `np.argmin`, `np.argmax`: the first position with no better entry. -/
def argBest {K : Type*} (better : K → K → Bool) (l : List K) : ℕ :=
  l.findIdx fun x => l.all fun y => !better y x

/-- `filter_by`, smol/cofe/wrangling/tools.py:47-50; `none`: `ValueError`. -/
def filterBy {K : Type*} [LinearOrder K] (s : String) : Option (K → K → Bool) :=
  if s = "min" then some fun a b => decide (a < b)
  else if s = "max" then some fun a b => decide (b < a)
  else none

/-- The sets of lines 54-56 of `unique_corr_vector_indices`, smol/cofe/wrangling/tools.py: kept
indices and their complement.  The order of the two lists is that of a Python set in the code and
is not modelled. -/
def uniqueIndices {K : Type*} (n : ℕ) (prop : ℕ → K) (better : K → K → Bool)
    (groups : List (List ℕ)) : List ℕ × List ℕ :=
  let chosen := groups.filterMap fun g => g[argBest better (g.map prop)]?
  let dups := groups.flatten.filter fun i => decide (i ∉ chosen)
  ((List.range n).filter fun i => decide (i ∉ dups), dups)

/-- `unique_corr_vector_indices`, smol/cofe/wrangling/tools.py:20-60; `rnd12` is the default
rounding to 12 decimals. -/
def WranglerData.uniqueCorr {K : Type*} [LinearOrder K] [Zero K] (w : WranglerData K)
    (prop : ℕ → K) (rnd12 : K → K) (filter : String) (cutoffs : Option (List (ℕ × K))) :
    Option (List ℕ × List ℕ) :=
  (filterBy filter).bind fun better =>
    (w.duplicates cutoffs rnd12 true).map fun groups => uniqueIndices w.rows.length prop better groups

/-! ## matching structures -/

/-- `combinations(l, 2)` -/
def combos2 {α : Type*} : List α → List (α × α)
  | [] => []
  | a :: l => l.map (fun b => (a, b)) ++ combos2 l

/-- The overlapping pairs of sets, smol/cofe/wrangling/wrangler.py:328-330. -/
def overlaps (ms : List (Finset ℕ)) : List (Finset ℕ × Finset ℕ) :=
  (combos2 ms).filter fun p => decide ((p.1 ∩ p.2).Nonempty)

/-- One round of merging, smol/cofe/wrangling/wrangler.py:331-337. -/
def mergeStep (ms : List (Finset ℕ)) : List (Finset ℕ) :=
  (overlaps ms).foldl (fun acc p => if p.1 ∪ p.2 ∈ acc then acc else acc ++ [p.1 ∪ p.2])
    (ms.filter fun s => decide (s ∉ (overlaps ms).flatMap fun p => [p.1, p.2]))

/-- The loop of lines 328-338 for at most `fuel` rounds; `none`: not finished. -/
def mergeLoop : ℕ → List (Finset ℕ) → Option (List (Finset ℕ))
  | 0, ms => if overlaps ms = [] then some ms else none
  | fuel + 1, ms => if overlaps ms = [] then some ms else mergeLoop fuel (mergeStep ms)

/-- The matching pairs of a group, smol/cofe/wrangling/wrangler.py:319-326. -/
def matchingPairs (fit : ℕ → ℕ → Bool) (inds : List ℕ) : List (Finset ℕ) :=
  ((combos2 inds).filter fun c => fit c.1 c.2).map fun c => {c.1, c.2}

/-- `list(sorted(m))` -/
def sortedSet (s : Finset ℕ) : List ℕ := (List.range (s.sup id + 1)).filter fun i => decide (i ∈ s)

/-- `get_matching_corr_duplicate_indices`, smol/cofe/wrangling/wrangler.py:315-340, for at most
`fuel` rounds of merging per group.  The number of decimals is passed as the first argument of
`get_duplicate_corr_indices`, the cutoffs; `decimals` is that number, `rnd12` the default rounding. -/
def WranglerData.matching {K : Type*} [LinearOrder K] [Zero K] (w : WranglerData K)
    (fuel : ℕ) (decimals : K) (rnd12 : K → K) (fit : ℕ → ℕ → Bool) : Option (List (List ℕ)) :=
  (w.duplicates (some (scalarCutoff w.orbits decimals)) rnd12 true).bind fun groups =>
    (groups.mapM fun g => (mergeLoop fuel (matchingPairs fit g)).map fun ms =>
      ms.map sortedSet).map List.flatten

/-! ## energies by composition -/

/-- The loop finding the lowest value of every composition, smol/cofe/wrangling/tools.py:104-108 and
192-196; `none` is `np.inf`. -/
def minByComp {C K : Type*} [DecidableEq C] [LinearOrder K] :
    List (C × K) → (C → Option K) → C → Option K
  | [], m => m
  | (c, e) :: l, m =>
    minByComp l (if ∀ x ∈ m c, e < x then Function.update m c (some e) else m)

variable {C K : Type*} [DecidableEq C] [Field K] [LinearOrder K]

/-- The value of a structure relative to the lowest of its composition,
smol/cofe/wrangling/tools.py:111-113, 197-200.  The composition always has a value; `none` cannot
happen. -/
def aboveComp (data : List (C × K)) : List (Option K) :=
  data.map fun d => (minByComp data (fun _ => none) d.1).map fun m => d.2 - m

/-- `max_ewald_energy_indices`, smol/cofe/wrangling/tools.py:104-121, from the composition and the
Ewald energy of every entry: indices and complement. -/
def maxEwaldIndices (data : List (C × K)) (threshold : K) : List ℕ × List ℕ :=
  let keep : ℕ → Bool := fun i => decide (∀ d ∈ data[i]?, ∀ m ∈ minByComp data (fun _ => none) d.1,
    d.2 - m < threshold)
  ((List.range data.length).filter keep, (List.range data.length).filter fun i => !keep i)

/-- `_energies_above_composition`, smol/cofe/wrangling/tools.py:192-204, from the composition, the
energy and the number of sites of every structure. -/
def energiesAboveComposition (data : List (C × K × ℕ)) : List (Option K) :=
  aboveComp (data.map fun d => (d.1, d.2.1 / (d.2.2 : K)))

end Smol
