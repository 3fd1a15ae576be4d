import Verif.Model.Evaluator
import Mathlib.Data.List.Sort

/-!
# Orbits: equivalent orderings, correlation tensors and their flat layout

Models `smol/cofe/space/orbit.py`.  The cluster permutations (line 435-462, found by coordinate
matching) are an input: a list of index lists.
-/

namespace Smol

/-- `itertools.product(*lists)`. -/
def lexProduct : List (List ℕ) → List (List ℕ)
  | [] => [[]]
  | l :: ls => l.flatMap fun x => (lexProduct ls).map fun r => x :: r

/-- Index array: `a[pi]`. -/
def permute (a pi : List ℕ) : List ℕ := pi.map fun i => a.getD i 0

/-- `np.unique(rows, axis=0)`. -/
def uniqueRows (rows : List (List ℕ)) : List (List ℕ) := rows.dedup.insertionSort (· ≤ ·)

/-- Body of the loop of `bit_combos`, smol/cofe/space/orbit.py:143-147. -/
def addCombo (perms : List (List ℕ)) (all : List (List (List ℕ))) (combo : List ℕ) :
    List (List (List ℕ)) :=
  if combo ∈ all.flatten then all
  else all ++ [uniqueRows (perms.map fun pi => permute combo pi)]

/-- `bit_combos`, smol/cofe/space/orbit.py:132-149. -/
def bitCombos (bits : List (List ℕ)) (perms : List (List ℕ)) : List (List (List ℕ)) :=
  (lexProduct bits).foldl (addCombo perms) []

variable {K : Type*} [Field K]

/-- One term of `correlation_tensors`: the outer product of the site functions numbered `bits`,
at the codes `codes`; smol/cofe/space/orbit.py:234-237.
`basis i` is the function array of site `i` (function index, then code). -/
def outerAt (basis : ℕ → ℕ → ℕ → K) (bits codes : List ℕ) : K :=
  ((List.range bits.length).map fun i => basis i (bits.getD i 0) (codes.getD i 0)).prod

/-- Entry of `correlation_tensors[k]` for the class `combos`, smol/cofe/space/orbit.py:232-238. -/
def corrTensor (basis : ℕ → ℕ → ℕ → K) (combos : List (List ℕ)) (codes : List ℕ) : K :=
  (combos.map fun bits => outerAt basis bits codes).sum / (combos.length : K)

/-- `np.cumprod`. -/
def cumprod : ℕ → List ℕ → List ℕ
  | _, [] => []
  | acc, x :: l => (acc * x) :: cumprod (acc * x) l

/-- `flat_tensor_indices` for site dimensions `shape`, smol/cofe/space/orbit.py:260-266
(`correlation_tensors.shape[2:]` is `shape` without its first entry). -/
def flatTensorIndices (shape : List ℕ) : List ℕ := (cumprod 1 (shape.tail ++ [1]).reverse).reverse

/-- All index tuples of an array in C order. -/
def cOrder (shape : List ℕ) : List (List ℕ) := lexProduct (shape.map List.range)

/-- `flat_correlation_tensors` read as one contiguous block, smol/cofe/space/orbit.py:244-258:
for every class the tensor entries in C order. -/
def flatCorrTensors (basis : ℕ → ℕ → ℕ → K) (shape : List ℕ) (classes : List (List (List ℕ))) :
    List K :=
  classes.flatMap fun combos => (cOrder shape).map fun codes => corrTensor basis combos codes

/-- The evaluator's data for an orbit, smol/utils/cluster/__init__.py:4-15 (`get_orbit_data`) and
container.pyx:84-105. -/
def orbitData (id bitId : ℕ) (basis : ℕ → ℕ → ℕ → K) (shape : List ℕ)
    (classes : List (List (List ℕ))) : OrbitData K where
  id := id
  bitId := bitId
  corrData := fun n => (flatCorrTensors basis shape classes).getD n 0
  numCombos := classes.length
  tensorSize := shape.prod
  tensorIndices := flatTensorIndices shape

end Smol
