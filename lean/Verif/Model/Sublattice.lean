import Verif.Model.Basic
import Mathlib.Data.List.Sort

/-!
# Sublattices

Models `smol/moca/sublattice.py`.
-/

namespace Smol

/-- `Sublattice`, smol/moca/sublattice.py:22-63.
`species` are the allowed species in site-space order (as abstract numbers);
the species' compositions (measure) are not modelled.
`activeFloat` records the dtype of the `active_sites` array: the comprehension in `restrict_sites`
makes a *float* array when its result is empty. -/
structure Sublattice where
  species : List ℕ
  sites : List ℕ
  active : List ℕ
  activeFloat : Bool
  encoding : List ℕ
  deriving DecidableEq, Repr

/-- `np.unique`: sorted without repetition. -/
def npUnique (l : List ℕ) : List ℕ := l.dedup.insertionSort (· ≤ ·)

/-- `restrict_sites`, smol/moca/sublattice.py:90-100. -/
def Sublattice.restrict (sl : Sublattice) (xs : List ℕ) : Sublattice :=
  let active := sl.active.filter fun i => decide (i ∉ xs)
  { sl with active := active, activeFloat := active.isEmpty }

/-- `reset_restricted_sites`, smol/moca/sublattice.py:102-106. -/
def Sublattice.reset (sl : Sublattice) : Sublattice :=
  if sl.species.length > 1 then { sl with active := sl.sites, activeFloat := false } else sl

/-- Constructor with `__post_init__`, smol/moca/sublattice.py:55-63. -/
def Sublattice.new (species sites : List ℕ) : Sublattice :=
  let s := npUnique sites
  let sl : Sublattice := ⟨species, s, s, false, List.range species.length⟩
  if species.length ≤ 1 then sl.restrict s else sl

/-- `is_active`, smol/moca/sublattice.py:65-73. -/
def Sublattice.isActive (sl : Sublattice) : Bool := !sl.active.isEmpty

/-- `restricted_sites`, smol/moca/sublattice.py:85-88 (`np.setdiff1d`). -/
def Sublattice.restricted (sl : Sublattice) : List ℕ :=
  npUnique (sl.sites.filter fun i => decide (i ∉ sl.active))

/-- One part of `split_by_species`, smol/moca/sublattice.py:150-181.
`none`: a code that is not in the encoding (line 157), or indexing the occupancy with a float
array (line 162).
Simplification: the composition of the part (lines 159, 164-172) is not computed, its species are
listed in the order of their codes ("site space species were sorted", line 154). -/
def Sublattice.splitPart (sl : Sublattice) (occ : Occ) (codes : List ℕ) : Option Sublattice :=
  let partCodes := codes.insertionSort (· ≤ ·)
  if (∃ c ∈ partCodes, c ∉ sl.encoding) ∨ (codes ≠ [] ∧ sl.activeFloat = true) then none
  else
    let partSpecies := partCodes.map fun c => sl.species.getD (sl.encoding.idxOf c) 0
    let partSites := partCodes.flatMap fun c => sl.sites.filter fun s => occ s == c
    let partActives := partCodes.flatMap fun c => sl.active.filter fun s => occ s == c
    let part : Sublattice :=
      { Sublattice.new partSpecies partSites with
        active := partActives, activeFloat := false, encoding := partCodes }
    some (if partCodes.length = 1 then part.restrict part.sites else part)

/-- `split_by_species` given code lists, smol/moca/sublattice.py:127-134, 150-182. -/
def Sublattice.split (sl : Sublattice) (occ : Occ) (parts : List (List ℕ)) :
    Option (List Sublattice) :=
  parts.mapM (sl.splitPart occ)

/-- Species names to codes, smol/moca/sublattice.py:138-148; `none` is the `ValueError` of
`species.index`. -/
def Sublattice.codesOf (sl : Sublattice) (parts : List (List ℕ)) : Option (List (List ℕ)) :=
  parts.mapM fun part => part.mapM fun sp =>
    if sp ∈ sl.species then some (sl.encoding.getD (sl.species.idxOf sp) 0) else none

/-- Operations a user performs on a sublattice (directly or through the ensemble,
smol/moca/ensemble.py:365-382). -/
inductive SubOp
  | restrict (xs : List ℕ)
  | reset

/-- Run one operation. -/
def Sublattice.step (sl : Sublattice) : SubOp → Sublattice
  | .restrict xs => sl.restrict xs
  | .reset => sl.reset

/-- Run a history of operations. -/
def Sublattice.run (sl : Sublattice) (ops : List SubOp) : Sublattice := ops.foldl Sublattice.step sl

end Smol
