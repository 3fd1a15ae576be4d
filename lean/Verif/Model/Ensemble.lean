import Verif.Model.Composite
import Verif.Model.OccuUtils

/-!
# Ensembles and chemical potentials

Models `smol/moca/ensemble.py`.
-/

namespace Smol

variable {K : Type*} [CommRing K]

/-- The dictionary `_chemical_potentials`, smol/moca/ensemble.py:65-69: the values by species and
the table by site and code. -/
structure ChemPots (K : Type*) where
  value : List (ℕ × K)
  table : ℕ → ℕ → K

/-- The mutable state of an ensemble, smol/moca/ensemble.py:113-130: `processor.coefs`, `_params`,
`_chemical_potentials` (absent: `none`), `thermo_boundaries["chemical_potentials"]` (absent:
`none`) and `_sublattices`. -/
structure Ens (K : Type*) where
  coefs : List K
  params : List K
  mu : Option (ChemPots K)
  boundary : Option (List (ℕ × K))
  subl : List Sublattice

/-- `active_sublattices`, smol/moca/ensemble.py:235-238. -/
def Ens.activeSubl (e : Ens K) : List Sublattice := e.subl.filter Sublattice.isActive

/-- `species`, smol/moca/ensemble.py:247-255 (a set; its order is irrelevant). -/
def Ens.species (e : Ens K) : List ℕ := e.activeSubl.flatMap Sublattice.species

/-- `value[sp]`. -/
def potOf (v : List (ℕ × K)) (sp : ℕ) : K := (v.lookup sp).getD 0

/-- `_build_table`, smol/moca/ensemble.py:89-99.
Simplification: the array is a function of site and code (entries never written are 0). -/
def buildTable (e : Ens K) (v : List (ℕ × K)) : ℕ → ℕ → K :=
  e.activeSubl.foldl (fun t sl s c =>
    if s ∈ sl.sites ∧ c ∈ sl.encoding then
      potOf v (sl.species.getD (sl.encoding.idxOf c) 0)
    else t s c) fun _ _ => 0

/-- `natural_parameters` setter, smol/moca/ensemble.py:267-275; `none` is the `ValueError`. -/
def Ens.setParams [DecidableEq K] (e : Ens K) (value : List K) : Option (Ens K) :=
  if value.take e.coefs.length = e.coefs then some { e with params := value } else none

/-- `ChemicalPotentialManager.__delete__`, smol/moca/ensemble.py:77-87. -/
def Ens.delMu [DecidableEq K] (e : Ens K) : Option (Ens K) :=
  let e' := { e with mu := none, boundary := none }
  if e'.coefs.length < e'.params.length then e'.setParams e'.params.dropLast else some e'

/-- `ChemicalPotentialManager.__set__` of a dictionary, smol/moca/ensemble.py:37-75, after its
keys have been turned into species (so a species can appear twice). -/
def Ens.setMu [DecidableEq K] (e : Ens K) (value : List (ℕ × K)) : Option (Ens K) :=
  if ¬ (value.map Prod.fst).Nodup then none
  else
    let v := value.filter fun p => decide (p.1 ∈ e.species)
    if ∃ sp ∈ e.species, sp ∉ v.map Prod.fst then none
    else
      let e₁ := if e.mu.isNone then e.setParams (e.params ++ [-1]) else some e
      e₁.map fun e₁ => { e₁ with mu := some ⟨v, buildTable e₁ v⟩, boundary := some v }

/-- `Ensemble.__init__` without chemical potentials, smol/moca/ensemble.py:113-130.
`processor.coefs` is always one-dimensional (smol/moca/processor/base.py:57-60). -/
def Ens.init [DecidableEq K] (coefs : List K) (subl : List Sublattice) : Option (Ens K) :=
  Ens.delMu ⟨coefs, coefs, none, none, subl⟩

/-- What a user does to an ensemble.  `split` is `split_sublattice_by_species` with code lists. -/
inductive EnsOp (K : Type*)
  | setMu (value : List (ℕ × K))
  | delMu
  | restrict (xs : List ℕ)
  | reset
  | split (id : ℕ) (occ : Occ) (parts : List (List ℕ))

/-- `split_sublattice_by_species`, smol/moca/ensemble.py:296-310.  The second component tells
whether it returned; a failure after line 304 leaves the new sublattices in place. -/
def Ens.split [DecidableEq K] (e : Ens K) (id : ℕ) (occ : Occ) (parts : List (List ℕ)) :
    Ens K × Bool :=
  match e.subl[id]? with
  | none => (e, false)
  | some sl =>
    match sl.split occ parts with
    | none => (e, false)
    | some splits =>
      let e' := { e with subl := e.subl.take id ++ splits ++ e.subl.drop (id + 1) }
      match e'.mu with
      | none => (e', true)
      | some m =>
        if ∃ sp ∈ e'.species, sp ∉ m.value.map Prod.fst then (e', false)  -- KeyError
        else
          match e'.setMu (e'.species.dedup.map fun sp => (sp, potOf m.value sp)) with
          | none => (e', false)
          | some e'' => (e'', true)

/-- One operation; an operation that raises leaves the state as the code left it.
`restrict_sites` and `reset_restricted_sites`: smol/moca/ensemble.py:365-382. -/
def Ens.step [DecidableEq K] (e : Ens K) : EnsOp K → Ens K
  | .setMu v => (e.setMu v).getD e
  | .delMu => e.delMu.getD e
  | .restrict xs => { e with subl := e.subl.map fun sl => sl.restrict xs }
  | .reset => { e with subl := e.subl.map Sublattice.reset }
  | .split id occ parts => (e.split id occ parts).1

/-- A history of operations. -/
def Ens.run [DecidableEq K] (e : Ens K) (ops : List (EnsOp K)) : Ens K := ops.foldl Ens.step e

/-- Chemical work, smol/moca/ensemble.py:333-336. -/
def chemicalWork (table : ℕ → ℕ → K) (numSites : ℕ) (occ : Occ) : K :=
  ((List.range numSites).map fun s => table s (occ s)).sum

/-- Its change, smol/moca/ensemble.py:356-360: every flip is compared with the *original*
occupancy. -/
def chemicalWorkChange (table : ℕ → ℕ → K) (occ : Occ) (step : Step) : K :=
  (step.map fun f => table f.1 f.2 - table f.1 (occ f.1)).sum

/-- `compute_feature_vector`, smol/moca/ensemble.py:312-339. -/
def Ens.feature (e : Ens K) (proc : PartProc K) (numSites : ℕ) (occ : Occ) : List K :=
  match e.mu with
  | none => proc.feature occ
  | some m => proc.feature occ ++ [chemicalWork m.table numSites occ]

/-- `compute_feature_vector_change`, smol/moca/ensemble.py:341-363. -/
def Ens.change (e : Ens K) (proc : PartProc K) (occ : Occ) (step : Step) : List K :=
  match e.mu with
  | none => proc.change occ step
  | some m => proc.change occ step ++ [chemicalWorkChange m.table occ step]

end Smol
