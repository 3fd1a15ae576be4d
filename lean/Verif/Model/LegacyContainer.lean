import Verif.Model.SampleStats

/-!
# Containers saved by older versions

Models `SampleContainer._from_legacy` and how containers are saved and loaded with and without an
ensemble (`smol/moca/sampler/container.py`).

Of an ensemble only sublattices, natural parameters and the number of energy coefficients matter here; it
is taken to survive saving and loading, as are samples and metadata.  The trace is a list of pairs of
feature vector and enthalpy; metadata and auxiliary checkpoints are left out.
-/

namespace Smol

variable {K : Type*} [Field K]

/-- `Ensemble`: `sublattices`, `natural_parameters`, `num_energy_coefs`. -/
structure BoxEns (K : Type*) where
  subl : List Sublattice
  params : List K
  ncoefs : ℕ

/-- `SampleContainer.__init__`, smol/moca/sampler/container.py:77-90: `_ensemble`, `_sublattices`,
`_natural_parameters`, `_num_energy_coefs`, `_trace` and `_total_steps`. -/
structure SampleBox (K : Type*) where
  ens : Option (BoxEns K)
  subl : Option (List Sublattice)
  params : Option (List K)
  ncoefs : Option ℕ
  trace : List (List K × K)
  steps : ℕ

/-- A new container, smol/moca/sampler/container.py:77-90. -/
def SampleBox.new (ens : Option (BoxEns K)) (trace : List (List K × K)) : SampleBox K :=
  ⟨ens, none, none, ens.map BoxEns.ncoefs, trace, 0⟩

/-- `_from_legacy`, smol/moca/sampler/container.py:540-568; `none` is the `ValueError`. -/
def SampleBox.fromLegacy (ens : Option (BoxEns K)) (subl : List Sublattice) (trace : List (List K × K))
    (params : List K) (ncoefs : ℕ) : Option (SampleBox K) :=
  match ens with
  | none => some { SampleBox.new none trace with subl := some subl, params := some params, ncoefs := some ncoefs }
  | some e =>
    if (!e.subl.all fun sl => subl.any fun x => x.pyEq sl) || e.subl.length != subl.length then none
    else some (SampleBox.new (some e) trace)

/-- Dictionaries and hdf5 files: those of older versions have sublattices, parameters and the number of
coefficients, the others an ensemble or `null`. -/
inductive BoxFile (K : Type*)
  | legacy (subl : List Sublattice) (params : List K) (ncoefs : ℕ) (trace : List (List K × K)) (steps : ℕ)
  | current (ens : Option (BoxEns K)) (trace : List (List K × K)) (steps : ℕ)

/-- `from_dict` and `from_hdf5`, smol/moca/sampler/container.py:570-609, 626-688; `none`: raises.
`Ensemble.from_dict(None)` is a `TypeError`; the argument `ensemble` is used for older files only. -/
def BoxFile.load (f : BoxFile K) (ens : Option (BoxEns K)) : Option (SampleBox K) :=
  match f with
  | .legacy subl params ncoefs trace steps =>
    (SampleBox.fromLegacy ens subl trace params ncoefs).map fun b => { b with steps := steps }
  | .current none _ _ => none
  | .current (some e) trace steps => some { SampleBox.new (some e) trace with steps := steps }

/-- `as_dict`, smol/moca/sampler/container.py:521-538; `none`: `None` has no `as_dict`. -/
def SampleBox.asDict (b : SampleBox K) : Option (BoxFile K) :=
  b.ens.map fun e => .current (some e) b.trace b.steps

/-- `to_hdf5` to a new file, smol/moca/sampler/container.py:611-624 with `_init_backend`, lines 481-500:
without an ensemble `null` is written. -/
def SampleBox.toHdf5 (b : SampleBox K) : BoxFile K := .current b.ens b.trace b.steps

/-- `sublattices`, smol/moca/sampler/container.py:92-97. -/
def SampleBox.sublattices (b : SampleBox K) : Option (List Sublattice) :=
  match b.ens with
  | none => b.subl
  | some e => some e.subl

/-- `natural_parameters`, smol/moca/sampler/container.py:99-104. -/
def SampleBox.naturalParameters (b : SampleBox K) : Option (List K) :=
  match b.ens with
  | none => b.params
  | some e => some e.params

/-- `get_energies` for all samples, smol/moca/sampler/container.py:208-229; `none`: raises. -/
def SampleBox.energies (b : SampleBox K) : Option (List K) :=
  match b.naturalParameters, b.ncoefs with
  | some ps, some n =>
    if ps.length = n then some (b.trace.map Prod.snd)
    else some (b.trace.map fun t => (List.zipWith (· * ·) (t.1.take n) (ps.take n)).sum)
  | _, _ => none

end Smol
