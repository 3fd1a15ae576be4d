import Verif.Model.Ensemble
import Verif.Model.Container
import Verif.Model.Expansion

/-!
# Saving and loading

Models the `as_dict` / `from_dict` pairs of sublattices, ensembles, sample containers (also
`to_hdf5` / `from_hdf5`), cluster subspaces, cluster expansions and decomposition processors.

Simplification: json keeps numbers and strings; species, site spaces, structures, symmetry
operations, matchers and metadata are saved by pymatgen and monty and come back as they were.
-/

namespace Smol

/-! ### Sublattices -/

/-- The dictionary of a sublattice, smol/moca/sublattice.py:203-208. -/
structure SubDict where
  species : List ℕ
  sites : List ℕ
  encoding : List ℕ
  active : List ℕ
  deriving DecidableEq, Repr

/-- `Sublattice.as_dict`, smol/moca/sublattice.py:197-209. -/
def Sublattice.asDict (sl : Sublattice) : SubDict := ⟨sl.species, sl.sites, sl.encoding, sl.active⟩

/-- `Sublattice.from_dict`, smol/moca/sublattice.py:211-224: the arrays are made with
`dtype=int`. -/
def Sublattice.fromDict (d : SubDict) : Sublattice :=
  { Sublattice.new d.species d.sites with
    active := d.active, activeFloat := false, encoding := d.encoding }

/-- Sublattices a program can hold: new ones, and those made from others by restricting,
resetting and splitting. -/
inductive Sublattice.Made : Sublattice → Prop
  | new (species sites : List ℕ) : Made (Sublattice.new species sites)
  | step (sl : Sublattice) (op : SubOp) : Made sl → Made (sl.step op)
  | part (sl : Sublattice) (occ : Occ) (codes : List ℕ) (p : Sublattice) :
      Made sl → sl.splitPart occ codes = some p → Made p

/-! ### Ensembles -/

section Ensemble
variable {K : Type*} [CommRing K] [DecidableEq K]

/-- The dictionary of an ensemble, smol/moca/ensemble.py:390-396; of the processor only its
coefficients matter for the ensemble. -/
structure EnsDict (K : Type*) where
  boundary : Option (List (ℕ × K))
  coefs : List K
  subl : List SubDict

/-- `Ensemble.as_dict`, smol/moca/ensemble.py:384-397. -/
def Ens.asDict (e : Ens K) : EnsDict K := ⟨e.boundary, e.coefs, e.subl.map Sublattice.asDict⟩

/-- `Ensemble.from_dict`, smol/moca/ensemble.py:399-417; `none`: an exception. -/
def Ens.fromDict (d : EnsDict K) : Option (Ens K) :=
  (Ens.init d.coefs (d.subl.map Sublattice.fromDict)).bind fun e =>
    match d.boundary with
    | none => some e
    | some v => e.setMu v

end Ensemble

/-! ### Sample containers -/

section Container
variable {α : Type*}

/-- The part of the dictionary of a container that holds samples,
smol/moca/sampler/container.py:527-536. -/
structure ContDict (α : Type*) where
  trace : List α
  nsamples : ℕ
  totalSteps : ℕ

/-- `SampleContainer.as_dict`, smol/moca/sampler/container.py:521-538.  `junk` is what memory never
written holds. -/
def Container.asDict (junk : α) (c : Container α) : ContDict α :=
  ⟨c.rows.map fun r => r.getD junk, c.nsamples, c.totalSteps⟩

/-- `SampleContainer.from_dict`, smol/moca/sampler/container.py:572-609.  The entry `nsamples` is
not read. -/
def Container.fromDict (d : ContDict α) : Container α :=
  ⟨d.trace.map some, d.trace.length, d.totalSteps⟩

/-- `to_hdf5`, smol/moca/sampler/container.py:611-624: the container and the file afterwards;
`none`: an exception. -/
def Container.toHdf5 (c : Container α) (file : Option (Backend α)) :
    Option (Container α × Backend α) :=
  (c.flush (getBackend file c.nsamples)).map fun st =>
    ({ st.1 with nsamples := c.nsamples, totalSteps := c.totalSteps }, st.2)

/-- `from_hdf5`, smol/moca/sampler/container.py:626-688. -/
def Container.fromHdf5 (b : Backend α) : Container α := ⟨b.read, b.nsamples, b.totalSteps⟩

end Container

/-! ### Cluster subspaces -/

/-- An orbit through its dictionary, smol/cofe/space/orbit.py:531-569: bit combos are kept, ids
are not saved (a new orbit has none, here 0). -/
def Orb.reload (o : Orb) : Orb := { o with id := 0, bitId := 0 }

/-- `ClusterSubspace.from_dict` of `as_dict`, smol/cofe/space/clusterspace.py:1546-1635 (the
constructor assigns ids). -/
def OrbitSpace.reload (S : OrbitSpace) : OrbitSpace :=
  OrbitSpace.assigned (S.dict.map fun p => (p.1, p.2.map Orb.reload))

/-- `PottsSubspace.from_dict` of `as_dict`, smol/cofe/space/clusterspace.py:1967-1991:
with `_wo_last_cluster` the last bit combo of every orbit is removed (again).  `none`: the
`RuntimeError` of smol/cofe/space/orbit.py:331-334. -/
def OrbitSpace.reloadPotts (S : OrbitSpace) (woLast : Bool) : Option OrbitSpace :=
  let R := S.reload
  if woLast then
    if ∃ o ∈ R.orbits, (o.removeInds [(o.combos.length : ℤ) - 1]).combos = [] then none
    else some (OrbitSpace.assigned (R.dict.map fun p =>
      (p.1, p.2.map fun o => o.removeInds [(o.combos.length : ℤ) - 1])))
  else some (OrbitSpace.assigned R.dict)

/-! ### Cluster expansions -/

section Expansion
variable {K : Type*} [Field K] [LinearOrder K]

/-- A cluster expansion with its feature matrices: `regression_data.feature_matrix` and the copy
`_feat_matrix`, smol/cofe/expansion.py:140-168 (matrices as lists of rows). -/
structure FullExp (K : Type*) where
  exp : Expansion K
  reg : Option (List (List K))
  feat : Option (List (List K))

/-- `ClusterExpansion.__init__`, smol/cofe/expansion.py:124-168; `none` is one of the
`AttributeError`s. A matrix has at least one row and its number of columns is the length of its
first row. -/
def FullExp.init (E : Expansion K) (reg : Option (List (List K))) : Option (FullExp K) :=
  if (∃ m ∈ reg, E.coefs.length ≠ (m.headD []).length) ∨ E.coefs.length ≠ E.numTerms then none
  else some ⟨E, reg, reg⟩

/-- `prune`, smol/cofe/expansion.py:335-375: the coefficients and `_feat_matrix` are cut, the
regression data is not. `none`: an exception. -/
def FullExp.prune (F : FullExp K) (threshold : K) (withMult : Bool) : Option (FullExp K) :=
  (F.exp.prune threshold withMult).bind fun r =>
    if r.raised then none
    else (if withMult then F.exp.eci else some F.exp.coefs).map fun base =>
      ⟨r.exp, F.reg, F.feat.map fun m =>
        m.map fun row => complementOf (smallIds base threshold) row⟩

/-- `ClusterExpansion.from_dict` of `as_dict`, smol/cofe/expansion.py:486-535, also `copy` (377).
The saved `feature_matrix` is stored in the class, not in the object, which keeps the copy of the
regression data made by the constructor. -/
def FullExp.reload (F : FullExp K) : Option (FullExp K) :=
  FullExp.init { F.exp with space := F.exp.space.reload } F.reg

end Expansion

/-! ### Decomposition processors -/

section Decomposition
variable {K : Type*} [CommRing K]

/-- Coefficients of a `ClusterDecompositionProcessor`, smol/moca/processor/expansion.py:291-297;
`none`: the argument is not given. -/
def decompCoefs (S : OrbitSpace) (given : Option (List K)) : List K :=
  given.getD (S.orbitMults.map fun m : ℕ => (m : K))

/-- What `from_dict` of `as_dict` makes of them, smol/moca/processor/expansion.py:422-446: the
dictionary has an entry `coefficients` which is not read. -/
def decompReload (S : OrbitSpace) (_coefs : List K) : List K := decompCoefs S.reload none

end Decomposition

end Smol
