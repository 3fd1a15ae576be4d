import Verif.Model.Sublattice

/-!
Specification of composition statistics: what is on a site, and how often.
-/

namespace Smol.Spec

/-- How many of the sites hold the code. -/
def codeCount (sites : List ℕ) (occ : List ℕ) (c : ℕ) : ℕ :=
  (sites.filter fun s => decide (occ[s]? = some c)).length

/-- The species on a site: of the sublattice that has the site, the species listed at the position
of the site's code. -/
def speciesOn (sls : List Sublattice) (occ : List ℕ) (s : ℕ) : Option ℕ :=
  (sls.find? fun sl => decide (s ∈ sl.sites)).bind fun sl =>
    occ[s]?.bind fun c => ((sl.encoding.zip sl.species).find? fun p => decide (p.1 = c)).map Prod.snd

/-- How many sites of the occupancy hold the species. -/
def speciesCount (sls : List Sublattice) (occ : List ℕ) (sp : ℕ) : ℕ :=
  ((List.range occ.length).filter fun s => decide (speciesOn sls occ s = some sp)).length

/-- Every site is in a sublattice and holds one of its codes. -/
def ValidRow (sls : List Sublattice) (occ : List ℕ) : Prop :=
  occ.length = (sls.map fun sl => sl.sites.length).sum ∧
    ∀ sl ∈ sls, ∀ s ∈ sl.sites, ∃ c ∈ sl.encoding, occ[s]? = some c

end Smol.Spec
