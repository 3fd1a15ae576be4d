import Verif.Model.SiteSpace

/-!
# What random occupancies have to satisfy
-/

namespace Smol.Spec

/-- Sublattices as a processor makes them: as many codes as species, nothing listed twice, no site
in two sublattices. -/
structure RandomOk (subls : List Sublattice) : Prop where
  length : ∀ sl ∈ subls, sl.encoding.length = sl.species.length
  encoding : ∀ sl ∈ subls, sl.encoding.Nodup
  species : ∀ sl ∈ subls, sl.species.Nodup
  sites : ∀ sl ∈ subls, sl.sites.Nodup
  disjoint : subls.Pairwise fun a b => ∀ s ∈ a.sites, s ∉ b.sites

/-- Every site of every sublattice holds one of its codes. -/
def AllowedCodes (subls : List Sublattice) (occ : Occ) : Prop :=
  ∀ sl ∈ subls, ∀ s ∈ sl.sites, occ s ∈ sl.encoding

/-- The species a site of the sublattice holds. -/
def heldSpecies (sl : Sublattice) (occ : Occ) (s : ℕ) : Option ℕ :=
  (sl.encoding.zip sl.species).lookup (occ s)

/-- Number of sites of the sublattice holding a species. -/
def heldCount (sl : Sublattice) (occ : Occ) (sp : ℕ) : ℕ :=
  (sl.sites.filter fun s => heldSpecies sl occ s = some sp).length

/-- Total charge, given the charge of every species. -/
def chargeOf (charge : ℕ → ℚ) (subls : List Sublattice) (occ : Occ) : ℚ :=
  (subls.map fun sl => (sl.sites.map fun s => ((heldSpecies sl occ s).map charge).getD 0).sum).sum

/-- Fraction of sites a composition asks for a species: the amount divided by the total if that
exceeds one; what is missing to one is the vacancy's. -/
def requested (vac : ℕ) (c : SiteComp) (sp : ℕ) : ℚ :=
  match c.lookup sp with
  | some x => x / max 1 c.numAtoms
  | none => if sp = vac then max 0 (1 - c.numAtoms) else 0

end Smol.Spec
