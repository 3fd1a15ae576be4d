import Verif.Model.GroundVars

/-!
# What variables, occupancies and constraints of the ground-state problem mean

`spaces` lists the species allowed on each site of the supercell, in the order of their codes.
-/

namespace Smol.Spec

/-- The sublattice describes sites with the given original site space: its species are those at
the positions given by its encoding (all of them for an original sublattice, some for a split
one). -/
structure SiteFits (sl : Sublattice) (space : List ℕ) : Prop where
  nonempty : sl.species ≠ []
  length : sl.encoding.length = sl.species.length
  increasing : sl.encoding.Pairwise (· < ·)
  code : ∀ p c : ℕ, sl.encoding[p]? = some c → space[c]? = sl.species[p]?
  nodup : space.Nodup

/-- The sublattices divide the sites of the supercell among them. -/
structure GroundFits (subls : List Sublattice) (spaces : List (List ℕ)) : Prop where
  disjoint : (subls.flatMap Sublattice.sites).Nodup
  cover : ∀ s < spaces.length, ∃ sl ∈ subls, s ∈ sl.sites
  fits : ∀ sl ∈ subls, ∀ s ∈ sl.sites, ∃ space, spaces[s]? = some space ∧ SiteFits sl space

/-- The site may change its species. -/
def FreeSite (sl : Sublattice) (s : ℕ) : Prop := 1 < sl.species.length ∧ s ∈ sl.active

instance (sl : Sublattice) (s : ℕ) : Decidable (FreeSite sl s) := by
  unfold FreeSite; infer_instance

/-- An initial occupancy is given where a restricted site could hold several species. -/
def InitGiven (subls : List Sublattice) (init : Option Occ) : Prop :=
  ∀ sl ∈ subls, ∀ s ∈ sl.sites, 1 < sl.species.length → s ∉ sl.active → init ≠ none

/-- Moreover it shows an allowed species there. -/
def InitLegal (subls : List Sublattice) (init : Option Occ) : Prop :=
  ∀ sl ∈ subls, ∀ s ∈ sl.sites, 1 < sl.species.length → s ∉ sl.active →
    ∃ o, init = some o ∧ o s ∈ sl.encoding

/-- Occupancies the problem ranges over: allowed codes, initial codes on restricted sites. -/
def GroundLegal (subls : List Sublattice) (init : Option Occ) (occ : Occ) : Prop :=
  ∀ sl ∈ subls, ∀ s ∈ sl.sites, occ s ∈ sl.encoding ∧
    (1 < sl.species.length → s ∉ sl.active → ∃ o, init = some o ∧ occ s = o s)

/-- The species a site holds. -/
def speciesAt (spaces : List (List ℕ)) (occ : Occ) (s : ℕ) : Option ℕ :=
  spaces[s]?.bind fun space => space[occ s]?

/-- How many sites of the sublattice hold the species. -/
def countOn (spaces : List (List ℕ)) (occ : Occ) (sl : Sublattice) (sp : ℕ) : ℕ :=
  sl.sites.countP fun s => decide (speciesAt spaces occ s = some sp)

/-- Composition in "counts" format: species by species, sublattice by sublattice. -/
def groundCounts (subls : List Sublattice) (spaces : List (List ℕ)) (occ : Occ) : List ℕ :=
  subls.flatMap fun sl => sl.species.map fun sp => countOn spaces occ sl sp

/-- The same, sublattice by sublattice, as rational numbers. -/
def groundTable (subls : List Sublattice) (spaces : List (List ℕ)) (occ : Occ) : List (List ℚ) :=
  subls.map fun sl => sl.species.map fun sp => (countOn spaces occ sl sp : ℚ)

/-- `a · n`. -/
def rowSum (a n : List ℚ) : ℚ := (List.zipWith (· * ·) a n).sum

/-- An assignment of 0 and 1 that meets the normalization of every site. -/
structure Normalized (marks : List (List ℤ)) (n : ℕ) (values : List ℤ) : Prop where
  length : values.length = n
  bool : ∀ x ∈ values, x = 0 ∨ x = 1
  norm : ∀ c ∈ normalizationConstraints marks, c.Holds fun i => ((values.getD i 0 : ℤ) : ℚ)

end Smol.Spec
