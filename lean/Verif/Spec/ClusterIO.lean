import Verif.Model.ClusterIO
import Verif.Spec.OrbitGen

/-!
# Specification: what a cluster object is and what a saved one keeps
-/

namespace Smol.Spec

variable {d : ℕ} {K : Type*} [Field K] [LinearOrder K] [IsStrictOrderedRing K] [FloorRing K]

/-- The composition of a site that a site space takes: a dictionary of positive amounts, not refused. -/
def Takes (k : VacKind) (c : SiteComp) : Prop :=
  CompOk c ∧ c.length < 99 ∧ (SiteSpace.make k c).isSome = true

/-- The clusters a user can hold: made of site spaces and coordinates, given an id, copied, or
saved and loaded. -/
inductive CluBuilt (k : SpecKind) (L : CLattice d K) (coords : List (Fin d → K)) : Clu d K → Prop
  | init (spaces : List SiteSpace) (hlen : spaces.length = coords.length)
      (hs : ∀ s ∈ spaces, ∃ c, Takes k.toVacKind c ∧ SiteSpace.make k.toVacKind c = some s) :
      CluBuilt k L coords (Clu.make spaces coords L)
  | assign (c : Clu d K) (n : ℕ) (h : CluBuilt k L coords c) :
      CluBuilt k L coords (c.assignIds n).1
  | copy (c c' : Clu d K) (h : CluBuilt k L coords c) (hc : c.copy k.toVacKind = some c') :
      CluBuilt k L coords c'
  | reload (c c' : Clu d K) (h : CluBuilt k L coords c) (hc : Clu.fromDict k (c.asDict k) = some c') :
      CluBuilt k L coords c'

/-- A cluster at the given fractional coordinates: its sites lie there, its own fractional
coordinates are these moved by one lattice vector, which brings their mean into the cell. -/
structure Placed (L : CLattice d K) (coords : List (Fin d → K)) (c : Clu d K) : Prop where
  lattice : c.lattice = L
  sites : c.sites.map Prod.snd = coords.map (cart L.mat)
  frac : ∃ T : Fin d → ℤ, c.frac = coords.map (shift T)
  mean : ∀ i, c.centroid i * coords.length = (c.frac.map fun x => x i).sum
  cell : ∀ i, 0 ≤ c.centroid i ∧ c.centroid i < 1

/-- Equal amounts for the species of a site, one more share being left free if the site is not
full. -/
def Shares (c c' : SiteComp) : Prop :=
  c'.map Prod.fst = c.map Prod.fst ∧
  ∀ p ∈ c', p.2 * ((c.length : ℚ) + if c.numAtoms < 99 / 100 then 1 else 0) = 1

/-- The species of a site whose symbol is not that of a vacancy of the site. -/
def withoutVacancies (k : SpecKind) (c : SiteComp) : SiteComp :=
  c.filter fun p => c.all fun q => !(k.isVac q.1) || decide (k.symbol q.1 ≠ k.symbol p.1)

/-- The species a site can hold, read from its composition. -/
def Offers (k : VacKind) (c : SiteComp) (sp : ℕ) : Prop :=
  ∃ s, SiteSpace.make k c = some s ∧ sp ∈ s.keys

/-- The names of files holding JSON and YAML. -/
def JsonName (p : CPath) : Prop :=
  ∃ a b, p.base = a ++ dotJson ++ b ∨ p.base = a ++ dotMson ++ b

def YamlName (p : CPath) : Prop := ∃ a b, p.base = a ++ dotYaml ++ b

end Smol.Spec
