import Verif.Model.Sublattice

/-!
Vocabulary for proposals: which sublattices, occupancies and steps are legal.  Only the fields of
the `Sublattice` record are used.
-/

namespace Smol.Spec

/-- Active sites are listed once and belong to one sublattice only. -/
structure SitesOk (act : List Sublattice) : Prop where
  nodup : ∀ sl ∈ act, sl.active.Nodup
  disjoint : ∀ a ∈ act, ∀ b ∈ act, a ≠ b → ∀ s ∈ a.active, s ∉ b.active

/-- Every active site holds a code of its sublattice. -/
def LegalOcc (act : List Sublattice) (occ : ℕ → ℕ) : Prop :=
  ∀ sl ∈ act, ∀ s ∈ sl.active, occ s ∈ sl.encoding

/-- Only active sites are changed, to codes of their sublattice, and no site is named twice. -/
structure LegalStep (act : List Sublattice) (step : List (ℕ × ℕ)) : Prop where
  flips : ∀ f ∈ step, ∃ sl ∈ act, f.1 ∈ sl.active ∧ f.2 ∈ sl.encoding
  once : (step.map Prod.fst).Nodup

/-- Number of active sites of a sublattice holding a code. -/
def holding (sl : Sublattice) (occ : ℕ → ℕ) (c : ℕ) : ℕ :=
  (sl.active.filter fun s => occ s == c).length

/-- The same number of active sites holds each code, on every sublattice. -/
def SameComposition (act : List Sublattice) (x y : ℕ → ℕ) : Prop :=
  ∀ sl ∈ act, ∀ c, holding sl x c = holding sl y c

end Smol.Spec
