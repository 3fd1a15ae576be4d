import Verif.Spec.Ergodic

/-!
# Numbers of particles
-/

namespace Smol.Spec
open Smol

/-- The species that a code stands for on a sublattice. -/
def codeSpecies (sl : Sublattice) (c : ℕ) : Option ℕ := (sl.encoding.zip sl.species).lookup c

/-- Number of sites of the sublattices that hold a species. -/
def particles (sls : List Sublattice) (y : ℕ → ℕ) (sp : ℕ) : ℕ :=
  (sls.map fun sl => (sl.sites.filter fun s => codeSpecies sl (y s) == some sp).length).sum

/-- `Σ μ N` for chemical potentials given as a dictionary. -/
noncomputable def reservoir (v : List (ℕ × ℝ)) (sls : List Sublattice) (y : ℕ → ℕ) : ℝ :=
  (v.map fun p => p.2 * (particles sls y p.1 : ℝ)).sum

end Smol.Spec
