import Verif.Common
import Mathlib.Analysis.Convex.Hull
import Mathlib.Analysis.SpecialFunctions.Exp
import Mathlib.Algebra.Order.Archimedean.Real.Basic

/-!
# Weights by energy above the hull

Models `weights_energy_above_hull`, `_energies_above_hull` and `_pd` of
`smol/cofe/wrangling/tools.py`.

Elements are numbered below `m`.  A structure is known by the amounts of the elements it holds
(`structure.composition.element_composition`, oxidation states dropped) and its total energy.
pymatgen's `PhaseDiagram` is taken by contract: it refuses entries holding an element for which there
is no entry of that element alone, and the hull energy at a composition is the lowest energy of the
lower convex hull of the points (atomic fractions, energy per atom) of its entries.  Numerical
tolerances of pymatgen and qhull and the handling of vacancies as species of `cs_structure` are not
modelled.
-/

namespace Smol

/-- `PDEntry(structure.composition.element_composition, energy)`,
smol/cofe/wrangling/tools.py:171 and 181. -/
structure HullEntry (m : ℕ) where
  amt : Fin m → ℝ
  energy : ℝ

variable {m : ℕ}

/-- Number of atoms of an entry. -/
def HullEntry.atoms (e : HullEntry m) : ℝ := ∑ a, e.amt a

/-- pymatgen's `energy_per_atom`, used at smol/cofe/wrangling/tools.py:183. -/
noncomputable def HullEntry.perAtom (e : HullEntry m) : ℝ := e.energy / e.atoms

/-- Atomic fractions of an entry. -/
noncomputable def HullEntry.frac (e : HullEntry m) : Fin m → ℝ := fun a => e.amt a / e.atoms

/-- The entries given to `PhaseDiagram` in `_pd`, smol/cofe/wrangling/tools.py:176-189.  `elems` are
the elements of the species of `cs_structure`.  `max` of no entries raises (`none`). -/
noncomputable def hullEntries (structs : List (HullEntry m)) (elems : List (Fin m)) :
    Option (List (HullEntry m)) :=
  (structs.map HullEntry.perAtom).max?.map fun maxE =>
    structs ++ elems.map fun a => ⟨Pi.single a 1, maxE + 1000⟩

/-- The points of which pymatgen's `PhaseDiagram` takes the convex hull (contract). -/
def hullPoints (entries : List (HullEntry m)) : Set ((Fin m → ℝ) × ℝ) :=
  {p | ∃ e ∈ entries, p = (e.frac, e.perAtom)}

/-- Energy of the lower hull at a composition (contract of `PhaseDiagram`). -/
noncomputable def hullEnergy (entries : List (HullEntry m)) (x : Fin m → ℝ) : ℝ :=
  sInf {E | (x, E) ∈ convexHull ℝ (hullPoints entries)}

/-- Whether every element held by an entry has an entry of its own, without which the constructor of
`PhaseDiagram` raises (contract). -/
def hasTerminals (entries : List (HullEntry m)) : Prop :=
  ∀ e ∈ entries, ∀ a, e.amt a ≠ 0 → ∃ t ∈ entries, t.amt a ≠ 0 ∧ ∀ b, b ≠ a → t.amt b = 0

open Classical in
/-- `_energies_above_hull`, smol/cofe/wrangling/tools.py:163-173. -/
noncomputable def energiesAboveHull (structs : List (HullEntry m)) (elems : List (Fin m)) :
    Option (List ℝ) :=
  (hullEntries structs elems).bind fun entries =>
    if hasTerminals entries then
      some (structs.map fun e => e.perAtom - hullEnergy entries e.frac)
    else none

/-- `weights_energy_above_hull`, smol/cofe/wrangling/tools.py:143-160; `kBT` is
`kB * temperature`. -/
noncomputable def weightsAboveHull (structs : List (HullEntry m)) (elems : List (Fin m)) (kBT : ℝ) :
    Option (List ℝ) :=
  (energiesAboveHull structs elems).map fun es => es.map fun e => Real.exp (-e / kBT)

end Smol
