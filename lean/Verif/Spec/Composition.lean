import Verif.Common
import Mathlib.Data.List.Forall2

/-!
# What compositions and their representations are

Independent of the code.  `ns` lists, sublattice by sublattice, how many sites each species takes.
-/

namespace Smol.Spec

/-- The problem: species of each sublattice, sites of each sublattice per cell, further linear
equations `Σ aᵢ nᵢ = b · size`, charges if the total must vanish. -/
structure CompositionProblem where
  spaces : List (List ℕ)
  sizes : List ℕ
  charge : Option (ℕ → ℤ)
  eqs : List (List ℚ × ℚ)

/-- `ns` satisfies the equations of a supercell with `size` cells: one number per species, each
sublattice full, neutral, satisfying the other equations. -/
structure Balances (p : CompositionProblem) (size : ℕ) (ns : List (List ℚ)) : Prop where
  shape : List.Forall₂ (fun sp n => sp.length = n.length) p.spaces ns
  full : List.Forall₂ (fun (s : ℕ) (n : List ℚ) => n.sum = s * size) p.sizes ns
  neutral : ∀ q ∈ p.charge, (List.zipWith (fun s (x : ℚ) => (q s : ℚ) * x) p.spaces.flatten ns.flatten).sum = 0
  others : ∀ e ∈ p.eqs, (List.zipWith (fun (a x : ℚ) => a * x) e.1 ns.flatten).sum = e.2 * size

/-- A composition: the numbers are moreover nonnegative. -/
structure IsComposition (p : CompositionProblem) (size : ℕ) (ns : List (List ℚ)) : Prop
    extends Balances p size ns where
  nonneg : ∀ n ∈ ns, ∀ x ∈ n, 0 ≤ x

/-- A table of species and amounts gives the fractions of the sites of one sublattice taken by the
species present other than vacancies. -/
structure IsFractions (vac : ℕ → Bool) (species : List ℕ) (sites : ℚ) (n : List ℚ)
    (c : List (ℕ × ℚ)) : Prop where
  keys : (c.map Prod.fst).Nodup
  mem : ∀ s v, (s, v) ∈ c ↔ ∃ x, (s, x) ∈ species.zip n ∧ vac s = false ∧ x ≠ 0 ∧ v = x / sites

end Smol.Spec
