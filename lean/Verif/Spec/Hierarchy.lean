import Verif.Common
import Mathlib.Logic.Relation

/-!
Specification vocabulary for tables of successors and for clusters that coincide.
-/

namespace Smol.Spec

/-- `j` is listed in entry `i` of a table. -/
def Edge (m : List (List ℕ)) (i j : ℕ) : Prop := ∃ l, m[i]? = some l ∧ j ∈ l

/-- Tables that list only numbers of entries. -/
def Closed (m : List (List ℕ)) : Prop := ∀ i j, Edge m i j → j < m.length

/-- No entry is reached from itself. -/
def Acyclic (m : List (List ℕ)) : Prop := ∀ i, ¬ Relation.TransGen (Edge m) i i

/-- Two lists of clusters cover the same sets of sites: every cluster of one is a reordering of a
cluster of the other. -/
def SameClusters (a b : List (List ℕ)) : Prop :=
  (∀ r ∈ a, ∃ s ∈ b, r.Perm s) ∧ ∀ s ∈ b, ∃ r ∈ a, s.Perm r

/-- Sizes at which the documentation of `get_sub_orbits` looks for sub-orbits of clusters with
`size` sites: below `size`, at most `level` below it (without a level, or with a negative one, any
number below) and not less than `minSize`. -/
def SearchedSize (size : ℤ) (level : Option ℤ) (minSize s : ℤ) : Prop :=
  1 ≤ s ∧ s < size ∧ minSize ≤ s ∧ ∀ l, level = some l → 0 ≤ l → size - l ≤ s

end Smol.Spec
