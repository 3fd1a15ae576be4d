import Verif.Common

/-!
Specification vocabulary for encodings and sublattices, written without the model's functions.
-/

namespace Smol.Spec

/-- Every site holds one of its allowed species (and there are as many species as sites). -/
def LegalSpecies (allowed : List (List ℕ)) (occ : List ℕ) : Prop :=
  occ.length = allowed.length ∧ ∀ i (h : i < occ.length), ∃ a, allowed[i]? = some a ∧ occ[i] ∈ a

/-- Every code is the position of one of the allowed species of its site. -/
def LegalCodes (allowed : List (List ℕ)) (codes : List ℕ) : Prop :=
  codes.length = allowed.length ∧
    ∀ i (h : i < codes.length), ∃ a, allowed[i]? = some a ∧ codes[i] < a.length

/-- Code `c` of a site with allowed species `a` stands for species `x`. -/
def StandsFor (a : List ℕ) (c x : ℕ) : Prop := a[c]? = some x

/-- The sites `0 … n-1` are divided among the groups: every site is in exactly one of them. -/
def Partitions (n : ℕ) (groups : List (List ℕ)) : Prop :=
  ∀ i < n, ∃! k : ℕ, ∃ g : List ℕ, groups[k]? = some g ∧ i ∈ g

/-- In a structure given as species and positions, position `i` holds species `x`: it is listed
there, or nothing is listed there and `x` is the vacancy. -/
def Holds (vac : ℕ) (st : List (ℕ × ℕ)) (i x : ℕ) : Prop :=
  (x, i) ∈ st ∨ ((∀ y, (y, i) ∉ st) ∧ x = vac)

end Smol.Spec
