import Verif.Common

/-!
# What a linear constraint on a composition says

A composition in the "counts" format is a vector with one entry for each species of each sublattice,
in order.
-/

namespace Smol.Spec

/-- Count of species `s` on the sublattices listed, the first of which starts at entry `start`. -/
def countFrom (n : ℕ → ℚ) (s : ℕ) : ℕ → List (List ℕ) → ℚ
  | _, [] => 0
  | start, species :: bits =>
    (if s ∈ species then n (start + species.idxOf s) else 0) + countFrom n s (start + species.length) bits

/-- Count of a species on one sublattice, or on all of them. -/
def countOf (bits : List (List ℕ)) (n : ℕ → ℚ) (s : ℕ) : Option ℕ → ℚ
  | none => countFrom n s 0 bits
  | some k => n ((bits.take k).flatten.length + (bits.getD k []).idxOf s)

/-- The species is there. -/
def Present (bits : List (List ℕ)) (s : ℕ) : Option ℕ → Prop
  | none => ∃ species ∈ bits, s ∈ species
  | some k => ∃ species, bits[k]? = some species ∧ s ∈ species

/-- A term of a written expression: signs, coefficient, species, sublattice. -/
structure Term where
  signs : List Bool
  coef : Option ℚ
  species : ℕ
  sub : Option ℕ
  deriving DecidableEq

/-- A written expression: terms, then an optional number with its signs. -/
structure Side where
  terms : List Term
  intercept : Option (List Bool × ℚ)
  deriving DecidableEq

/-- `-` is `false`. -/
def signOf (signs : List Bool) : ℚ := (signs.map fun b => if b then (1 : ℚ) else -1).prod

def Term.coefficient (t : Term) : ℚ := signOf t.signs * t.coef.getD 1

def Side.constant (s : Side) : ℚ :=
  match s.intercept with
  | none => 0
  | some (signs, q) => signOf signs * q

/-- The number an expression denotes for the composition `n`. -/
def Side.value (bits : List (List ℕ)) (n : ℕ → ℚ) (s : Side) : ℚ :=
  (s.terms.map fun t => t.coefficient * countOf bits n t.species t.sub).sum + s.constant

end Smol.Spec
