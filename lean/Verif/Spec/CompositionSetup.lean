import Verif.Common
import Mathlib.Data.List.Forall2
import Mathlib.Data.Rat.Defs
import Mathlib.Algebra.Order.Group.Unbundled.Abs

/-!
# Fractions and the constraints of a composition space

Independent of the code.
-/

namespace Smol.Spec

/-- Documentation of `Fraction.limit_denominator(N)`: "Closest Fraction to self with denominator at
most max_denominator". -/
def ClosestFraction (N : ℕ) (x f : ℚ) : Prop :=
  f.den ≤ N ∧ ∀ g : ℚ, g.den ≤ N → |f - x| ≤ |g - x|

/-- `m` is the smallest positive integer whose products with all the numbers are integers. -/
structure LeastScale (v : List ℚ) (m : ℕ) : Prop where
  pos : 0 < m
  integral : ∀ q ∈ v, ∃ z : ℤ, q * m = z
  least : ∀ k : ℕ, 0 < k → (∀ q ∈ v, ∃ z : ℤ, q * k = z) → m ≤ k

/-- The scalar product. -/
def dot (a n : List ℚ) : ℚ := (List.zipWith (fun x y => x * y) a n).sum

/-- What a user asks of the amounts `ns` (a list for each sublattice, an amount for each species of
it) in a primitive cell: every sublattice full, neutral if asked for, equations satisfied. -/
structure Meets (spaces : List (List ℕ)) (sizes : List ℕ) (charge : Option (ℕ → ℚ))
    (eqs : List (List ℚ × ℚ)) (ns : List (List ℚ)) : Prop where
  full : List.Forall₂ (fun (s : ℕ) (n : List ℚ) => n.sum = s) sizes ns
  neutral : ∀ q ∈ charge, dot (spaces.flatten.map q) ns.flatten = 0
  others : ∀ e ∈ eqs, dot e.1 ns.flatten = e.2

end Smol.Spec
