import Verif.Common
import Mathlib.Data.Matrix.Mul
import Mathlib.LinearAlgebra.Matrix.Notation
import Mathlib.Algebra.Order.Round

/-!
# Hermite normal forms and supercell enumeration

smol/utils/math.py:31-46, smol/capp/generate/enumerate.py:11-43.
-/

namespace Smol

/-- 3 by 3 integer matrices. -/
abbrev Mat3 := Matrix (Fin 3) (Fin 3) ℤ

/-- The matrix yielded at smol/utils/math.py:46. -/
def hnfOf (a b c d e f : ℕ) : Mat3 := !![(a : ℤ), 0, 0; (b : ℤ), (c : ℤ), 0; (d : ℤ), (e : ℤ), (f : ℤ)]

/-- The divisors in increasing order, `filter(lambda x: n % x == 0, range(1, n + 1))`,
smol/utils/math.py:41, 43. -/
def divisorsOf (n : ℕ) : List ℕ := (List.range' 1 n).filter fun x => n % x = 0

/-- `yield_hermite_normal_forms`, smol/utils/math.py:31-46. -/
def hermiteForms (n : ℕ) : List Mat3 :=
  (divisorsOf n).flatMap fun a =>
    let q := n / a
    (divisorsOf q).flatMap fun c =>
      let f := q / c
      (List.range c).flatMap fun b =>
        (List.range f).flatMap fun d =>
          (List.range f).map fun e => hnfOf a b c d e f

/-- Determinant, written out. -/
def det3 (m : Mat3) : ℤ :=
  m 0 0 * m 1 1 * m 2 2 - m 0 0 * m 1 2 * m 2 1 - m 0 1 * m 1 0 * m 2 2
    + m 0 1 * m 1 2 * m 2 0 + m 0 2 * m 1 0 * m 2 1 - m 0 2 * m 1 1 * m 2 0

/-- Matrix of cofactors, transposed. -/
def adj3 (A : Mat3) : Mat3 :=
  !![A 1 1 * A 2 2 - A 1 2 * A 2 1, -(A 0 1 * A 2 2) + A 0 2 * A 2 1, A 0 1 * A 1 2 - A 0 2 * A 1 1;
    -(A 1 0 * A 2 2) + A 1 2 * A 2 0, A 0 0 * A 2 2 - A 0 2 * A 2 0, -(A 0 0 * A 1 2) + A 0 2 * A 1 0;
    A 1 0 * A 2 1 - A 1 1 * A 2 0, -(A 0 0 * A 2 1) + A 0 1 * A 2 0, A 0 0 * A 1 1 - A 0 1 * A 1 0]

/-- `np.linalg.inv`, exact; smol/capp/generate/enumerate.py:33. -/
def inv3 (m : Mat3) : Matrix (Fin 3) (Fin 3) ℚ := fun i j => (adj3 m i j : ℚ) / (det3 m : ℚ)

/-- `inv(hnf) @ rotation @ scm.T`, smol/capp/generate/enumerate.py:33, 35; the rotation is taken to
be an integer matrix, as rotations in fractional coordinates of a lattice are. -/
def unimod (h r scm : Mat3) : Matrix (Fin 3) (Fin 3) ℚ :=
  inv3 h * (r * scm.transpose).map (fun x : ℤ => (x : ℚ))

/-- `(abs(unimod - np.round(unimod)) < tol).all()`, smol/capp/generate/enumerate.py:36 (numpy rounds
halves to even, Mathlib's `round` upwards; the distance is one half in both cases). -/
def nearIntegral (tol : ℚ) (m : Matrix (Fin 3) (Fin 3) ℚ) : Bool :=
  decide (∀ i j, |m i j - round (m i j)| < tol)

/-- One pass of the loop over Hermite forms, smol/capp/generate/enumerate.py:32-41: skipped when
some operation and some stored supercell match. -/
def addSupercell (tol : ℚ) (syms : List Mat3) (acc : List Mat3) (h : Mat3) : List Mat3 :=
  if syms.any fun r => acc.any fun scm => nearIntegral tol (unimod h r scm) then acc
  else acc ++ [h.transpose]

/-- `enumerate_supercell_matrices`, smol/capp/generate/enumerate.py:11-43. -/
def enumerateSupercells (tol : ℚ) (n : ℕ) (syms : List Mat3) : List Mat3 :=
  (hermiteForms n).foldl (addSupercell tol syms) []

end Smol
