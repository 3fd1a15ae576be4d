import Verif.Common
import Mathlib.LinearAlgebra.Matrix.NonsingularInverse
import Mathlib.Analysis.SpecialFunctions.Trigonometric.Basic
import Mathlib.Analysis.SpecialFunctions.Sqrt

/-!
# Site basis functions

Models `smol/cofe/space/basis.py` and the basis changes of a cluster subspace
(`rotate_site_basis`, smol/cofe/space/clusterspace.py:929-970).

Species are numbered in site space order.  Arrays are real matrices with functions as rows; the
rounding of tiny numbers to zero (lines 246-247, 328-330) has no counterpart in exact arithmetic,
`np.allclose` is equality.
-/

namespace Smol

/-- The basis iterators, smol/cofe/space/basis.py:435-545. -/
inductive Flavor
  | indicator
  | sinusoid
  | polynomial
  | chebyshev
  | legendre
  deriving DecidableEq, Repr

/-- `np.linspace(-1, 1, m)[s]`, smol/cofe/space/basis.py:498. -/
noncomputable def linspace (m s : ℕ) : ℝ := -1 + 2 * (s : ℝ) / ((m : ℝ) - 1)

/-- `chebval(x, [0, ..., 0, 1])` of numpy. -/
def chebAt (x : ℝ) : ℕ → ℝ
  | 0 => 1
  | 1 => x
  | k + 2 => 2 * x * chebAt x (k + 1) - chebAt x k

/-- `legval(x, [0, ..., 0, 1])` of numpy. -/
noncomputable def legAt (x : ℝ) : ℕ → ℝ
  | 0 => 1
  | 1 => x
  | k + 2 => ((2 * (k : ℝ) + 3) * x * legAt x (k + 1) - ((k : ℝ) + 1) * legAt x k) / ((k : ℝ) + 2)

/-- `sinusoid_factory(n, m)` evaluated at code `s`, smol/cofe/space/basis.py:561-575. -/
noncomputable def sinusoidAt (n m s : ℕ) : ℝ :=
  let a := (n + 1) / 2
  if n % 2 = 0 then -Real.sin (2 * Real.pi * (a : ℝ) * (s : ℝ) / (m : ℝ))
  else -Real.cos (2 * Real.pi * (a : ℝ) * (s : ℝ) / (m : ℝ))

/-- The function the iterator yields at its `k`-th call (from 0), at the species `s` of `m`:
smol/cofe/space/basis.py:444-447 (indicator), 472-478 (sinusoid), 507-514 (polynomials). -/
noncomputable def siteFn (fl : Flavor) (m k s : ℕ) : ℝ :=
  match fl with
  | .indicator => if s = k then 1 else 0
  | .sinusoid => sinusoidAt (k + 1) m s
  | .polynomial => linspace m s ^ (k + 1)
  | .chebyshev => chebAt (linspace m s) (k + 1)
  | .legendre => legAt (linspace m s) (k + 1)

/-- `_construct_function_array`, smol/cofe/space/basis.py:204-215: all functions of the iterator
but the last, and a row of ones on top.  `none`: `func_arr[0]` of an empty array. -/
noncomputable def funRows (fl : Flavor) (m : ℕ) : Option (List (List ℝ)) :=
  let fns := ((List.range m).map fun k => siteFn fl m k).dropLast
  if fns.isEmpty then none
  else some (List.replicate m 1 :: fns.map fun f => (List.range m).map f)

/-- `StandardBasis`, smol/cofe/space/basis.py:160-202: `measure_vector`, `_f_array`, `_r_array`,
`_rot_array`. -/
structure SiteBasis (m : ℕ) where
  measure : Fin m → ℝ
  f : Matrix (Fin m) (Fin m) ℝ
  r : Option (Matrix (Fin m) (Fin m) ℝ)
  rot : Matrix (Fin m) (Fin m) ℝ

/-- `StandardBasis.__init__`, smol/cofe/space/basis.py:180-202. -/
noncomputable def SiteBasis.init (fl : Flavor) {m : ℕ} (measure : Fin m → ℝ) :
    Option (SiteBasis m) :=
  (funRows fl m).map fun rows =>
    ⟨measure, fun k s => (rows.getD k []).getD s 0, none, 1⟩

/-- `(self.measure_vector * self._f_array) @ self._f_array.T`, smol/cofe/space/basis.py:117. -/
def SiteBasis.prods {m : ℕ} (B : SiteBasis m) : Matrix (Fin m) (Fin m) ℝ :=
  fun j k => ∑ s, B.measure s * B.f j s * B.f k s

/-- `is_orthogonal`, smol/cofe/space/basis.py:112-119: the division is by columns, and a zero
diagonal entry gives `nan`. -/
def SiteBasis.isOrthogonal {m : ℕ} (B : SiteBasis m) : Prop :=
  (∀ k, B.prods k k ≠ 0) ∧ ∀ j k, B.prods j k / B.prods k k = if j = k then 1 else 0

/-- `is_orthonormal`, smol/cofe/space/basis.py:121-125. -/
def SiteBasis.isOrthonormal {m : ℕ} (B : SiteBasis m) : Prop := B.prods = 1

/-- What `np.linalg.qr` returns. -/
structure IsQR {m : ℕ} (A Q R : Matrix (Fin m) (Fin m) ℝ) : Prop where
  orthogonal : Q.transpose * Q = 1
  upper : ∀ i j : Fin m, j < i → R i j = 0
  product : A = Q * R

/-- The matrix that is factored, smol/cofe/space/basis.py:241-243. -/
noncomputable def SiteBasis.toFactor {m : ℕ} (B : SiteBasis m) : Matrix (Fin m) (Fin m) ℝ :=
  fun s k => Real.sqrt (B.measure s) * B.f k s

/-- `orthonormalize` given the factors, smol/cofe/space/basis.py:250-251 (`z` is the index 0). -/
noncomputable def SiteBasis.orthonormalize {m : ℕ} (B : SiteBasis m) (z : Fin m)
    (Q R : Matrix (Fin m) (Fin m) ℝ) : SiteBasis m :=
  { B with
    r := some fun k j => Q j z / Real.sqrt (B.measure j) * R j k
    f := fun k s => Q s k / Q s z }

/-- Row of `function_array` that the python index `i` names, as a row of `_f_array`
(`function_array` has `m - 1` rows). -/
def fnRow (m : ℕ) (i : ℤ) : ℕ := (if i < 0 then (m : ℤ) - 1 + i else i).toNat + 1

/-- `v / np.linalg.norm(v)`. -/
noncomputable def unitVec {m : ℕ} (v : Fin m → ℝ) : Fin m → ℝ :=
  fun s => v s / Real.sqrt (∑ t, v t * v t)

/-- `rotation_mat`, smol/cofe/space/basis.py:319-326. -/
noncomputable def rotationMat {m : ℕ} (v1 v2 : Fin m → ℝ) (θ : ℝ) : Matrix (Fin m) (Fin m) ℝ :=
  fun a b => (if a = b then 1 else 0) + (v1 a * v2 b - v2 a * v1 b) * Real.sin θ +
    (v1 a * v1 b + v2 a * v2 b) * (Real.cos θ - 1)

/-- Row of a matrix by number (0 outside). -/
def rowOf {m : ℕ} (f : Matrix (Fin m) (Fin m) ℝ) (k : ℕ) : Fin m → ℝ :=
  fun s => if h : k < m then f ⟨k, h⟩ s else 0

open Classical in
/-- `rotate`, smol/cofe/space/basis.py:252-332; `none` is an exception.  In the binary case line
295 builds the new matrix from `_rot_array` and line 331 multiplies with `_rot_array` again. -/
noncomputable def SiteBasis.rotate {m : ℕ} (B : SiteBasis m) (θ : ℝ) (i j : ℤ) :
    Option (SiteBasis m) :=
  if (∀ s t, B.measure s = B.measure t) ∧ ¬ B.isOrthogonal then none
  else if m = 2 then
    some { B with
      f := fun k s => if (k : ℕ) = 1 then -1 * B.f k s else B.f k s
      rot := (-1 : ℝ) • B.rot * B.rot }
  else if i = j ∨ (m : ℤ) - 2 < |i| ∨ (m : ℤ) - 2 < |j| then none
  else
    let R := rotationMat (unitVec (rowOf B.f (fnRow m i))) (unitVec (rowOf B.f (fnRow m j))) θ
    some { B with
      f := fun k s => if (k : ℕ) = 0 then B.f k s else ∑ t, B.f k t * R s t
      rot := R * B.rot }

/-- A sequence of rotations. -/
noncomputable def SiteBasis.rotations {m : ℕ} (B : SiteBasis m) :
    List (ℝ × ℤ × ℤ) → Option (SiteBasis m)
  | [] => some B
  | x :: xs => (B.rotate x.1 x.2.1 x.2.2).bind fun B => B.rotations xs

/-! ### Rotating the bases of a subspace -/

/-- `rotate_site_basis`, smol/cofe/space/clusterspace.py:952-965: bases are objects (numbers),
several orbits and sites may share one; the result lists the objects rotated, in order.
`space` is the site space of a basis object. -/
def rotatedObjects (space : ℕ → ℕ) (first : ℕ) (orbits : List (List ℕ)) : List ℕ :=
  orbits.flatten.foldl (fun rotated b =>
    if space b = space first ∧ b ∉ rotated then rotated ++ [b] else rotated) [first]

end Smol
