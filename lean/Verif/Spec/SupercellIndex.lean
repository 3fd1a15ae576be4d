import Verif.Model.OrbitIndices
import Verif.Model.Evaluator
import Verif.Spec.OrbitGen

/-!
# Specification: sites and clusters of a supercell
-/

namespace Smol.Spec

/-- A lattice vector of the supercell; the rows of `M` are its basis. -/
def superVec (M : Mat3) (n : Fin 3 → ℤ) : Fin 3 → ℤ := fun j =>
  n 0 * M 0 j + n 1 * M 1 j + n 2 * M 2 j

/-- Two points of the crystal are the same in the periodic supercell. -/
def SameSite (M : Mat3) (x y : Vec3) : Prop := ∃ n, x = shift (superVec M n) y

/-- The point with given coordinates in the basis of the supercell. -/
def superPoint (M : Mat3) (f : Vec3) : Vec3 := fun j => f 0 * M 0 j + f 1 * M 1 j + f 2 * M 2 j

/-- The sites of the crystal: those of the cell moved by all lattice vectors. -/
def OfCell (prim : List Vec3) (x : Vec3) : Prop := ∃ s ∈ prim, ∃ T : Fin 3 → ℤ, x = shift T s

/-- Site number `i` of a supercell, whose sites have the coordinates `coords`, is at `x`. -/
def LocatedAt (M : Mat3) (coords : List Vec3) (i : ℕ) (x : Vec3) : Prop :=
  ∃ s, coords[i]? = some s ∧ SameSite M x (superPoint M s)

/-- A supercell in which the sites can be told apart: it is not flat, the tolerance of the lattice
points is below the spacing of their coordinates, the sites of the cell are different, and different
sites of the crystal differ by more than the tolerance in a coordinate of the supercell. -/
structure SupercellFits (tol atol : ℚ) (prim : List Vec3) (M : Mat3) : Prop where
  det : det3 M ≠ 0
  tol0 : 0 ≤ tol
  tolDet : tol * |(det3 M : ℚ)| < 1
  atol0 : 0 ≤ atol
  distinct : prim.Pairwise fun s t : Vec3 => ¬ ∃ T : Fin 3 → ℤ, s = shift T t
  apart : ∀ f g : Vec3, OfCell prim (superPoint M f) → OfCell prim (superPoint M g) →
    (∀ i, |f i - g i| ≤ atol) → f = g

/-- The rows of an index array are the clusters of an orbit in the supercell: the clusters `imgs`
are images of the base cluster, their sites are those of the rows in order, and every cluster
equivalent to the base cluster is, up to lattice vectors of the supercell, exactly one of them. -/
def ListsClusters (ops : List (SymmOp 3 ℚ)) (M : Mat3) (coords : List Vec3) (base : List Vec3)
    (rows : ClusterRows) : Prop :=
  ∃ imgs : List (List Vec3),
    List.Forall₂ (fun img row => List.Forall₂ (fun x i => LocatedAt M coords i x) img row) imgs rows ∧
    (∀ img ∈ imgs, ∃ g ∈ ops, ∃ T : Fin 3 → ℤ, img = base.map fun x => shift T (g.operate x)) ∧
    ∀ a, SymEquiv ops a base → ∃! k : ℕ, ∃ img : List Vec3, imgs[k]? = some img ∧
      ∃ n, a.Perm (img.map (shift (superVec M n)))

end Smol.Spec

namespace Smol.Spec

/-- Kinds of sites that symmetry operations and lattice vectors keep. -/
structure KeepsKinds (ops : List (SymmOp 3 ℚ)) (kind : Vec3 → ℕ) : Prop where
  op : ∀ g ∈ ops, ∀ x, kind (g.operate x) = kind x
  vec : ∀ (T : Fin 3 → ℤ) x, kind (shift T x) = kind x

/-- An operation with a lattice vector keeps the lattice of the supercell. -/
def KeepsSupercell (M : Mat3) (f : Vec3 → Vec3) : Prop :=
  ∀ x y, SameSite M (f x) (f y) ↔ SameSite M x y

/-- A renumbering of the sites of the supercell carries out an operation on the crystal. -/
def CarriesOut (M : Mat3) (coords : List Vec3) (f : Vec3 → Vec3) (π : ℕ → ℕ) : Prop :=
  ∀ i x, LocatedAt M coords i x → LocatedAt M coords (π i) (f x)

/-- Every site has a species of its kind. -/
def LegalIn (M : Mat3) (coords : List Vec3) (kind : Vec3 → ℕ) (species : ℕ → ℕ) (occ : Occ) : Prop :=
  ∀ i x, LocatedAt M coords i x → occ i < species (kind x)

end Smol.Spec
