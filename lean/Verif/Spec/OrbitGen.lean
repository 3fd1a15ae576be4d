import Verif.Model.OrbitGen

/-!
# Specification: clusters of a crystal and their symmetry
-/

namespace Smol.Spec

variable {d : ℕ} {K : Type*} [Field K]

/-- A point moved by a lattice vector. -/
def shift (T : Fin d → ℤ) (x : Fin d → K) : Fin d → K := fun i => x i + T i

/-- Two operations differ by a lattice vector. -/
def SameOp (g h : SymmOp d K) : Prop := ∃ T : Fin d → ℤ, ∀ x, g.operate x = shift T (h.operate x)

/-- The operations are one representative each of a group modulo lattice vectors, and they map
lattice vectors to lattice vectors. -/
structure SpaceGroup (ops : List (SymmOp d K)) : Prop where
  int : ∀ g ∈ ops, ∀ i j, ∃ z : ℤ, g.rot i j = z
  one : ∃ e ∈ ops, ∃ T : Fin d → ℤ, ∀ x, e.operate x = shift T x
  mul : ∀ g ∈ ops, ∀ h ∈ ops, ∃ k ∈ ops, ∃ T : Fin d → ℤ,
    ∀ x, g.operate (h.operate x) = shift T (k.operate x)
  inv : ∀ g ∈ ops, ∃ h ∈ ops, ∃ T : Fin d → ℤ, ∀ x, h.operate (g.operate x) = shift T x
  distinct : ops.Pairwise fun g h => ¬ SameOp g h

/-- Two clusters (lists of sites in any order) differ by a lattice vector. -/
def Translated (a b : List (Fin d → K)) : Prop := ∃ T : Fin d → ℤ, a.Perm (b.map (shift T))

/-- Two clusters are mapped to each other by an operation and a lattice vector. -/
def SymEquiv (ops : List (SymmOp d K)) (a b : List (Fin d → K)) : Prop :=
  ∃ g ∈ ops, Translated a (b.map g.operate)

/-- The sites of the crystal: those of the cell moved by all lattice vectors. -/
def IsSite (sites : List ((Fin d → K) × ℕ)) (x : Fin d → K) (n : ℕ) : Prop :=
  ∃ s ∈ sites, s.2 = n ∧ ∃ T : Fin d → ℤ, x = shift T s.1

end Smol.Spec

namespace Smol.Spec

section order
variable {d : ℕ} {K : Type*} [Field K] [LinearOrder K]

/-- Cartesian coordinates; the rows of `lattice` are the lattice vectors. -/
def cart (lattice : Fin d → Fin d → K) (x : Fin d → K) : Fin d → K := fun k => ∑ j, x j * lattice j k

/-- Square of the distance of two points. -/
def sqDist (lattice : Fin d → Fin d → K) (x y : Fin d → K) : K :=
  ∑ k, (cart lattice x k - cart lattice y k) ^ 2

/-- A crystal: its symmetry operations form a group, keep distances, and map sites to sites with the
same functions; its sites are distinct. -/
structure Crystal (lattice : Fin d → Fin d → K) (ops : List (SymmOp d K))
    (sites : List ((Fin d → K) × ℕ)) : Prop where
  group : SpaceGroup ops
  isometry : ∀ g ∈ ops, ∀ x y, sqDist lattice (g.operate x) (g.operate y) = sqDist lattice x y
  maps : ∀ g ∈ ops, ∀ x n, IsSite sites x n → IsSite sites (g.operate x) n
  distinct : sites.Pairwise fun s t => ¬ ∃ T : Fin d → ℤ, s.1 = shift T t.1

/-- All distances in a cluster are at most `D`. -/
def Within (lattice : Fin d → Fin d → K) (D : K) (xs : List (Fin d → K)) : Prop :=
  0 ≤ D ∧ ∀ x ∈ xs, ∀ y ∈ xs, sqDist lattice x y ≤ D ^ 2

/-- The search for sites in a sphere around the centre of the cell, with radius `D + margin`. -/
def SphereSearch (lattice : Fin d → Fin d → K) (sites : List ((Fin d → K) × ℕ)) (margin : K)
    (sphere : K → List ((Fin d → K) × ℕ)) : Prop :=
  ∀ D y n, (y, n) ∈ sphere D ↔
    IsSite sites y n ∧ 0 ≤ D + margin ∧ sqDist lattice y (fun _ => 1 / 2) ≤ (D + margin) ^ 2

/-- A cluster: a list of different sites of the crystal. -/
def IsCluster (sites : List ((Fin d → K) × ℕ)) (xs : List (Fin d → K)) : Prop :=
  xs.Nodup ∧ ∀ x ∈ xs, ∃ n, IsSite sites x n

end order

end Smol.Spec

namespace Smol

/-- The orbits of a size. -/
def ofSize {d : ℕ} {K : Type*} (r : List (ℕ × List (GenOrbit d K))) (n : ℕ) :
    List (GenOrbit d K) := (r.lookup n).getD []

end Smol
