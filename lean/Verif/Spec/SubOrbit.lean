import Verif.Spec.OrbitGen
import Mathlib.Data.List.Forall2

/-!
# Specification: sub-clusters and factors of cluster functions
-/

namespace Smol.Spec

variable {d : ℕ} {K : Type*} [Field K]

/-- The clusters equivalent to `sub` occur within `base` with fewer sites. -/
def IsSubCluster (ops : List (SymmOp d K)) (base sub : List (Fin d → K)) : Prop :=
  sub.length < base.length ∧ ∃ b, b.Subperm base ∧ SymEquiv ops b sub

/-- The sites of `base` at the positions `m` are, one by one, the sites of `sub` moved by an operation
and a lattice vector. -/
def Occurs (ops : List (SymmOp d K)) (base sub : List (Fin d → K)) (m : List ℕ) : Prop :=
  ∃ g ∈ ops, ∃ T : Fin d → ℤ,
    List.Forall₂ (fun j x => base[j]? = some (shift T (g.operate x))) m sub

/-- The cluster `sub` with functions `b` on its sites, moved by an operation and a lattice vector, is
part of the cluster `base` with functions `a` on its sites. -/
def IsFactor (ops : List (SymmOp d K)) (base sub : List (Fin d → K)) (a b : List ℕ) : Prop :=
  ∃ m, Occurs ops base sub m ∧ List.Forall₂ (fun j x => a[j]? = some x) m b

end Smol.Spec
