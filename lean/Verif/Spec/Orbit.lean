import Verif.Spec.Processor
import Mathlib.Algebra.BigOperators.Group.List.Basic

/-!
Specification vocabulary for orbits: permutation groups, equivalent orderings, cluster functions.
-/

namespace Smol.Spec

/-- Index lists that form a group of permutations of `0 … n-1` (`p` stands for `i ↦ p[i]`). -/
structure PermGroup (n : ℕ) (perms : List (List ℕ)) : Prop where
  perm : ∀ p ∈ perms, p.Perm (List.range n)
  one : List.range n ∈ perms
  comp : ∀ p ∈ perms, ∀ q ∈ perms, (q.map fun i => p.getD i 0) ∈ perms
  inv : ∀ p ∈ perms, ∃ q ∈ perms, (q.map fun i => p.getD i 0) = List.range n

/-- `b` is `a` with its entries rearranged by one of the permutations: `b[i] = a[p[i]]`. -/
def Equivalent (perms : List (List ℕ)) (a b : List ℕ) : Prop :=
  ∃ p ∈ perms, b.length = p.length ∧ ∀ (i j : ℕ), p[i]? = some j → b[i]? = a[j]?

/-- A choice of one function per site. -/
def Choice (bits : List (List ℕ)) (a : List ℕ) : Prop :=
  List.Forall₂ (fun x l => x ∈ l) a bits

/-- The permutations exchange only sites with the same function indices. -/
def Respects {α : Type*} (perms : List (List ℕ)) (sites : List α) : Prop :=
  ∀ p ∈ perms, ∀ (i j : ℕ), p[i]? = some j → sites[j]? = sites[i]?

/-- Product over the sites of a cluster of the chosen site functions at the sites' codes. -/
def clusterFunction {K : Type*} [Field K] (phi : ℕ → ℕ → ℕ → K) : ℕ → List ℕ → List ℕ → K
  | _, [], _ => 1
  | _, _, [] => 1
  | s, b :: bs, c :: cs => phi s b c * clusterFunction phi (s + 1) bs cs

/-- Correlation function: average of the cluster function over equivalent choices. -/
def correlation {K : Type*} [Field K] (phi : ℕ → ℕ → ℕ → K) (choices : List (List ℕ))
    (codes : List ℕ) : K :=
  (choices.map fun b => clusterFunction phi 0 b codes).sum / (choices.length : K)

end Smol.Spec
