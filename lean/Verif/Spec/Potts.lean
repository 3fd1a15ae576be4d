import Verif.Spec.Orbit

/-!
Specification vocabulary for Potts subspaces: decorations of the sites of a cluster by species.
-/

namespace Smol.Spec

variable {σ : Type*}

/-- One allowed species per site. -/
def Decoration (spaces : List (List σ)) (d : List σ) : Prop :=
  List.Forall₂ (fun x s => x ∈ s) d spaces

/-- `b` is `a` rearranged by one of the permutations: `b[i] = a[p[i]]`. -/
def Rearranged (perms : List (List ℕ)) (a b : List σ) : Prop :=
  ∃ p ∈ perms, b.length = p.length ∧ ∀ (i j : ℕ), p[i]? = some j → b[i]? = a[j]?

/-- The lists are the classes of all decorations of the sites up to the permutations, each
decoration listed once. -/
structure DecorationClasses (spaces : List (List σ)) (perms : List (List ℕ))
    (classes : List (List (List σ))) : Prop where
  nonempty : ∀ ds ∈ classes, ds ≠ []
  nodup : ∀ ds ∈ classes, ds.Nodup
  disjoint : classes.Pairwise fun x y => ∀ d, d ∈ x → d ∉ y
  cover : ∀ d, (∃ ds ∈ classes, d ∈ ds) ↔ Decoration spaces d
  equiv : ∀ ds ∈ classes, ∀ a ∈ ds, ∀ b, b ∈ ds ↔ Rearranged perms a b

/-- The species that the codes of the sites stand for. -/
def speciesOf (spaces : List (List σ)) (codes : List ℕ) : List (Option σ) :=
  List.zipWith (fun s c => s[c]?) spaces codes

/-- Number of clusters (rows of site indices) that an occupancy decorates in one of the given
ways. -/
def decoratedCount [DecidableEq σ] (spaces : List (List σ)) (decs : List (List σ))
    (occ : ℕ → ℕ) (rows : List (List ℕ)) : ℕ :=
  (rows.filter fun row =>
    decide (∃ d ∈ decs, speciesOf spaces (row.map occ) = d.map some)).length

end Smol.Spec
