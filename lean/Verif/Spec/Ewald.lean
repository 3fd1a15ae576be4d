import Verif.Common

namespace Smol.Spec

/-- Interaction of the species on two sites; vacancies do not interact. -/
def pairTerm {K : Type*} [Zero K] {S : Type*} (inter : S → S → K) : Option S → Option S → K
  | some a, some b => inter a b
  | _, _ => 0

/-- Electrostatic energy of an occupancy: sum over all ordered pairs of sites (including a site
with itself) of the interaction of the species they hold; `species k` is the species of
site `k`, `none` for a vacancy. -/
def pairEnergy {K : Type*} [AddCommMonoid K] {S : Type*} (n : ℕ) (inter : S → S → K)
    (species : ℕ → Option S) : K :=
  ∑ k ∈ Finset.range n, ∑ l ∈ Finset.range n, pairTerm inter (species k) (species l)

end Smol.Spec
