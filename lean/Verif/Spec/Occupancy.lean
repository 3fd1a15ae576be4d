import Verif.Common

/-!
Specification vocabulary for occupancies, written without the model's functions.
-/

namespace Smol.Spec

/-- `occ'` is the occupancy reached from `occ` when the flips are carried out in order:
every site holds the code of the last flip naming it, all other sites are unchanged. -/
def ReachedBy (occ : ℕ → ℕ) (flips : List (ℕ × ℕ)) (occ' : ℕ → ℕ) : Prop :=
  ∀ s, (∀ f ∈ flips, f.1 ≠ s) ∧ occ' s = occ s ∨
    ∃ a c b, flips = a ++ (s, c) :: b ∧ (∀ f ∈ b, f.1 ≠ s) ∧ occ' s = c

end Smol.Spec
