import Verif.Spec.LegacyContainer
import Mathlib.Data.List.Perm.Subperm

/-! Lemmas for containers saved by older versions. -/

namespace Smol
open Smol.Spec

theorem pyEq_iff_compared (a b : Sublattice) : a.pyEq b = true ↔ compared a = compared b := by
  simp [Sublattice.pyEq, compared, and_assoc]

theorem legacy_check_iff (e s : List Sublattice) (hd : (e.map compared).Nodup) :
    ((!e.all fun sl => s.any fun x => x.pyEq sl) || e.length != s.length) = false ↔ SameSublattices e s := by
  rw [Bool.or_eq_false_iff, Bool.not_eq_false', List.all_eq_true, bne_eq_false_iff_eq]
  unfold SameSublattices
  have key : (∀ sl ∈ e, (s.any fun x => x.pyEq sl) = true) ↔ e.map compared ⊆ s.map compared := by
    simp only [List.any_eq_true, pyEq_iff_compared, List.subset_def, List.mem_map]
    constructor
    · rintro h _ ⟨sl, hsl, rfl⟩
      exact h sl hsl
    · intro h sl hsl
      exact h ⟨sl, hsl, rfl⟩
  rw [key]
  constructor
  · rintro ⟨h1, h2⟩
    exact (List.subperm_of_subset hd h1).perm_of_length_le (by simp [h2])
  · intro h
    exact ⟨h.subset, by simpa using h.length_eq⟩

end Smol
