import Verif.Model.Basic
import Verif.Spec.Occupancy

namespace Smol
open Spec

theorem applyStep_append (occ : Occ) (a b : Step) :
    applyStep occ (a ++ b) = applyStep (applyStep occ a) b := by
  induction a generalizing occ with
  | nil => rfl
  | cons f a ih => simp [applyStep, ih]

theorem applyStep_of_not_mem (occ : Occ) (fs : Step) (s : ℕ) (h : ∀ f ∈ fs, f.1 ≠ s) :
    applyStep occ fs s = occ s := by
  induction fs generalizing occ with
  | nil => rfl
  | cons f fs ih =>
    simp only [applyStep]
    rw [ih _ fun g hg => h g (by simp [hg]), Function.update_of_ne]
    exact (h f (by simp)).symm

theorem applyStep_last (occ : Occ) (a b : Step) (s c : ℕ) (h : ∀ f ∈ b, f.1 ≠ s) :
    applyStep occ (a ++ (s, c) :: b) s = c := by
  rw [applyStep_append]
  simp only [applyStep]
  rw [applyStep_of_not_mem _ _ _ h, Function.update_self]

/-- `ReachedBy` determines the occupancy: it is the one produced by the model loop. -/
theorem reachedBy_iff (occ : Occ) (fs : Step) (occ' : Occ) :
    ReachedBy occ fs occ' ↔ occ' = applyStep occ fs := by
  constructor
  · intro h
    funext s
    rcases h s with ⟨h1, h2⟩ | ⟨a, c, b, rfl, hb, h2⟩
    · rw [h2, applyStep_of_not_mem _ _ _ h1]
    · rw [h2, applyStep_last _ _ _ _ _ hb]
  · rintro rfl s
    by_cases h : ∀ f ∈ fs, f.1 ≠ s
    · exact Or.inl ⟨h, applyStep_of_not_mem _ _ _ h⟩
    · right
      push Not at h
      -- last occurrence
      induction fs using List.reverseRecOn with
      | nil => simp at h
      | append_singleton fs f ih =>
        by_cases hf : f.1 = s
        · exact ⟨fs, f.2, [], by simp [← hf], by simp, by
            subst hf
            simp [applyStep_append, applyStep]⟩
        · obtain ⟨g, hg, hgs⟩ := h
          have hg' : g ∈ fs := by
            rcases List.mem_append.1 hg with h | h
            · exact h
            · simp only [List.mem_singleton] at h; subst h; exact absurd hgs hf
          obtain ⟨a, c, b, hab, hb, hv⟩ := ih ⟨g, hg', hgs⟩
          refine ⟨a, c, b ++ [f], by rw [hab]; simp, ?_, ?_⟩
          · intro k hk
            rcases List.mem_append.1 hk with h | h
            · exact hb k h
            · simp only [List.mem_singleton] at h; subst h; exact hf
          · rw [applyStep_append]
            simp only [applyStep]
            rw [Function.update_of_ne (Ne.symm hf), hv]

end Smol
