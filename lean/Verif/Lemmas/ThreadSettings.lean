import Verif.Spec.ThreadSettings
import Mathlib.Tactic.Linarith
import Mathlib.Order.Lattice

/-! Lemmas for numbers of threads. -/

namespace Smol
open Smol.Spec

theorem assign_wanted (e : TEnv) (hm : 0 < e.most) (v : TVal) : e.assign v = wanted e v := by
  obtain ⟨om, es, n⟩ := e
  simp only at hm
  cases v with
  | other => rfl
  | none =>
    cases om <;> cases es <;>
      simp [TEnv.assign, wanted, setNumThreads, effectiveThreads, unasked]
    all_goals (repeat' split)
    all_goals first | omega | (simp_all; try omega)
  | int z =>
    by_cases h0 : z = 0
    · subst h0
      cases om <;> cases es <;>
        simp [TEnv.assign, wanted, setNumThreads, effectiveThreads]
      all_goals (repeat' split)
      all_goals first | omega | (simp_all; try omega)
    · cases om <;> cases es <;>
        simp [TEnv.assign, wanted, setNumThreads, effectiveThreads, meant, h0]
      all_goals (repeat' split)
      all_goals first | omega | (simp_all; try omega)

theorem wanted_usableThreads (e : TEnv) (hm : 0 < e.most) (v : TVal) {z : ℤ} (h : wanted e v = some z) :
    UsableThreads e z := by
  obtain ⟨om, es, n⟩ := e
  simp only at hm
  unfold UsableThreads
  cases v with
  | other => cases h
  | none =>
    cases om <;> cases es <;> simp [wanted, unasked] at h <;> subst h <;> simp <;> omega
  | int q =>
    by_cases h0 : q = 0
    · simp [wanted, h0] at h
    · cases om <;> simp [wanted, meant, h0] at h <;> subst h
      · simp
      · simp only [if_true]
        split <;> omega

theorem wanted_of_usable (e : TEnv) {z : ℤ} (h : UsableThreads e z) : wanted e (.int z) = some z := by
  obtain ⟨om, es, n⟩ := e
  obtain ⟨h1, h2⟩ := h
  simp only [wanted, meant]
  cases om
  · simp at h2
    simp
    omega
  · simp at h2
    rw [if_neg (by omega)]
    simp
    omega

theorem assignMany_some (e : TEnv) (v : TVal) {y : ℤ} (h : e.assign v = some y) (l : List ℤ) :
    e.assignMany v l = (List.replicate l.length y, false) := by
  induction l with
  | nil => rfl
  | cons x l ih => simp [TEnv.assignMany, h, ih, List.replicate_succ]

theorem assignMany_none (e : TEnv) (v : TVal) (h : e.assign v = none) (l : List ℤ) :
    e.assignMany v l = (l, !l.isEmpty) := by
  cases l with
  | nil => rfl
  | cons x l => simp [TEnv.assignMany, h]

end Smol
