import Verif.Spec.MultiThermal
import Mathlib.Tactic.FieldSimp

/-!
# Lemmas: temperatures of multicell kernels
-/

namespace Smol
open Smol.Spec

variable {K : Type*} [Field K]

/-- A kernel with constant `b` at temperature `t`. -/
def thermalAt (t b : K) : Thermal K := ⟨b, 1 / (b * t), t⟩

omit [Field K] in
theorem map_kB_modify (t : K) (l : List (Thermal K)) (i : ℕ) :
    (l.modify i fun c => { c with temperature := t }).map (·.kB) = l.map (·.kB) := by
  induction l generalizing i with
  | nil => cases i <;> rfl
  | cons c l ih => cases i with
    | zero => rfl
    | succ i => simp [List.modify_succ_cons, ih]

variable [DecidableEq K]

theorem setCells_ok (t : K) (cs : List (Thermal K)) (h : (setCells t cs).2 = true) :
    (setCells t cs).1 = (cs.map (·.kB)).map (thermalAt t) ∧ ∀ b ∈ cs.map (·.kB), b * t ≠ 0 := by
  induction cs with
  | nil => simp [setCells]
  | cons c cs ih =>
    by_cases hc : c.kB * t = 0
    · simp [setCells, Thermal.step, hc] at h
    · simp only [setCells, Thermal.step, hc, if_false, if_true] at h ⊢
      obtain ⟨h1, h2⟩ := ih h
      refine ⟨by rw [h1]; rfl, ?_⟩
      simp only [List.map_cons, List.mem_cons, forall_eq_or_imp]
      exact ⟨hc, h2⟩

theorem setT_ok (m : MultiThermal K) (t : K) (h : (m.step (.setT t)).2 = true) :
    (m.step (.setT t)).1 = ⟨(m.cells.map (·.kB)).map (thermalAt t), m.kB, 1 / (m.kB * t), m.cur⟩ ∧
      m.kB * t ≠ 0 ∧ ∀ b ∈ m.cells.map (·.kB), b * t ≠ 0 := by
  by_cases hk : m.kB * t = 0
  · simp [MultiThermal.step, hk] at h
  · simp only [MultiThermal.step, hk, if_false] at h ⊢
    obtain ⟨h1, h2⟩ := setCells_ok _ _ h
    rw [map_kB_modify] at h1 h2
    exact ⟨by rw [h1], by simpa using hk, h2⟩

/-- The kernel is at temperature `t` with constant `b`, its cells with the constants `bs`. -/
def AtTemperature (bs : List K) (t b : K) (m : MultiThermal K) : Prop :=
  m = ⟨bs.map (thermalAt t), b, 1 / (b * t), m.cur⟩ ∧ m.cur < bs.length ∧ b * t ≠ 0 ∧ ∀ x ∈ bs, x * t ≠ 0

omit [DecidableEq K] in
theorem map_kB_thermalAt (t : K) (bs : List K) : (bs.map (thermalAt t)).map (·.kB) = bs := by
  induction bs with
  | nil => rfl
  | cons b bs ih => simp only [List.map_cons, ih]; rfl

omit [DecidableEq K] in
theorem AtTemperature.temp {bs : List K} {t b : K} {m : MultiThermal K} (h : AtTemperature bs t b m) :
    m.temperature = some t := by
  obtain ⟨h, hc, _⟩ := h
  rw [MultiThermal.temperature, h]
  simp [List.getElem?_map, List.getElem?_eq_getElem hc, thermalAt]

theorem init_at (kB t : K) (cells : List (Thermal K)) (m : MultiThermal K)
    (h : MultiThermal.init kB t cells = some m) : AtTemperature (cells.map (·.kB)) t kB m := by
  simp only [MultiThermal.init] at h
  split at h
  · simp at h
  · next hne =>
    split at h
    · next hok =>
      obtain ⟨h1, h2, h3⟩ := setT_ok _ t hok
      rw [h1] at h
      simp only [Option.some.injEq] at h
      subst h
      refine ⟨rfl, ?_, h2, h3⟩
      simp only [not_or] at hne
      simpa [List.length_pos_iff] using hne.1
    · simp at h

theorem run_at (bs : List K) (ops : List (MultiOp K)) (hn : NoCellAssigned ops) (t b : K)
    (m m' : MultiThermal K) (hm : AtTemperature bs t b m) (h : m.run ops = some m') :
    AtTemperature bs (lastTemperature t ops) (lastConstant b ops) m' := by
  induction ops generalizing t b m with
  | nil =>
    simp only [MultiThermal.run, Option.some.injEq] at h
    subst h; exact hm
  | cons o os ih =>
    have hn' : NoCellAssigned os := fun i o' ho => hn i o' (List.mem_cons_of_mem _ ho)
    simp only [MultiThermal.run] at h
    split at h
    · next hok =>
      have hT := hm.temp
      obtain ⟨hm1, hm2, hm3, hm4⟩ := hm
      cases o with
      | setT t' =>
        obtain ⟨h1, h2, h3⟩ := setT_ok _ t' hok
        have hcs : m.cells.map (·.kB) = bs := by rw [hm1]; exact map_kB_thermalAt t bs
        have hk : m.kB = b := by rw [hm1]
        rw [hcs, hk] at h1
        rw [hk] at h2
        rw [hcs] at h3
        refine ih hn' t' b _ ?_ h
        rw [h1]
        exact ⟨rfl, hm2, h2, h3⟩
      | setkB b' =>
        simp only [MultiThermal.step, hT] at hok h
        split at hok
        · simp at hok
        · next hne =>
          rw [if_neg hne] at h
          refine ih hn' t b' _ ?_ h
          refine ⟨?_, hm2, hne, hm4⟩
          have hcs : m.cells = bs.map (thermalAt t) := by rw [hm1]
          simp only [hcs]
      | cell i o' => exact absurd (List.mem_cons_self ..) (hn i o')
      | hop j =>
        simp only [MultiThermal.step] at hok h
        split at hok
        · next hj =>
          rw [if_pos hj] at h
          refine ih hn' t b _ ?_ h
          rw [hm1] at hj ⊢
          exact ⟨rfl, by simpa using hj, hm3, hm4⟩
        · simp at hok
    · simp at h

end Smol
