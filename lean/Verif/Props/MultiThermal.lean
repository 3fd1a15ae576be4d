import Verif.Lemmas.MultiThermal
import Mathlib.Tactic.NormNum

/-!
# C105: temperatures of multicell kernels
-/

namespace Smol
open Smol.Spec

variable {K : Type*} [Field K] [DecidableEq K]

/-- C105. After any assignments to a multicell kernel and any hops, its temperature and that of every cell
is the one assigned last; cells keep their own constants; every `beta` is that of the kernel's own constant
at this temperature. -/
theorem C105_sessions (kB t : K) (cells : List (Thermal K)) (m0 m : MultiThermal K)
    (h0 : MultiThermal.init kB t cells = some m0) (ops : List (MultiOp K)) (hn : NoCellAssigned ops)
    (h : m0.run ops = some m) :
    m.temperature = some (lastTemperature t ops) ∧ m.kB = lastConstant kB ops ∧
      m.beta = 1 / (lastConstant kB ops * lastTemperature t ops) ∧
      m.cells = cells.map fun c =>
        ⟨c.kB, 1 / (c.kB * lastTemperature t ops), lastTemperature t ops⟩ := by
  have := run_at _ ops hn t kB m0 m (init_at kB t cells m0 h0) h
  refine ⟨this.temp, ?_, ?_, ?_⟩
  · rw [this.1]
  · rw [this.1]
  · rw [this.1]; simp only [List.map_map]; rfl

/-- C105. After such a session steps in a cell are accepted at the `beta` of hops between cells exactly if
the constant of the cell's kernel is the one assigned last to the multicell kernel. -/
theorem C105_same_beta_iff (kB t : K) (cells : List (Thermal K)) (m0 m : MultiThermal K)
    (h0 : MultiThermal.init kB t cells = some m0) (ops : List (MultiOp K)) (hn : NoCellAssigned ops)
    (h : m0.run ops = some m) (c : Thermal K) (hc : c ∈ m.cells) :
    c.beta = m.beta ↔ c.kB = lastConstant kB ops := by
  have := run_at _ ops hn t kB m0 m (init_at kB t cells m0 h0) h
  obtain ⟨h1, _, h3, h4⟩ := this
  rw [h1] at hc ⊢
  obtain ⟨x, hx, rfl⟩ := List.mem_map.1 hc
  simp only [thermalAt, one_div, inv_inj]
  exact mul_left_inj' fun h0 => h3 (by rw [h0, mul_zero])

/-- C105. In a generator of special quasirandom structures all kernels are at `beta = 1 / T` for the
temperature `T` assigned last, whatever the constant they were created with. -/
theorem C105_sqs (kB t : K) (n : ℕ) (m0 m : MultiThermal K) (h0 : sqsThermal kB t n = some m0)
    (ops : List (MultiOp K)) (hn : NoCellAssigned ops) (hk : NoConstantAssigned ops)
    (h : m0.run ops = some m) :
    m.cells.length = n ∧ m.temperature = some (lastTemperature t ops) ∧
      m.beta = 1 / lastTemperature t ops ∧
      ∀ c ∈ m.cells, c.beta = 1 / lastTemperature t ops ∧ c.temperature = lastTemperature t ops := by
  simp only [sqsThermal, Option.bind_eq_some_iff] at h0
  obtain ⟨c, hc, h0⟩ := h0
  split at h0
  · next hok =>
    obtain ⟨m1, h1, h2⟩ := Option.bind_eq_some_iff.1 h0
    have hb : ((c.step (.setkB 1)).1).kB = 1 := by simp only [Thermal.step]; split <;> rfl
    have a1 := init_at kB t _ m1 h1
    have a2 := run_at _ [.setkB 1] (by intro i o; simp) t kB m1 m0 a1 h2
    have a3 := run_at _ ops hn _ _ m0 m a2 h
    have hl : ∀ (b : K) (os : List (MultiOp K)), NoConstantAssigned os → lastConstant b os = b := by
      intro b os ho
      induction os with
      | nil => rfl
      | cons o os ih =>
        have ih := ih fun b' hb' => ho b' (List.mem_cons_of_mem _ hb')
        cases o with
        | setkB b' => exact absurd (List.mem_cons_self ..) (ho b')
        | _ => exact ih
    rw [hl _ ops hk] at a3
    simp only [lastConstant, lastTemperature, List.map_replicate, hb] at a3
    have ht := a3.temp
    obtain ⟨e, -, -, -⟩ := a3
    refine ⟨by rw [e]; simp, ht, by rw [e]; simp, ?_⟩
    rw [e]
    intro x hx
    obtain ⟨y, hy, rfl⟩ := List.mem_map.1 hx
    obtain rfl := List.eq_of_mem_replicate hy
    simp [thermalAt]
  · simp at h0

/-- C105, violated. The constant of a multicell kernel does not reach its cells: assigning one that differs
from the cells' leaves every cell at another `beta` than the hops, whatever temperatures are assigned
afterwards. -/
theorem C105_constant_not_passed (kB t b : K) (cells : List (Thermal K)) (m0 m : MultiThermal K)
    (h0 : MultiThermal.init kB t cells = some m0) (ops : List (MultiOp K)) (hn : NoCellAssigned ops)
    (hk : NoConstantAssigned ops) (hb : ∀ c ∈ cells, c.kB ≠ b)
    (h : m0.run (.setkB b :: ops) = some m) : ∀ c ∈ m.cells, c.beta ≠ m.beta := by
  have hn' : NoCellAssigned (.setkB b :: ops) := by
    intro i o ho
    rcases List.mem_cons.1 ho with ho | ho
    · cases ho
    · exact hn i o ho
  have hl : ∀ (os : List (MultiOp K)), NoConstantAssigned os → lastConstant b os = b := by
    intro os ho
    induction os with
    | nil => rfl
    | cons o os ih =>
      have ih := ih fun b' hb' => ho b' (List.mem_cons_of_mem _ hb')
      cases o with
      | setkB b' => exact absurd (List.mem_cons_self ..) (ho b')
      | _ => exact ih
  intro c hc heq
  have h1 := (C105_same_beta_iff kB t cells m0 m h0 _ hn' h c hc).1 heq
  have h2 := (C105_sessions kB t cells m0 m h0 _ hn' h).2.2.2
  rw [h2] at hc
  obtain ⟨x, hx, rfl⟩ := List.mem_map.1 hc
  refine hb x hx ?_
  rw [lastConstant, hl ops hk] at h1
  exact h1

/-- C105, violated. A temperature assigned to the kernel of one cell becomes the temperature the multicell
kernel reports while it is in this cell, at once or after a hop; `beta` of the hops stays. -/
theorem C105_cell_assigned (m : MultiThermal K) (i : ℕ) (hi : i < m.cells.length) (t : K)
    (hk : m.cells[i].kB * t ≠ 0) :
    ∃ m', m.run [.cell i (.setT t)] = some m' ∧ m'.beta = m.beta ∧ m'.kB = m.kB ∧
      m'.temperature = (if m.cur = i then some t else m.temperature) ∧
      ∃ m'', m'.run [.hop i] = some m'' ∧ m''.temperature = some t ∧ m''.beta = m.beta := by
  have hg : m.cells[i]? = some m.cells[i] := List.getElem?_eq_getElem hi
  simp only [MultiThermal.run, MultiThermal.step, hg, Thermal.step, if_neg hk, if_true]
  refine ⟨_, rfl, rfl, rfl, ?_, ?_⟩
  · simp only [MultiThermal.temperature, List.getElem?_set]
    by_cases hc : m.cur = i
    · subst hc; simp [hi]
    · simp [hc, Ne.symm hc]
  · simp only [List.length_set, hi, if_true]
    exact ⟨_, rfl, by simp [MultiThermal.temperature, hi], rfl⟩

/-- C105, violated. A refused temperature is reported afterwards although no `beta` has changed and no
other cell has it. -/
theorem C105_refused (m : MultiThermal K) (hc : m.cur < m.cells.length) (t : K) (hk : m.kB * t = 0) :
    m.run [.setT t] = none ∧ (m.step (.setT t)).1.temperature = some t ∧
      (m.step (.setT t)).1.beta = m.beta ∧
      (m.step (.setT t)).1.cells.map (·.beta) = m.cells.map (·.beta) ∧
      ∀ i, i ≠ m.cur → (m.step (.setT t)).1.cells[i]? = m.cells[i]? := by
  simp only [MultiThermal.run, MultiThermal.step, if_pos hk]
  refine ⟨by simp, ?_, trivial, ?_, ?_⟩
  · simp [MultiThermal.temperature, List.getElem?_eq_getElem hc]
  · apply List.ext_getElem?
    intro i
    simp only [List.getElem?_map, List.getElem?_modify]
    cases m.cells[i]? with
    | none => rfl
    | some c => by_cases h : m.cur = i <;> simp [h]
  · intro i hi
    simp only [List.getElem?_modify, if_neg (Ne.symm hi)]
    cases m.cells[i]? <;> rfl

section Examples

/-- Two cells with constants 2 and 3. -/
def twoThermalCells : List (Thermal ℚ) := [⟨2, 1, 7⟩, ⟨3, 1, 8⟩]

/-- Temperatures reach both cells, the constant none. -/
example : ((MultiThermal.init 2 5 twoThermalCells).bind (·.run [.hop 1, .setT 4, .setkB 3])).map
    (fun m => (m.temperature, m.beta, m.cells.map (·.beta), m.cells.map (·.temperature))) =
    some (some 4, 1 / 12, [1 / 8, 1 / 12], [4, 4]) := by decide +kernel

/-- The generator's kernel at temperature 5, cooled to 2. -/
example : ((sqsThermal (1 / 10 : ℚ) 5 3).bind (·.run [.hop 2, .setT 2])).map
    (fun m => (m.temperature, m.beta, m.cells.map (·.beta))) =
    some (some 2, 1 / 2, [1 / 2, 1 / 2, 1 / 2]) := by decide +kernel

/-- A cell's own temperature is reported after a hop. -/
example : ((MultiThermal.init 2 5 twoThermalCells).bind (·.run [.cell 1 (.setT 6), .hop 1])).map
    (fun m => (m.temperature, m.beta)) = some (some 6, 1 / 10) := by decide +kernel

/-- A refused temperature. -/
example : ((MultiThermal.init 2 5 twoThermalCells).map fun m =>
    ((m.step (.setT 0)).1.temperature, (m.step (.setT 0)).1.beta, (m.step (.setT 0)).2)) =
    some (some 0, 1 / 10, false) := by decide +kernel

end Examples
end Smol
