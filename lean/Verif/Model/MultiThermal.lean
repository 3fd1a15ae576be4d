import Verif.Model.Container

/-!
# Temperatures of multicell kernels

Models the temperature and the Boltzmann constant of `MulticellMetropolis` and of its cells' kernels
(`Thermal` of `Verif.Model.Container`).  The trace of a multicell kernel is the trace object of the current
cell's kernel, so that its temperature is read from there.  The cells' kernels are different objects.
-/

namespace Smol

/-- A `MulticellMetropolis`, smol/moca/kernel/metropolis.py:102-168 and
smol/moca/kernel/base.py:530-550: the cells' kernels, its own `_kB` and `beta`, and the cell whose trace
`self._trace` is. -/
structure MultiThermal (K : Type*) where
  cells : List (Thermal K)
  kB : K
  beta : K
  cur : ℕ

/-- Assignments to the multicell kernel, to the kernel of cell `i` in `mckernels`, and an accepted hop to
cell `j`. -/
inductive MultiOp (K : Type*)
  | setT (t : K)
  | setkB (b : K)
  | cell (i : ℕ) (o : ThermalOp K)
  | hop (j : ℕ)

section
variable {K : Type*} [Field K] [DecidableEq K]

/-- `temperature`, smol/moca/kernel/base.py:412-415, with `trace` of
smol/moca/kernel/base.py:553-556. -/
def MultiThermal.temperature (m : MultiThermal K) : Option K := (m.cells[m.cur]?).map (·.temperature)

/-- The loop over the cells' kernels, smol/moca/kernel/metropolis.py:167-168; the flag is `false` when one
of them raises, the ones after it keep their temperatures. -/
def setCells (t : K) : List (Thermal K) → List (Thermal K) × Bool
  | [] => ([], true)
  | c :: cs =>
    if (c.step (.setT t)).2 then ((c.step (.setT t)).1 :: (setCells t cs).1, (setCells t cs).2)
    else ((c.step (.setT t)).1 :: cs, false)

/-- The setters, smol/moca/kernel/metropolis.py:162-168 and smol/moca/kernel/base.py:406-410; accepted
hops, smol/moca/kernel/base.py:660-666 (rejected ones leave the trace, 669-673).  The flag is `false` for
divisions by zero and cells that do not exist. -/
def MultiThermal.step (m : MultiThermal K) : MultiOp K → MultiThermal K × Bool
  | .setT t =>
    let cells := m.cells.modify m.cur fun c => { c with temperature := t }
    if m.kB * t = 0 then ({ m with cells := cells }, false)
    else ({ m with beta := 1 / (m.kB * t), cells := (setCells t cells).1 }, (setCells t cells).2)
  | .setkB b =>
    match m.temperature with
    | none => ({ m with kB := b }, false)
    | some t => if b * t = 0 then ({ m with kB := b }, false)
      else ({ m with kB := b, beta := 1 / (b * t) }, true)
  | .cell i o =>
    match m.cells[i]? with
    | none => (m, false)
    | some c => ({ m with cells := m.cells.set i (c.step o).1 }, (c.step o).2)
  | .hop j => if j < m.cells.length then ({ m with cur := j }, true) else (m, false)

/-- Constructor, smol/moca/kernel/base.py:397-399 with smol/moca/kernel/metropolis.py:148-160: starts in
cell 0 and assigns the temperature. -/
def MultiThermal.init (kB t : K) (cells : List (Thermal K)) : Option (MultiThermal K) :=
  if cells = [] ∨ kB * t = 0 then none
  else
    let r := MultiThermal.step ⟨cells, kB, 1 / (kB * t), 0⟩ (.setT t)
    if r.2 then some r.1 else none

/-- A sequence of assignments and hops, all of which returned. -/
def MultiThermal.run (m : MultiThermal K) : List (MultiOp K) → Option (MultiThermal K)
  | [] => some m
  | o :: os => if (m.step o).2 then (m.step o).1.run os else none

/-- The kernel of `StochasticSQSGenerator`, smol/capp/generate/special/sqs.py:505-518: `n` kernels with the
constant `kB`, then all constants set to one. -/
def sqsThermal (kB t : K) (n : ℕ) : Option (MultiThermal K) :=
  (Thermal.init kB t).bind fun c =>
    if (c.step (.setkB 1)).2 then
      (MultiThermal.init kB t (List.replicate n (c.step (.setkB 1)).1)).bind (·.run [.setkB 1])
    else none

end
end Smol
