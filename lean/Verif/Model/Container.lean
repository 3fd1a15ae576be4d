import Verif.Model.Kernel

/-!
# Sample containers, streaming and annealing

Models `smol/moca/sampler/container.py` and `Sampler.run` / `Sampler.anneal` of
`smol/moca/sampler/sampler.py`.

Simplification: the arrays of the trace (occupancy, features, enthalpy, ...) always have the same
number of rows and are written at the same index, so they are one list of rows; a row of type `α`
holds all traced values of all walkers.  A row of `np.empty` not written yet is `none`.
-/

namespace Smol

/-- State of a SampleContainer, smol/moca/sampler/container.py:60-90. -/
structure Container (α : Type*) where
  rows : List (Option α)
  nsamples : ℕ
  totalSteps : ℕ
  deriving DecidableEq

/-- A new container (the sampler builds it with arrays of length 0). -/
def Container.new {α : Type*} : Container α := ⟨[], 0, 0⟩

namespace Container
variable {α : Type*}

/-- `save_sampled_trace`, smol/moca/sampler/container.py:380-393; `none` is the `IndexError`. -/
def save (c : Container α) (thin : ℕ) (y : α) : Option (Container α) :=
  if c.nsamples < c.rows.length then
    some ⟨c.rows.set c.nsamples (some y), c.nsamples + 1, c.totalSteps + thin⟩
  else none

/-- `clear`, smol/moca/sampler/container.py:395-403. -/
def clear (_ : Container α) : Container α := ⟨[], 0, 0⟩

/-- `allocate`, smol/moca/sampler/container.py:405-409. -/
def allocate (c : Container α) (n : ℕ) : Container α :=
  { c with rows := c.rows ++ List.replicate n none }

/-- `vacuum`, smol/moca/sampler/container.py:411-414. -/
def vacuum (c : Container α) : Container α := { c with rows := c.rows.take c.nsamples }

/-- Operations on a container. -/
inductive Op (α : Type*)
  | save (thin : ℕ) (y : α)
  | clear
  | allocate (n : ℕ)
  | vacuum

/-- One operation; `none` is an exception. -/
def step (c : Container α) : Op α → Option (Container α)
  | .save thin y => c.save thin y
  | .clear => some c.clear
  | .allocate n => some (c.allocate n)
  | .vacuum => some c.vacuum

/-- A sequence of operations, up to the first exception. -/
def run (c : Container α) : List (Op α) → Option (Container α)
  | [] => some c
  | o :: os => (c.step o).bind fun c => c.run os

end Container

/-- The python slice `l[start::by]`; `none` is the `ValueError` for a zero step. -/
def pySlice {β : Type*} (l : List β) (start by_ : ℕ) : Option (List β) :=
  if by_ = 0 then none
  else some ((List.range l.length).filterMap fun k => l[start + k * by_]?)

/-- `get_trace_value(..., flat=False)`, smol/moca/sampler/container.py:176-181 (`thin ≥ 1`). -/
def Container.getTrace {α : Type*} (c : Container α) (discard thin : ℕ) :
    Option (List (Option α)) :=
  pySlice c.rows (discard + thin - 1) thin

/-- The number of samples allotted by `get_species_counts`, smol/moca/sampler/container.py:334. -/
def Container.numSelected {α : Type*} (c : Container α) (discard thin : ℕ) : ℕ :=
  (c.nsamples - discard) / thin

section Energies
variable {K : Type*} [CommRing K]

/-- `get_energies(..., flat=False)`, smol/moca/sampler/container.py:208-229, from the selected rows
(all written); `none`: nothing selected (`np.vstack` of an empty list), or features and
parameters of different lengths in `np.tensordot`. -/
def getEnergies (params : List K) (numCoefs : ℕ) (sel : List (List (Row K))) :
    Option (List (List K)) :=
  if params.length = numCoefs then some (sel.map fun ws => ws.map Row.enthalpy)
  else if sel = [] ∨ ∃ ws ∈ sel, ∃ r ∈ ws,
      (r.features.take numCoefs).length ≠ (params.take numCoefs).length then none
  else some (sel.map fun ws => ws.map fun r => dot (r.features.take numCoefs) (params.take numCoefs))

end Energies

/-! ### Minimum -/

section Minimum
variable {K : Type*} [LinearOrder K]

/-- `argmin` of a nonempty list: position of the first smallest entry. -/
def argminFrom (best : K) (bi : ℕ) : ℕ → List K → ℕ
  | _, [] => bi
  | i, x :: xs => if x < best then argminFrom x i (i + 1) xs else argminFrom best bi (i + 1) xs

/-- `ndarray.argmin`; `none` is the `ValueError` of an empty sequence. -/
def argmin : List K → Option ℕ
  | [] => none
  | x :: xs => some (argminFrom x 0 1 xs)

/-- A numpy result with up to two axes. -/
inductive Arr (β : Type*)
  | scalar (x : β)
  | vec (l : List β)
  | mat (l : List (List β))
  deriving DecidableEq

/-- `np.squeeze` of an array with rows of length `n`, as in `_flatten`,
smol/moca/sampler/container.py:510-515. -/
def squeeze {β : Type*} [Inhabited β] (n : ℕ) (rows : List (List β)) : Arr β :=
  match rows with
  | [r] => if n = 1 then .scalar (r.headD default) else .vec r
  | _ => if n = 1 then .vec (rows.map fun r => r.headD default) else .mat rows

/-- `a[i]`. -/
def Arr.index {β : Type*} : Arr β → ℕ → Option (Arr β)
  | .scalar _, _ => none
  | .vec l, i => l[i]?.map .scalar
  | .mat l, i => l[i]?.map .vec

/-- `get_minimum_enthalpy_occupancy(flat=True)` and `get_minimum_energy_occupancy(flat=True)`,
smol/moca/sampler/container.py:300-303 and 318-321: `e` and `occ` are the selected values by sample
and walker, `n` the number of sites. -/
def minOccFlat (n : ℕ) (e : List (List K)) (occ : List (List (List ℕ))) : Option (Arr ℕ) :=
  (argmin e.flatten).bind fun i => (squeeze n occ.flatten).index i

/-- The column of a walker. -/
def column {β : Type*} (l : List (List β)) (j : ℕ) : List β := l.filterMap fun ws => ws[j]?

/-- `get_minimum_enthalpy_occupancy(flat=False)`, smol/moca/sampler/container.py:304-308 and
322-326, for `w` walkers.  `inds` has shape `(w, 1)` and `np.arange(w)` shape `(w,)`: the indexing
broadcasts to `(w, w, sites)` with entry `(a, b)` taken from sample `inds[a]` and walker `b`, and
`[0]` keeps `a = 0`. -/
def minOccWalkers (w : ℕ) (e : List (List K)) (occ : List (List (List ℕ))) :
    Option (List (List ℕ)) :=
  ((List.range w).mapM fun j => argmin (column e j)).bind fun inds =>
    inds.head?.bind fun i0 => (List.range w).mapM fun b => occ[i0]?.bind fun ws => ws[b]?

end Minimum

/-! ### Files -/

/-- The HDF5 file: length of the data sets, and the attributes `nsamples` and `total_mc_steps`. -/
structure Backend (α : Type*) where
  rows : List (Option α)
  nsamples : ℕ
  totalSteps : ℕ
  deriving DecidableEq

section Stream
variable {α : Type*}

/-- `get_backend`, smol/moca/sampler/container.py:435-467 with `_init_backend` and
`_grow_backend` (482-508); the file is `none` when it does not exist.
Simplification: the shape check on existing files is not modelled. -/
def getBackend (file : Option (Backend α)) (alloc : ℕ) : Backend α :=
  match file with
  | none => ⟨List.replicate alloc none, 0, 0⟩
  | some b =>
    let available := b.rows.length - b.nsamples
    if available < alloc then { b with rows := b.rows ++ List.replicate (alloc - available) none }
    else b

/-- `flush_to_backend`, smol/moca/sampler/container.py:416-433.  The whole array is assigned to
the slice `[start:end]`: `none` when the number of rows differs from the number of samples, or the
slice leaves the data set. -/
def Container.flush (c : Container α) (b : Backend α) : Option (Container α × Backend α) :=
  if c.rows.length = c.nsamples ∧ b.nsamples + c.nsamples ≤ b.rows.length then
    some (⟨c.rows, 0, 0⟩,
      ⟨b.rows.take b.nsamples ++ c.rows ++ b.rows.drop (b.nsamples + c.nsamples),
        b.nsamples + c.nsamples, b.totalSteps + c.totalSteps⟩)
  else none

/-- What `from_hdf5` loads, smol/moca/sampler/container.py:633-647: `value[:nsamples]`. -/
def Backend.read (b : Backend α) : List (Option α) := b.rows.take b.nsamples

/-- The loop of `Sampler.run` when streaming, smol/moca/sampler/sampler.py:287-292; `ys` are the
traces still to come, `i` the loop counter. -/
def streamLoop (chunk thin : ℕ) : ℕ → List α → Container α × Backend α →
    Option (Container α × Backend α)
  | _, [], st => some st
  | i, y :: ys, (c, b) =>
    (c.save thin y).bind fun c =>
      if (i + 1) % chunk = 0 then
        (c.flush b).bind fun st => streamLoop chunk thin (i + 1) ys st
      else streamLoop chunk thin (i + 1) ys (c, b)

/-- `Sampler.run` with `stream_chunk = chunk > 0`, smol/moca/sampler/sampler.py:270-298, given the
traces `ys` that `sample` yields. -/
def runStream (chunk thin : ℕ) (keep : Bool) (ys : List α) (c : Container α)
    (file : Option (Backend α)) : Option (Container α × Backend α) :=
  let b := getBackend file ys.length
  let c := if c.rows.length = 0 then c.allocate chunk else c
  (streamLoop chunk thin 0 ys (c, b)).map fun st => (if keep then st.1 else st.1.clear, st.2)

/-- Saving a list of traces, smol/moca/sampler/sampler.py:287-290. -/
def saveAll (thin : ℕ) : List α → Container α → Option (Container α)
  | [], c => some c
  | y :: ys, c => (c.save thin y).bind fun c => saveAll thin ys c

/-- `Sampler.run` in memory, smol/moca/sampler/sampler.py:283-290. -/
def runMemory (thin : ℕ) (ys : List α) (c : Container α) : Option (Container α) :=
  saveAll thin ys (c.allocate ys.length)

/-- Several streaming runs of one sampler into one file, each with its own chunk size, thinning and
traces. -/
def runsStream : List (ℕ × ℕ × List α) → Container α → Option (Backend α) →
    Option (Container α × Option (Backend α))
  | [], c, f => some (c, f)
  | r :: rs, c, f =>
    (runStream r.1 r.2.1 false r.2.2 c f).bind fun st => runsStream rs st.1 (some st.2)

/-- Several runs in memory. -/
def runsMemory : List (ℕ × ℕ × List α) → Container α → Option (Container α)
  | [], c => some c
  | r :: rs, c => (runMemory r.2.1 r.2.2 c).bind fun c => runsMemory rs c

/-- The initial occupancies of a run, smol/moca/sampler/sampler.py:253-262: the given ones, or the
last row of the container; `none` is the `RuntimeError`, or reading a row never written. -/
def runStart {β : Type*} (occOf : α → β) (init : Option β) (c : Container α) : Option β :=
  match init with
  | some o => some o
  | none => c.rows.getLast?.bind fun r => r.map occOf

/-- `Sampler.anneal` in memory, smol/moca/sampler/sampler.py:349-379, after the check of the end
temperatures: `chain T o` are the traces the kernels at temperature `T` yield from `o`.  The result
is the container and the temperature of the kernels at the end. -/
def annealLoop {β T : Type*} (chain : T → β → List α) (occOf : α → β) (thin : ℕ) :
    List T → Option β → Container α → Option T → Option (Container α × Option T)
  | [], _, c, t => some (c, t)
  | t :: ts, init, c, _ =>
    (runStart occOf init c).bind fun o =>
      (runMemory thin (chain t o) c).bind fun c => annealLoop chain occOf thin ts none c (some t)

/-- `Sampler.anneal`, smol/moca/sampler/sampler.py:302-383: `none` for an empty list of
temperatures (`IndexError`) or when the first is below the last (`ValueError`). -/
def anneal {β T : Type*} [LT T] [DecidableLT T] (chain : T → β → List α) (occOf : α → β) (thin : ℕ)
    (temps : List T) (init : Option β) (c : Container α) (t0 : Option T) :
    Option (Container α × Option T) :=
  match temps.head?, temps.getLast? with
  | some a, some z => if a < z then none else annealLoop chain occOf thin temps init c t0
  | _, _ => none

/-- `Sampler.anneal` with streaming: every run keeps its last chunk (line 365), the samples are
cleared at the end (381-383). -/
def annealStreamLoop {β T : Type*} (chain : T → β → List α) (occOf : α → β) (chunk thin : ℕ) :
    List T → Option β → Container α → Option (Backend α) → Option T →
      Option (Container α × Option (Backend α) × Option T)
  | [], _, c, f, t => some (c.clear, f, t)
  | t :: ts, init, c, f, _ =>
    (runStart occOf init c).bind fun o =>
      (runStream chunk thin true (chain t o) c f).bind fun st =>
        annealStreamLoop chain occOf chunk thin ts none st.1 (some st.2) (some t)

end Stream

/-! ### Temperature -/

/-- `ThermalKernelMixin`, smol/moca/kernel/base.py:367-419: the attributes `_kB`, `beta` and
`trace.temperature`. -/
structure Thermal (K : Type*) where
  kB : K
  beta : K
  temperature : K

section Thermal
variable {K : Type*} [Field K] [DecidableEq K]

/-- Assignments to a thermal kernel. -/
inductive ThermalOp (K : Type*)
  | setT (t : K)
  | setkB (b : K)

/-- The setters, smol/moca/kernel/base.py:402-406 and 413-417.  The flag is `false` when `1.0 / 0`
raises; the attribute written before the division keeps its new value. -/
def Thermal.step (k : Thermal K) : ThermalOp K → Thermal K × Bool
  | .setT t =>
    let k := { k with temperature := t }
    if k.kB * t = 0 then (k, false) else ({ k with beta := 1 / (k.kB * t) }, true)
  | .setkB b =>
    let k := { k with kB := b }
    if b * k.temperature = 0 then (k, false) else ({ k with beta := 1 / (b * k.temperature) }, true)

/-- Constructor, smol/moca/kernel/base.py:379-396: `none` is the division by zero. -/
def Thermal.init (kB t : K) : Option (Thermal K) :=
  if kB * t = 0 then none else some (Thermal.step ⟨kB, 1 / (kB * t), t⟩ (.setT t)).1

/-- A sequence of assignments, all of which returned. -/
def Thermal.run (k : Thermal K) : List (ThermalOp K) → Option (Thermal K)
  | [] => some k
  | o :: os => if (k.step o).2 then (k.step o).1.run os else none

end Thermal
end Smol
