import Verif.Model.Evaluator

/-!
# Parallel evaluation

Models the `prange` loops of `smol/utils/cluster/evaluator.pyx` at the level of single
assignments, with any number of threads interleaved in any way, and the choice of the number of
threads in `smol/utils/cluster/numthreads.py` and `smol/utils/_openmp_helpers.pyx`.

The four loops have the same form and are modelled by one `Task` per orbit.  The loops for
interactions have no loop over functions; they are tasks with one function.
Variables assigned inside a `prange` body are private to a thread in Cython and hold arbitrary
values when an iteration starts.
-/

namespace Smol

variable {K : Type*} [Field K]

/-- One iteration of a `prange` loop. -/
structure Task (K : Type*) where
  /-- first output slot: `orbit.bit_id` or `orbit.id` -/
  base : ℕ
  /-- number of functions -/
  count : ℕ
  strides : List ℕ
  rows : ClusterRows
  occI : Occ
  occF : Occ
  /-- value added for a cluster: function, index before, index after -/
  contrib : ℕ → ℕ → ℕ → K
  /-- value stored for the accumulated sum -/
  finish : K → K

/-- Iteration of `correlations_from_occupancy`, evaluator.pyx:147-166. -/
def corrTask (occ : Occ) (o : OrbitData K) (rows : ClusterRows) : Task K where
  base := o.bitId
  count := o.numCombos
  strides := o.tensorIndices
  rows := rows
  occI := occ
  occF := occ
  contrib := fun k _ f => o.corrData (k * o.tensorSize + f)
  finish := fun p => p / (rows.length : K)

/-- Iteration of `interactions_from_occupancy`, evaluator.pyx:194-207. -/
def interTask (occ : Occ) (o : OrbitData K) (inter : ℕ → K) (rows : ClusterRows) : Task K where
  base := o.id
  count := 1
  strides := o.tensorIndices
  rows := rows
  occI := occ
  occF := occ
  contrib := fun _ _ f => inter f
  finish := fun p => p / (rows.length : K)

/-- Iteration of `delta_correlations_from_occupancies`, evaluator.pyx:243-263. -/
def deltaCorrTask (occF occI : Occ) (o : OrbitData K) (rows : ClusterRows) (ratio : K) : Task K where
  base := o.bitId
  count := o.numCombos
  strides := o.tensorIndices
  rows := rows
  occI := occI
  occF := occF
  contrib := fun k i f => o.corrData (k * o.tensorSize + f) - o.corrData (k * o.tensorSize + i)
  finish := fun p => p / ratio / (rows.length : K)

/-- Iteration of `delta_interactions_from_occupancies`, evaluator.pyx:301-315. -/
def deltaInterTask (occF occI : Occ) (o : OrbitData K) (inter : ℕ → K) (rows : ClusterRows)
    (ratio : K) : Task K where
  base := o.id
  count := 1
  strides := o.tensorIndices
  rows := rows
  occI := occI
  occF := occF
  contrib := fun _ i f => inter f - inter i
  finish := fun p => p / ratio / (rows.length : K)

/-- Where a thread is within an iteration. -/
inductive PC
  | loopK | loopJ | loopI | store | done
  deriving DecidableEq, Repr

/-- Private variables of a thread. -/
structure Regs (K : Type*) where
  pc : PC
  k : ℕ
  j : ℕ
  i : ℕ
  indI : ℕ
  indF : ℕ
  slot : ℕ
  p : K

/-- Next step of a thread and the shared entry it writes, evaluator.pyx:155-166. -/
def Task.step (T : Task K) (r : Regs K) : Regs K × Option (ℕ × K) :=
  match r.pc with
  | .loopK =>
    if r.k < T.count then ({ r with p := 0, j := 0, pc := .loopJ }, none)
    else ({ r with pc := .done }, none)
  | .loopJ =>
    if r.j < T.rows.length then ({ r with indI := 0, indF := 0, i := 0, pc := .loopI }, none)
    else ({ r with pc := .store }, none)
  | .loopI =>
    if r.i < (T.rows.getD r.j []).length then
      ({ r with
          indI := r.indI + T.strides.getD r.i 0 * T.occI ((T.rows.getD r.j []).getD r.i 0)
          indF := r.indF + T.strides.getD r.i 0 * T.occF ((T.rows.getD r.j []).getD r.i 0)
          i := r.i + 1 }, none)
    else ({ r with p := r.p + T.contrib r.k r.indI r.indF, j := r.j + 1, pc := .loopJ }, none)
  | .store => ({ r with slot := r.slot + 1, k := r.k + 1, pc := .loopK },
      some (r.slot, T.finish r.p))
  | .done => (r, none)

/-- Shared output array, iterations not started yet, and the threads (idle, or running an
iteration). -/
structure Machine (K : Type*) where
  out : ℕ → K
  pool : List ℕ
  threads : ℕ → Option (ℕ × Regs K)

/-- Start of an iteration: `k = 0` and `bit_id = orbit.bit_id`, the rest is left over. -/
def Task.enter (T : Task K) (garbage : Regs K) : Regs K :=
  { garbage with pc := .loopK, k := 0, slot := T.base }

def writeOut (out : ℕ → K) : Option (ℕ × K) → ℕ → K
  | none => out
  | some w => Function.update out w.1 w.2

/-- One step of any thread: take any iteration, continue, or become idle.  Every OpenMP schedule
is a sequence of such steps. -/
inductive Machine.Step (tasks : List (Task K)) (nthreads : ℕ) : Machine K → Machine K → Prop
  | take (m : Machine K) (t n : ℕ) (T : Task K) (garbage : Regs K) : t < nthreads →
      m.threads t = none → n ∈ m.pool → tasks[n]? = some T →
      Machine.Step tasks nthreads m
        { m with pool := m.pool.erase n
                 threads := Function.update m.threads t (some (n, T.enter garbage)) }
  | exec (m : Machine K) (t n : ℕ) (T : Task K) (r : Regs K) : t < nthreads →
      m.threads t = some (n, r) → tasks[n]? = some T → r.pc ≠ .done →
      Machine.Step tasks nthreads m
        { m with out := writeOut m.out (T.step r).2
                 threads := Function.update m.threads t (some (n, (T.step r).1)) }
  | release (m : Machine K) (t n : ℕ) (r : Regs K) : t < nthreads →
      m.threads t = some (n, r) → r.pc = .done →
      Machine.Step tasks nthreads m
        { m with threads := Function.update m.threads t none }

/-- The machine at the start of the loop. -/
def Machine.start (tasks : List (Task K)) (init : ℕ → K) : Machine K :=
  ⟨init, List.range tasks.length, fun _ => none⟩

/-- The loop has ended. -/
def Machine.Final (nthreads : ℕ) (m : Machine K) : Prop :=
  m.pool = [] ∧ ∀ t < nthreads, m.threads t = none

/-- `_openmp_effective_numthreads`, smol/utils/_openmp_helpers.pyx:39-77; `maxThreads` is the
smaller of OpenMP's maximum and the number of cpus (or OpenMP's maximum if `OMP_NUM_THREADS` is
set).  `none` is the `ValueError`. -/
def effectiveThreads (openmp : Bool) (maxThreads : ℕ) : Option ℤ → Option ℤ
  | some 0 => none
  | arg =>
    if !openmp then some 1
    else
      match arg with
      | none => some maxThreads
      | some n => if n < 0 then some (max 1 (maxThreads + n + 1)) else some n

/-- `SetNumThreads.__set__`, smol/utils/cluster/numthreads.py:36-57 with the default of lines 8-11
(`envSet`: `OMP_NUM_THREADS` is set). -/
def setNumThreads (openmp envSet : Bool) (maxThreads : ℕ) (value : Option ℤ) : Option ℤ :=
  (match value with
    | none => effectiveThreads openmp maxThreads (if envSet then none else some 2)
    | some v => some v).bind fun v =>
  (effectiveThreads openmp maxThreads none).bind fun mx =>
  effectiveThreads openmp maxThreads (some (if v > mx then mx else v))

end Smol
