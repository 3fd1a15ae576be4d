import Verif.Model.Threads

/-!
# Numbers of threads of subspaces and processors

Models the descriptors `SetNumThreads` (`smol/utils/cluster/numthreads.py`) and `SetMany`
(`smol/utils/setmany.py`) as used by `ClusterSubspace` and the expansion processors
(`smol/moca/processor/expansion.py`), in sessions of any length.
-/

namespace Smol

/-- OpenMP enabled, `OMP_NUM_THREADS` set, and the largest number of threads. -/
structure TEnv where
  openmp : Bool
  envSet : Bool
  most : ℕ

/-- A value given for a number of threads: `None`, an integer, or something else. -/
inductive TVal
  | none
  | int (z : ℤ)
  | other
  deriving DecidableEq, Repr

/-- `SetNumThreads.__set__`, smol/utils/cluster/numthreads.py:34-57: the number that the evaluator gets;
`none`: raises. -/
def TEnv.assign (e : TEnv) : TVal → Option ℤ
  | .none => setNumThreads e.openmp e.envSet e.most none
  | .int z => setNumThreads e.openmp e.envSet e.most (some z)
  | .other => none

/-- `SetMany.__set__`, smol/utils/setmany.py:41-44: the numbers after it, and whether it raised. -/
def TEnv.assignMany (e : TEnv) (v : TVal) : List ℤ → List ℤ × Bool
  | [] => ([], false)
  | x :: xs => match e.assign v with
    | none => (x :: xs, true)
    | some y => (y :: (e.assignMany v xs).1, (e.assignMany v xs).2)

/-- A processor: threads of `_evaluator`, and of the evaluators in `_eval_data_by_sites`. -/
structure TProc where
  full : ℤ
  locals : List ℤ
  deriving DecidableEq, Repr

/-- `SetMany.__get__`, smol/utils/setmany.py:31-39; `none` is an `IndexError`. -/
def TProc.numThreads (p : TProc) : Option ℤ := p.locals.head?

/-- Truth of a value in python. -/
def TVal.truthy : TVal → Bool
  | .none => false
  | .int z => z ≠ 0
  | .other => true

/-- The end of `__init__` of the expansion processors, smol/moca/processor/expansion.py:150-160 and
359-368, for a subspace with `sub` threads and `sites` sites with clusters; evaluators are made with
one thread. -/
def TEnv.makeProc (e : TEnv) (sub : ℤ) (sites : ℕ) (numThreads numThreadsFull : TVal) : Option TProc :=
  match e.assign (if numThreadsFull.truthy then numThreadsFull else .int sub) with
  | none => none
  | some full =>
    match e.assignMany numThreads (List.replicate sites 1) with
    | (locals, false) => some ⟨full, locals⟩
    | (_, true) => none

/-- Subspaces and processors of a session. -/
structure TState where
  subs : List ℤ
  procs : List TProc
  deriving DecidableEq, Repr

/-- What a session can do. -/
inductive TOp
  | newSub (v : TVal)
  | setSub (i : ℕ) (v : TVal)
  | newProc (i sites : ℕ) (numThreads numThreadsFull : TVal)
  | setLocal (j : ℕ) (v : TVal)
  | setFull (j : ℕ) (v : TVal)

/-- One operation: the state after it, and whether it raised.  Objects that do not exist raise.
`ClusterSubspace.__init__`: smol/cofe/space/clusterspace.py:211-215. -/
def TEnv.run (e : TEnv) (x : TState) : TOp → TState × Bool
  | .newSub v => match e.assign v with
    | some y => ({ x with subs := x.subs ++ [y] }, false)
    | none => (x, true)
  | .setSub i v => match x.subs[i]?, e.assign v with
    | some _, some y => ({ x with subs := x.subs.set i y }, false)
    | _, _ => (x, true)
  | .newProc i sites nt ntf => match x.subs[i]? with
    | none => (x, true)
    | some sub => match e.makeProc sub sites nt ntf with
      | some p => ({ x with procs := x.procs ++ [p] }, false)
      | none => (x, true)
  | .setLocal j v => match x.procs[j]? with
    | none => (x, true)
    | some p => ({ x with procs := x.procs.set j { p with locals := (e.assignMany v p.locals).1 } },
        (e.assignMany v p.locals).2)
  | .setFull j v => match x.procs[j]?, e.assign v with
    | some p, some y => ({ x with procs := x.procs.set j { p with full := y } }, false)
    | _, _ => (x, true)

/-- A session; operations that raise are caught. -/
def TEnv.session (e : TEnv) (x : TState) : List TOp → TState
  | [] => x
  | o :: os => e.session (e.run x o).1 os

end Smol
