import Verif.Common
import Mathlib.Data.List.Basic

/-!
# Names and values of traces during sampling

Models `smol/moca/trace.py`, the loops over trace names of `Sampler.setup_sample` and
`Sampler.sample` (`smol/moca/sampler/sampler.py`), `SampleContainer.save_sampled_trace`
(`smol/moca/sampler/container.py`) and which names the kernels of `smol/moca/kernel` trace, including
the setter of their bias.

A trace is a dictionary from names to values in order of insertion; arrays of walkers are lists.
Shapes and dtypes of the values are not modelled.  What the kernels put into their traces at each
step is given from outside; an `AttributeError` of a missing name is `none` or the flag `true`.
-/

namespace Smol

/-- A `Trace`, smol/moca/trace.py:8-40. -/
abbrev NTrace (α V : Type*) := List (α × V)

/-- What `single_step` returns: a `StepTrace` with its `delta_trace`, smol/moca/trace.py:43-82, and
whether the step was accepted. -/
structure NStepTr (α V : Type*) where
  vals : NTrace α V
  delta : NTrace α V
  accepted : Bool

variable {α V : Type*} [DecidableEq α]

/-- Stacking of the initial traces of the walkers, smol/moca/sampler/sampler.py:417-428: the names
are those of the first; `getattr` of a name that another does not have raises. -/
def stackTraces (traces : List (NTrace α V)) : Option (NTrace α (List V)) :=
  traces.head?.bind fun t0 =>
    t0.mapM fun p => (traces.mapM fun (t : NTrace α V) => t.lookup p.1).map fun vs => (p.1, vs)

/-- `val = getattr(trace, name); val[i] = f(val[i])`, smol/moca/sampler/sampler.py:198-206. -/
def updateCell (tr : NTrace α (List V)) (i : ℕ) (n : α) (f : V → V) : Option (NTrace α (List V)) :=
  if n ∈ tr.map Prod.fst then
    some (tr.map fun p => if p.1 = n then (p.1, p.2.modify i f) else p)
  else none

/-- The update of the trace by the step of walker `i`, smol/moca/sampler/sampler.py:197-206. -/
def traceStep [Add V] (tr : NTrace α (List V)) (i : ℕ) (st : NStepTr α V) :
    Option (NTrace α (List V)) :=
  (st.vals.foldlM (fun tr p => updateCell tr i p.1 fun _ => p.2) tr).bind fun tr =>
    if st.accepted then st.delta.foldlM (fun tr p => updateCell tr i p.1 fun v => v + p.2) tr
    else some tr

/-- One step of all walkers, smol/moca/sampler/sampler.py:197-206 and 432-435. -/
def applyRound [Add V] (tr : NTrace α (List V)) (sts : List (NStepTr α V)) :
    Option (NTrace α (List V)) :=
  sts.zipIdx.foldlM (fun tr p => traceStep tr p.2 p.1) tr

/-- `SampleContainer.save_sampled_trace`, smol/moca/sampler/container.py:380-393.  Rows of names of
the container that are not in the trace stay uninitialised (`none`). -/
def saveRow (cont : NTrace α (List (Option (List V)))) (tr : NTrace α (List V)) :
    Option (NTrace α (List (Option (List V)))) :=
  if ∀ n ∈ tr.map Prod.fst, n ∈ cont.map Prod.fst then
    some (cont.map fun p => (p.1, p.2 ++ [tr.lookup p.1]))
  else none

/-- The loop of `Sampler.run` over `Sampler.sample`, smol/moca/sampler/sampler.py:194-209 and
285-290.  A block holds the `thin_by` steps of all walkers before a sample.  Returns the container and
whether it raised. -/
def runBlocks [Add V] (cont : NTrace α (List (Option (List V)))) (tr : NTrace α (List V)) :
    List (List (List (NStepTr α V))) → NTrace α (List (Option (List V))) × Bool
  | [] => (cont, false)
  | b :: bs =>
    match b.foldlM applyRound tr with
    | none => (cont, true)
    | some tr' =>
      match saveRow cont tr' with
      | none => (cont, true)
      | some cont' => runBlocks cont' tr' bs

/-- `Sampler.run` as far as traces are concerned: `setup_sample`, then the loop. -/
def traceRun [Add V] (cont : NTrace α (List (Option (List V)))) (inits : List (NTrace α V))
    (blocks : List (List (List (NStepTr α V)))) : NTrace α (List (Option (List V))) × Bool :=
  match stackTraces inits with
  | none => (cont, true)
  | some tr => runBlocks cont tr blocks

/-- The names that kernels trace. -/
inductive TName
  | occupancy | features | enthalpy | bias | accepted | temperature
  | histogram | occurrences | entropy | meanFeatures | modFactor | kernelIndex
  deriving DecidableEq, Repr

/-- The kernels for one cell. -/
inductive KKind
  | uniformlyRandom | metropolis | wangLandau
  deriving DecidableEq, Repr

/-- The attributes of a kernel that decide about names: its class, whether it has a bias and whether
its `delta_trace` has the name `bias`. -/
structure KNames where
  kind : KKind
  bias : Bool
  deltaBias : Bool
  deriving DecidableEq, Repr

/-- A kernel after construction, smol/moca/kernel/base.py:212-238 (a first step fills the traces) and
smol/moca/kernel/wanglandau.py:127-128 (no bias, `none`). -/
def KNames.make (kind : KKind) (bias : Bool) : Option KNames :=
  if kind = .wangLandau ∧ bias then none else some ⟨kind, bias, bias⟩

/-- The setter of the bias, smol/moca/kernel/base.py:277-284: classes that are not listed in
`valid_bias` raise, also `None`, and everything for Wang-Landau, where it is `None`.  Returns the
kernel and whether it raised. -/
def KNames.setBias (k : KNames) (valid : Bool) : KNames × Bool :=
  if k.kind = .wangLandau ∨ valid = false then (k, true)
  else ({ k with bias := true, deltaBias := true }, false)

/-- Names of a kernel class besides those of all kernels: smol/moca/kernel/base.py:434 and
smol/moca/kernel/wanglandau.py:282-286. -/
def KKind.extra : KKind → List TName
  | .uniformlyRandom => []
  | .metropolis => [.temperature]
  | .wangLandau => [.histogram, .occurrences, .entropy, .meanFeatures, .modFactor]

/-- Names of `compute_initial_trace`, smol/moca/kernel/base.py:354-364. -/
def KNames.initNames (k : KNames) : List TName :=
  [.occupancy, .features, .enthalpy] ++ (if k.bias then [.bias] else []) ++ [.accepted] ++
    k.kind.extra

/-- Names of the step trace: smol/moca/kernel/base.py:164, 217 and 420, and
smol/moca/kernel/wanglandau.py:247-251. -/
def KNames.stepNames (k : KNames) : List TName := [.accepted, .occupancy] ++ k.kind.extra

/-- Names of the `delta_trace` of the step trace, smol/moca/kernel/base.py:299-311. -/
def KNames.deltaNames (k : KNames) : List TName :=
  [.features, .enthalpy] ++ if k.deltaBias then [.bias] else []

/-- Names of the container made by `Sampler.from_ensemble`, smol/moca/sampler/sampler.py:118-127. -/
def containerNames (ks : List KNames) : List TName := (ks.head?.map KNames.initNames).getD []

/-- Setting the bias of kernel `j` of a sampler, `sampler.mckernels[j].bias = …`. -/
def setBiasOf (ks : List KNames) (op : ℕ × Bool) : List KNames :=
  ks.modify op.1 fun k => (k.setBias op.2).1

/-- Names of the initial trace of a multicell kernel with the current cell's kernel,
smol/moca/kernel/base.py:713-717. -/
def KNames.cellInitNames (k : KNames) : List TName := k.initNames ++ [.kernelIndex]

/-- Names of a step trace of a cell's kernel, smol/moca/kernel/base.py:548-550. -/
def KNames.cellStepNames (k : KNames) : List TName := k.stepNames ++ [.kernelIndex]

end Smol
