import Verif.Model.Container
import Mathlib.Data.List.Sort

/-!
# Keeping the best special quasirandom structures

Models the bookkeeping of `smol/capp/generate/special/sqs.py`.  The annealing itself is the list of
traces it yields; a trace is its score and the structure of its occupancy (one walker, as the
sampler of the generator has).
-/

namespace Smol

/-- What is kept of a trace. -/
structure SqsTrace (K α : Type*) where
  score : K
  struct : α
  deriving DecidableEq

/-- `_sqs_deque` and the samples, smol/capp/generate/special/sqs.py:77, 531-533. -/
structure SqsState (τ : Type*) where
  deque : Option (List τ)
  samples : Container τ

/-- `deque.append` with a maximal length: drops from the left. -/
def dequeAppend {τ : Type*} (maxlen : ℕ) (d : List τ) (x : τ) : List τ :=
  (d ++ [x]).drop ((d ++ [x]).length - maxlen)

variable {K α : Type*} [LinearOrder K]

/-- The loop over traces, smol/capp/generate/special/sqs.py:602-620; `best = none` is `np.inf`. -/
def sqsLoop (maxlen : ℕ) : Option K → List (SqsTrace K α) → List (SqsTrace K α) →
    List (SqsTrace K α)
  | _, d, [] => d
  | best, d, t :: l =>
    if ∀ b ∈ best, t.score < b then sqsLoop maxlen (some t.score) (dequeAppend maxlen d t) l
    else sqsLoop maxlen best d l

/-- `max_save_num or max(int(0.01 * mcmc_steps), 1)`,
smol/capp/generate/special/sqs.py:586 (computed exactly). -/
def maxSave (given : Option ℕ) (steps : ℕ) : ℕ :=
  match given with
  | some (n + 1) => n + 1
  | _ => max (steps / 100) 1

/-- Saving traces until there is no room; the flag tells whether `IndexError` was raised,
smol/capp/generate/special/sqs.py:622-625. -/
def saveUntilFull {τ : Type*} : List τ → Container τ → Container τ × Bool
  | [], c => (c, false)
  | y :: ys, c =>
    match c.save 1 y with
    | none => (c, true)
    | some c => saveUntilFull ys c

/-- Arguments of `generate` and the traces its annealing yields, over all temperatures. -/
structure SqsCall (τ : Type*) where
  clear : Bool
  maxSave : Option ℕ
  steps : ℕ
  visited : List τ

/-- `generate`, smol/capp/generate/special/sqs.py:540-625.  The flag tells whether an exception was
raised: `TypeError` when there is no queue to continue (line 588), `IndexError` when saving. -/
def SqsState.generate (st : SqsState (SqsTrace K α)) (call : SqsCall (SqsTrace K α)) :
    SqsState (SqsTrace K α) × Bool :=
  let m := maxSave call.maxSave call.steps
  let start : Option (List (SqsTrace K α) × ℕ × Container (SqsTrace K α)) :=
    if call.clear then some ([], m, st.samples.clear)
    else st.deque.map fun d => (d, d.length + m, st.samples)
  match start with
  | none => (st, true)
  | some (d, maxlen, samples) =>
    let d := sqsLoop maxlen none d call.visited
    let r := saveUntilFull d (samples.allocate m)
    if r.2 then (⟨some d, r.1⟩, true) else (⟨some d, r.1.vacuum⟩, false)

/-- Several calls, as long as they return. -/
def SqsState.generates (st : SqsState (SqsTrace K α)) :
    List (SqsCall (SqsTrace K α)) → Option (SqsState (SqsTrace K α))
  | [] => some st
  | c :: l => if (st.generate c).2 then none else (st.generate c).1.generates l

/-- A new generator, smol/capp/generate/special/sqs.py:77, 520-534. -/
def SqsState.new {τ : Type*} : SqsState τ := ⟨none, Container.new⟩

/-- Representatives `group[0]` of `StructureMatcher.group_structures`: going through the list, a
structure that no representative so far matches becomes one (`firsts`: those so far). -/
def groupFirsts (fit : α → α → Bool) (firsts : List α) : List α → List α
  | [] => []
  | a :: l => if firsts.any fun f => fit f a then groupFirsts fit firsts l
    else a :: groupFirsts fit (firsts ++ [a]) l

instance : DecidableRel fun a b : SqsTrace K α => a.score ≤ b.score :=
  fun a b => inferInstanceAs (Decidable (a.score ≤ b.score))

/-- `get_best_sqs`, smol/capp/generate/special/sqs.py:345-424, without the final reduction of each
structure's lattice.  `none`: sorting `None`. -/
def SqsState.best [DecidableEq α] (fit : α → α → Bool) (num : ℕ) (removeDuplicates : Bool)
    (st : SqsState (SqsTrace K α)) : Option (List (SqsTrace K α)) :=
  st.deque.map fun d =>
    let sorted := d.insertionSort fun a b => a.score ≤ b.score
    let listed := if num = 1 then sorted.take 1 else sorted
    let unique := if removeDuplicates then
        listed.filter fun t => t.struct ∈ groupFirsts fit [] (listed.map SqsTrace.struct)
      else listed
    unique.take num

end Smol
