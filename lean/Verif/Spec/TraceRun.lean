import Verif.Model.TraceRun

/-!
# What a walker should record
-/

namespace Smol.Spec

variable {α V : Type*} [DecidableEq α]

/-- What happens to the value of name `n` of one walker at its step: recorded values replace it,
changes are added if the step was accepted. -/
def walkerStep [Add V] (n : α) (v : V) (st : NStepTr α V) : V :=
  let v := (st.vals.lookup n).getD v
  match st.accepted, st.delta.lookup n with
  | true, some d => v + d
  | _, _ => v

/-- The value of name `n` of one walker after its steps. -/
def walkerVal [Add V] (n : α) (v : V) (sts : List (NStepTr α V)) : V := sts.foldl (walkerStep n) v

/-- The steps of walker `i` among steps of all walkers. -/
def walkerSteps (i : ℕ) (rounds : List (List (NStepTr α V))) : List (NStepTr α V) :=
  rounds.filterMap (·[i]?)

end Smol.Spec
