import Verif.Model.Session

/-!
# What can happen between a sampler and its ensemble
-/

namespace Smol.Spec
open Smol
variable {K : Type*} [CommRing K]

/-- What happens in a session: an operation on the ensemble, or an accepted step of the sampler. -/
inductive LiveEvent (K : Type*)
  | op (o : EnsOp K)
  | step (st : Step)

/-- Sessions that can happen: each step is one that the usher can propose at that moment. -/
inductive Plays [DecidableEq K] (u : LiveUsher) :
    Session K → Occ → List (LiveEvent K) → Session K → Occ → Prop
  | done (s : Session K) (x : Occ) : Plays u s x [] s x
  | op (s : Session K) (x : Occ) (o : EnsOp K) (es : List (LiveEvent K)) (s' : Session K) (x' : Occ) :
      Plays u (s.step o) x es s' x' → Plays u s x (.op o :: es) s' x'
  | step (s : Session K) (x : Occ) (st : Step) (es : List (LiveEvent K)) (s' : Session K) (x' : Occ) :
      ((u.now s.heap).propose x).Outcome st → Plays u s (applyStep x st) es s' x' →
      Plays u s x (.step st :: es) s' x'

/-- A draw from nothing can happen: the exception of `rng.choice([])`. -/
def MayRaise {α : Type} : Prog α → Prop
  | .ret _ => False
  | .pick _ n w k => n = 0 ∨ ∃ i, w i ≠ 0 ∧ MayRaise (k i)

/-- The usher holds only sublattices in the list. -/
def HoldsRefs (refs : List ℕ) : LiveUsher → Prop
  | .flip _ act _ => ∀ r ∈ act, r ∈ refs
  | .swap _ act _ => ∀ r ∈ act, r ∈ refs
  | .multi _ _ _ inner => HoldsRefs refs inner
  | .composite _ _ us _ => ∀ i, HoldsRefs refs (us i)

/-- Not a split. -/
def NoSplit : EnsOp K → Prop
  | .split _ _ _ => False
  | _ => True

/-- Not a reset of restrictions. -/
def NoReset : EnsOp K → Prop
  | .reset => False
  | _ => True

/-- The operations among the events. -/
def opsOf : List (LiveEvent K) → List (EnsOp K)
  | [] => []
  | .op o :: es => o :: opsOf es
  | .step _ :: es => opsOf es

end Smol.Spec
