import Verif.Model.Sqs

/-!
# Scores visited since the last clearing
-/

namespace Smol.Spec

/-- Everything visited by a sequence of calls since (and including) the last one that clears. -/
def visitedSinceClear {τ : Type*} : List τ → List (SqsCall τ) → List τ
  | acc, [] => acc
  | acc, c :: l => visitedSinceClear (if c.clear then c.visited else acc ++ c.visited) l

/-- The traces that are strictly better than everything before them. -/
def records {K α : Type*} [LinearOrder K] (l : List (SqsTrace K α)) : List (SqsTrace K α) :=
  ((List.range l.length).filter fun i => ∀ j < i, ∀ a ∈ l[i]?, ∀ b ∈ l[j]?, a.score < b.score).filterMap
    fun i => l[i]?

/-- A trace with the lowest score of a list. -/
def IsBest {K α : Type*} [LinearOrder K] (l : List (SqsTrace K α)) (t : SqsTrace K α) : Prop :=
  t ∈ l ∧ ∀ u ∈ l, t.score ≤ u.score

end Smol.Spec
