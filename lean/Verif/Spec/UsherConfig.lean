import Verif.Model.Prog

/-!
# Vocabulary for the configuration of ushers (C91)
-/

namespace Smol.Spec
open Smol

/-- The probability that a program returns `a`. -/
def probOf {α : Type} [DecidableEq α] (p : Prog α) (a : α) : ℚ :=
  p.expect fun b => if b = a then 1 else 0

/-- The probability that a program returns at all (the rest raises). -/
def returns {α : Type} (p : Prog α) : ℚ := p.expect fun _ => 1

/-- Probabilities that can be used for `n` alternatives. -/
def Usable (n : ℕ) (v : List ℚ) : Prop := v.length = n ∧ v.sum = 1

instance (n : ℕ) (v : List ℚ) : Decidable (Usable n v) := by unfold Usable; infer_instance

/-- What is in force after the requests `vs`: the last request that could be used, or what was in
force before if there is none. -/
def inForce (n : ℕ) (init : List ℚ) (vs : List (List ℚ)) : List ℚ :=
  ((vs.filter fun v => decide (Usable n v)).getLast?).getD init

end Smol.Spec
