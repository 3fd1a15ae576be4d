import Verif.Common
import Mathlib.Algebra.Order.Floor.Ring
import Mathlib.Order.Interval.Finset.Nat
import Mathlib.Algebra.BigOperators.Group.Finset.Basic
import Mathlib.Algebra.BigOperators.Intervals

/-! What a Wang-Landau run should record, in terms of the sequence of bins it visits. -/

namespace Smol.Spec
variable {K : Type*} [Field K] [LinearOrder K]

/-- The steps `r < j ≤ n` at which bin `b` is updated: those divisible by the period `u` that end
in the bin. -/
def updateSteps (u : ℕ) (bins : ℕ → ℕ) (r n b : ℕ) : Finset ℕ :=
  (Finset.Ioc r n).filter fun j => u ∣ j ∧ bins j = b

/-- A histogram over the bins in `V` is flat: at least two bins, each above `flat` times the
mean. -/
def Flat (flat : K) (V : Finset ℕ) (h : ℕ → ℕ) : Prop :=
  2 ≤ V.card ∧ ∀ b ∈ V, flat * (((∑ b' ∈ V, h b' : ℕ) : K) / (V.card : K)) < (h b : K)

/-- Bins (out of `N`) updated at least once in the first `n` steps. -/
def visited (u N : ℕ) (bins : ℕ → ℕ) (n : ℕ) : Finset ℕ :=
  (Finset.range N).filter fun b => (updateSteps u bins 0 n b).Nonempty

open Classical in
/-- The step of the last reset and the modification factor after `n` steps: both change exactly when
the check period divides the number of steps and the histogram since the last reset is flat. -/
noncomputable def schedule (u check N : ℕ) (flat m0 : K) (f : K → K) (bins : ℕ → ℕ) : ℕ → ℕ × K
  | 0 => (0, m0)
  | n + 1 =>
    let p := schedule u check N flat m0 f bins n
    if check ∣ n + 1 ∧ Flat flat (visited u N bins (n + 1))
        (fun b => (updateSteps u bins p.1 (n + 1) b).card) then (n + 1, f p.2)
    else p

end Smol.Spec
