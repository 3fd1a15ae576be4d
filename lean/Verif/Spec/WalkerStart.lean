import Verif.Model.WalkerStart

/-!
# Specification: every walker runs its own chain from its own state
-/

namespace Smol.Spec

variable {σ : Type*}

/-- The chain of one kernel: its state and occupancy after some steps. -/
def ownChain (step : σ → ORow → σ × ORow) (s : σ) (r : ORow) : ℕ → σ × ORow
  | 0 => (s, r)
  | t + 1 => step (ownChain step s r t).1 (ownChain step s r t).2

/-- Every sample holds, for every walker, the state of its own chain, `thin` steps after the sample
before. -/
def OwnChains (step : σ → ORow → σ × ORow) (thin nsamples : ℕ) (states : List σ) (rows : List ORow)
    (samples : List (List ORow)) : Prop :=
  samples.length = nsamples ∧ ∀ (k : ℕ) sample, samples[k]? = some sample → sample.length = rows.length ∧
    ∀ (i : ℕ) s r, states[i]? = some s → rows[i]? = some r →
      sample[i]? = some (ownChain step s r ((k + 1) * thin)).2

/-- Shapes that say unmistakably where each of `w` single-cell walkers on `n` sites starts. -/
def Suits (w n : ℕ) (a : OArr) : Prop := a.shape = [w, n] ∨ w = 1 ∧ a.shape.length = 1

end Smol.Spec
