import Verif.Common
import Mathlib.Data.Real.Basic
import Mathlib.Algebra.BigOperators.Pi

/-!
# What the energy above the hull should be

Stated with amounts and energies only, without convex hulls.
-/

namespace Smol.Spec

variable {n m : ℕ}

/-- Mixtures of `n` structures (amounts `amt`, total energies `en`) and of pure elements at the
energy `top + 1000` per atom, with the atomic fractions `x`: shares `w` of the atoms are in the
structures, shares `u` in the elements `elems`.  `E` is the energy per atom of the mixture. -/
def HullMixture (amt : Fin n → Fin m → ℝ) (en : Fin n → ℝ) (elems : Fin m → Prop) (top : ℝ)
    (x : Fin m → ℝ) (E : ℝ) : Prop :=
  ∃ (w : Fin n → ℝ) (u : Fin m → ℝ), (∀ i, 0 ≤ w i) ∧ (∀ a, 0 ≤ u a) ∧ (∀ a, ¬ elems a → u a = 0) ∧
    ∑ i, w i + ∑ a, u a = 1 ∧
    (∀ a, ∑ i, w i * (amt i a / ∑ b, amt i b) + u a = x a) ∧
    E = ∑ i, w i * (en i / ∑ b, amt i b) + (∑ a, u a) * (top + 1000)

/-- Mixtures of the given structures alone. -/
def StructMixture (amt : Fin n → Fin m → ℝ) (en : Fin n → ℝ) (x : Fin m → ℝ) (E : ℝ) : Prop :=
  ∃ w : Fin n → ℝ, (∀ i, 0 ≤ w i) ∧ ∑ i, w i = 1 ∧
    (∀ a, ∑ i, w i * (amt i a / ∑ b, amt i b) = x a) ∧
    E = ∑ i, w i * (en i / ∑ b, amt i b)

end Smol.Spec
