import Mathlib.Analysis.Real.Sqrt
import Mathlib.Data.List.Basic

/-!
# Specification: features, their lengths and angles, and how well a fit is determined
-/

namespace Smol.Spec

/-- The values of feature `j` over the structures of a matrix. -/
def feature {K : Type*} [Zero K] (M : List (List K)) (j : ℕ) : List K := M.map fun r => r.getD j 0

/-- Inner product of two vectors. -/
def innerSum (x y : List ℝ) : ℝ := (List.zipWith (fun a b => a * b) x y).sum

/-- Length of a vector. -/
noncomputable def len (x : List ℝ) : ℝ := Real.sqrt (innerSum x x)

/-- The values of a linear model with the given weights for the structures of a matrix. -/
def fitted {m : ℕ} (M : List (List ℝ)) (w : Fin m → ℝ) : List ℝ :=
  M.map fun r => ((List.finRange m).map fun j => r.getD j 0 * w j).sum

/-- No two sets of weights give the same values: what is fitted to any data is unique. -/
def determined (M : List (List ℝ)) (m : ℕ) : Prop :=
  ∀ w w' : Fin m → ℝ, fitted M w = fitted M w' → w = w'

/-- `x` is what a Python index `i` selects from the sequence `l`. -/
def indexes {α : Type*} (l : List α) (i : ℤ) (x : α) : Prop :=
  ∃ n : ℕ, (i = n ∨ i = (n : ℤ) - l.length) ∧ l[n]? = some x

/-- A vector of one value. -/
def isConstant {K : Type*} (x : List K) : Prop := ∀ a ∈ x, ∀ b ∈ x, a = b

end Smol.Spec
