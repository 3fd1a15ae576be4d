import Verif.Model.ThreadSettings

/-!
# Specification: numbers of threads
-/

namespace Smol.Spec

/-- The number of threads that is meant by an integer other than zero: not more than the most, and
for negative numbers counted from the most, `-1` being the most. -/
def meant (e : TEnv) (z : ℤ) : ℤ :=
  if e.openmp then (if z < 0 then max 1 (e.most + 1 + z) else min z e.most) else 1

/-- The number of threads without a wish: two if possible, or the most if the environment sets it. -/
def unasked (e : TEnv) : ℤ := if e.openmp then (if e.envSet then e.most else min 2 e.most) else 1

/-- A value that says a number of threads. -/
def wanted (e : TEnv) : TVal → Option ℤ
  | .none => some (unasked e)
  | .int z => if z = 0 then none else some (meant e z)
  | .other => none

/-- A number of threads that can be used: one without OpenMP. -/
def UsableThreads (e : TEnv) (z : ℤ) : Prop := 1 ≤ z ∧ z ≤ if e.openmp then (e.most : ℤ) else 1

/-- All evaluators can be used, and those of a processor for local changes agree. -/
def InStep (e : TEnv) (x : TState) : Prop :=
  (∀ z ∈ x.subs, UsableThreads e z) ∧
    ∀ p ∈ x.procs, UsableThreads e p.full ∧ (∀ z ∈ p.locals, UsableThreads e z) ∧
      ∀ z ∈ p.locals, ∀ z' ∈ p.locals, z = z'

end Smol.Spec
