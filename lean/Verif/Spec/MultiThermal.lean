import Verif.Model.MultiThermal

/-!
# Specification: temperatures of multicell kernels
-/

namespace Smol.Spec

/-- The temperature assigned last to the multicell kernel, `t` if none was. -/
def lastTemperature {K : Type*} (t : K) : List (MultiOp K) → K
  | [] => t
  | .setT t' :: os => lastTemperature t' os
  | _ :: os => lastTemperature t os

/-- The Boltzmann constant assigned last to the multicell kernel, `b` if none was. -/
def lastConstant {K : Type*} (b : K) : List (MultiOp K) → K
  | [] => b
  | .setkB b' :: os => lastConstant b' os
  | _ :: os => lastConstant b os

/-- Nothing is assigned to the kernels of single cells. -/
def NoCellAssigned {K : Type*} (ops : List (MultiOp K)) : Prop := ∀ i o, MultiOp.cell i o ∉ ops

/-- No Boltzmann constant is assigned to the multicell kernel. -/
def NoConstantAssigned {K : Type*} (ops : List (MultiOp K)) : Prop := ∀ b, MultiOp.setkB b ∉ ops

end Smol.Spec
