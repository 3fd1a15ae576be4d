import Verif.Model.ProcObjects

/-!
# Specification: what processors and composites hold, and what a loaded one keeps
-/

namespace Smol.Spec

variable {K : Type} [Zero K] [One K] [Neg K] [LT K] [DecidableLT K]

/-- A subspace later on: the same orbits and functions, and possibly more external terms. -/
def Grown (s s' : SubObj) : Prop :=
  s'.orbits = s.orbits ∧ s'.numCorr = s.numCorr ∧ s.terms <+: s'.terms

/-- Two subspaces are alike: orbits, functions and classes of external terms. -/
def Alike (s s' : SubObj) : Prop :=
  s.orbits = s'.orbits ∧ s.numCorr = s'.numCorr ∧
    s.terms.map ExtTerm.cls = s'.terms.map ExtTerm.cls

/-- A session from nothing leads to these objects. -/
def PReachable (w : PWorld K) : Prop := ∃ ops : List (POp K), w = PWorld.run ⟨[], [], []⟩ ops

/-- Object `i` of the first world is a processor with the given subspace. -/
def HoldsProc (w : PWorld K) (i : ℕ) (p : PObj K) (s : SubObj) : Prop :=
  w.procs[i]? = some p ∧ w.subs[p.sub]? = some s

/-- Whether a processor is a distance processor. -/
def IsDistance (p : PObj K) : Prop := ∃ t, p.kind = .distance t

/-- What a loaded processor has as coefficients: those saved; a distance processor has the first of
them followed by ones. -/
def LoadedCoefs (p : PObj K) (s : SubObj) (coefs : List K) : Prop :=
  (¬ IsDistance p → coefs = p.coefs) ∧
  (IsDistance p → coefs.length = s.numCorr ∧ coefs.head? = p.coefs.head? ∧ ∀ c ∈ coefs.tail, c = 1)

/-- Processor `j` of the second world is processor `i` of the first, saved and loaded, with a subspace
of its own. -/
def Reloaded (w w' : PWorld K) (i j : ℕ) : Prop :=
  ∃ p s p', HoldsProc w i p s ∧ HoldsProc w' j p' s ∧ p'.kind = p.kind ∧ p'.mat = p.mat ∧
    w.subs.length ≤ p'.sub ∧ LoadedCoefs p s p'.coefs

/-- The same objects later on: subspaces may have gained external terms, composites may have gained
parts, all else is the same. -/
def Later (w w' : PWorld K) : Prop :=
  (∀ (i : ℕ) (s : SubObj), w.subs[i]? = some s → ∃ s', w'.subs[i]? = some s' ∧ Grown s s') ∧
  w.procs <+: w'.procs ∧
  ∀ (c : ℕ) (C : CObj K), w.comps[c]? = some C → ∃ C', w'.comps[c]? = some C' ∧ C'.sub = C.sub ∧
    C'.mat = C.mat ∧ C.parts <+: C'.parts ∧ C.coefs <+: C'.coefs

/-- The objects there were are still the same. -/
def Untouched (w w' : PWorld K) : Prop :=
  w.subs <+: w'.subs ∧ w.procs <+: w'.procs ∧ w.comps <+: w'.comps

end Smol.Spec
