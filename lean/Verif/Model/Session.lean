import Verif.Model.Kernel
import Verif.Model.ClassNames

/-!
# A sampler and its ensemble as objects

An ensemble keeps a list of `Sublattice` objects, and so do the ushers of the samplers made from it.
`restrict_sites` changes the objects, `split_sublattice_by_species` makes new objects and a new list.
Here objects are numbered in the order of their creation, so that it can be said what a sampler made
before such a call sees after it.
-/

namespace Smol
variable {K : Type*} [CommRing K]

/-- An ensemble and the sublattice objects: `refs` is the list `ensemble._sublattices`, `heap` are all
objects.  The sublattices in `ens` itself are not used. -/
structure Session (K : Type*) where
  ens : Ens K
  refs : List ℕ
  heap : List Sublattice

/-- The object with a number. -/
def lookSl (heap : List Sublattice) (r : ℕ) : Sublattice := heap.getD r ⟨[], [], [], false, []⟩

/-- What the methods of the ensemble see. -/
def Session.view (s : Session K) : Ens K := { s.ens with subl := s.refs.map (lookSl s.heap) }

/-- The state after `Ensemble(...)`, smol/moca/ensemble.py:113-130. -/
def Session.new (e : Ens K) : Session K := ⟨e, List.range e.subl.length, e.subl⟩

/-- Changing in place the objects that the ensemble lists, smol/moca/ensemble.py:376-382. -/
def Session.inPlace (s : Session K) (f : Sublattice → Sublattice) : Session K :=
  { s with heap := s.heap.mapIdx fun i sl => if i ∈ s.refs then f sl else sl }

/-- One operation on the ensemble.  `restrict_sites` and `reset_restricted_sites` assign
`active_sites` of the objects (smol/moca/sublattice.py:100, 106); `split_sublattice_by_species`
makes new ones and a new list (smol/moca/ensemble.py:296-303). -/
def Session.step [DecidableEq K] (s : Session K) : EnsOp K → Session K
  | .restrict xs => s.inPlace fun sl => sl.restrict xs
  | .reset => s.inPlace Sublattice.reset
  | .split id occ parts =>
    match (s.refs[id]?).bind fun r => (lookSl s.heap r).split occ parts with
    | none => s
    | some splits =>
      { ens := (s.view.split id occ parts).1
        refs := s.refs.take id ++ List.range' s.heap.length splits.length ++ s.refs.drop (id + 1)
        heap := s.heap ++ splits }
  | .setMu v => { s with ens := s.view.step (.setMu v) }
  | .delMu => { s with ens := s.view.step .delMu }

/-- A history of operations. -/
def Session.run [DecidableEq K] (s : Session K) (ops : List (EnsOp K)) : Session K :=
  ops.foldl Session.step s

/-- An usher with the sublattice objects it holds: `active_sublattices` is a list made at
construction (smol/moca/kernel/mcusher.py:56-59).  `TableFlip` is left out: it copies more than the
list (see `C13_restrict_after_table_fails`). -/
inductive LiveUsher
  | flip (g : Rng) (act : List ℕ) (probs : List ℚ)
  | swap (g : Rng) (act : List ℕ) (probs : List ℚ)
  | multi (g : Rng) (lens : List ℕ) (p : List ℚ) (inner : LiveUsher)
  | composite (g : Rng) (n : ℕ) (us : Fin n → LiveUsher) (weights : List ℚ)

/-- The usher as it behaves with the present state of the objects. -/
def LiveUsher.now (heap : List Sublattice) : LiveUsher → Usher
  | .flip g act probs => .flip g (act.map (lookSl heap)) probs
  | .swap g act probs => .swap g (act.map (lookSl heap)) probs
  | .multi g lens p inner => .multi g lens p (inner.now heap)
  | .composite g n us weights => .composite g n (fun i => (us i).now heap) weights

/-- `active_sublattices` of an usher made now, smol/moca/kernel/mcusher.py:57-59. -/
def Session.activeRefs (s : Session K) : List ℕ :=
  s.refs.filter fun r => (lookSl s.heap r).isActive

/-- A `Flip` usher made by a kernel, smol/moca/kernel/base.py:220-223. -/
def Session.makeFlip (s : Session K) (probs : Option (List ℚ)) : Option LiveUsher :=
  (usherProbs s.activeRefs.length probs).map fun p => .flip .shared s.activeRefs p

/-- A `Swap` usher made by a kernel. -/
def Session.makeSwap (s : Session K) (probs : Option (List ℚ)) : Option LiveUsher :=
  (usherProbs s.activeRefs.length probs).map fun p => .swap .shared s.activeRefs p

/-- What a sampler keeps from the ensemble: the usher, the natural parameters of the kernel
(smol/moca/kernel/base.py:213) and the chemical potentials in the metadata of the container
(smol/moca/sampler/sampler.py:129-137, smol/moca/sampler/container.py:73). -/
structure LiveSampler (K : Type*) where
  usher : LiveUsher
  params : List K
  boundary : Option (List (ℕ × K))

/-- A sampler made now. -/
def Session.sampler (s : Session K) (u : LiveUsher) : LiveSampler K := ⟨u, s.view.params, s.view.boundary⟩

/-- `np.dot` of vectors; `none` is the `ValueError` for different lengths. -/
def liveDot (a b : List K) : Option K := if a.length = b.length then some (dot a b) else none

/-- The enthalpy in the initial trace of a run, smol/moca/kernel/base.py:356-360: the kernel's copy of
the parameters with the features of the ensemble as it is now. -/
def LiveSampler.enthalpy (l : LiveSampler K) (s : Session K) (proc : PartProc K) (n : ℕ) (occ : Occ) :
    Option K := liveDot l.params (s.view.feature proc n occ)

/-- The change of the enthalpy of a step, smol/moca/kernel/base.py:299-305. -/
def LiveSampler.enthalpyChange (l : LiveSampler K) (s : Session K) (proc : PartProc K) (occ : Occ)
    (step : Step) : Option K := liveDot l.params (s.view.change proc occ step)

/-- The step type of `Sampler.from_ensemble`, smol/moca/sampler/sampler.py:94-101. -/
def stepTypeOf (e : Ens K) : Option (List Char) → List Char
  | none => if e.mu.isSome then "flip".toList else "swap".toList
  | some t => t

/-- The kernels that `Sampler.from_ensemble` asks for, smol/moca/sampler/sampler.py:94-116: kernel
type, step type and seed of each.  `none` is an exception: the number of seeds does not match, or
there is no walker (`mckernels[0]`, line 119). -/
def samplerKernels (e : Ens K) (stepType kernelType : Option (List Char)) (seeds : Option (List ℕ))
    (nwalkers : ℕ) : Option (List (List Char × List Char × Option ℕ)) :=
  let kernel := kernelType.getD "Metropolis".toList
  let list : Option (List (Option ℕ)) := match seeds with
    | some l => if l.length ≠ nwalkers then none else some (l.map some)
    | none => some (List.replicate nwalkers none)
  list.bind fun l =>
    if l = [] then none
    else some (l.map fun seed => (classNameFromStr kernel, kernelUsherName (stepTypeOf e stepType), seed))

end Smol
