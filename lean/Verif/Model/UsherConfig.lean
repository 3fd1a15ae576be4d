import Verif.Model.Usher

/-!
# Ushers as objects: their probabilities, weights and metadata

Models the constructors, the setter of `sublattice_probabilities`, `Composite.add_mcusher` and the
proposals of `smol/moca/kernel/mcusher.py` as operations on objects that live on while the
sublattices they were given are restricted and reset.  All draws use one generator here (which
generator is used is the subject of Model/Seed.lean).
-/

namespace Smol
open Prog

/-- `rng.choice(l, p=w)` with numpy's checks of `p`: same length as `l`, no negative entry, sum one.
Simplification: the sum is compared exactly. -/
def checkedW {β : Type} (l : List β) (w : List ℚ) : Prog β :=
  if w.length = l.length ∧ (∀ a ∈ w, 0 ≤ a) ∧ w.sum = 1 then chooseW .shared l w else fail

/-- What the base class keeps, smol/moca/kernel/mcusher.py:57-85: the positions of the sublattices
that were active at construction, the probabilities, and the probabilities written in `spec`. -/
structure UsherCfg where
  act : List ℕ
  probs : List ℚ
  specProbs : List ℚ

/-- The class of an usher (what `spec` records first, smol/moca/kernel/mcusher.py:82). -/
inductive UsherKind
  | flip
  | swap
  | multi
  | composite
  deriving DecidableEq, Repr

/-- An usher object.  `multi`: `spec`'s probabilities, `_step_lens`, `_step_p`, `_mcusher`.
`composite`: `_mcushers`, `_weights`, `_p` and the classes listed in `spec.steps`. -/
inductive UsherObj
  | flip (c : UsherCfg)
  | swap (c : UsherCfg)
  | multi (specProbs : List ℚ) (lens : List ℕ) (p : List ℚ) (inner : UsherObj)
  | composite (c : UsherCfg) (us : List UsherObj) (weights p : List ℚ) (steps : List UsherKind)

namespace UsherObj

/-- The class of an usher. -/
def kind : UsherObj → UsherKind
  | flip _ => .flip
  | swap _ => .swap
  | multi .. => .multi
  | composite .. => .composite

/-- Getter of `sublattice_probabilities`, smol/moca/kernel/mcusher.py:87-90; `MultiStep` asks its
inner usher (281-284). -/
def probs : UsherObj → List ℚ
  | flip c => c.probs
  | swap c => c.probs
  | multi _ _ _ inner => inner.probs
  | composite c .. => c.probs

/-- The number of sublattices the setter compares with (active at construction). -/
def nAct : UsherObj → ℕ
  | flip c => c.act.length
  | swap c => c.act.length
  | multi _ _ _ inner => inner.nAct
  | composite c .. => c.act.length

/-- `spec.sublattice_probabilities`, smol/moca/kernel/mcusher.py:81-85. -/
def specProbs : UsherObj → List ℚ
  | flip c => c.specProbs
  | swap c => c.specProbs
  | multi s .. => s
  | composite c .. => c.specProbs

/-- Setter of `sublattice_probabilities`, smol/moca/kernel/mcusher.py:92-105; `MultiStep` sets those
of its inner usher (286-289), `Composite` inherits the setter of the base class.  The Boolean: an
exception was raised. -/
def set : UsherObj → List ℚ → UsherObj × Bool
  | flip c, v =>
    match setProbs c.act.length v with
    | none => (flip c, true)
    | some v => (flip { c with probs := v }, false)
  | swap c, v =>
    match setProbs c.act.length v with
    | none => (swap c, true)
    | some v => (swap { c with probs := v }, false)
  | multi s lens p inner, v => (multi s lens p (inner.set v).1, (inner.set v).2)
  | composite c us w p st, v =>
    match setProbs c.act.length v with
    | none => (composite c us w p st, true)
    | some v => (composite { c with probs := v } us w p st, false)

/-- `add_mcusher` with `_update_p`, smol/moca/kernel/mcusher.py:365-390.  A total of zero is a
`ZeroDivisionError` raised after the usher and its weight were appended and before the
probabilities are replaced; the other classes have no such method. -/
def add (u : UsherObj) (v : UsherObj) (weight : ℚ) : UsherObj × Bool :=
  match u with
  | composite c us w p st =>
    if (w ++ [weight]).sum = 0 then
      (composite c (us ++ [v]) (w ++ [weight]) p (st ++ [v.kind]), true)
    else
      (composite c (us ++ [v]) (w ++ [weight])
        ((w ++ [weight]).map fun x => x / (w ++ [weight]).sum) (st ++ [v.kind]), false)
  | u => (u, true)

end UsherObj

/-- Positions of the active sublattices, smol/moca/kernel/mcusher.py:58-61. -/
def activeIdx (sls : List Sublattice) : List ℕ :=
  (List.range sls.length).filter fun i => (sls[i]?.map Sublattice.isActive).getD false

/-- Constructor of the base class, smol/moca/kernel/mcusher.py:57-85; `none` is an exception. -/
def UsherCfg.new (sls : List Sublattice) (probs : Option (List ℚ)) : Option UsherCfg :=
  (usherProbs (activeIdx sls).length probs).map fun p => ⟨activeIdx sls, p, p⟩

namespace UsherObj

/-- `Flip(sublattices, sublattice_probabilities)`. -/
def newFlip (sls : List Sublattice) (probs : Option (List ℚ)) : Option UsherObj :=
  (UsherCfg.new sls probs).map flip

/-- `Swap(sublattices, sublattice_probabilities)`. -/
def newSwap (sls : List Sublattice) (probs : Option (List ℚ)) : Option UsherObj :=
  (UsherCfg.new sls probs).map swap

/-- `MultiStep.__init__`, smol/moca/kernel/mcusher.py:213-279, with the step lengths as a list (a
single number is a list of one).  With `step_probabilities` the constructor always raises: a wrong
sum or length is a `ValueError`, and otherwise `self.step_p` is set but `self._step_p` read. -/
def newMulti (sls : List Sublattice) (lens : List ℕ) (stepProbs : Option (List ℚ))
    (inner : UsherObj) : Option UsherObj :=
  match UsherCfg.new sls none, stepProbs with
  | some c, none =>
    some (multi c.specProbs lens (lens.map fun _ => 1 / (lens.length : ℚ)) inner)
  | _, _ => none

/-- The loop of `Composite.__init__`, smol/moca/kernel/mcusher.py:348-355, over
`zip(mcusher_weights, mcushers)`; besides `add_mcusher` it appends to `spec.steps` itself. -/
def addLoop : UsherObj → List (ℚ × UsherObj) → Option UsherObj
  | u, [] => some u
  | u, (w, v) :: rest =>
    match u.add v w with
    | (composite c us ws p st, false) => addLoop (composite c us ws p (st ++ [v.kind])) rest
    | _ => none

/-- `Composite.__init__`, smol/moca/kernel/mcusher.py:314-358. -/
def newComposite (sls : List Sublattice) (us : List UsherObj) (weights : Option (List ℚ)) :
    Option UsherObj :=
  match UsherCfg.new sls none with
  | none => none
  | some c =>
    addLoop (composite c [] [] [] []) ((weights.getD (List.replicate us.length 1)).zip us)

end UsherObj

/-- The sublattice objects an usher considers active, as they are now. -/
def UsherCfg.live (c : UsherCfg) (sls : List Sublattice) : List Sublattice :=
  c.act.filterMap fun i => sls[i]?

/-- `get_random_sublattice`, smol/moca/kernel/mcusher.py:147-149. -/
def UsherCfg.pickSub (c : UsherCfg) (sls : List Sublattice) : Prog Sublattice :=
  checkedW (c.live sls) c.probs

namespace UsherObj

mutual
/-- `propose_step` of `Flip` (154-170), `Swap` (176-202), `MultiStep` (291-308) and `Composite`
(392-394) of smol/moca/kernel/mcusher.py, on the sublattices as they are now. -/
def propose (sls : List Sublattice) : UsherObj → Occ → Prog Step
  | flip c => fun occ =>
    (c.pickSub sls).bind fun sl =>
    (choose .shared sl.active).bind fun site =>
    (choose .shared (sl.encoding.dedup.filter fun e => decide (e ≠ occ site))).bind fun e =>
    ret [(site, e)]
  | swap c => fun occ =>
    (c.pickSub sls).bind fun sl =>
    (choose .shared sl.active).bind fun site₁ =>
    let options := sl.active.filter fun s => decide (occ s ≠ occ site₁)
    if options ≠ [] then
      (choose .shared options).bind fun site₂ => ret [(site₁, occ site₂), (site₂, occ site₁)]
    else ret []
  | multi _ lens p inner => fun occ =>
    (checkedW lens p).bind fun len =>
    (propose sls inner occ).bind fun st =>
    multiLoop (propose sls inner) (len - 1) (applyStep occ st) st
  | composite _ us _ p _ => fun occ =>
    (checkedW (proposeAll sls us) p).bind fun f => f occ
/-- `propose_step` of every usher of a list. -/
def proposeAll (sls : List Sublattice) : List UsherObj → List (Occ → Prog Step)
  | [] => []
  | u :: us => propose sls u :: proposeAll sls us
end

end UsherObj

/-- An usher together with the sublattices it shares with the ensemble. -/
structure UsherSys where
  sls : List Sublattice
  u : UsherObj

/-- What a user does after construction. -/
inductive UsherOp
  | set (v : List ℚ)
  | add (v : UsherObj) (weight : ℚ)
  | restrict (i : ℕ) (xs : List ℕ)
  | reset (i : ℕ)

/-- Run one operation; an exception leaves the object as it was at that moment. -/
def UsherSys.step (s : UsherSys) : UsherOp → UsherSys
  | .set v => ⟨s.sls, (s.u.set v).1⟩
  | .add v w => ⟨s.sls, (s.u.add v w).1⟩
  | .restrict i xs => ⟨s.sls.modify i fun sl => sl.restrict xs, s.u⟩
  | .reset i => ⟨s.sls.modify i Sublattice.reset, s.u⟩

/-- Run a history. -/
def UsherSys.run (s : UsherSys) (ops : List UsherOp) : UsherSys := ops.foldl UsherSys.step s

end Smol
