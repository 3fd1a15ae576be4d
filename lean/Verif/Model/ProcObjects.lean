import Mathlib.Data.List.Basic
import Mathlib.Algebra.Order.Ring.Defs

/-!
# Processors as objects: shared subspaces, composites, saving and loading

Models the constructors of `smol/moca/processor/{base,expansion,ewald,distance,composite}.py`,
`CompositeProcessor.add_processor`, and `as_dict`/`from_dict` of processors, as far as they decide
which objects exist and what they hold.  What processors compute is modelled elsewhere
(`Model/Evaluator.lean`, `Model/Ewald.lean`, `Model/Distance.lean`, `Model/Composite.lean`), the
decomposition processor in `Model/Serialize.lean`.

A cluster subspace is what `==` sees of it: its orbits (a number; equal numbers for equal orbits),
its number of correlation functions and its external terms.  Subspaces are shared: processors hold
references.  An external term is a class (0 for `EwaldTerm`) and its parameters (a number, 0 for
those of `EwaldTerm()`); classes are compared for identity, no subclasses.  The Ewald summation
saved with an Ewald processor is a function of its structure and term and is left out, as is the
tolerance of a distance processor.
-/

namespace Smol

variable {K : Type}

/-- An external term of a subspace. -/
structure ExtTerm where
  cls : ℕ
  par : ℕ
  deriving DecidableEq, Repr

/-- A cluster subspace. -/
structure SubObj where
  orbits : ℕ
  numCorr : ℕ
  terms : List ExtTerm
  deriving DecidableEq, Repr

/-- `ClusterSubspace.__eq__`, smol/cofe/space/clusterspace.py:1479-1493. -/
def SubObj.eqv (a b : SubObj) : Bool :=
  a.numCorr == b.numCorr && a.terms.length == b.terms.length &&
    ((a.terms.zip b.terms).all fun p => p.1.cls == p.2.cls) && a.orbits == b.orbits

/-- `add_external_term`, smol/cofe/space/clusterspace.py:628-643; `none` is a `ValueError`. -/
def SubObj.addTerm (s : SubObj) (t : ExtTerm) : Option SubObj :=
  if s.terms.any fun u => u.cls == t.cls then none else some { s with terms := s.terms ++ [t] }

/-- The classes of processors, with what they hold besides subspace, matrix and coefficients: the
term of an `EwaldProcessor`, the target of a `CorrelationDistanceProcessor`. -/
inductive PKind (K : Type)
  | expansion
  | ewald (term : ℕ)
  | distance (target : List K)
  deriving DecidableEq

/-- A processor that is not a composite. -/
structure PObj (K : Type) where
  kind : PKind K
  sub : ℕ
  mat : List (List ℤ)
  coefs : List K
  deriving DecidableEq

/-- A `CompositeProcessor`, smol/moca/processor/composite.py:39-51; the parts are references. -/
structure CObj (K : Type) where
  sub : ℕ
  mat : List (List ℤ)
  parts : List ℕ
  coefs : List K
  deriving DecidableEq

/-- All objects. -/
structure PWorld (K : Type) where
  subs : List SubObj
  procs : List (PObj K)
  comps : List (CObj K)
  deriving DecidableEq

section
variable [Zero K] [One K] [Neg K] [LT K] [DecidableLT K]

/-- What the constructors do with the subspace and coefficients: the subspace afterwards, `none` if
they raise.  Expansions: smol/moca/processor/expansion.py:86-94.  Ewald:
smol/moca/processor/ewald.py:51-64, an `EwaldTerm()` is added to a subspace without one.  Distance:
smol/moca/processor/distance.py:74-97, with the coefficients `[-match_weight, *target_weights]`. -/
def PKind.construct (kind : PKind K) (s : SubObj) (coefs : List K) : Option SubObj :=
  match kind with
  | .expansion => if coefs.length = s.numCorr then some s else none
  | .ewald _ => if s.terms.any fun u => u.cls == 0 then some s else s.addTerm ⟨0, 0⟩
  | .distance target =>
    if s.terms ≠ [] then none
    else if ∃ c ∈ coefs.head?, 0 < c then none
    else if coefs.length ≠ target.length then none
    else if coefs.length = s.numCorr then some s else none

/-- Making a processor with a subspace. -/
def PWorld.make (w : PWorld K) (kind : PKind K) (sub : ℕ) (mat : List (List ℤ)) (coefs : List K) :
    Option (PWorld K) := do
  let s ← w.subs[sub]?
  let s' ← kind.construct s coefs
  some { w with subs := w.subs.set sub s', procs := w.procs ++ [⟨kind, sub, mat, coefs⟩] }

/-- What is added to a composite: a processor or another composite. -/
inductive AddArg
  | proc (i : ℕ)
  | comp (i : ℕ)
  deriving DecidableEq

/-- The checks of `add_processor`, smol/moca/processor/composite.py:66-82, on values. -/
def addOk (s : SubObj) (mat : List (List ℤ)) (s' : SubObj) (mat' : List (List ℤ)) : Bool :=
  s.eqv s' && decide (mat = mat')

/-- `add_processor`, smol/moca/processor/composite.py:58-84; `none`: raises. -/
def PWorld.add (w : PWorld K) (c : ℕ) : AddArg → Option (PWorld K)
  | .comp _ => none
  | .proc i => do
    let C ← w.comps[c]?
    let p ← w.procs[i]?
    let s ← w.subs[C.sub]?
    let s' ← w.subs[p.sub]?
    if addOk s C.mat s' p.mat then
      some ⟨w.subs, w.procs, w.comps.set c ⟨C.sub, C.mat, C.parts ++ [i], C.coefs ++ p.coefs⟩⟩
    else none

/-- The dictionary of a processor; entries that `pop` removes are optional.
smol/moca/processor/base.py:304-318, ewald.py:167-177, distance.py:177-182. -/
structure PDict (K : Type) where
  kind : PKind K
  sub : Option SubObj
  mat : List (List ℤ)
  coefs : List K
  deriving DecidableEq

/-- `as_dict`. -/
def PWorld.save (w : PWorld K) (p : PObj K) : Option (PDict K) :=
  (w.subs[p.sub]?).map fun s => ⟨p.kind, some s, p.mat, p.coefs⟩

/-- The coefficients handed to the constructor by `from_dict`: those saved, for a distance processor
only the first of them (`match_weight`), the others being the default, one for each function but
the first; smol/moca/processor/expansion.py:215-221, ewald.py:180-191, distance.py:184-200 and
236-239. -/
def PDict.given (D : PDict K) (s : SubObj) : List K :=
  match D.kind with
  | .distance _ => D.coefs.take 1 ++ List.replicate (s.numCorr + s.terms.length - 1) 1
  | _ => D.coefs

/-- `from_dict` up to making objects: the subspace and coefficients of the loaded processor (`none`:
raises), and the dictionary afterwards.  `DistanceProcessor.from_dict` takes the entries out of the
dictionary, smol/moca/processor/distance.py:187-190. -/
def PDict.load (D : PDict K) : Option (SubObj × List K) × PDict K :=
  ((D.sub.bind fun s => (D.kind.construct s (D.given s)).map fun s' => (s', D.given s)),
    match D.kind with
    | .distance _ => { D with sub := none }
    | _ => D)

/-- Saving a processor and loading it: a new processor with a subspace of its own. -/
def PWorld.reload (w : PWorld K) (i : ℕ) : Option (PWorld K) := do
  let p ← w.procs[i]?
  let D ← w.save p
  let r ← D.load.1
  some { w with
    subs := w.subs ++ [r.1]
    procs := w.procs ++ [⟨p.kind, w.subs.length, p.mat, r.2⟩] }

/-- One part of a composite loaded and added, smol/moca/processor/composite.py:173-174.  `c` is the
composite being made, the last one. -/
def PWorld.reloadPart (w : PWorld K) (c : ℕ) (i : ℕ) : Option (PWorld K) := do
  let w' ← w.reload i
  w'.add c (.proc w.procs.length)

/-- Saving a composite and loading it, smol/moca/processor/composite.py:154-175: the composite has a
new subspace, and every part one of its own.  (All is saved before anything is loaded; loading
changes no object that exists.) -/
def PWorld.reloadComp (w : PWorld K) (c : ℕ) : Option (PWorld K) := do
  let C ← w.comps[c]?
  let s ← w.subs[C.sub]?
  let w0 : PWorld K := { w with
    subs := w.subs ++ [s]
    comps := w.comps ++ [⟨w.subs.length, C.mat, [], []⟩] }
  C.parts.foldlM (fun w' i => w'.reloadPart w.comps.length i) w0

/-- What a user does. -/
inductive POp (K : Type)
  | newSub (s : SubObj)
  | addTerm (sub : ℕ) (t : ExtTerm)
  | make (kind : PKind K) (sub : ℕ) (mat : List (List ℤ)) (coefs : List K)
  | makeComp (sub : ℕ) (mat : List (List ℤ))
  | add (c : ℕ) (a : AddArg)
  | reload (i : ℕ)
  | reloadComp (c : ℕ)

/-- One action, `none` if it raises. -/
def PWorld.step (w : PWorld K) : POp K → Option (PWorld K)
  | .newSub s => some { w with subs := w.subs ++ [s] }
  | .addTerm i t => do
    let s ← w.subs[i]?
    let s' ← s.addTerm t
    some { w with subs := w.subs.set i s' }
  | .make kind sub mat coefs => w.make kind sub mat coefs
  | .makeComp sub mat => do
    let _ ← w.subs[sub]?
    some { w with comps := w.comps ++ [⟨sub, mat, [], []⟩] }
  | .add c a => w.add c a
  | .reload i => w.reload i
  | .reloadComp c => w.reloadComp c

/-- A session; an action that raises leaves all as it was. -/
def PWorld.run (w : PWorld K) : List (POp K) → PWorld K
  | [] => w
  | op :: ops => ((w.step op).getD w).run ops

end

end Smol
