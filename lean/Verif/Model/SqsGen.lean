import Verif.Model.Sqs
import Verif.Model.Multicell
import Verif.Model.OrbitIndices
import Verif.Model.Supercell
import Mathlib.LinearAlgebra.Matrix.Determinant.Basic

/-!
# The generator of special quasirandom structures

Models the constructor, the look up of processors, the annealing and the scoring of
`smol/capp/generate/special/sqs.py`; the queue of best structures is in `Verif.Model.Sqs`, the
multicell kernel in `Verif.Model.Multicell`.

Simplifications: a cluster subspace is a number, with its number of functions and of orbits and its
symmetries as functions of it; `same` is `ClusterSubspace.__eq__`.  Determinants of integer matrices
are exact, so `np.isclose` is equality.  Supercell matrices are 3x3.  The reduction of the lattice of
a returned structure is not modelled.
-/

namespace Smol

/-- Class of a processor, or the text given as `feature_type`. -/
inductive SqsFeature
  | correlation
  | clusterInteraction
  | other
  deriving DecidableEq

/-- What the generator reads of a distance processor. -/
structure SqsProc (K : Type*) where
  subspace : ℕ
  matrix : Mat3
  feature : SqsFeature
  target : List K
  weights : List K
  matchWeight : K
  matchTol : K
  deriving DecidableEq

/-- `Processor.size`, smol/moca/processor/base.py:73 and
smol/cofe/space/clusterspace.py:646-648: the absolute value of the determinant. -/
def SqsProc.size {K : Type*} (p : SqsProc K) : ℕ := (Matrix.det p.matrix).natAbs

/-- Exceptions. -/
inductive SqsErr
  | index
  | subspace
  | size
  | feature
  | weights
  | target
  | both
  | determinant
  | key
  deriving DecidableEq

/-- Arguments of the constructor, smol/capp/generate/special/sqs.py:28-40. -/
structure SqsArgs (K : Type*) where
  subspace : ℕ
  size : ℕ
  feature : SqsFeature
  target : Option (List K)
  weights : Option (List K)
  matchWeight : K
  matchTol : K
  matrices : Option (List Mat3)
  processors : Option (List (SqsProc K))

/-- What is known of the cluster subspaces. -/
structure SqsSpaces where
  same : ℕ → ℕ → Bool
  functions : ℕ → ℕ
  orbits : ℕ → ℕ
  syms : ℕ → List Mat3

/-- `d[k] = v`: an existing key keeps its place. -/
def keyedPut {κ ν : Type*} [DecidableEq κ] (d : List (κ × ν)) (k : κ) (v : ν) : List (κ × ν) :=
  if k ∈ d.map Prod.fst then d.map fun e => if e.1 = k then (k, v) else e else d ++ [(k, v)]

/-- A dictionary comprehension. -/
def keyedOf {κ ν : Type*} [DecidableEq κ] (l : List (κ × ν)) : List (κ × ν) :=
  l.foldl (fun d e => keyedPut d e.1 e.2) []

/-- `d[k]` -/
def keyedGet {κ ν : Type*} [DecidableEq κ] (d : List (κ × ν)) (k : κ) : Option ν :=
  (d.find? fun e => e.1 = k).map Prod.snd

/-- `_processors_by_scm` -/
abbrev SqsDict (K : Type*) := List (List (List ℤ) × SqsProc K)

/-- The keys of a list of processors, smol/capp/generate/special/sqs.py:129-152. -/
def sqsDict {K : Type*} (ps : List (SqsProc K)) : SqsDict K :=
  keyedOf (ps.map fun p => (cacheKey p.matrix, p))

/-- `_processors`, smol/capp/generate/special/sqs.py:154. -/
def sqsProcessors {K : Type*} (d : SqsDict K) : List (SqsProc K) := d.map Prod.snd

section Setup
variable {K : Type} [Zero K] [One K]

/-- The checks of given processors, smol/capp/generate/special/sqs.py:79-88. -/
def sqsCheckProcessors (sp : SqsSpaces) (a : SqsArgs K) : Except SqsErr Unit :=
  match a.processors with
  | none => .ok ()
  | some [] => .error .index
  | some (p :: ps) =>
    if sp.same p.subspace a.subspace = false then .error .subspace
    else if (p :: ps).all (fun p => p.size = a.size) then .ok ()
    else .error .size

/-- The number of features, smol/capp/generate/special/sqs.py:90-98. -/
def sqsNumFeatures (sp : SqsSpaces) (a : SqsArgs K) : Except SqsErr ℕ :=
  match a.feature with
  | .correlation => .ok (sp.functions a.subspace)
  | .clusterInteraction => .ok (sp.orbits a.subspace)
  | .other => .error .feature

/-- Weights and target, smol/capp/generate/special/sqs.py:100-112. -/
def sqsTarget (a : SqsArgs K) (n : ℕ) : Except SqsErr (List K × List K) :=
  if ∃ w ∈ a.weights, w.length ≠ n - 1 then .error .weights
  else if ∃ t ∈ a.target, t.length ≠ n then .error .target
  else .ok (a.target.getD (List.replicate n 0), a.weights.getD (List.replicate (n - 1) 1))

/-- The matrices, smol/capp/generate/special/sqs.py:114-131; not used when processors are given. -/
def sqsMatrices (sp : SqsSpaces) (a : SqsArgs K) : Except SqsErr (List Mat3) :=
  match a.matrices, a.processors with
  | some _, some _ => .error .both
  | some ms, none => if ∃ m ∈ ms, Matrix.det m ≠ a.size then .error .determinant else .ok ms
  | none, some _ => .ok []
  | none, none => .ok (enumerateSupercells (1 / 100000) a.size (sp.syms a.subspace)).reverse

/-- The processor built for a matrix, smol/capp/generate/special/sqs.py:135-144. -/
def sqsBuild (a : SqsArgs K) (tw : List K × List K) (m : Mat3) : SqsProc K :=
  ⟨a.subspace, m, a.feature, tw.1, tw.2, a.matchWeight, a.matchTol⟩

/-- The constructor, smol/capp/generate/special/sqs.py:75-154. -/
def sqsMake (sp : SqsSpaces) (a : SqsArgs K) : Except SqsErr (SqsDict K) := do
  sqsCheckProcessors sp a
  let n ← sqsNumFeatures sp a
  let tw ← sqsTarget a n
  let ms ← sqsMatrices sp a
  match a.processors with
  | none => return sqsDict (ms.map (sqsBuild a tw))
  | some ps => return sqsDict ps

/-- `from_processors`, smol/capp/generate/special/sqs.py:234-286. -/
def sqsFromProcessors (sp : SqsSpaces) (ps : List (SqsProc K)) (target weights : Option (List K))
    (matchWeight matchTol : K) : Except SqsErr (SqsDict K) :=
  match ps with
  | [] => .error .index
  | p :: _ =>
    if p.feature = .other then .error .feature
    else sqsMake sp ⟨p.subspace, p.size, p.feature, target, weights, matchWeight, matchTol, none,
      some ps⟩

end Setup

/-- `_get_structure_processor` with a matrix, smol/capp/generate/special/sqs.py:331-343. -/
def sqsFind {K : Type*} (d : SqsDict K) (size : ℕ) (m : Mat3) : Except SqsErr (SqsProc K) :=
  if Matrix.det m ≠ size then .error .determinant
  else match keyedGet d (cacheKey m) with
    | none => .error .key
    | some p => .ok p

/-- `compute_score`, smol/capp/generate/special/sqs.py:298-313: `occOf` is
`processor.occupancy_from_structure`, `property` is `processor.compute_property`. -/
def sqsScore {K σ : Type*} (occOf : SqsProc K → σ → Occ) (property : SqsProc K → Occ → K)
    (d : SqsDict K) (size : ℕ) (structure_ : σ) (m : Mat3) : Except SqsErr K :=
  (sqsFind d size m).map fun p => property p (occOf p structure_)

section Anneal
variable {K : Type*} [CommRing K]

/-- The yielded trace, as it is kept: its enthalpy is the score. -/
def MRow.kept (r : MRow K) : SqsTrace K (ℕ × Occ) := ⟨r.enthalpy, (r.cell, r.occ)⟩

/-- `_sample_sqs` after `setup_sample`, smol/capp/generate/special/sqs.py:641-663: the state of the
kernel at the end and the yielded traces. -/
def sampleSqs (cells : ℕ → Kern K) (s : Multi K) (cs : List MChoice) : Multi K × List (MRow K) :=
  let out := multiRun cells cs (s, s.initialRow cells)
  ((out.getLast?.map Prod.fst).getD s, out.map Prod.snd)

/-- The further temperatures, smol/capp/generate/special/sqs.py:606-617, each starting from the
occupancy of the last trace `r`. -/
def annealRest (cells : ℕ → Kern K) : Multi K → MRow K → ℕ → List (List MChoice) →
    Multi K × List (MRow K)
  | s, _, _, [] => (s, [])
  | s, r, fresh, cs :: css =>
    let out := sampleSqs cells (s.setAuxOne cells r.occ fresh) cs
    let rest := annealRest cells out.1 (out.2.getLast?.getD r) (fresh + 1) css
    (rest.1, out.2 ++ rest.2)

/-- All temperatures, smol/capp/generate/special/sqs.py:592-617, with the random choices of each.
`none`: no temperature (`IndexError`), or no trace to continue from (`trace` is not bound). -/
def annealSqs (cells : ℕ → Kern K) (s : Multi K) (fresh : ℕ) :
    List (List MChoice) → Option (Multi K × List (MRow K))
  | [] => none
  | cs :: css =>
    let out := sampleSqs cells s cs
    match out.2.getLast? with
    | none => if css.isEmpty then some (out.1, []) else none
    | some r =>
      let rest := annealRest cells out.1 r fresh css
      some (rest.1, out.2 ++ rest.2)

/-- The generator: its kernel, its queue and samples, and an address not used so far. -/
structure SqsGen (K : Type*) where
  kernel : Multi K
  state : SqsState (SqsTrace K (ℕ × Occ))
  fresh : ℕ

/-- Starting with one occupancy per cell, `setup_sample` in smol/moca/sampler/sampler.py:396-415: with
one cell the array has the shape of a sample, and is taken to be the current occupancy. -/
def startCells (n : ℕ) (cells : ℕ → Kern K) (s : Multi K) (occs : ℕ → Occ) (fresh : ℕ) : Multi K :=
  if n = 1 then s.setAuxOne cells (occs 0) fresh else s.setAux cells occs

/-- `samples.get_occupancies(flat=False)[-1]` when there are samples. -/
def lastSample {τ : Type*} (c : Container τ) : Option τ :=
  if c.nsamples = 0 then none else c.rows.getLast?.join

/-- Arguments and random choices of `generate`: the given occupancies, those that
`_get_initial_occupancies` would give, and the choices at each temperature. -/
structure SqsInput where
  given : Option (ℕ → Occ)
  drawn : ℕ → Occ
  clear : Bool
  maxSave : Option ℕ
  steps : ℕ
  choices : List (List MChoice)

/-- The state annealing starts from, smol/capp/generate/special/sqs.py:566-580. -/
def SqsGen.start (n : ℕ) (cells : ℕ → Kern K) (g : SqsGen K) (c : SqsInput) : Multi K :=
  match c.given with
  | some o => startCells n cells g.kernel o g.fresh
  | none =>
    match lastSample g.state.samples with
    | none => startCells n cells g.kernel c.drawn g.fresh
    | some t => g.kernel.setAuxOne cells t.struct.2 g.fresh

/-- `generate`, smol/capp/generate/special/sqs.py:540-622; `none` is an exception. -/
def SqsGen.generate [LinearOrder K] (n : ℕ) (cells : ℕ → Kern K) (g : SqsGen K) (c : SqsInput) :
    Option (SqsGen K) :=
  (annealSqs cells (g.start n cells c) (g.fresh + 1) c.choices).bind fun out =>
    let r := g.state.generate ⟨c.clear, c.maxSave, c.steps, out.2.map MRow.kept⟩
    if r.2 then none else some ⟨out.1, r.1, g.fresh + 1 + c.choices.length⟩

/-- Several calls of `generate`. -/
def SqsGen.generates [LinearOrder K] (n : ℕ) (cells : ℕ → Kern K) (g : SqsGen K) :
    List SqsInput → Option (SqsGen K)
  | [] => some g
  | c :: l => (g.generate n cells c).bind fun g => g.generates n cells l

end Anneal
end Smol
