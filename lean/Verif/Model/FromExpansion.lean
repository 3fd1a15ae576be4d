import Verif.Model.Decomposition
import Verif.Model.Ewald
import Verif.Model.Composite
import Verif.Model.SiteSpace

/-!
# Predictions of an expansion and the ensemble made from it

Models `corr_from_structure` (`smol/cofe/space/clusterspace.py`), `predict`
(`smol/cofe/expansion.py`) and the processor that `Ensemble.from_cluster_expansion`
(`smol/moca/ensemble.py`) builds.
-/

namespace Smol

variable {K : Type*} [Field K]

/-- `corr_from_structure` after the occupancy has been read, smol/cofe/space/clusterspace.py:690-706:
the evaluator's correlations, then the external terms divided by the number of prim cells; all
times that number unless `normalized`.  `ext` are the Ewald data of the external terms in this
supercell (`value_from_occupancy`, smol/cofe/extern/ewald.py:131-159, builds the same index array
and matrix as the processor). -/
def corrVector (S : OrbitSpace) (geom : ℕ → OrbitGeom K) (size : ℕ) (ext : List (EwaldData K))
    (normalized : Bool) (occ : Occ) : List K :=
  let corr := (List.range S.numCorr).map
    (correlationsFromOccupancy (S.orbits.map fun o => (o.data (geom o.tag), (geom o.tag).rows)) occ)
  let corr := corr ++ ext.map fun t => t.featureVector occ / (size : K)
  if normalized then corr else corr.map fun x => x * (size : K)

/-- `predict`, smol/cofe/expansion.py:259-288, from the encoded occupancy of the structure. -/
def Expansion.predictOccu (E : Expansion K) (geom : ℕ → OrbitGeom K) (size : ℕ)
    (ext : List (EwaldData K)) (normalized : Bool) (occ : Occ) : Option K :=
  npDot E.coefs (corrVector E.space geom size ext normalized occ)

/-- `occupancy_from_structure` with `encode=True`, smol/cofe/space/clusterspace.py:797-819. -/
def subspaceCodes (k : VacKind) (allowed : List (List ℕ)) (st : Struc) : Option (List ℕ) :=
  allowed.zipIdx.mapM fun p =>
    if specAt k st p.2 ∈ p.1 then some (p.1.idxOf (specAt k st p.2)) else none

/-- `predict` of a structure with given supercell matrix. -/
def Expansion.predictStructure (E : Expansion K) (geom : ℕ → OrbitGeom K) (size : ℕ)
    (ext : List (EwaldData K)) (normalized : Bool) (k : VacKind) (allowed : List (List ℕ))
    (st : Struc) : Option K :=
  (subspaceCodes k allowed st).bind fun codes =>
    E.predictOccu geom size ext normalized fun i => codes.getD i 0

/-- A processor that is not a composite: coefficients, whether its features are a bare number
(Ewald), features and their change (`none` is a `KeyError`). -/
structure MadePart (K : Type*) where
  coefs : List K
  scalar : Bool
  feature : Occ → List K
  change : Occ → Step → Option (List K)

/-- A `ClusterExpansionProcessor`. -/
def CEProcessor.part (P : CEProcessor K) (coefs : List K) : MadePart K where
  coefs := coefs
  scalar := false
  feature occ := (List.range P.numCorr).map (P.featureVector occ)
  change occ flips := (P.featureVectorChange occ flips).map fun d => (List.range P.numCorr).map d

/-- A `ClusterDecompositionProcessor`. -/
def CDProcessor.part (P : CDProcessor K) (coefs : List K) : MadePart K where
  coefs := coefs
  scalar := false
  feature occ := (List.range P.numOrbits).map (P.featureVector occ)
  change occ flips := (P.featureVectorChange occ flips).map fun d => (List.range P.numOrbits).map d

/-- An `EwaldProcessor`; its coefficient is made an array of length one,
smol/moca/processor/base.py:57-60. -/
def EwaldData.part (E : EwaldData K) (coef : K) : MadePart K where
  coefs := [coef]
  scalar := true
  feature occ := [E.featureVector occ]
  change occ flips := some [E.featureVectorChange occ flips]

/-- A processor: plain, or a composite of plain ones. -/
inductive Proc (K : Type*)
  | plain (p : MadePart K)
  | composite (ps : List (MadePart K))

/-- `compute_property`, smol/moca/processor/base.py:155-164 and composite.py:86-95. -/
def Proc.property (p : Proc K) (occ : Occ) : Option K :=
  match p with
  | .plain p => npDot p.coefs (p.feature occ)
  | .composite ps => (ps.mapM fun p => npDot p.coefs (p.feature occ)).map List.sum

/-- `compute_property_change`, smol/moca/processor/base.py:166-178 and composite.py:97-111. -/
def Proc.propertyChange (p : Proc K) (occ : Occ) (flips : Step) : Option K :=
  match p with
  | .plain p => (p.change occ flips).bind (npDot p.coefs)
  | .composite ps =>
    (ps.mapM fun (p : MadePart K) => (p.change occ flips).bind (npDot p.coefs)).map List.sum

/-- `coefs`, which become the natural parameters (smol/moca/ensemble.py:127);
smol/moca/processor/composite.py:84. -/
def Proc.coefs : Proc K → List K
  | .plain p => p.coefs
  | .composite ps => ps.foldl (fun cs p => cs ++ p.coefs) []

/-- `compute_feature_vector`, smol/moca/processor/composite.py:113-129; the ensemble returns it
unchanged without chemical potentials (smol/moca/ensemble.py:331-339). -/
def Proc.feature (p : Proc K) (occ : Occ) : Option (List K) :=
  match p with
  | .plain p => some (p.feature occ)
  | .composite ps => npAppendAll (ps.map fun p => (p.scalar, p.feature occ))

/-- `compute_feature_vector_change`, smol/moca/processor/composite.py:131-152. -/
def Proc.change (p : Proc K) (occ : Occ) (flips : Step) : Option (List K) :=
  match p with
  | .plain p => p.change occ flips
  | .composite ps => (ps.mapM fun (p : MadePart K) =>
      (p.change occ flips).map fun d => (p.scalar, d)).bind npAppendAll

/-- A processor as the samplers of `Verif.Model.Kernel` use it: where a computation raises, the
value is empty (the theorems exclude this). -/
def Proc.toPart (p : Proc K) : PartProc K where
  scalar := match p with | .plain p => p.scalar | .composite _ => false
  coefs := p.coefs
  feature occ := (p.feature occ).getD []
  change occ flips := (p.change occ flips).getD []

/-- The `processor_type` argument. -/
inductive ProcType
  | decomposition
  | expansion
  | other
  deriving DecidableEq

/-- The processor besides the external term, smol/moca/ensemble.py:166-179 and 192-205, with the
coefficients an expansion processor is given; `none`: wrong number of coefficients
(smol/moca/processor/expansion.py:96-102), failure to compute the interactions, or an unknown
type. -/
def mainProc (E : Expansion K) (geom : ℕ → OrbitGeom K) (size : ℕ) (ty : ProcType)
    (coefs : List K) : Option (MadePart K) :=
  match ty with
  | .decomposition => (cdProcessor E geom size).map fun P =>
      P.part (E.space.orbitMults.map fun m : ℕ => (m : K))
  | .expansion =>
    if coefs.length ≠ E.space.numCorr then none
    else some ((ceProcessor E.space geom size).part coefs)
  | .other => none

/-- The processor of `Ensemble.from_cluster_expansion`, smol/moca/ensemble.py:162-206. -/
def fromExpansion (E : Expansion K) (geom : ℕ → OrbitGeom K) (size : ℕ) (ext : List (EwaldData K))
    (ty : ProcType) : Option (Proc K) :=
  match ext with
  | [] => (mainProc E geom size ty E.coefs).map .plain
  | term :: _ =>
    (mainProc E geom size ty E.coefs.dropLast).bind fun main =>
      E.coefs.getLast?.map fun last => .composite [main, term.part last]

end Smol
