import Verif.Model.GroundVars
import Verif.Model.Decomposition
import Verif.Model.Ewald
import Verif.Model.Ensemble

/-!
# Objective function of the ground-state problem

Models `smol/capp/generate/groundstate/upper_bound/{terms,objectives}.py`, the Ewald row numbers of
`indices.py` and the assembly of the objective in `solver.py`.

Exceptions of array lookups (a cluster naming a site without marks, a code beyond a tensor) are not
modelled: such lookups give default values here.
-/

namespace Smol

/-- A cluster term: the variables in the product and the two factors. -/
abbrev GroundTerm (K : Type*) := List ℕ × K × K

section expression

variable {K : Type*} [Field K] [LinearOrder K]

/-- `tuple(sorted(inds))`. -/
def sortInds (inds : List ℕ) : List ℕ := inds.insertionSort (· ≤ ·)

/-- `simplified_terms[inds] = coef` for a new key, `+= coef` for an existing one (a dict keeps the
insertion order), smol/capp/generate/groundstate/upper_bound/terms.py:71-76. -/
def addGroundTerm (key : List ℕ) (coef : K) : List (List ℕ × K) → List (List ℕ × K)
  | [] => [(key, coef)]
  | p :: rest => if p.1 = key then (p.1, p.2 + coef) :: rest else p :: addGroundTerm key coef rest

/-- The accumulated dict, smol/capp/generate/groundstate/upper_bound/terms.py:67-76. -/
def collectTerms (terms : List (GroundTerm K)) : List (List ℕ × K) :=
  terms.foldl (fun d t => addGroundTerm (sortInds t.1) (t.2.1 * t.2.2) d) []

/-- Order of `sorted(…, key=lambda t: (len(t[0]), t[1]))`. -/
def termLe (a b : List ℕ × K) : Prop :=
  a.1.length < b.1.length ∨ (a.1.length = b.1.length ∧ a.2 ≤ b.2)

instance : DecidableRel (termLe (K := K)) := fun a b => by unfold termLe; infer_instance

/-- The terms that are kept, sorted,
smol/capp/generate/groundstate/upper_bound/terms.py:77-82. -/
def simplifiedTerms (terms : List (GroundTerm K)) (cutoff : K) : List (List ℕ × K) :=
  ((collectTerms terms).filter fun p => decide (cutoff ≤ |p.2|)).insertionSort termLe

/-- The linear objective: constant, variables with coefficients (before the reordering by variable
number of lines 97-102, which changes variables and coefficients alike), products represented by
auxiliary variables with coefficients. -/
structure GroundExpr (K : Type*) where
  const : K
  points : List (List ℕ × K)
  many : List (List ℕ × K)

/-- A constraint on the auxiliary variables: `aux[k] <= v[i]` or
`aux[k] >= sum(v[inds]) + 1 - len(inds)`. -/
inductive AuxCon
  | le (k i : ℕ)
  | ge (k : ℕ) (inds : List ℕ)

/-- Meaning of a constraint. -/
def AuxCon.Holds (v aux : ℕ → ℤ) : AuxCon → Prop
  | .le k i => aux k ≤ v i
  | .ge k inds => (inds.map v).sum + 1 - (inds.length : ℤ) ≤ aux k

/-- `get_expression_and_auxiliary_from_terms`,
smol/capp/generate/groundstate/upper_bound/terms.py:37-132, without the constraints. `none` is the
RuntimeError of an objective without variables. -/
def groundExpr (terms : List (GroundTerm K)) (cutoff : K) : Option (GroundExpr K) :=
  let st := simplifiedTerms terms cutoff
  let nConst := (st.filter fun p => decide (p.1.length = 0)).length
  let nSingle := (st.filter fun p => decide (p.1.length = 1)).length
  let nSlack := (st.filter fun p => decide (1 < p.1.length)).length
  if nSingle = 0 ∧ nSlack = 0 then none
  else some
    { const := if nConst = 1 then (st.getD 0 ([], 0)).2 else 0
      points := (st.drop nConst).take nSingle
      many := (st.drop (nConst + nSingle)).take nSlack }

/-- The constraints, smol/capp/generate/groundstate/upper_bound/terms.py:119-124. -/
def GroundExpr.constraints (e : GroundExpr K) : List AuxCon :=
  e.many.zipIdx.flatMap fun p => (p.1.1.map fun i => AuxCon.le p.2 i) ++ [AuxCon.ge p.2 p.1.1]

/-- Value of the objective, smol/capp/generate/groundstate/upper_bound/terms.py:94, 104, 118
(`inds[0]` of a point term). -/
def GroundExpr.value (e : GroundExpr K) (v aux : ℕ → ℤ) : K :=
  e.const + (e.points.map fun p => (v (p.1.getD 0 0) : K) * p.2).sum +
    (e.many.zipIdx.map fun p => (aux p.2 : K) * p.1.2).sum

/-- `get_auxiliary_variable_values`,
smol/capp/generate/groundstate/upper_bound/terms.py:13-34. -/
def auxiliaryValues (v : ℕ → ℤ) (products : List (List ℕ)) : List ℤ :=
  products.map fun inds => (inds.map v).prod

end expression

/-! ## terms of the processors -/

/-- Codes a site can hold, smol/capp/generate/groundstate/upper_bound/objectives.py:76-92,
176-187. -/
def siteStates (row : List ℤ) : List ℕ :=
  if ∃ m ∈ row, 0 ≤ m then (List.range row.length).filter fun c => decide (0 ≤ row.getD c (-2))
  else (List.range row.length).filter fun c => decide (row.getD c (-2) = -1)

/-- Variables of a cluster in a state,
smol/capp/generate/groundstate/upper_bound/objectives.py:98-107, 192-202. -/
def stateVars (marks : List (List ℤ)) (sites state : List ℕ) : List ℕ :=
  (sites.zip state).filterMap fun p =>
    if 0 ≤ (marks.getD p.1 []).getD p.2 (-2) then some ((marks.getD p.1 []).getD p.2 (-2)).toNat
    else none

variable {K : Type*} [Field K]

/-- The terms of one function or interaction on all clusters of an orbit,
smol/capp/generate/groundstate/upper_bound/objectives.py:73-111, 170-206. -/
def clusterTerms (marks : List (List ℤ)) (rows : ClusterRows) (tensor : List ℕ → K) :
    List (List ℕ × K) :=
  rows.flatMap fun row =>
    (lexProduct (row.map fun s => siteStates (marks.getD s []))).map fun state =>
      (stateVars marks row state, tensor state / (rows.length : K))

/-- `cluster_terms`, one entry per term with the number of its function,
smol/capp/generate/groundstate/upper_bound/objectives.py:54-112. -/
def numberedCeTerms (S : OrbitSpace) (geom : ℕ → OrbitGeom K) (marks : List (List ℤ)) :
    List (ℕ × List ℕ × K) :=
  (0, [], 1) :: S.orbits.flatMap fun o => (o.kept (geom o.tag)).zipIdx.flatMap fun cb =>
    (clusterTerms marks (geom o.tag).rows (corrTensor (geom o.tag).phi cb.1)).map fun t =>
      (o.bitId + cb.2, t)

/-- Reading the lists `terms[0]`, `terms[1]`, … against the coefficients (`zip`),
smol/capp/generate/groundstate/upper_bound/objectives.py:115-120, 211-216. -/
def groupedTerms (n : ℕ) (numbered : List (ℕ × List ℕ × K)) (coefs : List K) (size : ℕ) :
    List (GroundTerm K) :=
  ((List.range n).zip coefs).flatMap fun q =>
    (numbered.filter fun t => decide (t.1 = q.1)).map fun t => (t.2.1, t.2.2, q.2 * (size : K))

/-- `get_terms_from_expansion_processor`,
smol/capp/generate/groundstate/upper_bound/objectives.py:22-125. -/
def ceTerms (S : OrbitSpace) (geom : ℕ → OrbitGeom K) (size : ℕ) (coefs : List K)
    (marks : List (List ℤ)) : List (GroundTerm K) :=
  groupedTerms S.numCorr (numberedCeTerms S geom marks) coefs size

/-- `orbit_terms`, smol/capp/generate/groundstate/upper_bound/objectives.py:155-208; the tensors are
listed in the order of the orbits, so that the running number `n` counts them from 1. -/
def numberedCdTerms (E : Expansion K) (eci : List K) (geom : ℕ → OrbitGeom K)
    (marks : List (List ℤ)) : List (ℕ × List ℕ × K) :=
  (0, [], E.coefs.getD 0 0) :: E.space.orbits.zipIdx.flatMap fun ok =>
    (clusterTerms marks (geom ok.1.tag).rows (interactionAt eci ok.1 (geom ok.1.tag))).map fun t =>
      (ok.2 + 1, t)

/-- `get_terms_from_decomposition_processor`,
smol/capp/generate/groundstate/upper_bound/objectives.py:128-230. -/
def cdTerms (E : Expansion K) (eci : List K) (geom : ℕ → OrbitGeom K) (size : ℕ)
    (marks : List (List ℤ)) : List (GroundTerm K) :=
  groupedTerms E.space.numOrbits (numberedCdTerms E eci geom marks)
    (E.space.orbitMults.map fun m : ℕ => (m : K)) size

/-- `map_ewald_indices_to_variable_indices`,
smol/capp/generate/groundstate/upper_bound/indices.py:90-104; `vac` tells for each site and code
whether the species is a vacancy. -/
def ewaldVarIds (vac : List (List Bool)) (marks : List (List ℤ)) : List ℤ :=
  (vac.zip marks).flatMap fun p =>
    (p.1.zip p.2).filterMap fun q => if q.1 then none else some q.2

/-- `get_terms_from_ewald_processor`,
smol/capp/generate/groundstate/upper_bound/objectives.py:233-289. -/
def ewaldTerms (n : ℕ) (matrix : ℕ → ℕ → K) (coef : K) (ids : List ℤ) : List (GroundTerm K) :=
  (List.range n).flatMap fun i => (List.range n).filterMap fun j =>
    let r := ids.getD i (-2)
    let c := ids.getD j (-2)
    if r = -2 ∨ c = -2 then none
    else some ((if r ≠ -1 then [r.toNat] else []) ++
      (if c ≠ -1 ∧ c ≠ r then [c.toNat] else []), matrix i j, coef)

/-- `get_terms_from_chemical_potentials`,
smol/capp/generate/groundstate/upper_bound/objectives.py:292-329. -/
def chemicalTerms (table : ℕ → ℕ → K) (marks : List (List ℤ)) : List (GroundTerm K) :=
  marks.zipIdx.flatMap fun rs => rs.1.zipIdx.filterMap fun mc =>
    if 0 ≤ mc.1 then some ([mc.1.toNat], -1 * table rs.2 mc.2, 1)
    else if mc.1 = -1 then some ([], -1 * table rs.2 mc.2, 1) else none

/-- The processors a solver can meet. -/
inductive GroundProc (K : Type*)
  | ce (S : OrbitSpace) (geom : ℕ → OrbitGeom K) (size : ℕ) (coefs : List K)
  | cd (E : Expansion K) (geom : ℕ → OrbitGeom K) (size : ℕ)
  | ewald (vac : List (List Bool)) (matrix : ℕ → ℕ → K) (coef : K)
  | other

/-- `_handle_single_processor`,
smol/capp/generate/groundstate/upper_bound/solver.py:234-256. `none`: NotImplementedError, or a
decomposition processor that cannot be built. -/
def GroundProc.terms (marks : List (List ℤ)) : GroundProc K → Option (List (GroundTerm K))
  | .ce S geom size coefs => some (ceTerms S geom size coefs marks)
  | .cd E geom size => E.eci.map fun eci => cdTerms E eci geom size marks
  | .ewald vac matrix coef =>
    some (ewaldTerms (ewaldStructureInds 0 vac).2 matrix coef (ewaldVarIds vac marks))
  | .other => none

/-- All terms of the objective,
smol/capp/generate/groundstate/upper_bound/solver.py:258-273. -/
def groundTerms (marks : List (List ℤ)) (procs : List (GroundProc K))
    (table : Option (ℕ → ℕ → K)) : Option (List (GroundTerm K)) :=
  (procs.mapM (GroundProc.terms marks)).map fun ts =>
    ts.flatten ++ match table with
      | some t => chemicalTerms t marks
      | none => []

end Smol
