import Verif.Model.Sublattice
import Mathlib.Data.Rat.Floor

/-!
# Variables, occupancies and constraints of the ground-state problem

Models `smol/capp/generate/groundstate/upper_bound/{variables,indices,constraints}.py` and the
result bookkeeping of `solver.py` in the same directory.

cvxpy is not modelled: a problem is the list of its constraints, and "solving" hands back some
assignment. Species are numbers as in `Model/Sublattice`; `spaces` is the list of original site
spaces of the sites of the supercell (`get_allowed_species(structure)`).
-/

namespace Smol

/-- The entry `site_sublattice_ids[s]` after the loop of `get_sublattice_indices_by_site`,
smol/capp/generate/groundstate/upper_bound/indices.py:121-123: the last sublattice that lists the
site; `none` for the remaining -1. -/
def sublatticeOf (subls : List Sublattice) (s : ℕ) : Option ℕ :=
  ((List.range subls.length).filter fun k =>
    decide (∃ sl, subls[k]? = some sl ∧ s ∈ sl.sites)).getLast?

/-- `get_sublattice_indices_by_site`,
smol/capp/generate/groundstate/upper_bound/indices.py:107-129. `none`: a site number beyond the
number of sites (IndexError, line 123) or a site without sublattice (ValueError, line 124). -/
def sublatticeIds (subls : List Sublattice) : Option (List ℕ) :=
  let n := (subls.map fun sl => sl.sites.length).sum
  if ∃ sl ∈ subls, ∃ s ∈ sl.sites, n ≤ s then none
  else (List.range n).mapM (sublatticeOf subls)

/-- `sublattices[site_sublattice_ids[site_id]]`,
smol/capp/generate/groundstate/upper_bound/variables.py:69, 149, 195. -/
def sublatticeAt (subls : List Sublattice) (ids : List ℕ) (s : ℕ) : Option Sublattice :=
  ids[s]?.bind fun k => subls[k]?

/-- The mark of one species of a site,
smol/capp/generate/groundstate/upper_bound/variables.py:74-116, with the next free variable number.
`none` is the ValueError of a restricted site without initial occupancy. (The ValueError of an
empty site space, line 109, cannot be reached because `species in current_site_space` holds.) -/
def speciesMark (sl : Sublattice) (init : Option Occ) (s next sp : ℕ) : Option (ℤ × ℕ) :=
  if sp ∈ sl.species then
    if 1 < sl.species.length then
      if s ∈ sl.active then some ((next : ℤ), next + 1)
      else
        match init with
        | none => none
        | some occ =>
          some (if occ s = sl.encoding.getD (sl.species.idxOf sp) 0 then -1 else -2, next)
    else some (-1, next)
  else some (-2, next)

/-- The loop over the species of one site,
smol/capp/generate/groundstate/upper_bound/variables.py:73-117. -/
def siteMarks (sl : Sublattice) (init : Option Occ) (s : ℕ) : ℕ → List ℕ → Option (List ℤ × ℕ)
  | next, [] => some ([], next)
  | next, sp :: rest =>
    (speciesMark sl init s next sp).bind fun e =>
      (siteMarks sl init s e.2 rest).map fun r => (e.1 :: r.1, r.2)

/-- The loop over the sites,
smol/capp/generate/groundstate/upper_bound/variables.py:68-117. -/
def marksLoop (subls : List Sublattice) (ids : List ℕ) (init : Option Occ) :
    ℕ → ℕ → List (List ℕ) → Option (List (List ℤ) × ℕ)
  | _, next, [] => some ([], next)
  | s, next, space :: rest =>
    (sublatticeAt subls ids s).bind fun sl =>
      (siteMarks sl init s next space).bind fun r =>
        (marksLoop subls ids init (s + 1) r.2 rest).map fun q => (r.1 :: q.1, q.2)

/-- `get_variables_from_sublattices`,
smol/capp/generate/groundstate/upper_bound/variables.py:19-120: the variable indices and the number
of boolean variables. -/
def groundVariables (subls : List Sublattice) (spaces : List (List ℕ)) (init : Option Occ) :
    Option (List (List ℤ) × ℕ) :=
  (sublatticeIds subls).bind fun ids => marksLoop subls ids init 0 0 spaces

/-- `site_indices[site_indices >= 0]`,
smol/capp/generate/groundstate/upper_bound/variables.py:151, 197, constraints.py:38. -/
def varInds (row : List ℤ) : List ℕ := (row.filter fun i => decide (0 ≤ i)).map Int.toNat

/-- Positions of the value 1 (`np.where(values == 1)[0]`). -/
def onesOf (values : List ℤ) : List ℕ :=
  (List.range values.length).filter fun p => decide (values[p]? = some 1)

/-- One site of `get_occupancy_from_variables`,
smol/capp/generate/groundstate/upper_bound/variables.py:149-161. `none`: two variables set
(ValueError), no variable set, no mark -1 or an index beyond the values (IndexError). -/
def decodeSite (sl : Sublattice) (values : List ℤ) (row : List ℤ) : Option ℕ :=
  if varInds row ≠ [] then
    ((varInds row).mapM fun i => values[i]?).bind fun vals =>
      if 1 < (onesOf vals).length then none
      else (onesOf vals)[0]?.bind fun p => sl.encoding[p]?
  else if (-1 : ℤ) ∈ row then some (row.idxOf (-1)) else none

/-- `get_occupancy_from_variables`,
smol/capp/generate/groundstate/upper_bound/variables.py:123-165, after the rounding of line 141. -/
def occupancyFromVariables (subls : List Sublattice) (values : List ℤ) (marks : List (List ℤ)) :
    Option (List ℕ) :=
  (sublatticeIds subls).bind fun ids =>
    marks.zipIdx.mapM fun rs =>
      (sublatticeAt subls ids rs.2).bind fun sl => decodeSite sl values rs.1

/-- The loop of `get_variable_values_from_occupancy`,
smol/capp/generate/groundstate/upper_bound/variables.py:194-205. `none` is the IndexError of a code
that is not in the encoding. -/
def valuesLoop (subls : List Sublattice) (ids : List ℕ) (occ : Occ) :
    ℕ → List (List ℤ) → List ℤ → Option (List ℤ)
  | _, [], values => some values
  | s, row :: rest, values =>
    (sublatticeAt subls ids s).bind fun sl =>
      if varInds row ≠ [] then
        if occ s ∈ sl.encoding then
          (varInds row)[sl.encoding.idxOf (occ s)]?.bind fun i =>
            valuesLoop subls ids occ (s + 1) rest (values.set i 1)
        else none
      else valuesLoop subls ids occ (s + 1) rest values

/-- `max(max(sub) for sub in variable_indices) + 1`,
smol/capp/generate/groundstate/upper_bound/variables.py:189 (all marks are at least -2). -/
def numVariables (marks : List (List ℤ)) : ℕ :=
  ((marks.map fun row => (row.foldl max (-2))).foldl max (-2) + 1).toNat

/-- `get_variable_values_from_occupancy`,
smol/capp/generate/groundstate/upper_bound/variables.py:168-208. `none` also for `max` of an empty
list. -/
def valuesFromOccupancy (subls : List Sublattice) (occ : Occ) (marks : List (List ℤ)) :
    Option (List ℤ) :=
  if marks = [] ∨ [] ∈ marks then none
  else (sublatticeIds subls).bind fun ids =>
    valuesLoop subls ids occ 0 marks (List.replicate (numVariables marks) 0)

/-- The mark of `species` on one site of its sublattice,
smol/capp/generate/groundstate/upper_bound/indices.py:50-52. -/
def componentMark (marks : List (List ℤ)) (spaces : List (List ℕ)) (sp s : ℕ) : Option ℤ :=
  spaces[s]?.bind fun space =>
    if sp ∈ space then marks[s]?.bind fun row => row[space.idxOf sp]? else none

/-- One component, smol/capp/generate/groundstate/upper_bound/indices.py:47-59: the variables and
the number of sites always occupied by the species. -/
def component (marks : List (List ℤ)) (spaces : List (List ℕ)) (sl : Sublattice) (sp : ℕ) :
    Option (List ℕ × ℕ) :=
  (sl.sites.mapM (componentMark marks spaces sp)).map fun es => (varInds es, es.count (-1))

/-- The (sublattice, species) pairs in "counts" order,
smol/capp/generate/groundstate/upper_bound/indices.py:45-46. -/
def componentPairs (subls : List Sublattice) : List (Sublattice × ℕ) :=
  subls.flatMap fun sl => sl.species.map fun sp => (sl, sp)

/-- `get_variable_indices_for_each_composition_component`,
smol/capp/generate/groundstate/upper_bound/indices.py:14-61. -/
def components (subls : List Sublattice) (marks : List (List ℤ)) (spaces : List (List ℕ)) :
    Option (List (List ℕ × ℕ)) :=
  (componentPairs subls).mapM fun p => component marks spaces p.1 p.2

/-! ## Constraints -/

/-- A linear constraint `Σ coef * v[i] + const == rhs` (or `<=` when `leq`). -/
structure LinCon where
  terms : List (ℚ × List ℕ)
  const : ℚ
  leq : Bool
  rhs : ℚ

/-- Left side of a constraint under an assignment. -/
def LinCon.lhs (c : LinCon) (v : ℕ → ℚ) : ℚ :=
  (c.terms.map fun t => t.1 * (t.2.map v).sum).sum + c.const

/-- The constraint holds. -/
def LinCon.Holds (c : LinCon) (v : ℕ → ℚ) : Prop :=
  if c.leq then c.lhs v ≤ c.rhs else c.lhs v = c.rhs

/-- `get_normalization_constraints`,
smol/capp/generate/groundstate/upper_bound/constraints.py:21-41. -/
def normalizationConstraints (marks : List (List ℤ)) : List LinCon :=
  (marks.filter fun row => decide (varInds row ≠ [])).map fun row =>
    ⟨[(1, varInds row)], 0, false, 1⟩

/-- One component of `get_fixed_composition_constraints`,
smol/capp/generate/groundstate/upper_bound/constraints.py:222-244: `none` raises, `some none` adds
nothing. -/
def fixedConstraint (comp : List ℕ × ℕ) (target : ℤ) : Option (Option LinCon) :=
  if target < (comp.2 : ℤ) then none
  else if comp.1 = [] then if (comp.2 : ℤ) ≠ target then none else some none
  else some (some ⟨[(1, comp.1)], comp.2, false, target⟩)

/-- `get_fixed_composition_constraints`,
smol/capp/generate/groundstate/upper_bound/constraints.py:184-246; `none` also when the composition
has too few entries (IndexError, line 228). -/
def fixedConstraints (comps : List (List ℕ × ℕ)) (fixed : List ℤ) : Option (List LinCon) :=
  (comps.zipIdx.mapM fun cd => fixed[cd.2]?.bind (fixedConstraint cd.1)).map List.reduceOption

/-- One row of `_get_formula_constraints`,
smol/capp/generate/groundstate/upper_bound/constraints.py:73-99; closeness to zero is equality. -/
def formulaConstraint (comps : List (List ℕ × ℕ)) (leq : Bool) (a : List ℚ) (b : ℚ) :
    Option (Option LinCon) :=
  if ∀ x ∈ a, x = 0 then
    if leq = false ∧ b ≠ 0 then none else if leq = true ∧ b < 0 then none else some none
  else
    let terms := comps.zipIdx.filterMap fun cd =>
      if cd.1.1 ≠ [] ∧ a.getD cd.2 0 ≠ 0 then some (a.getD cd.2 0, cd.1.1) else none
    let const := (comps.zipIdx.map fun cd => (cd.1.2 : ℚ) * a.getD cd.2 0).sum
    if terms = [] then
      if (leq = false ∧ const ≠ b) ∨ (leq = true ∧ b < const) then none else some none
    else some (some ⟨terms, const, leq, b⟩)

/-- `_get_formula_constraints`,
smol/capp/generate/groundstate/upper_bound/constraints.py:59-101. -/
def formulaConstraints (comps : List (List ℕ × ℕ)) (leq : Bool) (rows : List (List ℚ × ℚ))
    (skip : List ℕ) : Option (List LinCon) :=
  ((rows.zipIdx.filter fun r => decide (r.2 ∉ skip)).mapM fun r =>
    formulaConstraint comps leq r.1.1 r.1.2).map List.reduceOption

/-- `get_composition_space_constraints`,
smol/capp/generate/groundstate/upper_bound/constraints.py:159-181, given the matrices of the
composition space (`eqs`: the charge row if `charge`, one row per sublattice, then the user's
equalities, `FormatSpace.rows` in `Model/Composition`). -/
def spaceConstraints (comps : List (List ℕ × ℕ)) (nSubl : ℕ) (charge : Bool)
    (eqs leqs : List (List ℚ × ℚ)) : Option (List LinCon) :=
  let nCharge := if charge then 1 else 0
  let skip := List.range' nCharge nSubl
  let skip := if (∀ x ∈ (eqs.getD 0 ([], 0)).1, x = 0) ∧ (eqs.getD 0 ([], 0)).2 = 0
    then 0 :: skip else skip
  (formulaConstraints comps false eqs skip).bind fun cs =>
    (formulaConstraints comps true leqs []).map fun ds => cs ++ ds

/-! ## Results -/

/-- `np.array.astype(int)`: truncation toward zero,
smol/capp/generate/groundstate/upper_bound/solver.py:416-418. -/
def truncInt (q : ℚ) : ℤ := if 0 ≤ q then ⌊q⌋ else ⌈q⌉

/-- The result attributes of `PeriodicGroundStateSolver`,
smol/capp/generate/groundstate/upper_bound/solver.py:194-197. -/
structure GsState (σ : Type) where
  solution : Option (List ℤ) := none
  energy : Option ℚ := none
  occupancy : Option (List ℕ) := none
  struct : Option σ := none

/-- What a user does with a solver: solve (the underlying solver returns values and objective, or
nothing), reset, read the occupancy or the structure. -/
inductive GsOp
  | solve (result : Option (List ℚ × ℚ))
  | reset
  | readOccupancy
  | readStructure

/-- `solve`, smol/capp/generate/groundstate/upper_bound/solver.py:396-425. -/
def GsState.solve {σ : Type} (st : GsState σ) : Option (List ℚ × ℚ) → GsState σ
  | some r => { st with solution := some (r.1.map truncInt), energy := some r.2 }
  | none => { st with solution := none, energy := none }

/-- `ground_state_occupancy`, smol/capp/generate/groundstate/upper_bound/solver.py:465-478:
new state and value; the value `none` is an exception (unsolved, line 438, or not decodable).
`decode` is `get_occupancy_from_variables` for the solver's sublattices and variable indices. -/
def GsState.readOccupancy {σ : Type} (decode : List ℤ → Option (List ℕ)) (st : GsState σ) :
    GsState σ × Option (List ℕ) :=
  match st.solution, st.energy with
  | some sol, some _ =>
    match st.occupancy with
    | some o => (st, some o)
    | none =>
      match decode sol with
      | some o => ({ st with occupancy := some o }, some o)
      | none => (st, none)
  | _, _ => (st, none)

/-- `ground_state_structure`, smol/capp/generate/groundstate/upper_bound/solver.py:481-494;
`build` is `structure_from_occupancy`. -/
def GsState.readStructure {σ : Type} (decode : List ℤ → Option (List ℕ)) (build : List ℕ → σ)
    (st : GsState σ) : GsState σ × Option σ :=
  match st.solution, st.energy with
  | some _, some _ =>
    match st.struct with
    | some x => (st, some x)
    | none =>
      match st.readOccupancy decode with
      | (st', some o) => ({ st' with struct := some (build o) }, some (build o))
      | (st', none) => (st', none)
  | _, _ => (st, none)

/-- One operation; `reset` is smol/capp/generate/groundstate/upper_bound/solver.py:427-434 (the
rebuilt problem is the same one: sublattices, structure and ensemble are fixed). -/
def GsState.step {σ : Type} (decode : List ℤ → Option (List ℕ)) (build : List ℕ → σ)
    (st : GsState σ) : GsOp → GsState σ
  | .solve r => st.solve r
  | .reset => {}
  | .readOccupancy => (st.readOccupancy decode).1
  | .readStructure => (st.readStructure decode build).1

/-- A history of operations on a fresh solver. -/
def GsState.run {σ : Type} (decode : List ℤ → Option (List ℕ)) (build : List ℕ → σ)
    (ops : List GsOp) : GsState σ := ops.foldl (GsState.step decode build) {}

end Smol
