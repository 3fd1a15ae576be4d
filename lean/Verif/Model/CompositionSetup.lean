import Verif.Model.Composition
import Verif.Model.OrbitGen

/-!
# Setting up, saving and loading a composition space

Models `rationalize_number`, `integerize_vector` and `integerize_multiple` of `smol/utils/math.py`,
the constructor of `CompositionSpace`, `min_supercell_size`, `as_dict` and `from_dict`
(`smol/moca/composition/space.py`), and how explicit constraints are filed
(`smol/moca/composition/constraints.py`).

`Fraction.limit_denominator` of the python library is an argument `lim`; `limitDenominator` is a
function doing what its documentation says.  `np.linalg.matrix_rank` is an argument `rank`.
Simplifications: floats are rational numbers, integers have no size limit, species are numbers with
an oxidation state (`Element`s have 0) and are saved and loaded by pymatgen as they are, arrays made
of rows of different lengths do not raise.
-/

namespace Smol

/-! ### Rationalizing -/

/-- `Fraction.limit_denominator(N)`: a closest fraction among those with denominator at most `N`. -/
def limitDenominator (N : ℕ) (x : ℚ) : ℚ :=
  (List.range N).foldl
    (fun best (k : ℕ) =>
      let y : ℚ := (round (x * ((k : ℚ) + 1)) : ℚ) / ((k : ℚ) + 1)
      if |y - x| < |best - x| then y else best)
    (round x : ℚ)

/-- `rationalize_number`, smol/utils/math.py:61-86; `none` is the `ValueError`. -/
def rationalize (lim : ℕ → ℚ → ℚ) (N : ℕ) (dtol a : ℚ) : Option (ℤ × ℕ) :=
  let f := lim N a
  if |(f.num : ℚ) / f.den - a| > dtol then none else some (f.num, f.den)

/-- `integerize_vector`, smol/utils/math.py:89-116.  `np.lcm.reduce` raises on an empty list. -/
def integerizeVector (lim : ℕ → ℚ → ℚ) (N : ℕ) (dtol : ℚ) (v : List ℚ) : Option (List ℤ × ℕ) :=
  (v.mapM (rationalize lim N dtol)).bind fun rs =>
    if rs.isEmpty then none
    else
      let l := rs.foldl (fun l r => Nat.lcm l r.2) 1
      some (v.map fun c => npRound (c * (l : ℚ)), l)

/-- `np.reshape`: rows of the given lengths. -/
def regroup {α : Type*} : List ℕ → List α → List (List α)
  | [], _ => []
  | n :: ns, l => l.take n :: regroup ns (l.drop n)

/-- `integerize_multiple`, smol/utils/math.py:119-143. -/
def integerizeMultiple (lim : ℕ → ℚ → ℚ) (N : ℕ) (dtol : ℚ) (vs : List (List ℚ)) :
    Option (List (List ℤ) × ℕ) :=
  (integerizeVector lim N dtol vs.flatten).map fun r => (regroup (vs.map List.length) r.1, r.2)

/-! ### Constraints -/

/-- A constraint given as a tuple: coefficients, right hand side, relation. -/
abbrev ConTuple := List ℚ × ℚ × String

/-- Filing one constraint, smol/moca/composition/constraints.py:276-281; any other relation is
dropped without a word. -/
def fileTuple (st : List (List ℚ × ℚ) × List (List ℚ × ℚ)) (e : ConTuple) :
    List (List ℚ × ℚ) × List (List ℚ × ℚ) :=
  let st := if e.2.2 = "leq" ∨ e.2.2 = "<=" then (st.1, st.2 ++ [(e.1, e.2.1)]) else st
  let st := if e.2.2 = "geq" ∨ e.2.2 = ">=" then
    (st.1, st.2 ++ [(e.1.map fun x => -1 * x, -1 * e.2.1)]) else st
  if e.2.2 = "eq" ∨ e.2.2 = "==" ∨ e.2.2 = "=" then (st.1 ++ [(e.1, e.2.1)], st.2) else st

/-- The value of `other_constraints` of a new object, smol/moca/composition/constraints.py:251-293:
equalities and `≤`. -/
def fileAll (es : List ConTuple) : List (List ℚ × ℚ) × List (List ℚ × ℚ) := es.foldl fileTuple ([], [])

/-- `_other_eq_constraints` and `_other_leq_constraints`, smol/moca/composition/space.py:240-247. -/
def filed : Option (List ConTuple) → List (List ℚ × ℚ) × List (List ℚ × ℚ)
  | none => ([], [])
  | some es => fileAll es

/-! ### The constructor -/

/-- The arguments of `CompositionSpace`, smol/moca/composition/space.py:117-126. -/
structure SpaceArgs where
  spaces : List (List ℕ)
  sizes : Option (List ℕ)
  constraints : Option (List ConTuple)
  chargeNeutral : Bool
  optimizeBasis : Bool
  tableErgodic : Bool

/-- Library functions and constants. -/
structure SpaceEnv where
  /-- `sp.oxi_state`, 0 for an `Element` -/
  oxi : ℕ → ℚ
  lim : ℕ → ℚ → ℚ
  rank : List (List ℤ) → ℕ
  maxDen : ℕ
  dtol : ℚ

/-- The attributes of a composition space.  `leqs` is `None` if `_A_leq` is; the last six are
computed when first asked for. -/
structure Space where
  spaces : List (List ℕ)
  sizes : List ℕ
  chargeNeutral : Bool
  optimizeBasis : Bool
  tableErgodic : Bool
  A : List (List ℤ)
  b : List ℚ
  leqs : Option (List (List ℚ) × List ℚ)
  primVertices : Option (List (List ℚ)) := none
  minSize : Option ℕ := none
  n0 : Option (List ℤ) := none
  vs : Option (List (List ℤ)) := none
  flipTable : Option (List (List ℤ)) := none
  grids : List ((ℕ × ℕ) × List (List ℤ)) := []

/-- `int(x)`: towards zero. -/
def truncate (x : ℚ) : ℤ := if 0 ≤ x then ⌊x⌋ else ⌈x⌉

/-- `get_oxi_state`, smol/moca/composition/space.py:28-40. -/
def SpaceEnv.oxiState (env : SpaceEnv) (s : ℕ) : ℤ := truncate (env.oxi s)

/-- `sublattice_sizes`, smol/moca/composition/space.py:226-234. -/
def sizesOf (spaces : List (List ℕ)) : Option (List ℕ) → Option (List ℕ)
  | none => some (spaces.map fun _ => 1)
  | some s => if s.length = spaces.length then some s else none

/-- One of the other equality constraints, smol/moca/composition/space.py:259-270; `none` is an
exception. -/
def SpaceEnv.eqRow (env : SpaceEnv) (dims : ℕ) (e : List ℚ × ℚ) : Option (List ℤ × ℚ) :=
  if e.1.length ≠ dims then none
  else (integerizeVector env.lim env.maxDen env.dtol e.1).map fun r =>
    (e.1.map fun c => npRound (c * (r.2 : ℚ)), e.2 * (r.2 : ℚ))

/-- The constraints, smol/moca/composition/space.py:249-270. -/
def SpaceEnv.eqRows (env : SpaceEnv) (spaces : List (List ℕ)) (sizes : List ℕ) (charge : Bool)
    (eqs : List (List ℚ × ℚ)) : Option (List (List ℤ × ℚ)) :=
  (eqs.mapM (env.eqRow spaces.flatten.length)).map fun rs =>
    (if charge then [(spaces.flatten.map env.oxiState, 0)] else []) ++
      ((dimIds spaces).zip sizes).map (fun p => (sublatticeRow spaces.flatten.length p.1, (p.2 : ℚ))) ++ rs

/-- `CompositionSpace.__init__`, smol/moca/composition/space.py:197-295; `none` is an exception. -/
def SpaceEnv.construct (env : SpaceEnv) (a : SpaceArgs) : Option Space :=
  (sizesOf a.spaces a.sizes).bind fun sizes =>
    let cons := filed a.constraints
    (env.eqRows a.spaces sizes a.chargeNeutral cons.1).bind fun rows =>
      if a.spaces.flatten.length ≤ env.rank (rows.map Prod.fst) then none
      else some
        { spaces := a.spaces
          sizes := sizes
          chargeNeutral := a.chargeNeutral
          optimizeBasis := a.optimizeBasis
          tableErgodic := a.tableErgodic
          A := rows.map Prod.fst
          b := rows.map Prod.snd
          leqs := if 0 < cons.2.length then some (cons.2.map Prod.fst, cons.2.map Prod.snd) else none }

/-- `min_supercell_size`, smol/moca/composition/space.py:312-325, given the vertices. -/
def SpaceEnv.minSizeOf (env : SpaceEnv) (vertices : List (List ℚ)) : Option ℕ :=
  (integerizeMultiple env.lim env.maxDen env.dtol vertices).map Prod.snd

/-! ### Saving and loading -/

/-- The dictionary of a composition space, smol/moca/composition/space.py:717-732. -/
structure SpaceDict where
  bits : List (List ℕ)
  sizes : List ℕ
  constraints : List ConTuple
  chargeNeutral : Bool
  optimizeBasis : Bool
  tableErgodic : Bool
  minSize : Option ℕ
  primVertices : Option (List (List ℚ))
  n0 : Option (List ℤ)
  vs : Option (List (List ℤ))
  flipTable : Option (List (List ℤ))
  grids : List (List Char × List (List ℤ))

/-- `f"{k[0]}_{k[1]}"`, smol/moca/composition/space.py:707-709. -/
def encodeKey (k : ℕ × ℕ) : List Char := Nat.toDigits 10 k.1 ++ '_' :: Nat.toDigits 10 k.2

/-- `int`: digits only; anything else raises (signs and blanks, which python accepts, do not occur
here). -/
def intOf (s : List Char) : Option ℕ :=
  if s.isEmpty then none else if s.all Char.isDigit then some (Nat.ofDigitChars 10 s 0) else none

/-- `(int(k.split("_")[0]), int(k.split("_")[1]))`, smol/moca/composition/space.py:781. -/
def decodeKey (s : List Char) : Option (ℕ × ℕ) :=
  let parts := s.splitOn '_'
  match parts[0]?, parts[1]? with
  | some p, some q => (intOf p).bind fun a => (intOf q).map fun b => (a, b)
  | _, _ => none

/-- `CompositionSpace.as_dict`, smol/moca/composition/space.py:680-732. -/
def Space.asDict (s : Space) : SpaceDict :=
  let nCons := s.spaces.length + (if s.chargeNeutral then 1 else 0)
  let eqs : List ConTuple :=
    ((s.A.drop nCons).zip (s.b.drop nCons)).map fun p => (p.1.map fun (x : ℤ) => (x : ℚ), p.2, "eq")
  let leqs : List ConTuple := match s.leqs with
    | some l => (l.1.zip l.2).map fun p => (p.1, p.2, "leq")
    | none => []
  { bits := s.spaces
    sizes := s.sizes
    constraints := eqs ++ leqs
    chargeNeutral := s.chargeNeutral
    optimizeBasis := s.optimizeBasis
    tableErgodic := s.tableErgodic
    minSize := s.minSize
    primVertices := s.primVertices
    n0 := s.n0
    vs := s.vs
    flipTable := s.flipTable
    grids := s.grids.map fun e => (encodeKey e.1, e.2) }

/-- `CompositionSpace.from_dict`, smol/moca/composition/space.py:734-786. -/
def SpaceEnv.fromDict (env : SpaceEnv) (d : SpaceDict) : Option Space :=
  (env.construct ⟨d.bits, some d.sizes, some d.constraints, d.chargeNeutral, d.optimizeBasis,
      d.tableErgodic⟩).bind fun obj =>
    (d.grids.mapM fun e => (decodeKey e.1).map fun k => (k, e.2)).map fun grids =>
      { obj with
        minSize := d.minSize
        primVertices := d.primVertices
        n0 := d.n0
        vs := d.vs
        flipTable := d.flipTable
        grids := grids }

end Smol
