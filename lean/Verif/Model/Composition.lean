import Verif.Model.IntLinAlg
import Verif.Model.ConstraintString

/-!
# Composition formats

smol/moca/composition/space.py: the equality constraints, the base solution, `translate_format`.

Species are natural numbers.  Floats are rational numbers.  Library calls that are not modelled are
arguments: `minSize` is `min_supercell_size` (from the polytope library), `pinv` the result of
`np.linalg.pinv(basis.T)`.  `optimize_basis=False`.
-/

namespace Smol

/-- What the constructor of `CompositionSpace` is given (smol/moca/composition/space.py:114-187) and
the results of library calls.  `eqs` are the other equality constraints, per primitive cell. -/
structure FormatSpace where
  spaces : List (List ℕ)
  vac : ℕ → Bool
  oxi : ℕ → ℤ
  sizes : List ℕ
  chargeNeutral : Bool
  eqs : List (List ℚ × ℚ)
  order : List ℕ
  minSize : ℕ
  pinv : ℕ → ℕ → ℚ
  tol : ℚ
  atol : ℚ

/-- `integerize_vector`, smol/utils/math.py:89-116: the least common multiple of the denominators
(`rationalize_number` is exact on the rationals of the model). -/
def denLcm (v : List ℚ) : ℕ := v.foldl (fun l q => Nat.lcm l q.den) 1

/-- `num_dims`, smol/moca/composition/space.py:191. -/
def FormatSpace.dims (c : FormatSpace) : ℕ := c.spaces.flatten.length

/-- The row of one sublattice, smol/moca/composition/space.py:254-258. -/
def sublatticeRow (d : ℕ) (ids : List ℕ) : List ℤ := (List.range d).map fun i => if i ∈ ids then 1 else 0

/-- One of the other constraints, made integer, smol/moca/composition/space.py:259-270. -/
def integerRow (p : List ℚ × ℚ) : List ℤ × ℚ :=
  (p.1.map fun q => round (q * (denLcm p.1 : ℚ)), p.2 * (denLcm p.1 : ℚ))

/-- The rows of `_A` with the entries of `_b`, smol/moca/composition/space.py:249-272. -/
def FormatSpace.rows (c : FormatSpace) : List (List ℤ × ℚ) :=
  (if c.chargeNeutral then [(c.spaces.flatten.map c.oxi, 0)] else []) ++
    ((dimIds c.spaces).zip c.sizes).map (fun p => (sublatticeRow c.dims p.1, (p.2 : ℚ))) ++
    c.eqs.map integerRow

/-- `_A`. -/
def FormatSpace.mat (c : FormatSpace) : IMat := fun i j => (c.rows.getD i ([], 0)).1.getD j 0

/-- `_b`. -/
def FormatSpace.rhs (c : FormatSpace) (i : ℕ) : ℚ := (c.rows.getD i ([], 0)).2

/-- The smallest size with an integer `_b`, smol/moca/composition/space.py:358. -/
def FormatSpace.minFeasible (c : FormatSpace) : ℕ := denLcm (c.rows.map Prod.snd)

/-- `solve_diophantines(_A, np.round(_b * size))`, smol/moca/composition/space.py:366-368, 386-388. -/
def FormatSpace.solve (c : FormatSpace) (size : ℕ) : Option ((ℕ → ℤ) × List (ℕ → ℤ)) :=
  solveDioph c.rows.length c.dims c.mat fun i => round (c.rhs i * size)

/-- `get_supercell_base_solution`, smol/moca/composition/space.py:340-370. -/
def FormatSpace.baseSolution (c : FormatSpace) (size : ℕ) : Option (ℕ → ℤ) :=
  if size % c.minFeasible ≠ 0 then none
  else (c.solve c.minFeasible).map fun r i => (r.1 i * (size : ℤ)).fdiv c.minFeasible

/-- `basis`, smol/moca/composition/space.py:372-404, not optimized. -/
def FormatSpace.basis (c : FormatSpace) : Option (List (ℕ → ℤ)) := (c.solve c.minSize).map Prod.snd

/-! ### pymatgen compositions -/

/-- A `pymatgen` `Composition`: species with amounts. -/
abbrev Comp := List (ℕ × ℚ)

/-- `Composition(dict)`: negative amounts raise, small ones are dropped. -/
def Comp.make (atol : ℚ) (entries : List (ℕ × ℚ)) : Option Comp :=
  if entries.any fun e => e.2 < -atol then none
  else some (entries.filter fun e => atol ≤ |e.2|)

/-- `comp.num_atoms`. -/
def Comp.numAtoms (c : Comp) : ℚ := (c.map fun e => |e.2|).sum

/-- `comp[specie]`. -/
def Comp.amount (c : Comp) (s : ℕ) : ℚ := ((c.find? fun e => e.1 = s).map Prod.snd).getD 0

/-! ### Conversions -/

/-- The formats. -/
inductive Form | counts | coordinates | compositions | speciesCounts | unknown
  deriving DecidableEq

/-- A value given or returned. -/
inductive CompRepr
  | vec (v : List ℚ)
  | comps (l : List Comp)
  deriving DecidableEq

/-- Counts of one sublattice from its composition, smol/moca/composition/space.py:598-628. -/
def sublatticeCounts (vac : ℕ → Bool) (species : List ℕ) (sites : ℚ) (comp : Comp) : Option (List ℚ) :=
  if 1 < comp.numAtoms ∨ comp.numAtoms < 0 then none
  else if 1 < species.countP vac then none
  else some (species.map fun s =>
    if vac s then (1 - Comp.numAtoms (comp.filter fun e => ¬ vac e.1)) * sites
    else comp.amount s * sites)

/-- `np.round` with the check, smol/moca/composition/space.py:633-637 and 673-677. -/
def roundChecked (tol : ℚ) (n : List ℚ) : Option (List ℚ) :=
  if n.any fun x => tol < |(round x : ℚ) - x| then none else some (n.map fun x => (round x : ℚ))

/-- `basis.T @ c + n0`, smol/moca/composition/space.py:594-596. -/
def fromCoordinates (d : ℕ) (n0 : ℕ → ℤ) (basis : List (ℕ → ℤ)) (x : List ℚ) : Option (List ℚ) :=
  if x.length ≠ basis.length then none
  else some ((List.range d).map fun i =>
    (List.zipWith (fun (v : ℕ → ℤ) (a : ℚ) => (v i : ℚ) * a) basis x).sum + (n0 i : ℚ))

/-- The body of `_convert_to_counts` without rounding, smol/moca/composition/space.py:589-631. -/
def FormatSpace.toCountsRaw (c : FormatSpace) (size : ℕ) : Form → CompRepr → Option (List ℚ)
  | .counts, .vec v => some v
  | .coordinates, .vec x =>
    (c.basis).bind fun vs => (c.baseSolution size).bind fun n0 => fromCoordinates c.dims n0 vs x
  | .compositions, .comps l =>
    (((c.spaces.zip c.sizes).zip l).mapM fun p =>
      sublatticeCounts c.vac p.1.1 ((p.1.2 : ℚ) * size) p.2).map List.flatten
  | _, _ => none

/-- `_convert_to_counts`, smol/moca/composition/space.py:587-639. -/
def FormatSpace.toCounts (c : FormatSpace) (size : ℕ) (rounding : Bool) (f : Form) (r : CompRepr) :
    Option (List ℚ) :=
  (c.toCountsRaw size f r).bind fun n => if rounding then roundChecked c.tol n else some n

/-- `row @ n`. -/
def rowDot (row : List ℤ) (n : List ℚ) : ℚ := (List.zipWith (fun (a : ℤ) (x : ℚ) => (a : ℚ) * x) row n).sum

/-- The checks of `_convert_counts_to`, smol/moca/composition/space.py:642-649. -/
def FormatSpace.checks (c : FormatSpace) (size : ℕ) (n : List ℚ) : Bool :=
  n.length = c.dims && size ≠ 0 && (n.all fun x => -c.tol ≤ x) &&
    c.rows.all fun r => |rowDot r.1 (n.map fun x => x / size) - r.2| ≤ c.tol

/-- The composition of one sublattice, smol/moca/composition/space.py:661-669. -/
def sublatticeComp (vac : ℕ → Bool) (atol : ℚ) (species : List ℕ) (sites : ℚ) (n : List ℚ) : Option Comp :=
  Comp.make atol ((species.zip (n.map fun x => x / sites)).filter fun e => ¬ vac e.1)

/-- Index of a species in `self.species`; all vacancies are one species,
smol/moca/composition/space.py:196-222. -/
def speciesIndex (vac : ℕ → Bool) (order : List ℕ) (s : ℕ) : ℕ :=
  if vac s then order.findIdx vac else order.idxOf s

/-- `c[species_ids] += n[dim_id]`, smol/moca/composition/space.py:672. -/
def addAt (c : List ℚ) (ids : List ℕ) (n : List ℚ) : List ℚ :=
  (ids.zip n).foldl (fun (a : List ℚ) p => a.set p.1 (c.getD p.1 0 + p.2)) c

/-- The body of `_convert_counts_to`, smol/moca/composition/space.py:651-676. -/
def FormatSpace.fromCountsRaw (c : FormatSpace) (size : ℕ) (n : List ℚ) : Form → Option CompRepr
  | .counts => some (.vec n)
  | .coordinates =>
    (c.basis).bind fun vs => (c.baseSolution size).map fun n0 =>
      .vec ((List.range vs.length).map fun k =>
        ((List.range c.dims).map fun i => c.pinv k i * (n.getD i 0 - (n0 i : ℚ))).sum)
  | .compositions =>
    (((c.spaces.zip c.sizes).zip (dimIds c.spaces)).mapM fun p =>
      sublatticeComp c.vac c.atol p.1.1 ((p.1.2 : ℚ) * size) (p.2.map fun i => n.getD i 0)).map .comps
  | .speciesCounts =>
    some (.vec ((c.spaces.zip (dimIds c.spaces)).foldl (fun acc p =>
      addAt acc (p.1.map (speciesIndex c.vac c.order)) (p.2.map fun i => n.getD i 0))
      (List.replicate c.order.length 0)))
  | .unknown => none

/-- Rounding of the result, smol/moca/composition/space.py:678-682. -/
def roundRepr (tol : ℚ) : CompRepr → Option CompRepr
  | .vec v => (roundChecked tol v).map .vec
  | .comps l => some (.comps l)

/-- `_convert_counts_to`, smol/moca/composition/space.py:641-683. -/
def FormatSpace.fromCounts (c : FormatSpace) (size : ℕ) (rounding : Bool) (n : List ℚ) (f : Form) :
    Option CompRepr :=
  if c.checks size n then
    (c.fromCountsRaw size n f).bind fun r => if rounding then roundRepr c.tol r else some r
  else none

/-- `translate_format`, smol/moca/composition/space.py:529-585. -/
def FormatSpace.translate (c : FormatSpace) (size : ℕ) (rounding : Bool) (f g : Form) (r : CompRepr) :
    Option CompRepr :=
  if f = .speciesCounts then none
  else (c.toCounts size rounding f r).bind fun n => c.fromCounts size rounding n g

end Smol
