import Verif.Model.OccuUtils
import Mathlib.Analysis.SpecialFunctions.Log.Basic

/-!
# Bias terms

Models `smol/moca/kernel/bias.py`.
-/

namespace Smol

/-- A float array with `nRow` rows and `nCol` columns. -/
structure ValTable (K : Type*) where
  nRow : ℕ
  nCol : ℕ
  entry : ℕ → ℕ → K

/-- The assignments `table[sublatt.sites[:, None], sublatt.encoding] = values[None, :]`,
smol/moca/kernel/bias.py:229-232 and 268-270; `val` gives the value of a species. -/
def fillTable {K : Type*} (ps : List (Sublattice × (ℕ → K))) (t : ℕ → ℕ → K) : ℕ → ℕ → K :=
  ps.foldl (fun t p s c =>
    if s ∈ p.1.sites ∧ c ∈ p.1.encoding then p.2 (p.1.species.getD (p.1.encoding.idxOf c) 0)
    else t s c) t

/-- Array shape, smol/moca/kernel/bias.py:225-227 and 265-266. -/
def tableShape (sls : List Sublattice) : ℕ × ℕ :=
  ((sls.map fun sl => sl.sites.length).sum, (sls.flatMap Sublattice.encoding).foldl max 0 + 1)

/-- The default `compute_bias_change`, smol/moca/kernel/bias.py:79-93. -/
def defaultBiasChange {K : Type*} [Sub K] (bias : Occ → Option K) (occ : Occ) (step : Step) :
    Option K :=
  (bias (applyStep occ step)).bind fun b => (bias occ).map fun a => b - a

/-! ### FugacityBias -/

section Fugacity

/-- The `fugacity_fractions` setter with `_build_fu_table`, smol/moca/kernel/bias.py:151-176 and
215-233.  `species` is the attribute `_species` set in the constructor (121-123), `active` the
attribute `active_sublattices`.  Keys have been turned into species.  `none` is one of the
`ValueError`s.  Both loops stop at the end of the shorter list. -/
def setFugacity {K : Type*} [Field K] [DecidableEq K] (sls active : List Sublattice)
    (species : List (List ℕ)) (value : List (List (ℕ × K))) : Option (ValTable K) :=
  if ∃ fus ∈ value, ¬ (fus.map Prod.fst).Nodup then none
  else if ∃ fus ∈ value, (fus.map Prod.snd).sum ≠ 1 then none
  else if ∃ p ∈ species.zip value, ¬ ((∀ sp ∈ p.1, sp ∈ p.2.map Prod.fst) ∧
      ∀ sp ∈ p.2.map Prod.fst, sp ∈ p.1) then none
  else some ⟨(tableShape sls).1, (tableShape sls).2,
    fillTable ((active.zip value).map fun p => (p.1, fun sp => (p.2.lookup sp).getD 0))
      fun _ _ => 1⟩

/-- `table[s, c]` exists and `math.log` of it does. -/
def ValTable.LogOk (t : ValTable ℝ) (s c : ℕ) : Prop := s < t.nRow ∧ c < t.nCol ∧ 0 < t.entry s c

open Classical in
/-- `compute_bias`, smol/moca/kernel/bias.py:178-189, on an occupancy of `n` sites; `none` is an
`IndexError` or the `ValueError` of `math.log`. -/
noncomputable def fugacityBias (t : ValTable ℝ) (n : ℕ) (occ : Occ) : Option ℝ :=
  if ∀ s < n, t.LogOk s (occ s) then
    some ((List.range n).map fun s => Real.log (t.entry s (occ s))).sum
  else none

/-- Assignment to a key of a dictionary. -/
def dictSet (d : List (ℕ × ℕ)) (f : ℕ × ℕ) : List (ℕ × ℕ) :=
  if f.1 ∈ d.map Prod.fst then d.map fun g => if g.1 = f.1 then f else g else d ++ [f]

/-- `{site: code for site, code in step}`, smol/moca/kernel/bias.py:207. -/
def dictOf (step : Step) : List (ℕ × ℕ) := step.foldl dictSet []

open Classical in
/-- `compute_bias_change`, smol/moca/kernel/bias.py:191-213.
Simplification: with a fugacity fraction 0 at the present occupancy numpy's division returns `inf`
and a warning; here it is an error like `log 0`. -/
noncomputable def fugacityBiasChange (t : ValTable ℝ) (occ : Occ) (step : Step) : Option ℝ :=
  if ∀ f ∈ dictOf step, t.LogOk f.1 f.2 ∧ t.LogOk f.1 (occ f.1) then
    some ((dictOf step).map fun f => Real.log (t.entry f.1 f.2 / t.entry f.1 (occ f.1))).sum
  else none

end Fugacity

/-! ### SquareChargeBias -/

section Square
variable {K : Type*} [CommRing K]

/-- Constructor, smol/moca/kernel/bias.py:242-273; `charge` is `get_oxi_state`.
`none` is the `ValueError`. -/
def chargeTableOf [LinearOrder K] (charge : ℕ → K) (penalty : K) (sls : List Sublattice) :
    Option (ValTable K) :=
  if penalty ≤ 0 then none
  else some ⟨(tableShape sls).1, (tableShape sls).2,
    fillTable (sls.map fun sl => (sl, charge)) fun _ _ => 0⟩

/-- `compute_bias`, smol/moca/kernel/bias.py:275-287. -/
def chargeBias (penalty : K) (t : ValTable K) (n : ℕ) (occ : Occ) : Option K :=
  if ∀ s < n, s < t.nRow ∧ occ s < t.nCol then
    some (-penalty * ((List.range n).map fun s => t.entry s (occ s)).sum ^ 2)
  else none

/-- `compute_bias_change` of SquareChargeBias (inherited). -/
def chargeBiasChange (penalty : K) (t : ValTable K) (n : ℕ) (occ : Occ) (step : Step) : Option K :=
  defaultBiasChange (chargeBias penalty t n) occ step

/-! ### SquareHyperplaneBias -/

/-- Constructor, smol/moca/kernel/bias.py:297-338: the table of dimensions and their number.
`none` is the `ValueError` or a failure of `get_dim_ids_table`. -/
def hyperplaneInit [LinearOrder K] (penalty : K) (sls : List Sublattice) :
    Option (DimTable × ℕ) :=
  if penalty ≤ 0 then none
  else (getDimIdsTable false sls).map fun t => (t, (sls.map fun sl => sl.species.length).sum)

/-- One entry of `A @ n - b`. -/
def hyperplaneGap (row : List ℤ) (b : ℤ) (counts : List ℕ) : ℤ :=
  (List.zipWith (fun (a : ℤ) (m : ℕ) => a * m) row counts).sum - b

/-- `compute_bias`, smol/moca/kernel/bias.py:340-352; `none` also when the shapes do not match
in `A @ n - b` (broadcasting of a single row or intercept is not modelled). -/
def hyperplaneBias (penalty : K) (A : List (List ℤ)) (b : List ℤ) (t : DimTable × ℕ) (n : ℕ)
    (occ : Occ) : Option K :=
  (occuToCounts t.1 t.2 n occ).bind fun counts =>
    if A.length = b.length ∧ ∀ row ∈ A, row.length = counts.length then
      some (-penalty * ((List.zipWith (fun row x => hyperplaneGap row x counts ^ 2) A b).sum : ℤ))
    else none

/-- `compute_bias_change` of SquareHyperplaneBias (inherited). -/
def hyperplaneBiasChange (penalty : K) (A : List (List ℤ)) (b : List ℤ) (t : DimTable × ℕ) (n : ℕ)
    (occ : Occ) (step : Step) : Option K :=
  defaultBiasChange (hyperplaneBias penalty A b t n) occ step

end Square
end Smol
