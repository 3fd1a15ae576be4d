import Verif.Model.Prog
import Verif.Model.OccuUtils
import Mathlib.Data.List.Sublists

/-!
# Ushers: how Monte Carlo steps are proposed

Models `smol/moca/kernel/mcusher.py`.
-/

namespace Smol
open Prog

/-- `active_sublattices`, smol/moca/kernel/mcusher.py:57-59. -/
def activeSublattices (sls : List Sublattice) : List Sublattice := sls.filter Sublattice.isActive

/-- `sublattice_probabilities` argument of the constructor, smol/moca/kernel/mcusher.py:61-75.
`none` is an exception (`1 / 0`, wrong length, wrong sum). -/
def usherProbs (nActive : ℕ) : Option (List ℚ) → Option (List ℚ)
  | none => if nActive = 0 then none else some (List.replicate nActive (1 / (nActive : ℚ)))
  | some p => if p.length ≠ nActive then none else if p.sum ≠ 1 then none else some p

/-- Setter of `sublattice_probabilities`, smol/moca/kernel/mcusher.py:89-102. -/
def setProbs (nActive : ℕ) (p : List ℚ) : Option (List ℚ) :=
  if p.length ≠ nActive then none else if p.sum ≠ 1 then none else some p

/-- `Flip.propose_step`, smol/moca/kernel/mcusher.py:154-170.  `act` and `probs` are the active
sublattices and their probabilities. -/
def flipPropose (g : Rng) (act : List Sublattice) (probs : List ℚ) (occ : Occ) : Prog Step :=
  (chooseW g act probs).bind fun sl =>
  (choose g sl.active).bind fun site =>
  (choose g (sl.encoding.dedup.filter fun c => decide (c ≠ occ site))).bind fun c =>
  ret [(site, c)]

/-- `Swap.propose_step`, smol/moca/kernel/mcusher.py:176-200. -/
def swapPropose (g : Rng) (act : List Sublattice) (probs : List ℚ) (occ : Occ) : Prog Step :=
  (chooseW g act probs).bind fun sl =>
  (choose g sl.active).bind fun site1 =>
  let options := sl.active.filter fun s => decide (occ s ≠ occ site1)
  if options ≠ [] then
    (choose g options).bind fun site2 => ret [(site1, occ site2), (site2, occ site1)]
  else ret []

/-- Loop of `MultiStep.propose_step`, smol/moca/kernel/mcusher.py:295-301.  `acc` are the flips
collected so far. -/
def multiLoop (inner : Occ → Prog Step) : ℕ → Occ → Step → Prog Step
  | 0, _, acc => ret acc
  | k + 1, occ, acc =>
    (inner occ).bind fun st =>
      if ∀ f ∈ st, f.1 ∉ acc.map Prod.fst then
        multiLoop inner k (applyStep occ st) (acc ++ st)
      else multiLoop inner k occ acc

/-- `MultiStep.propose_step`, smol/moca/kernel/mcusher.py:286-304. -/
def multiPropose (g : Rng) (lens : List ℕ) (p : List ℚ) (inner : Occ → Prog Step) (occ : Occ) :
    Prog Step :=
  (chooseW g lens p).bind fun len =>
  (inner occ).bind fun st => multiLoop inner (len - 1) (applyStep occ st) st

/-- `Composite._update_p`, smol/moca/kernel/mcusher.py:385-390. -/
def compositeProbs (weights : List ℚ) : List ℚ := weights.map fun w => w / weights.sum

/-- `Composite.propose_step`, smol/moca/kernel/mcusher.py:392-394. -/
def compositePropose (g : Rng) (ushers : List (Occ → Prog Step)) (weights : List ℚ) (occ : Occ) :
    Prog Step :=
  (chooseW g ushers (compositeProbs weights)).bind fun u => u occ

/-- An exception. -/
def fail {α : Type} : Prog α := pick .shared 0 (fun i => i.elim0) fun i => i.elim0

/-- `directions` of `flip_weights_mask`, smol/utils/math.py:855. -/
def flipDirections (table : List (List ℤ)) : List (List ℤ) :=
  table.flatMap fun u => [u, u.map fun x => -x]

/-- `flip_weights_mask` with `max_n` given, smol/utils/math.py:832-866. -/
def flipWeightsMask (table : List (List ℤ)) (n maxN : List ℕ) : List Bool :=
  (flipDirections table).map fun v =>
    !((List.zipWith (fun (a : ℤ) (b : ℕ) => a + b) v n).any (fun x => decide (x < 0)) ||
      (List.zipWith (fun (x : ℤ) (m : ℕ) => decide (x > m))
        (List.zipWith (fun (a : ℤ) (b : ℕ) => a + b) v n) maxN).any id)

/-- A TableFlip usher, smol/moca/kernel/mcusher.py:488-551: `sls` are the sublattices, `dimTable`
and `dimFull` the tables computed at construction (lines 541-542), `maxN` likewise (497-501),
`A` and `b` the constraints of the composition space (`b` times the supercell size). -/
structure TableFlipper where
  sls : List Sublattice
  table : List (List ℤ)
  weights : List ℚ
  swapWeight : ℚ
  dimTable : DimTable
  dimFull : DimTable
  maxN : List ℕ
  A : List (List ℤ)
  b : List ℤ

/-- `self.max_n`, smol/moca/kernel/mcusher.py:497-501. -/
def tableMaxN (sls : List Sublattice) : List ℕ :=
  sls.flatMap fun sl => sl.species.map fun _ => sl.active.length

/-- `flip_weights` argument, smol/moca/kernel/mcusher.py:521-538; `none` is the `ValueError`. -/
def tableWeights (rows : ℕ) : Option (List ℚ) → Option (List ℚ)
  | none => some (List.replicate (rows * 2) 1)
  | some w =>
    if w.length ≠ rows ∧ w.length ≠ rows * 2 then none
    else
      let w₁ := if w.length = rows then w.flatMap fun x => [x, x] else w
      some (if w.length = 2 * rows then w else w₁)

/-- Constructor, smol/moca/kernel/mcusher.py:488-551, with the flip table given. -/
def TableFlipper.new (sls : List Sublattice) (table : List (List ℤ)) (weights : Option (List ℚ))
    (swapWeight : ℚ) (A : List (List ℤ)) (b : List ℤ) : Option TableFlipper :=
  match tableWeights table.length weights, getDimIdsTable true sls, getDimIdsTable false sls with
  | some w, some dt, some df => some ⟨sls, table, w, swapWeight, dt, df, tableMaxN sls, A, b⟩
  | _, _, _ => none

/-- `self.d`, smol/moca/kernel/mcusher.py:502. -/
def TableFlipper.d (t : TableFlipper) : ℕ := t.maxN.length

/-- `rng.choice(species_list[d], size=-u[d], replace=False)` for all `d` with `u[d] < 0`,
smol/moca/kernel/mcusher.py:629-632. -/
def fromLoop (species : ℕ → List ℕ) (u : ℕ → ℤ) : List ℕ → List ℕ → Prog (List ℕ)
  | [], acc => ret acc
  | d :: ds, acc =>
    (chooseSub .shared (-(u d)).toNat (species d)).bind fun sites =>
      fromLoop species u ds (acc ++ sites)

/-- Handing the chosen sites to the species that gain, smol/moca/kernel/mcusher.py:633-636. -/
def toLoop (u : ℕ → ℤ) : List (ℕ × ℕ) → List ℕ → Step → Prog Step
  | [], siteIds, step => if siteIds = [] then ret step else fail
  | (d, code) :: ds, siteIds, step =>
    (chooseSub .shared (u d).toNat siteIds).bind fun chosen =>
      toLoop u ds (siteIds.filter fun s => decide (s ∉ chosen)) (step ++ chosen.map fun s => (s, code))

/-- Loop over sublattices, smol/moca/kernel/mcusher.py:620-637; `dims` are the dimensions of the
sublattice. -/
def tableLoop (species : ℕ → List ℕ) (u : ℕ → ℤ) : List (Sublattice × List ℕ) → Step → Prog Step
  | [], step => ret step
  | (sl, dims) :: rest, step =>
    if sl.isActive then
      (fromLoop species u (dims.filter fun d => decide (u d < 0)) []).bind fun siteIds =>
      (toLoop u ((dims.zip sl.encoding).filter fun p => decide (u p.1 > 0)) siteIds step).bind
        fun step => tableLoop species u rest step
    else tableLoop species u rest step

/-- `A @ n == b`, smol/moca/kernel/mcusher.py:587-590.  Simplification: exact equality instead of
`np.allclose`. -/
def constraintsHold (A : List (List ℤ)) (b : List ℤ) (n : List ℕ) : Bool :=
  decide (A.map (fun row => (List.zipWith (fun (a : ℤ) (x : ℕ) => a * x) row n).sum) = b)

/-- `masked_weights`, smol/moca/kernel/mcusher.py:587-598. -/
def TableFlipper.maskedWeights (t : TableFlipper) (n nFull : List ℕ) : List ℚ :=
  if constraintsHold t.A t.b nFull then
    List.zipWith (fun w m => if m then w else 0) t.weights (flipWeightsMask t.table n t.maxN)
  else List.replicate (2 * t.table.length) 0

/-- The direction with index `idx`, smol/moca/kernel/mcusher.py:613-616. -/
def TableFlipper.direction (t : TableFlipper) (idx : ℕ) (d : ℕ) : ℤ :=
  if idx % 2 = 1 then -(t.table.getD (idx / 2) []).getD d 0
  else (t.table.getD (idx / 2) []).getD d 0

/-- `self.dim_ids`, smol/moca/kernel/mcusher.py:491. -/
def TableFlipper.dimIds (t : TableFlipper) : List (List ℕ) :=
  getDimIdsBySublattice (t.sls.map Sublattice.species) 0

/-- The swap usher inside, smol/moca/kernel/mcusher.py:540: built without the generator. -/
def TableFlipper.swap (t : TableFlipper) (occ : Occ) : Prog Step :=
  swapPropose .own (activeSublattices t.sls)
    (List.replicate (activeSublattices t.sls).length (1 / ((activeSublattices t.sls).length : ℚ))) occ

/-- The part of `propose_step` after the choice not to swap, smol/moca/kernel/mcusher.py:581-639.
`n` is the number of sites. -/
def TableFlipper.tableStep (t : TableFlipper) (n : ℕ) (occ : Occ) : Prog Step :=
  match occuToSpeciesList t.dimTable t.d n occ, occuToSpeciesList t.dimFull t.d n occ with
  | some sp, some spFull =>
    let mw := t.maskedWeights (sp.map List.length) (spFull.map List.length)
    if ∃ w ∈ mw, w < 0 then fail
    else if ∀ w ∈ mw, w = 0 then t.swap occ
    else
      (chooseW .shared (List.range mw.length) (mw.map fun w => w / mw.sum)).bind fun idx =>
      tableLoop (fun d => sp.getD d []) (t.direction idx) (t.sls.zip t.dimIds) []
  | _, _ => fail

/-- `TableFlip.propose_step`, smol/moca/kernel/mcusher.py:553-639. -/
def TableFlipper.propose (t : TableFlipper) (n : ℕ) (occ : Occ) : Prog Step :=
  (coin .shared t.swapWeight).bind fun sw => if sw then t.swap occ else t.tableStep n occ

/-- `_get_flip_id`, smol/moca/kernel/mcusher.py:641-654.  `some none` is the result `-1`. -/
def getFlipId (table : List (List ℤ)) (dn : List ℤ) : Option (Option (ℕ × ℕ)) :=
  if ∀ x ∈ dn, x = 0 then some none
  else
    match table.findIdx? fun v => decide (v = dn ∨ v.map (fun x => -x) = dn) with
    | none => none
    | some fid => some (some (fid, if table.getD fid [] = dn then 0 else 1))

/-- The exponential of `compute_log_priori_factor`, smol/moca/kernel/mcusher.py:656-711; `none` is
an exception.  The code returns the logarithm, which is `-inf` when the factor is 0; keeping the
factor itself avoids infinite values. -/
def TableFlipper.prioriFactor (t : TableFlipper) (n : ℕ) (occ : Occ) (step : Step) : Option ℚ :=
  match deltaCounts t.dimTable t.d occ step with
  | none => none
  | some dn =>
    match getFlipId t.table dn with
    | none => none
    | some none => some 1
    | some (some (fid, direction)) =>
      match occuToCounts t.dimTable t.d n occ with
      | none => none
      | some nNow =>
        let u := (t.table.getD fid []).map fun x => (-2 * (direction : ℤ) + 1) * x
        let nNext : List ℕ := List.zipWith (fun (a : ℕ) (x : ℤ) => (a + x).toNat) nNow u
        let weightsNow := List.zipWith (fun w m => if m then w else 0) t.weights
          (flipWeightsMask t.table nNow t.maxN)
        let weightsNext := List.zipWith (fun w m => if m then w else 0) t.weights
          (flipWeightsMask t.table nNext t.maxN)
        let pNow := (1 - t.swapWeight) * weightsNow.getD (fid * 2 + direction) 0 / weightsNow.sum
        let pNext :=
          (1 - t.swapWeight) * weightsNext.getD (fid * 2 + (1 - direction)) 0 / weightsNext.sum
        let dims := (List.range u.length).filter fun d => decide (u.getD d 0 ≠ 0)
        some (pNext / pNow *
          (dims.map fun d => ((nNow.getD d 0).factorial : ℚ) / ((nNext.getD d 0).factorial : ℚ)).prod)

/-- The ushers a kernel can be given, smol/moca/kernel/mcusher.py: compound ushers contain other
ushers to any depth, and every usher may have its own list of sublattices. -/
inductive Usher
  | flip (g : Rng) (act : List Sublattice) (probs : List ℚ)
  | swap (g : Rng) (act : List Sublattice) (probs : List ℚ)
  | multi (g : Rng) (lens : List ℕ) (p : List ℚ) (inner : Usher)
  | composite (g : Rng) (n : ℕ) (us : Fin n → Usher) (weights : List ℚ)
  | table (t : TableFlipper) (n : ℕ)

/-- `propose_step` of any usher. -/
def Usher.propose : Usher → Occ → Prog Step
  | flip g act probs => flipPropose g act probs
  | swap g act probs => swapPropose g act probs
  | multi g lens p inner => multiPropose g lens p inner.propose
  | composite g _ us weights =>
    compositePropose g (List.ofFn fun i => (us i).propose) weights
  | table t n => t.propose n

/-- Exponential of `compute_log_priori_factor` of any usher: `TableFlip` overrides it, all others,
also the compound ones, inherit `return 0` (smol/moca/kernel/mcusher.py:120-136). -/
def Usher.factor : Usher → Occ → Step → Option ℚ
  | table t n => t.prioriFactor n
  | _ => fun _ _ => some 1

end Smol
