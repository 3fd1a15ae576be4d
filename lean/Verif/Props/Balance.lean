import Verif.Lemmas.UsherTree
import Mathlib.MeasureTheory.Measure.Lebesgue.Basic
import Mathlib.Analysis.SpecialFunctions.Log.Basic

/-!
# Acceptance and detailed balance (C07-C11, C37)
-/

namespace Smol
open Prog Spec

theorem exp_lt_one_of_neg {e : ℝ} (h : e < 0) : Real.exp e < 1 := by
  have := Real.exp_lt_exp.2 h
  rwa [Real.exp_zero] at this

/-! ### C07 -/

/-- C07. The set of uniform draws that accept has measure `min(1, exp e)`. -/
theorem C07_acceptance_probability (e : ℝ) :
    MeasureTheory.volume {u ∈ Set.Ioo (0 : ℝ) 1 | (acceptDraw e u).1 = true} =
      ENNReal.ofReal (min 1 (Real.exp e)) := by
  unfold acceptDraw
  by_cases he : 0 ≤ e
  · have : {u ∈ Set.Ioo (0 : ℝ) 1 | (if 0 ≤ e then (true, 0)
        else (decide (Real.log u < e), 1)).1 = true} = Set.Ioo 0 1 := by
      ext u; simp [he]
    rw [this, Real.volume_Ioo, min_eq_left (Real.one_le_exp he)]
    simp
  · have he' : e < 0 := not_le.1 he
    have : {u ∈ Set.Ioo (0 : ℝ) 1 | (if 0 ≤ e then (true, 0)
        else (decide (Real.log u < e), 1)).1 = true} = Set.Ioo 0 (Real.exp e) := by
      ext u
      simp only [if_neg he, Set.mem_ofPred_eq, Set.mem_Ioo, decide_eq_true_eq]
      constructor
      · rintro ⟨⟨h0, _⟩, hl⟩; exact ⟨h0, (Real.log_lt_iff_lt_exp h0).1 hl⟩
      · rintro ⟨h0, hl⟩
        exact ⟨⟨h0, hl.trans (exp_lt_one_of_neg he')⟩, (Real.log_lt_iff_lt_exp h0).2 hl⟩
    rw [this, Real.volume_Ioo, min_eq_right (exp_lt_one_of_neg he').le, sub_zero]

/-- C07. A random number is drawn exactly when the exponent is negative, whatever it would be. -/
theorem C07_draws_iff_negative (e u : ℝ) : ((acceptDraw e u).2 = 1 ↔ e < 0) ∧
    ((acceptDraw e u).2 = 0 ↔ 0 ≤ e) := by
  unfold acceptDraw
  by_cases he : 0 ≤ e
  · simp [he]
  · simp [he, not_le.1 he]

/-- C07. With a positive a-priori factor whose logarithm the usher returns, and a bias change or
none, the acceptance probability is the one used in the detailed balance theorems. -/
theorem C07_exponent (beta dH dB factor : ℝ) (hf : 0 < factor) :
    Real.exp (metropolisExponent beta dH (Real.log factor) (some dB)) =
      Real.exp (-beta * dH + dB) * factor ∧
    Real.exp (metropolisExponent beta dH (Real.log factor) none) =
      Real.exp (-beta * dH) * factor := by
  unfold metropolisExponent
  refine ⟨?_, ?_⟩
  · rw [Option.getD_some, show -beta * dH + Real.log factor + dB = -beta * dH + dB + Real.log factor
      by ring, Real.exp_add _ (Real.log factor), Real.exp_log hf]
  · rw [Option.getD_none, add_zero, Real.exp_add, Real.exp_log hf]

/-- an exponent for which both outcomes occur -/
example : (acceptDraw (-1) (Real.exp (-2))).1 = true ∧ (acceptDraw (-1) (Real.exp (-1 / 2))).1 = false := by
  unfold acceptDraw
  norm_num

/-! ### C08, C09, C11: symmetric ushers -/

/-- The kernel's changes of enthalpy and bias are the differences, for legal steps. -/
structure ExactChanges (act : List Sublattice) (H B : Occ → ℝ) (dH dB : Occ → Step → ℝ) : Prop where
  dH : ∀ x st, LegalOcc act x → LegalStep act st → dH x st = H (applyStep x st) - H x
  dB : ∀ x st, LegalOcc act x → LegalStep act st → dB x st = B (applyStep x st) - B x

/-- The acceptance probability of a Metropolis kernel with usher `u`. -/
noncomputable def kernelAcc (beta : ℝ) (dH dB : Occ → Step → ℝ) (u : Usher) : Occ → Step → ℝ :=
  metropolisAcc beta dH dB fun x st => (((u.factor x st).getD 0 : ℚ) : ℝ)

theorem symmetric_detailedBalance {act : List Sublattice} (hok : SitesOk act) (u : Usher)
    (hu : u.Symmetric act) (beta : ℝ) (H B : Occ → ℝ) (dH dB : Occ → Step → ℝ)
    (hex : ExactChanges act H B dH dB) :
    DetailedBalance (LegalOcc act) (boltzmann beta H B)
      (transition u.propose (kernelAcc beta dH dB u)) := by
  have hfac : (fun x st => (((u.factor x st).getD 0 : ℚ) : ℝ)) = fun _ _ => 1 := by
    cases u with
    | table t n => exact hu.elim
    | _ => funext x st; simp [Usher.factor]
  unfold kernelAcc
  rw [hfac]
  exact symmetric_balance _ _ beta H B dH dB
    (fun x st hx hst => hex.dH x st hx (symmetric_legal hok u hu hx hst))
    (fun x st hx hst => hex.dB x st hx (symmetric_legal hok u hu hx hst))
    fun x y hx hy => symmetric_propProb hok u hu hx hy

/-- C08. Metropolis with the Flip usher is in detailed balance. -/
theorem C08_flip_detailed_balance (act : List Sublattice) (hok : SitesOk act) (g : Rng)
    (probs : List ℚ) (beta : ℝ) (H B : Occ → ℝ) (dH dB : Occ → Step → ℝ)
    (hex : ExactChanges act H B dH dB) :
    DetailedBalance (LegalOcc act) (boltzmann beta H B)
      (transition (Usher.flip g act probs).propose
        (kernelAcc beta dH dB (Usher.flip g act probs))) :=
  symmetric_detailedBalance hok (Usher.flip g act probs) (fun _ h => h) beta H B dH dB hex

/-- C09. Metropolis with the Swap usher is in detailed balance. -/
theorem C09_swap_detailed_balance (act : List Sublattice) (hok : SitesOk act) (g : Rng)
    (probs : List ℚ) (beta : ℝ) (H B : Occ → ℝ) (dH dB : Occ → Step → ℝ)
    (hex : ExactChanges act H B dH dB) :
    DetailedBalance (LegalOcc act) (boltzmann beta H B)
      (transition (Usher.swap g act probs).propose
        (kernelAcc beta dH dB (Usher.swap g act probs))) :=
  symmetric_detailedBalance hok (Usher.swap g act probs) (fun _ h => h) beta H B dH dB hex

/-- C11. `MultiStep` of flips or of swaps (or of composites of only flips, or of only swaps), and
composites of all these to any depth, are in detailed balance. -/
theorem C11_compound_detailed_balance (act : List Sublattice) (hok : SitesOk act) (u : Usher)
    (hu : u.Symmetric act) (beta : ℝ) (H B : Occ → ℝ) (dH dB : Occ → Step → ℝ)
    (hex : ExactChanges act H B dH dB) :
    DetailedBalance (LegalOcc act) (boltzmann beta H B)
      (transition u.propose (kernelAcc beta dH dB u)) :=
  symmetric_detailedBalance hok u hu beta H B dH dB hex

/-! ### C10 -/

/-- C10. Metropolis with the TableFlip usher is in detailed balance, given a table without zero
rows and without repeated rows (up to sign), whose rows keep the constraints, and nonnegative
weights. -/
theorem C10_table_detailed_balance (t : TableFlipper) (n : ℕ) (h : TableOk t n) (hr : TableRows t)
    (hsw : t.swapWeight ≤ 1) (beta : ℝ) (H B : Occ → ℝ) (dH dB : Occ → Step → ℝ)
    (hex : ExactChanges (activeSublattices t.sls) H B dH dB) :
    DetailedBalance (FullLegal t.sls) (boltzmann beta H B)
      (transition (Usher.table t n).propose (kernelAcc beta dH dB (Usher.table t n))) := by
  apply mh_balance (FullLegal t.sls) _ beta H B dH dB _ (t.ratio n)
  · intro x st hx hst
    exact hex.dH x st (fullLegal_legalOcc h.sls hx) (table_outcome h hx hst).1
  · intro x st hx hst
    exact hex.dB x st (fullLegal_legalOcc h.sls hx) (table_outcome h hx hst).1
  · rintro x y st hx hy hst rfl
    exact ratio_eq h hr hx hst
  · intro x y hx hy hq
    exact table_reversible h hr hsw hx hy hq

/-- C10. The factor of every step the usher can propose is the ratio of the probabilities of
proposing the way back and the way there; it never raises. -/
theorem C10_factor_is_ratio (t : TableFlipper) (n : ℕ) (h : TableOk t n) (hr : TableRows t)
    (hsw0 : 0 ≤ t.swapWeight) (hsw : t.swapWeight ≤ 1) (x : Occ) (hx : FullLegal t.sls x)
    (st : Step) (hst : (t.propose n x).Outcome st) :
    ∃ r, t.prioriFactor n x st = some r ∧
      (r : ℝ) = propProb (t.propose n) (applyStep x st) x / propProb (t.propose n) x (applyStep x st) := by
  have hpos := table_prob_ne_zero hr hsw0 hsw hst
  have hf := table_flips h hx hst
  have hy : FullLegal t.sls (applyStep x st) := hx.apply h hf
  have hrev := table_reversible h hr hsw hx hy hpos
  rw [← ratio_eq h hr hx hst] at hrev
  have hsome : ∃ r, t.prioriFactor n x st = some r := by
    by_cases hc : countVec true t.sls x = countVec true t.sls (applyStep x st)
    · exact ⟨_, prioriFactor_same h hx hf hc⟩
    · obtain ⟨idx, hg, _⟩ := exists_good h hr hx hy hc hpos
      exact ⟨_, prioriFactor_good h hr hx hf hg⟩
  obtain ⟨r, hr'⟩ := hsome
  refine ⟨r, hr', ?_⟩
  rw [hr', Option.getD_some] at hrev
  rw [eq_div_iff hpos, mul_comm]
  exact hrev.1

/-! ### Concrete systems -/

/-- rational proposal probability, comparing the first `n` sites -/
def propQ (usher : Occ → Prog Step) (n : ℕ) (x y : Occ) : ℚ :=
  (usher x).expect fun st => if ∀ s < n, applyStep x st s = y s then 1 else 0

theorem propProb_eq_propQ (usher : Occ → Prog Step) (n : ℕ) (x y : Occ)
    (hout : ∀ st, (usher x).Outcome st → ∀ f ∈ st, f.1 < n) (hxy : ∀ s, n ≤ s → x s = y s) :
    propProb usher x y = (propQ usher n x y : ℝ) := by
  classical
  unfold propProb propQ
  rw [← expect_cast]
  apply expect_congr
  intro st hst
  have : applyStep x st = y ↔ ∀ s < n, applyStep x st s = y s := by
    constructor
    · rintro rfl s _; rfl
    · intro h
      funext s
      by_cases hs : s < n
      · exact h s hs
      · rw [applyStep_of_not_mem]
        · exact hxy s (not_lt.1 hs)
        · intro f hf he
          exact hs (he ▸ hout st hst f hf)
  by_cases h : applyStep x st = y
  · rw [if_pos h, if_pos (this.1 h)]; simp
  · rw [if_neg h, if_neg (fun h' => h (this.2 h'))]; simp

/-- two sites, two species -/
def pairSublattice : Sublattice := Sublattice.new [7, 8] [0, 1]

/-- three sites, two species -/
def tripleSublattice : Sublattice := Sublattice.new [7, 8] [0, 1, 2]

theorem triple_ok : SublatticesOk [tripleSublattice] := by
  constructor <;> decide

theorem pair_ok : SublatticesOk [pairSublattice] := by
  constructor <;> decide

/-- MultiStep of two proposals of a Composite of Flip and Swap, as the documentation of MultiStep
suggests -/
def multiOfComposite : Usher :=
  .multi .shared [2] [1] (.composite .shared 2
    (fun i => if i = 0 then .flip .shared [pairSublattice] [1]
      else .swap .shared [pairSublattice] [1]) [1, 1])

/-- A table-flip usher over three sites: one species is exchanged for the other. -/
def tripleTable : TableFlipper :=
  (TableFlipper.new [tripleSublattice] [[-1, 1]] none 0 [] []).getD
    ⟨[], [], [], 0, ⟨0, 0, fun _ _ => 0⟩, ⟨0, 0, fun _ _ => 0⟩, [], [], []⟩

theorem tripleTable_ok : TableOk tripleTable 3 ∧ tripleTable.sls = [tripleSublattice] ∧
    tripleTable.table = [[-1, 1]] ∧ tripleTable.A = [] := by
  have hn : TableFlipper.new [tripleSublattice] [[-1, 1]] none 0 [] [] = some tripleTable := rfl
  obtain ⟨h1, h2, _, h3, _, h5⟩ := tableOk_new triple_ok (by decide) (by decide) hn
  exact ⟨h5, h1, h2, h3⟩

theorem tripleTable_rows : TableRows tripleTable := by
  obtain ⟨_, _, h1, h2⟩ := tripleTable_ok
  constructor
  · rw [h1]; decide
  · rw [h1]
    intro i j u v hi hj _
    have hi' : i < 1 := by
      by_contra hh
      rw [List.getElem?_eq_none (by simp; omega)] at hi; cases hi
    have hj' : j < 1 := by
      by_contra hh
      rw [List.getElem?_eq_none (by simp; omega)] at hj; cases hj
    omega
  · rw [h2]; simp
  · have : tripleTable.weights = [1, 1] := by decide +kernel
    rw [this]; simp

/-- all three sites hold code 0 -/
def allZero : Occ := fun _ => 0

/-- site 1 holds code 1 -/
def oneOne : Occ := fun s => if s = 1 then 1 else 0

theorem flat_transition (u : Usher) (x y : Occ)
    (hf : ∀ st, (u.propose x).Outcome st → u.factor x st = some 1) :
    transition u.propose (kernelAcc 1 (fun _ _ => 0) (fun _ _ => 0) u) x y =
      propProb u.propose x y := by
  rw [transition_eq u.propose _ x y 1, mul_one]
  intro st hst _
  simp [kernelAcc, metropolisAcc, hf st hst]

theorem flat_exact (act : List Sublattice) :
    ExactChanges act (fun _ => 0) (fun _ => 0) (fun _ _ => 0) (fun _ _ => 0) :=
  ⟨fun _ _ _ _ => by simp, fun _ _ _ _ => by simp⟩

theorem flat_not_balanced {S : Occ → Prop} {P : Occ → Occ → ℝ} (x y : Occ) (hx : S x) (hy : S y)
    (h : P x y ≠ P y x) : ¬ DetailedBalance S (boltzmann 1 (fun _ => 0) fun _ => 0) P := by
  intro hdb
  have := hdb x y hx hy
  simp only [boltzmann, mul_zero, add_zero, Real.exp_zero, one_mul] at this
  exact h this

theorem legal_pair (x : Occ) (hx : ∀ s < 2, x s < 2) : FullLegal [pairSublattice] x := by
  intro sl hsl s hs
  rw [List.mem_singleton] at hsl
  subst hsl
  have hs' : s ∈ [0, 1] := hs
  have : s < 2 := by simp at hs'; omega
  have := hx s this
  have h01 : x s = 0 ∨ x s = 1 := by omega
  rcases h01 with h | h <;> rw [h] <;> decide

theorem legal_triple (x : Occ) (hx : ∀ s < 3, x s < 2) : FullLegal [tripleSublattice] x := by
  intro sl hsl s hs
  rw [List.mem_singleton] at hsl
  subst hsl
  have hs' : s ∈ [0, 1, 2] := hs
  have : s < 3 := by simp at hs'; omega
  have := hx s this
  have h01 : x s = 0 ∨ x s = 1 := by omega
  rcases h01 with h | h <;> rw [h] <;> decide

theorem oneOne_lt (s : ℕ) : oneOne s < 2 := by unfold oneOne; split_ifs <;> omega

/-- C11, the claim fails for `MultiStep` of a `Composite` mixing Flip and Swap: the proposals
are not symmetric (5/16 one way, 3/16 the other), the factor is 1, and detailed balance fails
even at constant enthalpy. -/
theorem C11_multi_of_mixed_fails :
    ∃ (act : List Sublattice) (u : Usher), SitesOk act ∧
      (∃ p lens us w, u = .multi .shared lens p (.composite .shared 2 us w) ∧
        (us 0).FlipLike act ∧ (us 1).SwapLike act) ∧
      ∃ (H B : Occ → ℝ) (dH dB : Occ → Step → ℝ), ExactChanges act H B dH dB ∧
        ¬ DetailedBalance (LegalOcc act) (boltzmann 1 H B)
          (transition u.propose (kernelAcc 1 dH dB u)) := by
  have hover : multiOfComposite.Over [pairSublattice] := by
    intro i
    dsimp only
    split_ifs
    · show ∀ sl ∈ _, _; decide
    · show ∀ sl ∈ _, _; decide
  refine ⟨[pairSublattice], multiOfComposite, sitesOk_of pair_ok, ⟨_, _, _, _, rfl, ?_, ?_⟩,
    fun _ => 0, fun _ => 0, fun _ _ => 0, fun _ _ => 0, flat_exact _, ?_⟩
  · show ∀ sl ∈ _, _; decide
  · show ∀ sl ∈ _, _; decide
  · have hz : FullLegal [pairSublattice] allZero := legal_pair _ (by simp [allZero])
    have ho : FullLegal [pairSublattice] oneOne := legal_pair _ fun s _ => oneOne_lt s
    have hsites : ∀ x, FullLegal [pairSublattice] x → ∀ st,
        (multiOfComposite.propose x).Outcome st → ∀ f ∈ st, f.1 < 2 := by
      intro x hx st hst f hf
      obtain ⟨sl, hsl, h1, _⟩ := (tree_legal pair_ok _ hover x hx st hst).flips f hf
      have := activeSublattices_mem hsl
      rw [List.mem_singleton] at this
      subst this
      have h1' : f.1 ∈ [0, 1] := h1
      simp at h1'; omega
    have hleg : ∀ x, FullLegal [pairSublattice] x → LegalOcc [pairSublattice] x := by
      intro x hx sl hsl s hs
      exact hx sl hsl s (pair_ok.active sl hsl s hs)
    refine flat_not_balanced allZero oneOne (hleg _ hz) (hleg _ ho) ?_
    rw [flat_transition _ _ _ fun _ _ => rfl, flat_transition _ _ _ fun _ _ => rfl,
      propProb_eq_propQ _ 2 _ _ (hsites _ hz) (by intro s hs; simp [allZero, oneOne]; omega),
      propProb_eq_propQ _ 2 _ _ (hsites _ ho) (by intro s hs; simp [allZero, oneOne]; omega)]
    have e1 : propQ multiOfComposite.propose 2 allZero oneOne = 5 / 16 := by decide +kernel
    have e2 : propQ multiOfComposite.propose 2 oneOne allZero = 3 / 16 := by decide +kernel
    rw [e1, e2]
    norm_num

/-- C11, the claim fails for `Composite` and for `MultiStep` containing a TableFlip: the factor of
the inner usher is dropped. -/
theorem C11_table_inside_fails :
    ∃ (sls : List Sublattice) (t : TableFlipper), TableOk t 3 ∧ TableRows t ∧ t.sls = sls ∧
      ∀ u : Usher, u = .composite .shared 1 (fun _ => .table t 3) [1] ∨
          u = .multi .shared [1] [1] (.table t 3) →
        ∃ (H B : Occ → ℝ) (dH dB : Occ → Step → ℝ), ExactChanges (activeSublattices sls) H B dH dB ∧
          ¬ DetailedBalance (FullLegal sls) (boltzmann 1 H B)
            (transition u.propose (kernelAcc 1 dH dB u)) := by
  obtain ⟨hok, hsls, _, _⟩ := tripleTable_ok
  refine ⟨[tripleSublattice], tripleTable, hok, tripleTable_rows, hsls, ?_⟩
  intro u hu
  refine ⟨fun _ => 0, fun _ => 0, fun _ _ => 0, fun _ _ => 0, flat_exact _, ?_⟩
  have hz : FullLegal [tripleSublattice] allZero := legal_triple _ (by simp [allZero])
  have ho : FullLegal [tripleSublattice] oneOne := legal_triple _ fun s _ => oneOne_lt s
  have hover : u.Over [tripleSublattice] := by
    rcases hu with rfl | rfl
    · exact fun _ => ⟨hok, hsls⟩
    · exact ⟨hok, hsls⟩
  have hsites : ∀ x, FullLegal [tripleSublattice] x → ∀ st,
      (u.propose x).Outcome st → ∀ f ∈ st, f.1 < 3 := by
    intro x hx st hst f hf
    obtain ⟨sl, hsl, h1, _⟩ := (tree_legal triple_ok _ hover x hx st hst).flips f hf
    have := activeSublattices_mem hsl
    rw [List.mem_singleton] at this
    subst this
    have h1' : f.1 ∈ [0, 1, 2] := h1
    simp at h1'; omega
  have hf : ∀ x st, u.factor x st = some 1 := by rcases hu with rfl | rfl <;> intros <;> rfl
  refine flat_not_balanced allZero oneOne hz ho ?_
  rw [flat_transition _ _ _ fun _ _ => hf _ _, flat_transition _ _ _ fun _ _ => hf _ _,
    propProb_eq_propQ _ 3 _ _ (hsites _ hz) (by intro s hs; simp [allZero, oneOne]; omega),
    propProb_eq_propQ _ 3 _ _ (hsites _ ho) (by intro s hs; simp [allZero, oneOne]; omega)]
  have e1 : propQ u.propose 3 allZero oneOne = 1 / 3 := by
    rcases hu with rfl | rfl <;> decide +kernel
  have e2 : propQ u.propose 3 oneOne allZero = 1 / 2 := by
    rcases hu with rfl | rfl <;> decide +kernel
  rw [e1, e2]
  norm_num

/-- the hypotheses of C10 hold for the three-site table, and a step with factor 3/2 occurs -/
example : TableOk tripleTable 3 ∧ TableRows tripleTable ∧ tripleTable.swapWeight ≤ 1 ∧
    FullLegal tripleTable.sls allZero ∧ tripleTable.prioriFactor 3 allZero [(1, 1)] = some (3 / 2) ∧
    propQ (tripleTable.propose 3) 3 allZero oneOne = 1 / 3 := by
  refine ⟨tripleTable_ok.1, tripleTable_rows, by decide +kernel, ?_, by decide +kernel,
    by decide +kernel⟩
  rw [tripleTable_ok.2.1]
  exact legal_triple _ (by simp [allZero])

/-- the hypotheses of C08, C09 and C11 hold for a composite of a flip, a swap, and a MultiStep of
flips, with an enthalpy that is not constant -/
example : SitesOk [pairSublattice] ∧
    (Usher.composite .shared 3 (fun i => if i = 0 then .flip .shared [pairSublattice] [1]
      else if i = 1 then .swap .shared [pairSublattice] [1]
      else .multi .shared [1, 2] [1 / 2, 1 / 2] (.flip .shared [pairSublattice] [1]))
      [1, 2, 3]).Symmetric [pairSublattice] ∧
    ExactChanges [pairSublattice] (fun x => (x 0 : ℝ) + 2 * x 1) (fun _ => 0)
      (fun x st => ((applyStep x st 0 : ℝ) + 2 * applyStep x st 1) - (x 0 + 2 * x 1))
      (fun _ _ => 0) := by
  refine ⟨sitesOk_of pair_ok, ?_, ?_⟩
  · intro i
    dsimp only
    split_ifs
    · show ∀ sl ∈ _, _; decide
    · show ∀ sl ∈ _, _; decide
    · left; show ∀ sl ∈ _, _; decide
  · exact ⟨fun _ _ _ _ => rfl, fun _ _ _ _ => by simp⟩

/-! ### C37 -/

/-- C37. The mask is 1 exactly for the directions that keep all counts between 0 and their
maximum; direction `2 i` is row `i`, direction `2 i + 1` is its negative. -/
theorem C37_mask_feasible (table : List (List ℤ)) (n m : List ℕ)
    (hrows : ∀ u ∈ table, u.length = n.length) (hm : n.length = m.length) :
    (flipWeightsMask table n m).length = 2 * table.length ∧
    ∀ (i : ℕ) (u : List ℤ), table[i]? = some u →
      (∃ b, (flipWeightsMask table n m)[2 * i]? = some b ∧ (b = true ↔ ∀ d < n.length,
        0 ≤ (n.getD d 0 : ℤ) + u.getD d 0 ∧ (n.getD d 0 : ℤ) + u.getD d 0 ≤ m.getD d 0)) ∧
      (∃ b, (flipWeightsMask table n m)[2 * i + 1]? = some b ∧ (b = true ↔ ∀ d < n.length,
        0 ≤ (n.getD d 0 : ℤ) - u.getD d 0 ∧ (n.getD d 0 : ℤ) - u.getD d 0 ≤ m.getD d 0)) := by
  refine ⟨by rw [flipWeightsMask, List.length_map, flipDirections_length], ?_⟩
  intro i u hu
  have hi : i < table.length := by
    by_contra hh
    rw [List.getElem?_eq_none (by omega)] at hu; cases hu
  have hget : table.getD i [] = u := by rw [List.getD_eq_getElem?_getD, hu, Option.getD_some]
  constructor
  · have := flipWeightsMask_get table n m hrows hm (2 * i) (by omega)
    rw [if_neg (by omega), show 2 * i / 2 = i by omega, hget] at this
    exact this
  · have := flipWeightsMask_get table n m hrows hm (2 * i + 1) (by omega)
    rw [if_pos (by omega), show (2 * i + 1) / 2 = i by omega, hget] at this
    obtain ⟨b, h1, h2⟩ := this
    refine ⟨b, h1, h2.trans ?_⟩
    have : ∀ d, (u.map fun x => -x).getD d 0 = -u.getD d 0 := by
      intro d
      simp only [List.getD_eq_getElem?_getD, List.getElem?_map]
      cases u[d]? <;> simp
    simp only [this, ← sub_eq_add_neg]

open Classical in
/-- C37. When the constraints hold, TableFlip picks the direction with index `i` with probability
its weight, if feasible, over the total weight of the feasible ones. -/
theorem C37_direction_probability (t : TableFlipper) (N : ℕ) (h : TableOk t N) (x : Occ)
    (hcons : constraintsHold t.A t.b (countVec false t.sls x) = true) :
    (t.maskedWeights (countVec true t.sls x) (countVec false t.sls x)).length =
      2 * t.table.length ∧
    ∀ i < 2 * t.table.length,
      (t.maskedWeights (countVec true t.sls x) (countVec false t.sls x)).getD i 0 =
        if ∀ d < t.d, 0 ≤ ((countVec true t.sls x).getD d 0 : ℤ) + t.direction i d ∧
          ((countVec true t.sls x).getD d 0 : ℤ) + t.direction i d ≤ t.maxN.getD d 0
        then t.weights.getD i 0 else 0 := by
  have e := mwx_pos hcons
  unfold TableFlipper.mwx at e
  rw [e]
  refine ⟨mw_length h _, fun i hi => ?_⟩
  rw [mw_get h _ (countVec_length h true x) i hi]
  exact if_congr Iff.rfl rfl rfl

/-- a table with a direction that is feasible and one that is not -/
example : flipWeightsMask [[-1, 1, 0], [0, -2, 2]] [0, 2, 1] [3, 3, 3] =
    [false, true, true, false] := by decide

end Smol
