import Verif.Lemmas.Proper
import Verif.Props.Balance

/-!
# What ushers can propose (C12)
-/

namespace Smol
open Prog Spec

/-- C12. Whatever is drawn, a step proposed by any usher (compound to any depth, including
TableFlip) changes only active sites, to codes of their sublattice, names no site twice, and leads
to an occupancy in which every site holds a code of its sublattice. -/
theorem C12_steps_legal (sls : List Sublattice) (h : SublatticesOk sls) (u : Usher)
    (hu : u.Over sls) (x : Occ) (hx : ∀ sl ∈ sls, ∀ s ∈ sl.sites, x s ∈ sl.encoding) (st : Step)
    (hst : (u.propose x).Outcome st) :
    (∀ f ∈ st, ∃ sl ∈ sls, f.1 ∈ sl.active ∧ f.2 ∈ sl.encoding) ∧ (st.map Prod.fst).Nodup ∧
      ∀ sl ∈ sls, ∀ s ∈ sl.sites, applyStep x st s ∈ sl.encoding := by
  have hl := tree_legal h u hu x hx st hst
  have hf : ∀ f ∈ st, ∃ sl ∈ sls, f.1 ∈ sl.active ∧ f.2 ∈ sl.encoding := fun f hf => by
    obtain ⟨sl, a, b⟩ := hl.flips f hf
    exact ⟨sl, activeSublattices_mem a, b⟩
  exact ⟨hf, hl.once, fullLegal_apply h hx hf⟩

/-- C12. A Flip changes exactly one site, and to another code; every active site and every other
code of its sublattice can be proposed when the sublattice has positive probability. -/
theorem C12_flip_changes (g : Rng) (act : List Sublattice) (probs : List ℚ) (x : Occ) (st : Step) :
    (flipPropose g act probs x).Outcome st ↔
      ∃ (i : ℕ) (sl : Sublattice), act[i]? = some sl ∧ probs.getD i 0 ≠ 0 ∧
        ∃ s ∈ sl.active, ∃ c ∈ sl.encoding, c ≠ x s ∧ st = [(s, c)] := by
  simp only [flipPropose, outcome_bind, outcome_choose]
  constructor
  · rintro ⟨sl, ⟨i, hi, rfl⟩, s, hs, c, hc, rfl⟩
    rw [List.mem_filter, List.mem_dedup] at hc
    refine ⟨i.1, act[i], by simp, hi, s, hs, c, hc.1, by simpa using hc.2, rfl⟩
  · rintro ⟨i, sl, hi, hp, s, hs, c, hc, hne, rfl⟩
    obtain ⟨hlt, rfl⟩ := List.getElem?_eq_some_iff.1 hi
    refine ⟨act[i], ⟨⟨i, hlt⟩, hp, rfl⟩, s, hs, c, ?_, rfl⟩
    rw [List.mem_filter, List.mem_dedup]
    exact ⟨hc, by simpa using hne⟩

/-- C12. A Swap is empty or exchanges the different codes of two active sites of one sublattice. -/
theorem C12_swap_exchanges (g : Rng) (act : List Sublattice) (probs : List ℚ) (x : Occ) (st : Step)
    (hst : (swapPropose g act probs x).Outcome st) :
    st = [] ∨ ∃ sl ∈ act, ∃ s ∈ sl.active, ∃ t ∈ sl.active, x s ≠ x t ∧
      applyStep x st = Function.update (Function.update x s (x t)) t (x s) := by
  rcases outcome_swap hst with h | ⟨sl, hsl, s, hs, t, ht, hne, rfl⟩
  · exact Or.inl h
  · exact Or.inr ⟨sl, hsl, s, hs, t, ht, hne, rfl⟩

/-- C12. A properly built usher never raises on a legal occupancy, and the probabilities of its
proposals add up to one. -/
theorem C12_never_raises (sls : List Sublattice) (h : SublatticesOk sls) (u : Usher)
    (hu : u.Over sls) (hb : u.Built) (x : Occ)
    (hx : ∀ sl ∈ sls, ∀ s ∈ sl.sites, x s ∈ sl.encoding) :
    (u.propose x).Proper ∧ (∃ st, (u.propose x).Outcome st) ∧
      (u.propose x).expect (fun _ => (1 : ℝ)) = 1 := by
  have hp := proper_tree h u hu hb x hx
  exact ⟨hp, hp.exists, hp.total 1⟩

/-- The default probabilities pass the checks of the constructor. -/
theorem C12_default_probabilities (n : ℕ) (hn : n ≠ 0) :
    ∃ p, usherProbs n none = some p ∧ ProbList n p := by
  refine ⟨_, by rw [usherProbs, if_neg hn], by simp, ?_, ?_⟩
  · intro a ha
    rw [List.eq_of_mem_replicate ha]
    positivity
  · have : (n : ℚ) ≠ 0 := by exact_mod_cast hn
    rw [List.sum_replicate, nsmul_eq_mul]
    field_simp

/-- a compound usher with a table flip, a multi-step flip and a swap -/
def exampleUsher : Usher :=
  .composite .shared 3 (fun i => if i = 0 then .table tripleTable 3
    else if i = 1 then .multi .shared [1, 3] [1 / 2, 1 / 2] (.flip .shared [tripleSublattice] [1])
    else .swap .shared [tripleSublattice] [1]) [1, 2, 1]

theorem exampleUsher_over : exampleUsher.Over [tripleSublattice] := by
  intro i
  dsimp only
  split_ifs
  · exact ⟨tripleTable_ok.1, tripleTable_ok.2.1⟩
  · show ∀ sl ∈ _, _; decide
  · show ∀ sl ∈ _, _; decide

theorem exampleUsher_built : exampleUsher.Built := by
  have hd : Drawable [tripleSublattice] := ⟨by decide, by decide⟩
  have h1 : ProbList 1 [1] := ⟨rfl, by simp, by simp⟩
  refine ⟨rfl, by decide +kernel, by decide +kernel, fun i => ?_⟩
  dsimp only
  split_ifs
  · refine ⟨tripleTable_rows, ?_, by decide +kernel, by decide +kernel, ?_⟩
    · intro u hu dims hdims
      have e1 : tripleTable.table = [[-1, 1]] := tripleTable_ok.2.2.1
      have e2 : tripleTable.dimIds = [[0, 1]] := by decide +kernel
      rw [e1, List.mem_singleton] at hu
      rw [e2, List.mem_singleton] at hdims
      subst hu hdims
      decide
    · rw [tripleTable_ok.2.1]; decide
  · exact ⟨⟨rfl, by decide +kernel, by decide +kernel⟩, hd, h1⟩
  · exact ⟨by decide, h1⟩

example : SublatticesOk [tripleSublattice] ∧ exampleUsher.Over [tripleSublattice] ∧
    exampleUsher.Built ∧ FullLegal [tripleSublattice] oneOne :=
  ⟨triple_ok, exampleUsher_over, exampleUsher_built, legal_triple _ fun s _ => oneOne_lt s⟩

/-! ### C37, probabilities -/

theorem tableLoop_leads {t : TableFlipper} {n : ℕ} (h : TableOk t n)
    {x : Occ} (hx : FullLegal t.sls x) {sp : List (List ℕ)}
    (hspd : ∀ (d : ℕ) (sites : List ℕ) (c : ℕ), (countDimensions true t.sls)[d]? = some (sites, c) →
        (sp.getD d []).Nodup ∧ ∀ s, s ∈ sp.getD d [] ↔ s ∈ sites ∧ x s = c) {idx : ℕ} {st : Step}
    (hs : (tableLoop (fun d => sp.getD d []) (t.direction idx) (t.sls.zip t.dimIds) []).Outcome st) :
    t.Leads x (applyStep x st) (t.direction idx) := by
  classical
  obtain ⟨h1, h2⟩ := outcome_tableLoop x _ _ _ (h.blocks hx sp hspd) h.blocks_disjoint [] st
    (by simp) (by simp) hs
  have hy : FullLegal t.sls (applyStep x st) := hx.apply h fun f hf => by
    rcases h2 f hf with h' | ⟨b, hb, h3, h4⟩
    · simp at h'
    · exact ⟨b.1, (h.block_dims b hb).1, h3, h4⟩
  have hpos := Prog.expect_pos (allPos_tableLoop (fun d => sp.getD d []) (t.direction idx)
    (t.sls.zip t.dimIds) []) (fun st' => if applyStep x st' = applyStep x st then (1 : ℝ) else 0)
    (fun a => by split_ifs <;> norm_num) st hs (by rw [if_pos rfl]; norm_num)
  rw [tableLoop_expect x _ _ _ _ (h.blocks hx sp hspd) ?_ h.blocks_disjoint [] (by simp)] at hpos
  · by_contra hcon
    rw [if_neg] at hpos
    · exact lt_irrefl _ hpos
    · rintro ⟨ha, hb⟩
      apply hcon
      refine ⟨fun s hs => ?_, hb⟩
      exact ha s fun b hb => hs b.1 (h.block_dims b hb).1
  · intro b hb s hs
    have := (h.block_dims b hb).1
    exact hy _ this s (h.sls.active _ this s hs)

open Classical in
/-- C37. The composition changes along direction `idx` with probability proportional to the weight
of that direction among the feasible ones (all weights of infeasible ones masked), when the usher
does not swap. -/
theorem C37_direction_chosen (t : TableFlipper) (n : ℕ) (h : TableOk t n) (hr : TableRows t)
    (hb : t.RowsBalanced) (h0 : 0 ≤ t.swapWeight) (h1 : t.swapWeight ≤ 1)
    (hact : activeSublattices t.sls ≠ []) (x : Occ) (hx : FullLegal t.sls x)
    (hcons : constraintsHold t.A t.b (countVec false t.sls x) = true)
    (w : ℕ → ℚ)
    (hw : ∀ i, w i = if i < 2 * t.table.length ∧ ∀ d < t.d,
      0 ≤ ((countVec true t.sls x).getD d 0 : ℤ) + t.direction i d ∧
        ((countVec true t.sls x).getD d 0 : ℤ) + t.direction i d ≤ t.maxN.getD d 0
      then t.weights.getD i 0 else 0)
    (idx : ℕ) (hi : idx < 2 * t.table.length) (hpos : w idx ≠ 0) :
    ((t.propose n x).expect fun st =>
        if ∀ d < t.d, ((countVec true t.sls (applyStep x st)).getD d 0 : ℤ) =
          (countVec true t.sls x).getD d 0 + t.direction idx d then (1 : ℝ) else 0) =
      ((1 - t.swapWeight) * (w idx / ∑ i ∈ Finset.range (2 * t.table.length), w i) : ℚ) := by
  have hlen := mwx_length h x
  have hwx : ∀ i < 2 * t.table.length, (t.mwx x).getD i 0 = w i := by
    intro i hi'
    rw [mwx_pos hcons, mw_get h _ (countVec_length h true x) i hi', hw]
    exact if_congr (by simp [hi', TableFlipper.Feas]) rfl rfl
  have hsum : (t.mwx x).sum = ∑ i ∈ Finset.range (2 * t.table.length), w i := by
    rw [← Finset.sum_congr rfl fun i hi' => hwx i (Finset.mem_range.1 hi'), Finset.sum_range,
      ← List.sum_ofFn]
    congr 1
    apply List.ext_getElem
    · rw [List.length_ofFn, hlen]
    · intro i h1 h2
      rw [List.getElem_ofFn, List.getD_eq_getElem?_getD, List.getElem?_eq_getElem h1,
        Option.getD_some]
  have hnz : ¬ ∀ z ∈ t.mwx x, z = 0 := by
    intro hz
    apply hpos
    rw [← hwx idx hi]
    rcases getD_mem_or (l := t.mwx x) idx with h' | h'
    · exact hz _ h'
    · exact h'
  have huniq : ∀ st, (∀ d < t.d, ((countVec true t.sls (applyStep x st)).getD d 0 : ℤ) =
      (countVec true t.sls x).getD d 0 + t.direction idx d) → t.dirList idx =
      List.zipWith (fun (a b : ℕ) => (b : ℤ) - a) (countVec true t.sls x)
        (countVec true t.sls (applyStep x st)) := by
    intro st hst
    apply ext_getD
    · rw [dirList_length h hi, List.length_zipWith, countVec_length h, countVec_length h, min_self]
    · intro d hd
      rw [dirList_length h hi] at hd
      have := hst d hd
      rw [direction_eq] at this
      have l1 : d < (countVec true t.sls x).length := by rw [countVec_length h]; exact hd
      have l2 : d < (countVec true t.sls (applyStep x st)).length := by
        rw [countVec_length h]; exact hd
      simp only [List.getD_eq_getElem?_getD, List.getElem?_zipWith, List.getElem?_eq_getElem l1,
        List.getElem?_eq_getElem l2, Option.getD_some] at this ⊢
      omega
  have hswap : ((t.swap x).expect fun st =>
        if ∀ d < t.d, ((countVec true t.sls (applyStep x st)).getD d 0 : ℤ) =
          (countVec true t.sls x).getD d 0 + t.direction idx d then (1 : ℝ) else 0) = 0 := by
    apply expect_zero
    intro st hst
    rw [if_neg]
    intro hall
    have hs : SameComposition (activeSublattices t.sls) x (applyStep x st) :=
      outcome_swap_same (activeSitesOk h.sitesOk) (fun _ h => h) hst
    have hc := countVec_eq_of_same h hs
    have := huniq st hall
    rw [← hc] at this
    apply dirList_nonzero hr hi
    intro z hz
    rw [this] at hz
    obtain ⟨i, hi', rfl⟩ := List.mem_iff_getElem.1 hz
    simp
  obtain ⟨sp, hsp, hspl, hspd⟩ := h.speciesList hx
  obtain ⟨spF, hspF, hspFl⟩ := h.speciesFull hx
  have hmw : t.maskedWeights (sp.map List.length) (spF.map List.length) = t.mwx x := by
    rw [hspl, hspFl]; rfl
  have hproper := proper_table h hr hb h0 h1 hact x hx
  have hstep : ((t.tableStep n x).expect fun st =>
        if ∀ d < t.d, ((countVec true t.sls (applyStep x st)).getD d 0 : ℤ) =
          (countVec true t.sls x).getD d 0 + t.direction idx d then (1 : ℝ) else 0) =
      (w idx / ∑ i ∈ Finset.range (2 * t.table.length), w i : ℚ) := by
    unfold TableFlipper.tableStep
    rw [hsp, hspF]
    simp only [hmw]
    rw [if_neg (by push Not; exact mwx_nonneg hr x), if_neg hnz, expect_bind, expect_chooseW]
    have hlr : (List.range (t.mwx x).length).length = 2 * t.table.length := by simp [hlen]
    have hterm : ∀ i : Fin (List.range (t.mwx x).length).length,
        ((((t.mwx x).map fun w => w / (t.mwx x).sum).getD i 0 : ℚ) : ℝ) *
          ((tableLoop (fun d => sp.getD d []) (t.direction (List.range (t.mwx x).length)[i])
            (t.sls.zip t.dimIds) []).expect fun st =>
              if ∀ d < t.d, ((countVec true t.sls (applyStep x st)).getD d 0 : ℤ) =
                (countVec true t.sls x).getD d 0 + t.direction idx d then (1 : ℝ) else 0) =
        if i.1 = idx then ((w idx / ∑ i ∈ Finset.range (2 * t.table.length), w i : ℚ) : ℝ)
          else 0 := by
      intro i
      have hil : i.1 < 2 * t.table.length := lt_of_lt_of_eq i.2 hlr
      have hgi : (List.range (t.mwx x).length)[i] = i.1 := by simp
      have hwt : ((t.mwx x).map fun w => w / (t.mwx x).sum).getD i 0 =
          w i / ∑ i ∈ Finset.range (2 * t.table.length), w i := by
        rw [← hsum, ← hwx i hil]
        simp only [List.getD_eq_getElem?_getD, List.getElem?_map]
        cases (t.mwx x)[i.1]? <;> simp
      rw [hgi, hwt]
      by_cases hwi : w i = 0
      · rw [hwi]
        have : i.1 ≠ idx := by rintro rfl; exact hpos hwi
        rw [if_neg this]; simp
      have hfe := (mwx_feas h hil (by rw [hwx i hil]; exact hwi)).2
      split_ifs with he
      · rw [← he] at *
        rw [expect_congr _ _ (fun _ => (1 : ℝ)), Prog.Proper.total, mul_one]
        · apply proper_tableLoop x _ _ _ (h.blocks hx sp hspd)
          · intro b hbm
            exact direction_balanced hb hil (List.of_mem_zip (show (b.1, b.2) ∈ _ from hbm)).2
          · intro b hbm d hd
            have hB := h.blocks hx sp hspd b hbm
            obtain ⟨j, hj, rfl⟩ := List.mem_iff_getElem.1 hd
            have hl : b.2.length = b.1.encoding.length := hB.len
            have hp : (b.2[j], b.1.encoding[j]) ∈ b.2.zip b.1.encoding := by
              rw [List.mem_iff_getElem]
              exact ⟨j, by rw [List.length_zip]; omega, by simp⟩
            have hdl := ((h.block_dims b hbm).2 _ hp).1
            have hf := (hfe _ hdl).1
            have hc : (countVec true t.sls x).getD b.2[j] 0 = (sp.getD b.2[j] []).length := by
              rw [← hspl, List.getD_eq_getElem?_getD, List.getElem?_map, List.getD_eq_getElem?_getD]
              cases sp[b.2[j]]? <;> simp
            simp only at hf
            rw [hc] at hf
            omega
        · intro st hst
          rw [if_pos (leads_delta h hfe (tableLoop_leads h hx hspd hst))]
      · rw [expect_zero, mul_zero]
        intro st hst
        rw [if_neg]
        intro hall
        apply he
        apply dirList_inj hr hil hi
        rw [huniq st hall, dirList_eq_delta h hil hfe (tableLoop_leads h hx hspd hst)]
    rw [Finset.sum_congr rfl fun i _ => hterm i]
    rw [Finset.sum_eq_single (⟨idx, lt_of_lt_of_eq hi hlr.symm⟩ :
      Fin (List.range (t.mwx x).length).length)]
    · simp
    · intro j _ hj
      rw [if_neg]
      intro h'; apply hj; exact Fin.ext h'
    · intro h'; exact absurd (Finset.mem_univ _) h'
  unfold TableFlipper.propose
  rw [expect_bind]
  simp only [coin, expect, Fin.sum_univ_two]
  simp only [Fin.val_zero, Fin.val_one, if_true, decide_true, one_ne_zero, if_false, decide_false,
    Bool.false_eq_true]
  rw [hswap, hstep]
  push_cast
  ring

end Smol
