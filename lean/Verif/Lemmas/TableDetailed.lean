import Verif.Lemmas.TableMain

namespace Smol
open Prog Spec

/-- idx is the direction that leads from `x` to `y` -/
structure TableFlipper.Good (t : TableFlipper) (x y : Occ) (idx : ℕ) : Prop where
  lt : idx < 2 * t.table.length
  feas : t.Feas (countVec true t.sls x) idx
  leads : t.Leads x y (t.direction idx)

theorem TableFlipper.Good.rev {t : TableFlipper} {n : ℕ} (h : TableOk t n) {x y : Occ} {idx : ℕ}
    (hg : t.Good x y idx) : t.Good y x (revIdx idx) :=
  ⟨revIdx_lt hg.lt, feas_rev h hg.feas hg.leads, leads_rev hg.leads⟩

theorem TableFlipper.Good.unique {t : TableFlipper} {n : ℕ} (h : TableOk t n) (hr : TableRows t)
    {x y : Occ} {i j : ℕ} (hi : t.Good x y i) (hj : t.Good x y j) : i = j :=
  dirList_inj hr hi.lt hj.lt
    ((dirList_eq_delta h hi.lt hi.feas hi.leads).trans
      (dirList_eq_delta h hj.lt hj.feas hj.leads).symm)

theorem TableFlipper.Good.ne {t : TableFlipper} {n : ℕ} (h : TableOk t n) (hr : TableRows t)
    {x y : Occ} {i : ℕ} (hi : t.Good x y i) : countVec true t.sls x ≠ countVec true t.sls y := by
  intro he
  apply dirList_nonzero hr hi.lt
  rw [dirList_eq_delta h hi.lt hi.feas hi.leads, he]
  intro z hz
  rw [List.zipWith_self] at hz
  obtain ⟨a, _, rfl⟩ := List.mem_map.1 hz
  simp

theorem TableFlipper.Good.constraints {t : TableFlipper} {n : ℕ} (h : TableOk t n)
    (hr : TableRows t) {x y : Occ} {i : ℕ} (hi : t.Good x y i) :
    constraintsHold t.A t.b (countVec false t.sls y) =
      constraintsHold t.A t.b (countVec false t.sls x) := by
  unfold constraintsHold
  rw [constraints_along h hr hi.lt hi.feas hi.leads]

theorem swap_zero {t : TableFlipper} {n : ℕ} (h : TableOk t n) {x y : Occ}
    (hne : countVec true t.sls x ≠ countVec true t.sls y) : propProb t.swap x y = 0 := by
  apply propProb_eq_zero
  intro st hst he
  apply hne
  apply countVec_eq_of_same h
  rw [← he]
  exact outcome_swap_same (activeSitesOk h.sitesOk) (fun _ h => h) hst

theorem list_sum_zero (l : List ℚ) (h : ∀ w ∈ l, w = 0) : l.sum = 0 := by
  induction l with
  | nil => rfl
  | cons a l ih => simp [h a (by simp), ih fun w hw => h w (by simp [hw])]

theorem getD_mem_or {l : List ℚ} (i : ℕ) : l.getD i 0 ∈ l ∨ l.getD i 0 = 0 := by
  by_cases h : i < l.length
  · left
    rw [List.getD_eq_getElem?_getD, List.getElem?_eq_getElem h, Option.getD_some]
    exact List.getElem_mem h
  · right
    rw [List.getD_eq_getElem?_getD, List.getElem?_eq_none (by omega), Option.getD_none]

theorem mwx_feas {t : TableFlipper} {n : ℕ} (h : TableOk t n) {x : Occ} {i : ℕ}
    (hi : i < 2 * t.table.length) (hne : (t.mwx x).getD i 0 ≠ 0) :
    constraintsHold t.A t.b (countVec false t.sls x) = true ∧
      t.Feas (countVec true t.sls x) i := by
  by_cases hc : constraintsHold t.A t.b (countVec false t.sls x) = true
  · refine ⟨hc, ?_⟩
    rw [mwx_pos hc, mw_get h _ (countVec_length h true x) i hi] at hne
    by_contra hf
    rw [if_neg hf] at hne
    exact hne rfl
  · rw [mwx_neg hc] at hne
    rcases getD_mem_or (l := List.replicate (2 * t.table.length) (0 : ℚ)) i with h' | h'
    · exact absurd (List.eq_of_mem_replicate h') hne
    · exact absurd h' hne

/-- probability of the one direction leading from `x` to `y` -/
theorem good_prob {t : TableFlipper} {n : ℕ} (h : TableOk t n) (hr : TableRows t)
    {x y : Occ} (hx : FullLegal t.sls x) (hy : FullLegal t.sls y) {idx : ℕ}
    (hg : t.Good x y idx) :
    propProb (t.propose n) x y =
      (1 - t.swapWeight : ℝ) * (((t.mwx x).getD idx 0 / (t.mwx x).sum : ℚ) : ℝ) *
        t.tval x (t.direction idx) := by
  classical
  have hne := hg.ne h hr
  rw [propose_expect, swap_zero h hne, mul_zero, zero_add, tableStep_expect h hr hx hy, mul_assoc]
  congr 1
  split_ifs with h0
  · rw [swap_zero h hne]
    have : (t.mwx x).getD idx 0 = 0 := by
      rcases getD_mem_or (l := t.mwx x) idx with h' | h'
      · exact h0 _ h'
      · exact h'
    rw [this]; simp
  · rw [Finset.sum_eq_single idx]
    · rw [if_pos hg.leads]
    · intro j hj hji
      by_cases hw : (t.mwx x).getD j 0 = 0
      · rw [hw]; simp
      · by_cases hl : t.Leads x y (t.direction j)
        · exfalso
          have hj' := Finset.mem_range.1 hj
          exact hji (TableFlipper.Good.unique h hr ⟨hj', (mwx_feas h hj' hw).2, hl⟩ hg)
        · rw [if_neg hl, mul_zero]
    · intro hj
      exact absurd (Finset.mem_range.2 hg.lt) hj

/-- if a change of counts can be proposed at all, some direction leads there -/
theorem exists_good {t : TableFlipper} {n : ℕ} (h : TableOk t n) (hr : TableRows t)
    {x y : Occ} (hx : FullLegal t.sls x) (hy : FullLegal t.sls y)
    (hne : countVec true t.sls x ≠ countVec true t.sls y)
    (hq : propProb (t.propose n) x y ≠ 0) :
    ∃ idx, t.Good x y idx ∧ constraintsHold t.A t.b (countVec false t.sls x) = true := by
  classical
  rw [propose_expect, swap_zero h hne, mul_zero, zero_add, tableStep_expect h hr hx hy] at hq
  split_ifs at hq with h0
  · rw [swap_zero h hne, mul_zero] at hq; exact absurd rfl hq
  · by_contra hcon
    push Not at hcon
    apply hq
    rw [Finset.sum_eq_zero, mul_zero]
    intro j hj
    have hj' := Finset.mem_range.1 hj
    by_cases hw : (t.mwx x).getD j 0 = 0
    · rw [hw]; simp
    · by_cases hl : t.Leads x y (t.direction j)
      · obtain ⟨h1, h2⟩ := mwx_feas h hj' hw
        exact absurd h1 (hcon j ⟨hj', h2, hl⟩)
      · rw [if_neg hl, mul_zero]

/-- same counts: only swaps, proposed equally often both ways -/
theorem same_counts_symmetric {t : TableFlipper} {n : ℕ} (h : TableOk t n) (hr : TableRows t)
    {x y : Occ} (hx : FullLegal t.sls x) (hy : FullLegal t.sls y)
    (he : countVec true t.sls x = countVec true t.sls y) :
    propProb (t.propose n) x y = propProb (t.propose n) y x := by
  classical
  have hsym : propProb t.swap x y = propProb t.swap y x :=
    swap_symmetric _ _ (fun _ h => h) (activeSitesOk h.sitesOk) _ _ x y
  have key : ∀ {x y : Occ}, FullLegal t.sls x → FullLegal t.sls y →
      countVec true t.sls x = countVec true t.sls y →
      propProb (t.tableStep n) x y = if ∀ w ∈ t.mwx x, w = 0 then propProb t.swap x y else 0 := by
    intro x y hx hy he
    rw [tableStep_expect h hr hx hy]
    apply if_congr Iff.rfl rfl
    apply Finset.sum_eq_zero
    intro j hj
    have hj' := Finset.mem_range.1 hj
    by_cases hw : (t.mwx x).getD j 0 = 0
    · rw [hw]; simp
    · rw [if_neg, mul_zero]
      intro hl
      exact TableFlipper.Good.ne h hr ⟨hj', (mwx_feas h hj' hw).2, hl⟩ he
  rw [propose_expect, propose_expect, key hx hy he, key hy hx he.symm, ← hsym]
  by_cases h0 : propProb t.swap x y = 0
  · rw [h0]; simp
  · have hoff : ∀ s, (∀ sl ∈ t.sls, s ∉ sl.active) → x s = y s := by
      by_contra hcon
      push Not at hcon
      obtain ⟨s, hs, hsne⟩ := hcon
      apply h0
      apply propProb_eq_zero
      intro st hst heq
      have := swap_off_active hst s fun sl hsl => hs sl (activeSublattices_mem hsl)
      rw [heq] at this
      exact hsne this.symm
    have hfull : countVec false t.sls y = countVec false t.sls x := by
      have := full_minus_active h.sls hoff
      rw [he] at this
      have hzero : ∀ (a b : List ℕ) (c : List ℕ), a.length = b.length → a.length = c.length →
          List.zipWith (fun a b : ℕ => (b : ℤ) - a) a b =
            List.zipWith (fun a b : ℕ => (b : ℤ) - a) c c → b = a := by
        intro a
        induction a with
        | nil =>
          intro b c h1 _ _
          cases b with
          | nil => rfl
          | cons _ _ => simp at h1
        | cons p a ih =>
          intro b c h1 h2 h3
          cases b with
          | nil => simp at h1
          | cons q b =>
            cases c with
            | nil => simp at h2
            | cons r c =>
              simp only [List.zipWith_cons_cons, List.cons.injEq] at h3
              rw [ih b c (by simpa using h1) (by simpa using h2) h3.2]
              congr 1
              omega
      exact hzero _ _ _ (by rw [countVec_length h, countVec_length h])
        (by rw [countVec_length h, countVec_length h]) this
    have hmw : t.mwx y = t.mwx x := by
      unfold TableFlipper.mwx; rw [he, hfull]
    rw [hmw]

/-! ### The a-priori factor -/

theorem getFlipId_dir {t : TableFlipper} (hr : TableRows t) {idx : ℕ}
    (hi : idx < 2 * t.table.length) :
    getFlipId t.table (t.dirList idx) = some (some (idx / 2, idx % 2)) := by
  obtain ⟨hrow, hmem⟩ := row_of_idx hi
  have hl : idx / 2 < t.table.length := by omega
  unfold getFlipId
  rw [if_neg (dirList_nonzero hr hi)]
  have hfind : t.table.findIdx? (fun v => decide (v = t.dirList idx ∨
      v.map (fun x => -x) = t.dirList idx)) = some (idx / 2) := by
    rw [List.findIdx?_eq_some_iff_getElem]
    refine ⟨hl, ?_, ?_⟩
    · have : t.table[idx / 2] = t.table.getD (idx / 2) [] := by
        rw [List.getD_eq_getElem?_getD, List.getElem?_eq_getElem hl, Option.getD_some]
      rw [this, decide_eq_true_eq]
      unfold TableFlipper.dirList
      split_ifs
      · exact Or.inr rfl
      · exact Or.inl rfl
    · intro j hj
      rw [Bool.not_eq_true, decide_eq_false_iff_not]
      intro hh
      have hjl : j < t.table.length := by omega
      have e : t.table[j]? = some t.table[j] := List.getElem?_eq_getElem hjl
      have : j = idx / 2 := by
        apply hr.distinct _ _ _ _ e hrow
        unfold TableFlipper.dirList at hh
        split_ifs at hh
        · rcases hh with hh | hh
          · exact Or.inr hh
          · left
            have := congrArg (List.map fun x : ℤ => -x) hh
            rwa [map_neg_neg, map_neg_neg] at this
        · rcases hh with hh | hh
          · exact Or.inl hh
          · right
            rw [← hh, map_neg_neg]
      omega
  rw [hfind]
  simp only [Option.some.injEq, Prod.mk.injEq, true_and]
  by_cases h1 : idx % 2 = 1
  · rw [if_neg, h1]
    intro he
    apply dirList_nonzero hr hi
    rw [← he]
    apply neg_eq_self_zero
    unfold TableFlipper.dirList at he
    rwa [if_pos h1] at he
  · rw [if_pos]
    · omega
    · unfold TableFlipper.dirList
      rw [if_neg h1]

theorem dimTable_get {t : TableFlipper} {n : ℕ} (h : TableOk t n) {sl : Sublattice}
    (hsl : sl ∈ t.sls) {s c : ℕ} (hs : s ∈ sl.active) (hc : c ∈ sl.encoding) :
    ∃ d : ℕ, d < t.d ∧ t.dimTable.get? s c = some (d : ℤ) := by
  obtain ⟨tb, htb, hrow, hcol, hent, hval⟩ := C18_table_correct true t.sls h.sls
  rw [h.dimTable, Option.some.injEq] at htb
  subst htb
  have hmem : (sl.active, c) ∈ countDimensions true t.sls := by
    simp only [countDimensions, List.mem_flatMap, List.mem_map]
    exact ⟨sl, hsl, c, hc, by simp⟩
  obtain ⟨d, hd, hdc⟩ := List.mem_iff_getElem.1 hmem
  have hdl : d < t.d := by rw [← h.d_eq true]; exact hd
  refine ⟨d, hdl, ?_⟩
  unfold DimTable.get?
  rw [if_pos]
  · rw [(hent s c d).2 ⟨sl.active, by rw [List.getElem?_eq_getElem hd, hdc], hs⟩]
  · exact ⟨by rw [hrow]; exact h.sls.range sl hsl s (h.sls.active sl hsl s hs), hcol sl hsl c hc⟩

/-- a step with legal flips changes the counts by the difference -/
theorem deltaCounts_legal {t : TableFlipper} {n : ℕ} (h : TableOk t n) {x : Occ}
    (hx : FullLegal t.sls x) {st : Step}
    (hst : ∀ f ∈ st, ∃ sl ∈ t.sls, f.1 ∈ sl.active ∧ f.2 ∈ sl.encoding) :
    deltaCounts t.dimTable t.d x st = some (List.zipWith (fun a b : ℕ => (b : ℤ) - a)
      (countVec true t.sls x) (countVec true t.sls (applyStep x st))) := by
  have hcx : ∀ {z : Occ}, FullLegal t.sls z →
      occuToCounts t.dimTable t.d n z = some (countVec true t.sls z) := by
    intro z hz
    obtain ⟨tb, htb, hc, _⟩ := C18_counts_and_species_list true t.sls h.sls z n h.size (h.cover hz)
    rw [h.dimTable, Option.some.injEq] at htb
    subst htb
    rw [h.d_eq] at hc
    exact hc
  cases hd : deltaCounts t.dimTable t.d x st with
  | none =>
    exfalso
    rw [C18_delta_error_iff] at hd
    obtain ⟨pre, f, post, rfl, hno⟩ := hd
    apply hno
    obtain ⟨sl, hsl, h1, h2⟩ := hst f (by simp)
    have hpre : FullLegal t.sls (applyStep x pre) :=
      hx.apply h fun g hg => hst g (by simp [hg])
    obtain ⟨o, ho, ho'⟩ := dimTable_get h hsl h1 (hpre sl hsl _ (h.sls.active sl hsl _ h1))
    obtain ⟨q, hq, hq'⟩ := dimTable_get h hsl h1 h2
    exact ⟨o, q, ho, hq, ho', hq'⟩
  | some δ =>
    obtain ⟨c', hc', heq⟩ := C18_delta_counts t.dimTable t.d n x (applyStep x st) st
      ((reachedBy_iff _ _ _).2 rfl) _ δ (hcx hx) hd
    rw [hcx (hx.apply h hst), Option.some.injEq] at hc'
    subst hc'
    congr 1
    have hlen : δ.length = t.d := by
      unfold deltaCounts at hd
      cases hl : deltaLoop t.dimTable t.d x st fun _ => 0 with
      | none => rw [hl] at hd; cases hd
      | some g => rw [hl, Option.map_some, Option.some.injEq] at hd; rw [← hd]; simp
    have gen : ∀ (a b : List ℕ) (δ : List ℤ), a.length = b.length → a.length = δ.length →
        b.map (fun z : ℕ => (z : ℤ)) = List.zipWith (fun (x : ℕ) (d : ℤ) => (x : ℤ) + d) a δ →
        δ = List.zipWith (fun a b : ℕ => (b : ℤ) - a) a b := by
      intro a
      induction a with
      | nil =>
        intro b δ _ h2 _
        cases δ with
        | nil => rfl
        | cons _ _ => simp at h2
      | cons p a ih =>
        intro b δ h1 h2 h3
        cases b with
        | nil => simp at h1
        | cons q b =>
          cases δ with
          | nil => simp at h2
          | cons r δ =>
            simp only [List.map_cons, List.zipWith_cons_cons, List.cons.injEq] at h3 ⊢
            exact ⟨by omega, ih b δ (by simpa using h1) (by simpa using h2) h3.2⟩
    exact gen _ _ _ (by rw [countVec_length h, countVec_length h])
      (by rw [countVec_length h, hlen]) heq

/-- The factor of a legal step between states of equal counts is 1. -/
theorem prioriFactor_same {t : TableFlipper} {n : ℕ} (h : TableOk t n) {x : Occ}
    (hx : FullLegal t.sls x) {st : Step}
    (hst : ∀ f ∈ st, ∃ sl ∈ t.sls, f.1 ∈ sl.active ∧ f.2 ∈ sl.encoding)
    (he : countVec true t.sls x = countVec true t.sls (applyStep x st)) :
    t.prioriFactor n x st = some 1 := by
  unfold TableFlipper.prioriFactor
  rw [deltaCounts_legal h hx hst, ← he]
  have : getFlipId t.table (List.zipWith (fun a b : ℕ => (b : ℤ) - a) (countVec true t.sls x)
      (countVec true t.sls x)) = some none := by
    unfold getFlipId
    rw [if_pos]
    intro z hz
    rw [List.zipWith_self] at hz
    obtain ⟨a, _, rfl⟩ := List.mem_map.1 hz
    simp
  simp only [this]

/-- The factor of a step along direction `idx`. -/
theorem prioriFactor_good {t : TableFlipper} {n : ℕ} (h : TableOk t n) (hr : TableRows t) {x : Occ}
    (hx : FullLegal t.sls x) {st : Step}
    (hst : ∀ f ∈ st, ∃ sl ∈ t.sls, f.1 ∈ sl.active ∧ f.2 ∈ sl.encoding) {idx : ℕ}
    (hg : t.Good x (applyStep x st) idx) :
    t.prioriFactor n x st = some (
      (1 - t.swapWeight) * (t.mw (countVec true t.sls (applyStep x st))).getD (revIdx idx) 0 /
          (t.mw (countVec true t.sls (applyStep x st))).sum /
        ((1 - t.swapWeight) * (t.mw (countVec true t.sls x)).getD idx 0 /
          (t.mw (countVec true t.sls x)).sum) *
      ((List.range t.d).map fun d => (((countVec true t.sls x).getD d 0).factorial : ℚ) /
          (((countVec true t.sls (applyStep x st)).getD d 0).factorial : ℚ)).prod) := by
  have hcx : occuToCounts t.dimTable t.d n x = some (countVec true t.sls x) := by
    obtain ⟨tb, htb, hc, _⟩ := C18_counts_and_species_list true t.sls h.sls x n h.size (h.cover hx)
    rw [h.dimTable, Option.some.injEq] at htb
    subst htb
    rw [h.d_eq] at hc
    exact hc
  have hdl := dirList_eq_delta h hg.lt hg.feas hg.leads
  unfold TableFlipper.prioriFactor
  rw [deltaCounts_legal h hx hst, ← hdl]
  simp only [getFlipId_dir hr hg.lt, hcx]
  have hu : ((t.table.getD (idx / 2) []).map fun x => (-2 * ((idx % 2 : ℕ) : ℤ) + 1) * x) =
      t.dirList idx := by
    unfold TableFlipper.dirList
    split_ifs with h1
    · apply List.map_congr_left; intro a _; rw [h1]; ring
    · have : idx % 2 = 0 := by omega
      rw [this]; simp
  rw [hu]
  have hnext : List.zipWith (fun (a : ℕ) (x : ℤ) => ((a : ℤ) + x).toNat) (countVec true t.sls x)
      (t.dirList idx) = countVec true t.sls (applyStep x st) := by
    rw [hdl]
    have gen : ∀ a b : List ℕ, a.length = b.length →
        List.zipWith (fun (a : ℕ) (x : ℤ) => ((a : ℤ) + x).toNat) a
          (List.zipWith (fun a b : ℕ => (b : ℤ) - a) a b) = b := by
      intro a
      induction a with
      | nil => intro b hb; cases b <;> simp_all
      | cons p a ih =>
        intro b hb
        cases b with
        | nil => simp at hb
        | cons q b =>
          simp only [List.zipWith_cons_cons]
          rw [ih b (by simpa using hb)]
          congr 1
          omega
    exact gen _ _ (by rw [countVec_length h, countVec_length h])
  rw [hnext]
  have e1 : idx / 2 * 2 + idx % 2 = idx := by omega
  have e2 : idx / 2 * 2 + (1 - idx % 2) = revIdx idx := rfl
  rw [e1, e2]
  congr 2
  rw [dirList_length h hg.lt]
  have hfil : ∀ (l : List ℕ) (p : ℕ → Bool) (f : ℕ → ℚ), (∀ a ∈ l, p a = false → f a = 1) →
      ((l.filter p).map f).prod = (l.map f).prod := by
    intro l p f hh
    induction l with
    | nil => rfl
    | cons a l ih =>
      have ih := ih fun b hb => hh b (by simp [hb])
      cases hp : p a
      · rw [List.filter_cons_of_neg (by simp [hp]), ih, List.map_cons, List.prod_cons,
          hh a (by simp) hp, one_mul]
      · rw [List.filter_cons_of_pos hp, List.map_cons, List.map_cons, List.prod_cons,
          List.prod_cons, ih]
  apply hfil
  intro d hd hz
  rw [decide_eq_false_iff_not, not_not, ← direction_eq] at hz
  have := leads_delta h hg.feas hg.leads d (List.mem_range.1 hd)
  rw [hz, add_zero, Nat.cast_inj] at this
  rw [this, div_self]
  positivity

/-! ### Outcomes of the usher -/

theorem swap_flips {g : Rng} {act : List Sublattice} {probs : List ℚ} {x : Occ} {st : Step}
    (hx : LegalOcc act x) (h : (swapPropose g act probs x).Outcome st) : LegalStep act st := by
  rcases outcome_swap h with rfl | ⟨sl, hsl, s1, h1, s2, h2, hne, rfl⟩
  · exact ⟨by simp, by simp⟩
  · refine ⟨?_, ?_⟩
    · intro f hf
      simp only [List.mem_cons, List.not_mem_nil, or_false] at hf
      rcases hf with rfl | rfl
      · exact ⟨sl, hsl, h1, hx sl hsl s2 h2⟩
      · exact ⟨sl, hsl, h2, hx sl hsl s1 h1⟩
    · have : s1 ≠ s2 := by rintro rfl; exact hne rfl
      simp [this]

/-- What the usher can propose: a legal swap that keeps all counts, or a legal step along a good
direction. -/
theorem table_outcome {t : TableFlipper} {n : ℕ} (h : TableOk t n)
    {x : Occ} (hx : FullLegal t.sls x) {st : Step} (hst : (t.propose n x).Outcome st) :
    LegalStep (activeSublattices t.sls) st ∧
      ((t.swap x).Outcome st ∨ (∃ idx, t.Good x (applyStep x st) idx) ∧
        constraintsHold t.A t.b (countVec false t.sls x) = true) := by
  classical
  have hlx : LegalOcc t.sls x := hx.legalOcc h
  rcases outcome_table hst with hs | ⟨sp, spF, hsp, hspF, idx, hidx, hw, hs⟩
  · exact ⟨swap_flips (fun sl hsl => hlx sl (activeSublattices_mem hsl)) hs, Or.inl hs⟩
  · obtain ⟨sp', hsp', hspl, hspd⟩ := h.speciesList hx
    rw [hsp, Option.some.injEq] at hsp'
    subst hsp'
    obtain ⟨spF', hspF', hspFl⟩ := h.speciesFull hx
    rw [hspF, Option.some.injEq] at hspF'
    subst hspF'
    have hmw : t.maskedWeights (sp.map List.length) (spF.map List.length) = t.mwx x := by
      rw [hspl, hspFl]; rfl
    rw [hmw] at hidx hw
    rw [mwx_length h] at hidx
    obtain ⟨h1, h2⟩ := outcome_tableLoop x _ _ _ (h.blocks hx sp hspd) h.blocks_disjoint [] st
      (by simp) (by simp) hs
    have hleg : LegalStep (activeSublattices t.sls) st := by
      refine ⟨fun f hf => ?_, h1⟩
      rcases h2 f hf with h' | ⟨b, hb, h3, h4⟩
      · simp at h'
      · refine ⟨b.1, List.mem_filter.2 ⟨(h.block_dims b hb).1, ?_⟩, h3, h4⟩
        unfold Sublattice.isActive
        cases hh : b.1.active with
        | nil => rw [hh] at h3; simp at h3
        | cons a l => rfl
    refine ⟨hleg, Or.inr ⟨⟨idx, hidx, (mwx_feas h hidx hw).2, ?_⟩, (mwx_feas h hidx hw).1⟩⟩
    have hy : FullLegal t.sls (applyStep x st) := hx.apply h fun f hf => by
      obtain ⟨sl, hsl, h3, h4⟩ := hleg.flips f hf
      exact ⟨sl, activeSublattices_mem hsl, h3, h4⟩
    have hpos := Prog.expect_pos (allPos_tableLoop (fun d => sp.getD d []) (t.direction idx)
      (t.sls.zip t.dimIds) []) (fun st' => if applyStep x st' = applyStep x st then (1 : ℝ) else 0)
      (fun a => by split_ifs <;> norm_num) st hs (by rw [if_pos rfl]; norm_num)
    rw [tableLoop_expect x _ _ _ _ (h.blocks hx sp hspd) ?_ h.blocks_disjoint [] (by simp)] at hpos
    · by_contra hcon
      rw [if_neg] at hpos
      · exact lt_irrefl _ hpos
      · rintro ⟨ha, hb⟩
        apply hcon
        refine ⟨fun s hs => ?_, hb⟩
        exact ha s fun b hb => hs b.1 (h.block_dims b hb).1
    · intro b hb s hs
      have := (h.block_dims b hb).1
      exact hy _ this s (h.sls.active _ this s hs)

theorem table_flips {t : TableFlipper} {n : ℕ} (h : TableOk t n)
    {x : Occ} (hx : FullLegal t.sls x) {st : Step} (hst : (t.propose n x).Outcome st) :
    ∀ f ∈ st, ∃ sl ∈ t.sls, f.1 ∈ sl.active ∧ f.2 ∈ sl.encoding := by
  intro f hf
  obtain ⟨sl, hsl, h3, h4⟩ := (table_outcome h hx hst).1.flips f hf
  exact ⟨sl, activeSublattices_mem hsl, h3, h4⟩

theorem allPos_table {t : TableFlipper} (hr : TableRows t) (h0 : 0 ≤ t.swapWeight)
    (h1 : t.swapWeight ≤ 1) (n : ℕ) (x : Occ) : (t.propose n x).AllPos := by
  have hsw : (t.swap x).AllPos := by
    apply allPos_swap
    intro a ha
    rw [List.eq_of_mem_replicate ha]
    positivity
  have hmw : ∀ c cF, ∀ w ∈ t.maskedWeights c cF, 0 ≤ w := by
    intro c cF w hw
    unfold TableFlipper.maskedWeights at hw
    split_ifs at hw
    · obtain ⟨i, hi, rfl⟩ := List.mem_iff_getElem.1 hw
      rw [List.getElem_zipWith]
      split_ifs
      · exact hr.nonneg _ (List.getElem_mem _)
      · exact le_refl _
    · rw [List.eq_of_mem_replicate hw]
  refine Prog.AllPos.bind (p := coin .shared t.swapWeight) ?_ ?_
  · intro i
    refine ⟨?_, trivial⟩
    beta_reduce
    split_ifs
    · exact h0
    · linarith
  · intro b
    split_ifs
    · exact hsw
    · unfold TableFlipper.tableStep
      split
      · simp only
        split_ifs
        · exact fun i => i.elim0
        · exact hsw
        · refine Prog.AllPos.bind (allPos_chooseW _ _ _ ?_) fun idx => allPos_tableLoop _ _ _ _
          intro a ha
          obtain ⟨w, hw, rfl⟩ := List.mem_map.1 ha
          exact div_nonneg (hmw _ _ w hw) (List.sum_nonneg (hmw _ _))
      · exact fun i => i.elim0

theorem table_prob_ne_zero {t : TableFlipper} (hr : TableRows t) (h0 : 0 ≤ t.swapWeight)
    (h1 : t.swapWeight ≤ 1) {n : ℕ} {x : Occ} {st : Step} (hst : (t.propose n x).Outcome st) :
    propProb (t.propose n) x (applyStep x st) ≠ 0 := by
  classical
  refine (Prog.expect_pos (allPos_table hr h0 h1 n x) _ (fun a => ?_) st hst ?_).ne'
  · split_ifs <;> norm_num
  · rw [if_pos rfl]; norm_num

/-- A usher built by the constructor has the tables described. -/
theorem tableOk_new {sls : List Sublattice} {table : List (List ℤ)} {w : Option (List ℚ)} {sw : ℚ}
    {A : List (List ℤ)} {b : List ℤ} {t : TableFlipper} (h : SublatticesOk sls)
    (hlen : ∀ sl ∈ sls, sl.species.length = sl.encoding.length)
    (hrows : ∀ u ∈ table, u.length = (sls.map fun sl => sl.species.length).sum)
    (hn : TableFlipper.new sls table w sw A b = some t) :
    t.sls = sls ∧ t.table = table ∧ t.swapWeight = sw ∧ t.A = A ∧ t.b = b ∧
      TableOk t (sls.map fun sl => sl.sites.length).sum := by
  unfold TableFlipper.new at hn
  split at hn
  · rename_i w' dt df h1 h2 h3
    rw [Option.some.injEq] at hn
    subst hn
    refine ⟨rfl, rfl, rfl, rfl, rfl, ?_⟩
    exact
      { sls := h
        len := hlen
        dimTable := h2
        dimFull := h3
        maxN := rfl
        size := rfl
        rows := by
          intro u hu
          rw [hrows u hu, TableFlipper.d, tableMaxN, List.length_flatMap]
          simp
        weights := by
          show w'.length = 2 * table.length
          unfold tableWeights at h1
          split at h1
          · rw [Option.some.injEq] at h1
            rw [← h1, List.length_replicate, mul_comm]
          · rename_i w₀
            by_cases hc : w₀.length ≠ table.length ∧ w₀.length ≠ table.length * 2
            · rw [if_pos hc] at h1; cases h1
            · rw [if_neg hc] at h1
              simp only [Option.some.injEq] at h1
              subst h1
              by_cases h2r : w₀.length = 2 * table.length
              · rw [if_pos h2r]; exact h2r
              · have : w₀.length = table.length := by omega
                rw [if_neg h2r, if_pos this, List.length_flatMap]
                simp; omega }
  · cases hn

/-! ### Balance -/

open Classical in
/-- ratio of the proposal probabilities -/
noncomputable def TableFlipper.ratio (t : TableFlipper) (n : ℕ) (x y : Occ) : ℝ :=
  if h : ∃ st, (t.propose n x).Outcome st ∧ applyStep x st = y then
    (((t.prioriFactor n x h.choose).getD 0 : ℚ) : ℝ)
  else 0

theorem factor_depends {t : TableFlipper} {n : ℕ} (h : TableOk t n) (hr : TableRows t) {x : Occ}
    (hx : FullLegal t.sls x) {st st' : Step} (hst : (t.propose n x).Outcome st)
    (hst' : (t.propose n x).Outcome st') (he : applyStep x st = applyStep x st') :
    t.prioriFactor n x st = t.prioriFactor n x st' := by
  have hf := table_flips h hx hst
  have hf' := table_flips h hx hst'
  by_cases hc : countVec true t.sls x = countVec true t.sls (applyStep x st)
  · rw [prioriFactor_same h hx hf hc, prioriFactor_same h hx hf' (he ▸ hc)]
  · rcases (table_outcome h hx hst).2 with hs | ⟨⟨idx, hg⟩, _⟩
    · exact absurd (countVec_eq_of_same h
        (outcome_swap_same (activeSitesOk h.sitesOk) (fun _ h => h) hs)) hc
    · rw [prioriFactor_good h hr hx hf hg, prioriFactor_good h hr hx hf' (he ▸ hg), he]

theorem ratio_eq {t : TableFlipper} {n : ℕ} (h : TableOk t n) (hr : TableRows t) {x : Occ}
    (hx : FullLegal t.sls x) {st : Step} (hst : (t.propose n x).Outcome st) :
    (((t.prioriFactor n x st).getD 0 : ℚ) : ℝ) = t.ratio n x (applyStep x st) := by
  unfold TableFlipper.ratio
  have hex : ∃ st', (t.propose n x).Outcome st' ∧ applyStep x st' = applyStep x st := ⟨st, hst, rfl⟩
  rw [dif_pos hex]
  rw [factor_depends h hr hx hst hex.choose_spec.1 hex.choose_spec.2.symm]

theorem list_sum_nonneg (l : List ℚ) (h : ∀ w ∈ l, 0 ≤ w) : 0 ≤ l.sum := List.sum_nonneg h

theorem table_reversible {t : TableFlipper} {n : ℕ} (h : TableOk t n) (hr : TableRows t)
    (hsw : t.swapWeight ≤ 1) {x y : Occ} (hx : FullLegal t.sls x) (hy : FullLegal t.sls y)
    (hq : propProb (t.propose n) x y ≠ 0) :
    propProb (t.propose n) x y * t.ratio n x y = propProb (t.propose n) y x ∧
      0 ≤ t.ratio n x y := by
  have hex : ∃ st, (t.propose n x).Outcome st ∧ applyStep x st = y := by
    by_contra hcon
    push Not at hcon
    exact hq (propProb_eq_zero _ _ _ hcon)
  obtain ⟨st, hst, rfl⟩ := hex
  rw [← ratio_eq h hr hx hst]
  have hf := table_flips h hx hst
  by_cases hc : countVec true t.sls x = countVec true t.sls (applyStep x st)
  · rw [prioriFactor_same h hx hf hc]
    simp only [Option.getD_some, Rat.cast_one, mul_one]
    exact ⟨same_counts_symmetric h hr hx hy hc, zero_le_one⟩
  · obtain ⟨idx, hg, hcons⟩ := exists_good h hr hx hy hc hq
    have hcons' := hcons
    rw [← hg.constraints h hr] at hcons'
    rw [prioriFactor_good h hr hx hf hg]
    have hq1 := good_prob h hr hx hy hg
    have hq2 := good_prob h hr hy hx (hg.rev h)
    rw [mwx_pos hcons] at hq1
    rw [mwx_pos hcons'] at hq2
    have hT := tval_rev h hx hy hg.feas hg.leads
    rw [hq1] at hq
    rw [hq1, hq2, ← hT]
    simp only [Option.getD_some]
    have hne1 : (1 - t.swapWeight : ℝ) ≠ 0 := fun h0 => by rw [h0] at hq; simp at hq
    have hne2 : (((t.mw (countVec true t.sls x)).getD idx 0 / (t.mw (countVec true t.sls x)).sum : ℚ)
        : ℝ) ≠ 0 := fun h0 => by rw [h0] at hq; simp at hq
    push_cast
    have hprod : ((((List.range t.d).map fun d => (((countVec true t.sls x).getD d 0).factorial : ℚ) /
          (((countVec true t.sls (applyStep x st)).getD d 0).factorial : ℚ)).prod : ℚ) : ℝ) =
        ((List.range t.d).map fun d => (((countVec true t.sls x).getD d 0).factorial : ℝ) /
          (((countVec true t.sls (applyStep x st)).getD d 0).factorial : ℝ)).prod := by
      induction (List.range t.d) with
      | nil => simp
      | cons a l ih =>
        simp only [List.map_cons, List.prod_cons]
        push_cast
        rw [← ih]
        push_cast
        rfl
    push_cast at hprod
    rw [hprod]
    push_cast at hne2
    have hnum : ((t.mw (countVec true t.sls x)).getD idx 0 : ℝ) ≠ 0 := fun h0 => hne2 (by rw [h0, zero_div])
    have hden : (((t.mw (countVec true t.sls x)).sum : ℚ) : ℝ) ≠ 0 := fun h0 => hne2 (by
      push_cast at h0
      rw [h0, div_zero])
    have hnn : ∀ c, ∀ w ∈ t.mw c, 0 ≤ w := by
      intro c w hw
      unfold TableFlipper.mw at hw
      obtain ⟨i, hi, rfl⟩ := List.mem_iff_getElem.1 hw
      rw [List.getElem_zipWith]
      split_ifs
      · exact hr.nonneg _ (List.getElem_mem _)
      · exact le_refl _
    have hget : ∀ c i, 0 ≤ (t.mw c).getD i 0 := by
      intro c i
      rcases getD_mem_or (l := t.mw c) i with h' | h'
      · exact hnn c _ h'
      · rw [h']
    have hsw' : (0 : ℝ) ≤ 1 - t.swapWeight := by
      have : (t.swapWeight : ℝ) ≤ 1 := by exact_mod_cast hsw
      linarith
    constructor
    · push_cast at hden ⊢
      field_simp
    · have a1 : (0 : ℝ) ≤ ((t.mw (countVec true t.sls (applyStep x st))).getD (revIdx idx) 0 : ℚ) := by
        exact_mod_cast hget _ _
      have a2 : (0 : ℝ) ≤ ((t.mw (countVec true t.sls (applyStep x st))).sum : ℚ) := by
        exact_mod_cast List.sum_nonneg (hnn _)
      have a3 : (0 : ℝ) ≤ ((t.mw (countVec true t.sls x)).getD idx 0 : ℚ) := by
        exact_mod_cast hget _ _
      have a4 : (0 : ℝ) ≤ ((t.mw (countVec true t.sls x)).sum : ℚ) := by
        exact_mod_cast List.sum_nonneg (hnn _)
      have a5 : 0 ≤ ((List.range t.d).map fun d =>
          (((countVec true t.sls x).getD d 0).factorial : ℝ) /
          (((countVec true t.sls (applyStep x st)).getD d 0).factorial : ℝ)).prod := by
        apply List.prod_nonneg
        intro r hr'
        obtain ⟨d, _, rfl⟩ := List.mem_map.1 hr'
        positivity
      push_cast at a2 a4
      positivity

end Smol
