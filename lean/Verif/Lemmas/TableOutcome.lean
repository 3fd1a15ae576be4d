import Verif.Lemmas.TableFlip
import Verif.Lemmas.UsherOutcome

/-! Steps the table-flip usher can propose. -/

namespace Smol
open Prog Spec

/-- no alternative has negative probability -/
def Prog.AllPos {α : Type} : Prog α → Prop
  | ret _ => True
  | pick _ _ w k => ∀ i, 0 ≤ w i ∧ (k i).AllPos

theorem Prog.AllPos.bind {α β : Type} {p : Prog α} {f : α → Prog β} (hp : p.AllPos)
    (hf : ∀ a, (f a).AllPos) : (p.bind f).AllPos := by
  induction p with
  | ret a => exact hf a
  | pick g n w k ih => exact fun i => ⟨(hp i).1, ih i (hp i).2⟩

theorem Prog.expect_nonneg {α : Type} {p : Prog α} (hp : p.AllPos) (f : α → ℝ)
    (hf : ∀ a, 0 ≤ f a) : 0 ≤ p.expect f := by
  induction p with
  | ret a => exact hf a
  | pick g n w k ih =>
    simp only [expect]
    exact Finset.sum_nonneg fun i _ =>
      mul_nonneg (by exact_mod_cast (hp i).1) (ih i (hp i).2)

theorem Prog.expect_pos {α : Type} {p : Prog α} (hp : p.AllPos) (f : α → ℝ)
    (hf : ∀ a, 0 ≤ f a) (a : α) (ha : p.Outcome a) (hfa : 0 < f a) : 0 < p.expect f := by
  induction p with
  | ret b => rw [Outcome] at ha; subst ha; exact hfa
  | pick g n w k ih =>
    obtain ⟨i, hi, hai⟩ := ha
    simp only [expect]
    apply Finset.sum_pos' (fun j _ => mul_nonneg (by exact_mod_cast (hp j).1)
      (expect_nonneg (hp j).2 f hf))
    exact ⟨i, Finset.mem_univ i, mul_pos (by exact_mod_cast lt_of_le_of_ne (hp i).1 (Ne.symm hi)) (ih i (hp i).2 hai)⟩

theorem allPos_choose {β : Type} (g : Rng) (l : List β) : (choose g l).AllPos := by
  intro i
  refine ⟨?_, trivial⟩
  have : 0 < l.length := Nat.lt_of_le_of_lt (Nat.zero_le _) i.2
  positivity

theorem allPos_chooseW {β : Type} (g : Rng) (l : List β) (w : List ℚ) (hw : ∀ a ∈ w, 0 ≤ a) :
    (chooseW g l w).AllPos := by
  intro i
  refine ⟨?_, trivial⟩
  beta_reduce
  rw [List.getD_eq_getElem?_getD]
  cases h : w[i.1]? with
  | none => simp
  | some a => exact hw a (List.mem_of_getElem? h)

theorem allPos_flip (g : Rng) (act : List Sublattice) (probs : List ℚ) (hp : ∀ a ∈ probs, 0 ≤ a)
    (x : Occ) : (flipPropose g act probs x).AllPos :=
  (allPos_chooseW _ _ _ hp).bind fun _ => (allPos_choose _ _).bind fun _ =>
    (allPos_choose _ _).bind fun _ => trivial

theorem allPos_swap (g : Rng) (act : List Sublattice) (probs : List ℚ) (hp : ∀ a ∈ probs, 0 ≤ a)
    (x : Occ) : (swapPropose g act probs x).AllPos := by
  refine (allPos_chooseW _ _ _ hp).bind fun sl => (allPos_choose _ _).bind fun s => ?_
  simp only
  split_ifs
  · exact (allPos_choose _ _).bind fun _ => trivial
  · trivial

theorem allPos_fromLoop (species : ℕ → List ℕ) (u : ℕ → ℤ) (ds acc : List ℕ) :
    (fromLoop species u ds acc).AllPos := by
  induction ds generalizing acc with
  | nil => trivial
  | cons d ds ih => exact (allPos_choose _ _).bind fun t => ih _

theorem allPos_toLoop (u : ℕ → ℤ) (tos : List (ℕ × ℕ)) (siteIds : List ℕ) (step : Step) :
    (toLoop u tos siteIds step).AllPos := by
  induction tos generalizing siteIds step with
  | nil =>
    rw [toLoop]
    split_ifs
    · trivial
    · exact fun i => i.elim0
  | cons p tos ih => exact (allPos_choose _ _).bind fun t => ih _ _

theorem allPos_tableLoop (species : ℕ → List ℕ) (u : ℕ → ℤ) (bs : List (Sublattice × List ℕ))
    (step : Step) : (tableLoop species u bs step).AllPos := by
  induction bs generalizing step with
  | nil => trivial
  | cons b bs ih =>
    rw [tableLoop]
    split_ifs
    · exact (allPos_fromLoop _ _ _ _).bind fun t => (allPos_toLoop _ _ _ _).bind fun st => ih _
    · exact ih _

/-- sites handed out by `fromLoop` are distinct -/
theorem outcome_fromLoop_nodup (species : ℕ → List ℕ) (u : ℕ → ℤ) (ds acc r : List ℕ)
    (h : (fromLoop species u ds acc).Outcome r) (hacc : acc.Nodup)
    (hs : ∀ d ∈ ds, (species d).Nodup) (hd : ds.Pairwise fun d e => ∀ s ∈ species d, s ∉ species e)
    (ha : ∀ d ∈ ds, ∀ s ∈ species d, s ∉ acc) : r.Nodup := by
  induction ds generalizing acc with
  | nil => rw [fromLoop, Outcome] at h; subst h; exact hacc
  | cons d ds ih =>
    rw [fromLoop, outcome_bind] at h
    obtain ⟨t, ht, hr⟩ := h
    rw [outcome_chooseSub] at ht
    rw [List.pairwise_cons] at hd
    apply ih _ hr _ (fun e he => hs e (by simp [he])) hd.2
    · intro e he s hse hsa
      rcases List.mem_append.1 hsa with h | h
      · exact ha e (by simp [he]) s hse h
      · exact hd.1 e he s (ht.1.subset h) hse
    · rw [List.nodup_append]
      refine ⟨hacc, ht.1.nodup (hs d (by simp)), ?_⟩
      rintro s h1 s' h2 rfl
      exact ha d (by simp) s (ht.1.subset h2) h1

theorem outcome_toLoop_once (u : ℕ → ℤ) (tos : List (ℕ × ℕ)) (siteIds : List ℕ) (step r : Step)
    (h : (toLoop u tos siteIds step).Outcome r) (hn : siteIds.Nodup)
    (hst : (step.map Prod.fst).Nodup) (hd : ∀ s ∈ siteIds, s ∉ step.map Prod.fst) :
    (r.map Prod.fst).Nodup := by
  induction tos generalizing siteIds step with
  | nil =>
    rw [toLoop] at h
    split_ifs at h
    · rw [Outcome] at h; subst h; exact hst
    · obtain ⟨i, _⟩ := h; exact i.elim0
  | cons p tos ih =>
    obtain ⟨d, c⟩ := p
    rw [toLoop, outcome_bind] at h
    obtain ⟨t, ht, hr⟩ := h
    rw [outcome_chooseSub] at ht
    apply ih _ _ hr (hn.filter _)
    · rw [List.map_append, List.nodup_append]
      refine ⟨hst, ?_, ?_⟩
      · rw [List.map_map]
        simpa [Function.comp_def] using ht.1.nodup hn
      · rintro s h1 s' h2 rfl
        rw [List.map_map, List.mem_map] at h2
        obtain ⟨s'', h2, h3⟩ := h2
        simp only [Function.comp] at h3
        subst h3
        exact hd s'' (ht.1.subset h2) h1
    · intro s hs hs'
      rw [List.mem_filter, decide_eq_true_eq] at hs
      rw [List.map_append, List.mem_append] at hs'
      rcases hs' with h1 | h1
      · exact hd s hs.1 h1
      · rw [List.map_map, List.mem_map] at h1
        obtain ⟨s'', h2, h3⟩ := h1
        simp only [Function.comp] at h3
        subst h3
        exact hs.2 h2

theorem outcome_toLoop_codes (u : ℕ → ℤ) (tos : List (ℕ × ℕ)) (siteIds : List ℕ) (step r : Step)
    (h : (toLoop u tos siteIds step).Outcome r) :
    ∀ f ∈ r, f ∈ step ∨ (f.1 ∈ siteIds ∧ ∃ p ∈ tos, f.2 = p.2) := by
  induction tos generalizing siteIds step with
  | nil =>
    rw [toLoop] at h
    split_ifs at h
    · intro f hf; rw [Outcome] at h; subst h; exact Or.inl hf
    · obtain ⟨i, _⟩ := h; exact i.elim0
  | cons p tos ih =>
    obtain ⟨d, c⟩ := p
    rw [toLoop, outcome_bind] at h
    obtain ⟨t, ht, hr⟩ := h
    rw [outcome_chooseSub] at ht
    intro f hf
    rcases ih _ _ hr f hf with h | ⟨h, p, hp, he⟩
    · rcases List.mem_append.1 h with h | h
      · exact Or.inl h
      · obtain ⟨s, hs, rfl⟩ := List.mem_map.1 h
        exact Or.inr ⟨ht.1.subset hs, (d, c), by simp, rfl⟩
    · exact Or.inr ⟨List.mem_of_mem_filter h, p, by simp [hp], he⟩

/-- Steps of the table loop: legal flips, each site once. -/
theorem outcome_tableLoop (x : Occ) (species : ℕ → List ℕ) (u : ℕ → ℤ)
    (bs : List (Sublattice × List ℕ)) (hb : ∀ b ∈ bs, BlockOk x species b.1 b.2)
    (hdisj : bs.Pairwise fun a b => ∀ s ∈ a.1.active, s ∉ b.1.active)
    (step r : Step) (hstep : ∀ b ∈ bs, ∀ f ∈ step, f.1 ∉ b.1.active)
    (hst : (step.map Prod.fst).Nodup)
    (h : (tableLoop species u bs step).Outcome r) :
    (r.map Prod.fst).Nodup ∧
      ∀ f ∈ r, f ∈ step ∨ ∃ b ∈ bs, f.1 ∈ b.1.active ∧ f.2 ∈ b.1.encoding := by
  induction bs generalizing step with
  | nil => rw [tableLoop, Outcome] at h; subst h; exact ⟨hst, fun f hf => Or.inl hf⟩
  | cons b bs ih =>
    rw [List.pairwise_cons] at hdisj
    obtain ⟨sl, dims⟩ := b
    rw [tableLoop] at h
    have hB := hb (sl, dims) (by simp)
    split_ifs at h with hact
    · rw [outcome_bind] at h
      obtain ⟨ids, hids, h⟩ := h
      rw [outcome_bind] at h
      obtain ⟨st, hs, h⟩ := h
      have hzip : ∀ d ∈ dims, ∃ c, (d, c) ∈ dims.zip sl.encoding := by
        intro d hd
        obtain ⟨i, hi, rfl⟩ := List.mem_iff_getElem.1 hd
        have hl : dims.length = sl.encoding.length := hB.len
        refine ⟨sl.encoding[i], ?_⟩
        rw [List.mem_iff_getElem]
        exact ⟨i, by rw [List.length_zip]; omega, by simp⟩
      have hact' : ∀ s ∈ ids, s ∈ sl.active := by
        intro s hsm
        rcases outcome_fromLoop_mem _ _ _ _ _ hids s hsm with h' | ⟨d, hd, h'⟩
        · simp at h'
        · obtain ⟨c, hc⟩ := hzip d (List.mem_of_mem_filter hd)
          exact ((hB.mem _ hc s).1 h').1
      have hnd : ids.Nodup := by
        apply outcome_fromLoop_nodup _ _ _ _ _ hids List.nodup_nil
        · intro d hd
          obtain ⟨c, hc⟩ := hzip d (List.mem_of_mem_filter hd)
          exact hB.snodup _ hc
        · refine List.Pairwise.imp_of_mem ?_ (hB.dnodup.filter _)
          intro d e hd he hde s hs1 hs2
          obtain ⟨i, hi, hdi⟩ := List.mem_iff_getElem.1 (List.mem_of_mem_filter hd)
          obtain ⟨j, hj, hej⟩ := List.mem_iff_getElem.1 (List.mem_of_mem_filter he)
          have hl : dims.length = sl.encoding.length := hB.len
          have hzi : (d, sl.encoding[i]'(by omega)) ∈ dims.zip sl.encoding :=
            List.mem_iff_getElem.2 ⟨i, by rw [List.length_zip]; omega, by simp [hdi]⟩
          have hzj : (e, sl.encoding[j]'(by omega)) ∈ dims.zip sl.encoding :=
            List.mem_iff_getElem.2 ⟨j, by rw [List.length_zip]; omega, by simp [hej]⟩
          have e1 := ((hB.mem _ hzi s).1 hs1).2
          have e2 := ((hB.mem _ hzj s).1 hs2).2
          have : i = j := (List.Nodup.getElem_inj_iff hB.enodup).1 (e1.symm.trans e2)
          subst this
          exact hde (hdi.symm.trans hej)
        · simp
      have hcodes := outcome_toLoop_codes _ _ _ _ _ hs
      have hone := outcome_toLoop_once _ _ _ _ _ hs hnd hst (by
        intro s hs1 hs2
        obtain ⟨f, hf, rfl⟩ := List.mem_map.1 hs2
        exact hstep (sl, dims) (by simp) f hf (hact' _ hs1))
      obtain ⟨r1, r2⟩ := ih (fun b hb' => hb b (by simp [hb'])) hdisj.2 st (by
        intro b hb' f hf hfa
        rcases hcodes f hf with h' | ⟨h', _⟩
        · exact hstep b (by simp [hb']) f h' hfa
        · exact hdisj.1 b hb' _ (hact' _ h') hfa) hone h
      refine ⟨r1, fun f hf => ?_⟩
      rcases r2 f hf with h' | ⟨b, hb', h1, h2⟩
      · rcases hcodes f h' with h'' | ⟨h1, p, hp, h2⟩
        · exact Or.inl h''
        · refine Or.inr ⟨(sl, dims), by simp, hact' _ h1, ?_⟩
          rw [h2]
          exact (List.of_mem_zip (List.mem_of_mem_filter hp)).2
      · exact Or.inr ⟨b, by simp [hb'], h1, h2⟩
    · obtain ⟨r1, r2⟩ := ih (fun b hb' => hb b (by simp [hb'])) hdisj.2 step
        (fun b hb' => hstep b (by simp [hb'])) hst h
      refine ⟨r1, fun f hf => ?_⟩
      rcases r2 f hf with h' | ⟨b, hb', h1, h2⟩
      · exact Or.inl h'
      · exact Or.inr ⟨b, by simp [hb'], h1, h2⟩

theorem pairwise_disjoint_forall {sls : List Sublattice}
    (h : sls.Pairwise fun x y => ∀ s ∈ x.sites, s ∉ y.sites) :
    ∀ a ∈ sls, ∀ b ∈ sls, a ≠ b → ∀ s ∈ a.sites, s ∉ b.sites := by
  induction sls with
  | nil => simp
  | cons c sls ih =>
    rw [List.pairwise_cons] at h
    intro a ha b hb hab s hs hs'
    rw [List.mem_cons] at ha hb
    rcases ha with rfl | ha <;> rcases hb with rfl | hb
    · exact hab rfl
    · exact h.1 b hb s hs hs'
    · exact h.1 a ha s hs' hs
    · exact ih h.2 a ha b hb hab s hs hs'

theorem TableOk.sitesOk {t : TableFlipper} {n : ℕ} (h : TableOk t n) : SitesOk t.sls where
  nodup := fun sl hsl => (h.sls.nodup sl hsl).2
  disjoint := by
    intro a ha b hb hab s hs hs'
    exact pairwise_disjoint_forall h.sls.disjoint a ha b hb hab s (h.sls.active a ha s hs) (h.sls.active b hb s hs')

theorem FullLegal.legalOcc {t : TableFlipper} {n : ℕ} (h : TableOk t n) {x : Occ}
    (hx : FullLegal t.sls x) : LegalOcc t.sls x :=
  fun sl hsl s hs => hx sl hsl s (h.sls.active sl hsl s hs)

theorem FullLegal.apply {t : TableFlipper} {n : ℕ} (h : TableOk t n) {x : Occ}
    (hx : FullLegal t.sls x) {st : Step}
    (hst : ∀ f ∈ st, ∃ sl ∈ t.sls, f.1 ∈ sl.active ∧ f.2 ∈ sl.encoding) :
    FullLegal t.sls (applyStep x st) := by
  have hdis := pairwise_disjoint_forall h.sls.disjoint
  induction st generalizing x with
  | nil => exact hx
  | cons f st ih =>
    apply ih _ fun g hg => hst g (by simp [hg])
    intro sl hsl s hs
    by_cases hsf : s = f.1
    · subst hsf
      rw [Function.update_self]
      obtain ⟨sl', hsl', h1, h2⟩ := hst f (by simp)
      by_cases he : sl = sl'
      · rw [he]; exact h2
      · exact absurd (h.sls.active sl' hsl' _ h1) (hdis sl hsl sl' hsl' he _ hs)
    · rw [Function.update_of_ne hsf]; exact hx sl hsl s hs

theorem activeSublattices_mem {sls : List Sublattice} {sl : Sublattice}
    (h : sl ∈ activeSublattices sls) : sl ∈ sls := List.mem_of_mem_filter h

/-- Everything the table-flip usher proposes is either a swap of its active sublattices or a run
of the loop for a direction that the mask allows. -/
theorem outcome_table {t : TableFlipper} {n : ℕ} {x : Occ} {st : Step}
    (h : (t.propose n x).Outcome st) :
    (t.swap x).Outcome st ∨
      ∃ sp spFull, occuToSpeciesList t.dimTable t.d n x = some sp ∧
        occuToSpeciesList t.dimFull t.d n x = some spFull ∧
        ∃ idx < (t.maskedWeights (sp.map List.length) (spFull.map List.length)).length,
          (t.maskedWeights (sp.map List.length) (spFull.map List.length)).getD idx 0 ≠ 0 ∧
          (tableLoop (fun d => sp.getD d []) (t.direction idx) (t.sls.zip t.dimIds) []).Outcome
            st := by
  rw [TableFlipper.propose, outcome_bind] at h
  obtain ⟨c, _, h⟩ := h
  split_ifs at h with hc
  · exact Or.inl h
  · unfold TableFlipper.tableStep at h
    split at h
    · rename_i sp spFull h1 h2
      simp only at h
      split_ifs at h with h3 h4
      · obtain ⟨i, _⟩ := h; exact i.elim0
      · exact Or.inl h
      · rw [outcome_bind] at h
        obtain ⟨idx, ⟨i, hi, hidx⟩, h⟩ := h
        refine Or.inr ⟨sp, spFull, h1, h2, idx, ?_, ?_, h⟩
        · rw [Outcome] at hidx
          rw [hidx]; simpa using i.2
        · rw [Outcome] at hidx
          subst hidx
          intro h0
          apply hi
          have hil : i.1 < (t.maskedWeights (sp.map List.length) (spFull.map List.length)).length := by
            simpa using i.2
          simp only [Fin.getElem_fin, List.getElem_range] at h0
          rw [List.getD_eq_getElem?_getD, List.getElem?_eq_getElem hil, Option.getD_some] at h0
          beta_reduce
          rw [List.getD_eq_getElem?_getD, List.getElem?_eq_getElem (by simpa using hil),
            Option.getD_some, List.getElem_map, h0, zero_div]
    · obtain ⟨i, _⟩ := h; exact i.elim0

end Smol
