import Verif.Lemmas.Balance
import Verif.Lemmas.OccuUtils
import Verif.Spec.Usher
import Mathlib.Data.Nat.Choose.Basic
import Mathlib.Data.Nat.Cast.Field
import Mathlib.Data.Nat.Choose.Cast

/-! Expectation of the loops of `TableFlip.propose_step`. -/

namespace Smol
open Prog Spec

theorem sublist_eq_filter {t l : List ℕ} (h : t.Sublist l) (hl : l.Nodup) :
    t = l.filter fun s => decide (s ∈ t) := by
  induction h with
  | slnil => rfl
  | @cons t l a h ih =>
    rw [List.nodup_cons] at hl
    have : a ∉ t := fun ha => hl.1 (h.subset ha)
    rw [List.filter_cons_of_neg (by simpa using this)]
    exact ih hl.2
  | @cons_cons t l a h ih =>
    rw [List.nodup_cons] at hl
    rw [List.filter_cons_of_pos (by simp)]
    congr 1
    nth_rw 1 [ih hl.2]
    apply List.filter_congr
    intro s hs
    have : s ≠ a := by rintro rfl; exact hl.1 hs
    simp [this]

theorem sublist_eq_filter_iff {t l : List ℕ} (h : t.Sublist l) (hl : l.Nodup) (Q : ℕ → Bool)
    (hQ : ∀ s ∈ l, s ∈ t ↔ Q s = true) : t = l.filter Q := by
  rw [sublist_eq_filter h hl]
  apply List.filter_congr
  intro s hs
  rw [Bool.eq_iff_iff, decide_eq_true_eq]
  exact hQ s hs

theorem expect_chooseSub_single (g : Rng) (k : ℕ) (l : List ℕ) (hl : l.Nodup) (Q : ℕ → Bool)
    (F : List ℕ → ℝ)
    (h : ∀ t, t.Sublist l → t.length = k → ¬ (∀ s ∈ l, s ∈ t ↔ Q s = true) → F t = 0) :
    (chooseSub g k l).expect F =
      if (l.filter Q).length = k then 1 / (l.length.choose k : ℝ) * F (l.filter Q) else 0 := by
  unfold chooseSub
  rw [expect_choose, List.length_sublistsLen, ← List.sum_toFinset _ (List.nodup_sublistsLen k hl)]
  have hz : ∀ t ∈ (List.sublistsLen k l).toFinset, t ≠ l.filter Q → F t = 0 := by
    intro t ht hne
    rw [List.mem_toFinset, List.mem_sublistsLen] at ht
    exact h t ht.1 ht.2 fun hQ => hne (sublist_eq_filter_iff ht.1 hl Q hQ)
  split_ifs with hlen
  · rw [Finset.sum_eq_single (l.filter Q)]
    · intro t ht hne; rw [hz t ht hne, mul_zero]
    · intro hn
      exfalso; apply hn
      rw [List.mem_toFinset, List.mem_sublistsLen]
      exact ⟨List.filter_sublist, hlen⟩
  · apply Finset.sum_eq_zero
    intro t ht
    rw [hz t ht, mul_zero]
    rintro rfl
    rw [List.mem_toFinset, List.mem_sublistsLen] at ht
    exact hlen ht.2

/-- product of the probabilities of the successive subset choices -/
noncomputable def toVal : ℕ → List ℕ → ℝ
  | _, [] => 1
  | m, k :: ks => 1 / (m.choose k : ℝ) * toVal (m - k) ks

theorem toVal_eq (m : ℕ) (ks : List ℕ) (h : ks.sum = m) :
    toVal m ks = (ks.map fun k => (k.factorial : ℝ)).prod / (m.factorial : ℝ) := by
  induction ks generalizing m with
  | nil => simp at h; subst h; simp [toVal]
  | cons k ks ih =>
    rw [List.sum_cons] at h
    rw [toVal, ih (m - k) (by omega), List.map_cons, List.prod_cons, Nat.cast_choose ℝ (by omega)]
    have h1 : ((m - k).factorial : ℝ) ≠ 0 := by positivity
    have h2 : (k.factorial : ℝ) ≠ 0 := by positivity
    have h3 : (m.factorial : ℝ) ≠ 0 := by positivity
    field_simp

theorem applyStep_codes (x : Occ) (step : Step) (t : List ℕ) (c : ℕ) (s : ℕ) :
    applyStep x (step ++ t.map fun s => (s, c)) s = if s ∈ t then c else applyStep x step s := by
  induction t using List.reverseRecOn with
  | nil => simp
  | append_singleton t a ih =>
    rw [List.map_append, ← List.append_assoc, applyStep_append]
    simp only [List.map_cons, List.map_nil, applyStep]
    by_cases hs : s = a
    · subst hs; simp
    · rw [Function.update_of_ne hs, ih]; simp [hs]

open Classical in
theorem toLoop_expect (u : ℕ → ℤ) (x y : Occ) (R : ℕ → Prop) (v : ℝ) (tos : List (ℕ × ℕ))
    (siteIds : List ℕ) (step : Step) (hnd : siteIds.Nodup) (hcodes : (tos.map Prod.snd).Nodup)
    (hR : ∀ s ∈ siteIds, ¬ R s) :
    (toLoop u tos siteIds step).expect
        (fun st => if ∀ s, ¬ R s → applyStep x st s = y s then v else 0) =
      if (∀ s, ¬ R s → s ∉ siteIds → applyStep x step s = y s) ∧
          (∀ s ∈ siteIds, y s ∈ tos.map Prod.snd) ∧
          (∀ p ∈ tos, (siteIds.filter fun s => y s == p.2).length = (u p.1).toNat) then
        toVal siteIds.length (tos.map fun p => (u p.1).toNat) * v
      else 0 := by
  induction tos generalizing siteIds step with
  | nil =>
    rw [toLoop]
    by_cases hs : siteIds = []
    · subst hs; simp [toVal]
    · rw [if_neg hs, if_neg]
      · simp [fail, expect]
      · rintro ⟨_, h, _⟩
        obtain ⟨s, l, rfl⟩ := List.exists_cons_of_ne_nil hs
        simpa using h s (by simp)
  | cons p tos ih =>
    obtain ⟨d, c⟩ := p
    rw [List.map_cons, List.nodup_cons] at hcodes
    rw [toLoop, expect_bind]
    have hstep : ∀ t : List ℕ, t.Sublist siteIds →
        ((toLoop u tos (siteIds.filter fun s => decide (s ∉ t)) (step ++ t.map fun s => (s, c))).expect
          fun st => if ∀ s, ¬ R s → applyStep x st s = y s then v else 0) =
        if (∀ s, ¬ R s → s ∉ siteIds.filter (fun s => decide (s ∉ t)) →
              applyStep x (step ++ t.map fun s => (s, c)) s = y s) ∧
          (∀ s ∈ siteIds.filter (fun s => decide (s ∉ t)), y s ∈ tos.map Prod.snd) ∧
          (∀ p ∈ tos, ((siteIds.filter fun s => decide (s ∉ t)).filter fun s => y s == p.2).length
            = (u p.1).toNat) then
          toVal (siteIds.filter fun s => decide (s ∉ t)).length (tos.map fun p => (u p.1).toNat) * v
        else 0 := by
      intro t _
      exact ih _ _ (hnd.filter _) hcodes.2 fun s hs => hR s (List.mem_of_mem_filter hs)
    rw [expect_chooseSub_single .shared (u d).toNat siteIds hnd (fun s => y s == c)]
    · have hfsub : (siteIds.filter fun s => y s == c).Sublist siteIds := List.filter_sublist
      rw [hstep _ hfsub]
      have hrest : (siteIds.filter fun s => decide (s ∉ siteIds.filter fun s => y s == c)) =
          siteIds.filter fun s => decide (y s ≠ c) := by
        apply List.filter_congr
        intro s hs
        simp [hs]
      rw [hrest]
      by_cases hlen : (siteIds.filter fun s => y s == c).length = (u d).toNat
      · rw [if_pos hlen]
        have hlen2 : (siteIds.filter fun s => decide (y s ≠ c)).length =
            siteIds.length - (u d).toNat := by
          have h1 := List.length_eq_length_filter_add (l := siteIds) (fun s => y s == c)
          have h2 : (siteIds.filter fun s => !(y s == c)) = siteIds.filter fun s => decide (y s ≠ c) := by
            apply List.filter_congr; intro s _; by_cases hh : y s = c <;> simp [hh]
          rw [h2] at h1
          omega
        have hcond : ((∀ s, ¬ R s → s ∉ siteIds.filter (fun s => decide (y s ≠ c)) →
              applyStep x (step ++ (siteIds.filter fun s => y s == c).map fun s => (s, c)) s = y s) ∧
            (∀ s ∈ siteIds.filter (fun s => decide (y s ≠ c)), y s ∈ tos.map Prod.snd) ∧
            (∀ p ∈ tos, ((siteIds.filter fun s => decide (y s ≠ c)).filter fun s => y s == p.2).length
              = (u p.1).toNat)) ↔
            ((∀ s, ¬ R s → s ∉ siteIds → applyStep x step s = y s) ∧
          (∀ s ∈ siteIds, y s ∈ ((d, c) :: tos).map Prod.snd) ∧
          (∀ p ∈ (d, c) :: tos, (siteIds.filter fun s => y s == p.2).length = (u p.1).toNat)) := by
          refine and_congr ?_ (and_congr ?_ ?_)
          · constructor
            · intro h s hs hns
              have := h s hs (fun hh => hns (List.mem_of_mem_filter hh))
              rw [applyStep_codes, if_neg (fun hh => hns (List.mem_of_mem_filter hh))] at this
              exact this
            · intro h s hs hns
              rw [applyStep_codes]
              split_ifs with hm
              · have := (List.mem_filter.1 hm).2
                simpa using (beq_iff_eq.1 this).symm
              · apply h s hs
                intro hmem
                by_cases hy : y s = c
                · exact hm (List.mem_filter.2 ⟨hmem, by simpa using hy⟩)
                · exact hns (List.mem_filter.2 ⟨hmem, by simpa using hy⟩)
          · constructor
            · intro h s hs
              by_cases hy : y s = c
              · simp [hy]
              · have := h s (List.mem_filter.2 ⟨hs, by simpa using hy⟩)
                rw [List.map_cons]; exact List.mem_cons_of_mem _ this
            · intro h s hs
              obtain ⟨hs1, hs2⟩ := List.mem_filter.1 hs
              have := h s hs1
              rw [List.map_cons, List.mem_cons] at this
              rcases this with h' | h'
              · simp [h'] at hs2
              · exact h'
          · rw [List.forall_mem_cons]
            simp only [hlen, true_and]
            apply forall₂_congr
            intro p hp
            have hpc : p.2 ≠ c := by
              rintro rfl; exact hcodes.1 (List.mem_map.2 ⟨p, hp, rfl⟩)
            have : ((siteIds.filter fun s => decide (y s ≠ c)).filter fun s => y s == p.2) =
                siteIds.filter fun s => y s == p.2 := by
              rw [List.filter_filter]
              apply List.filter_congr
              intro s _
              by_cases hh : y s = p.2
              · simp [hh, hpc]
              · simp [hh]
            rw [this]
        simp only [hcond]
        split_ifs
        · rw [hlen2, List.map_cons, toVal]; ring
        · rw [mul_zero]
      · rw [if_neg hlen, if_neg]
        rintro ⟨_, _, h⟩
        exact hlen (h (d, c) (by simp))
    · intro t hts htl hn
      rw [hstep t hts, if_neg]
      rintro ⟨h1, h2, _⟩
      apply hn
      intro s hs
      constructor
      · intro hst
        have := h1 s (hR s hs) (fun hh => by simpa [hst] using (List.mem_filter.1 hh).2)
        rw [applyStep_codes, if_pos hst] at this
        simpa using this.symm
      · intro hy
        by_contra hst
        have := h2 s (List.mem_filter.2 ⟨hs, by simpa using hst⟩)
        rw [beq_iff_eq] at hy
        rw [hy] at this
        exact hcodes.1 this

theorem fromLoop_expect (species : ℕ → List ℕ) (u : ℕ → ℤ) (Ch : ℕ → Bool) (ds0 : List ℕ)
    (F : List ℕ → ℝ)
    (hF : ∀ r : List ℕ, r.Nodup → (∀ s ∈ r, ∃ d ∈ ds0, s ∈ species d) →
      ¬ (∀ d ∈ ds0, ∀ s ∈ species d, s ∈ r ↔ Ch s = true) → F r = 0)
    (ds acc : List ℕ) (hds : ∀ d ∈ ds, d ∈ ds0) (hacc : acc.Nodup)
    (hacc' : ∀ s ∈ acc, ∃ d ∈ ds0, s ∈ species d)
    (hnd : ∀ d ∈ ds, (species d).Nodup)
    (hdisj : ds.Pairwise fun a b => ∀ s ∈ species a, s ∉ species b)
    (hda : ∀ d ∈ ds, ∀ s ∈ species d, s ∉ acc) :
    (fromLoop species u ds acc).expect F =
      if ∀ d ∈ ds, ((species d).filter Ch).length = (-(u d)).toNat then
        (ds.map fun d => 1 / (((species d).length).choose (-(u d)).toNat : ℝ)).prod *
          F (acc ++ ds.flatMap fun d => (species d).filter Ch)
      else 0 := by
  induction ds generalizing acc with
  | nil => simp [fromLoop]
  | cons d ds ih =>
    rw [List.pairwise_cons] at hdisj
    rw [fromLoop, expect_bind]
    have hstep : ∀ t : List ℕ, t.Sublist (species d) →
        (fromLoop species u ds (acc ++ t)).expect F =
        if ∀ d ∈ ds, ((species d).filter Ch).length = (-(u d)).toNat then
          (ds.map fun d => 1 / (((species d).length).choose (-(u d)).toNat : ℝ)).prod *
            F (acc ++ t ++ ds.flatMap fun d => (species d).filter Ch)
        else 0 := by
      intro t ht
      apply ih
      · intro e he; exact hds e (by simp [he])
      · rw [List.nodup_append]
        refine ⟨hacc, ht.nodup (hnd d (by simp)), ?_⟩
        intro a ha b hb hab
        subst hab
        exact hda d (by simp) a (ht.subset hb) ha
      · intro s hs
        rcases List.mem_append.1 hs with h | h
        · exact hacc' s h
        · exact ⟨d, hds d (by simp), ht.subset h⟩
      · intro e he; exact hnd e (by simp [he])
      · exact hdisj.2
      · intro e he s hs hs'
        rcases List.mem_append.1 hs' with h | h
        · exact hda e (by simp [he]) s hs h
        · exact hdisj.1 e he s (ht.subset h) hs
    rw [expect_chooseSub_single .shared _ (species d) (hnd d (by simp)) Ch]
    · rw [hstep _ List.filter_sublist]
      by_cases h1 : ((species d).filter Ch).length = (-(u d)).toNat
      · rw [if_pos h1]
        by_cases h2 : ∀ d ∈ ds, ((species d).filter Ch).length = (-(u d)).toNat
        · rw [if_pos h2, if_pos (by rw [List.forall_mem_cons]; exact ⟨h1, h2⟩), List.map_cons,
            List.prod_cons, List.flatMap_cons, List.append_assoc]
          ring
        · rw [if_neg h2, if_neg (by rw [List.forall_mem_cons]; exact fun h => h2 h.2), mul_zero]
      · rw [if_neg h1, if_neg]
        intro h; exact h1 (h d (by simp))
    · intro t hts _ hn
      rw [hstep t hts]
      split_ifs
      · rw [hF, mul_zero]
        · rw [List.append_assoc, List.nodup_append]
          refine ⟨hacc, ?_, ?_⟩
          · rw [List.nodup_append]
            refine ⟨hts.nodup (hnd d (by simp)), ?_, ?_⟩
            · rw [List.nodup_flatMap]
              refine ⟨fun e he => (hnd e (by simp [he])).filter _, ?_⟩
              apply hdisj.2.imp
              intro a b hab
              rw [Function.onFun, List.disjoint_left]
              intro s hs hs'
              exact hab s (List.mem_of_mem_filter hs) (List.mem_of_mem_filter hs')
            · intro a ha b hb hab
              subst hab
              obtain ⟨e, he, hs⟩ := List.mem_flatMap.1 hb
              exact hdisj.1 e he a (hts.subset ha) (List.mem_of_mem_filter hs)
          · intro a ha b hb hab
            subst hab
            rcases List.mem_append.1 hb with h | h
            · exact hda d (by simp) a (hts.subset h) ha
            · obtain ⟨e, he, hs⟩ := List.mem_flatMap.1 h
              exact hda e (by simp [he]) a (List.mem_of_mem_filter hs) ha
        · intro s hs
          rw [List.append_assoc] at hs
          rcases List.mem_append.1 hs with h | h
          · exact hacc' s h
          · rcases List.mem_append.1 h with h | h
            · exact ⟨d, hds d (by simp), hts.subset h⟩
            · obtain ⟨e, he, hs⟩ := List.mem_flatMap.1 h
              exact ⟨e, hds e (by simp [he]), List.mem_of_mem_filter hs⟩
        · intro h
          apply hn
          intro s hs
          rw [← h d (hds d (by simp)) s hs]
          constructor
          · intro hst; simp [hst]
          · intro hm
            rw [List.append_assoc] at hm
            rcases List.mem_append.1 hm with h | h
            · exact absurd h (hda d (by simp) s hs)
            · rcases List.mem_append.1 h with h | h
              · exact h
              · obtain ⟨e, he, hs'⟩ := List.mem_flatMap.1 h
                exact absurd (List.mem_of_mem_filter hs') (hdisj.1 e he s hs)
      · rfl

/-- A sublattice with its dimensions, and for each dimension the list of its active sites holding
the code of the dimension. -/
structure BlockOk (x : Occ) (species : ℕ → List ℕ) (sl : Sublattice) (dims : List ℕ) : Prop where
  len : dims.length = sl.encoding.length
  dnodup : dims.Nodup
  enodup : sl.encoding.Nodup
  anodup : sl.active.Nodup
  snodup : ∀ p ∈ dims.zip sl.encoding, (species p.1).Nodup
  mem : ∀ p ∈ dims.zip sl.encoding, ∀ s, s ∈ species p.1 ↔ s ∈ sl.active ∧ x s = p.2
  legal : ∀ s ∈ sl.active, x s ∈ sl.encoding

/-- The change from `x` to `y` on the sublattice is one that the direction `u` can make. -/
def Compat (x y : Occ) (u : ℕ → ℤ) (sl : Sublattice) (dims : List ℕ) : Prop :=
  ∀ p ∈ dims.zip sl.encoding,
    (sl.active.filter fun s => decide (x s = p.2 ∧ y s ≠ p.2)).length = (-(u p.1)).toNat ∧
    (sl.active.filter fun s => decide (x s ≠ p.2 ∧ y s = p.2)).length = (u p.1).toNat

/-- weight of one dimension in the probability of a table step -/
noncomputable def gval (n : ℕ) (u : ℤ) : ℝ :=
  (u.natAbs.factorial : ℝ) * if u < 0 then ((n - u.natAbs).factorial : ℝ) / (n.factorial : ℝ) else 1

/-- probability that the table step with direction `u` makes a given compatible change on the
sublattice -/
noncomputable def cval (x : Occ) (u : ℕ → ℤ) (sl : Sublattice) (dims : List ℕ) : ℝ :=
  ((dims.zip sl.encoding).map fun p => gval (holding sl x p.2) (u p.1)).prod /
    ((((dims.zip sl.encoding).map fun p => (u p.1).toNat).sum.factorial : ℕ) : ℝ)

theorem zip_filter_fst (u : ℕ → ℤ) (dims enc : List ℕ) (h : dims.length = enc.length) :
    dims.filter (fun d => decide (u d < 0)) =
      ((dims.zip enc).filter fun p => decide (u p.1 < 0)).map Prod.fst := by
  induction dims generalizing enc with
  | nil => simp
  | cons d dims ih =>
    cases enc with
    | nil => simp at h
    | cons c enc =>
      simp only [List.length_cons, Nat.add_right_cancel_iff] at h
      by_cases hd : u d < 0
      · simp [hd, ih enc h]
      · simp [hd, ih enc h]

theorem prod_split (u : ℕ → ℤ) (n : ℕ → ℕ) (P : List (ℕ × ℕ))
    (h : ∀ p ∈ P, u p.1 < 0 → (-(u p.1)).toNat ≤ n p.2) :
    ((P.filter fun p => decide (u p.1 < 0)).map fun p =>
        1 / ((n p.2).choose (-(u p.1)).toNat : ℝ)).prod *
      ((P.filter fun p => decide (u p.1 > 0)).map fun p => ((u p.1).toNat.factorial : ℝ)).prod =
    (P.map fun p => gval (n p.2) (u p.1)).prod := by
  induction P with
  | nil => simp
  | cons p P ih =>
    have ih := ih fun q hq => h q (by simp [hq])
    rw [List.map_cons, List.prod_cons, ← ih]
    rcases lt_trichotomy (u p.1) 0 with hu | hu | hu
    · rw [List.filter_cons_of_pos (by simpa using hu), List.filter_cons_of_neg (by simp; omega),
        List.map_cons, List.prod_cons, gval, if_pos hu, Nat.cast_choose ℝ (h p (by simp) hu)]
      have : (-(u p.1)).toNat = (u p.1).natAbs := by omega
      rw [this]
      have h1 : (((n p.2) - (u p.1).natAbs).factorial : ℝ) ≠ 0 := by positivity
      have h2 : (((u p.1).natAbs).factorial : ℝ) ≠ 0 := by positivity
      have h3 : ((n p.2).factorial : ℝ) ≠ 0 := by positivity
      field_simp
    · rw [List.filter_cons_of_neg (by simp [hu]), List.filter_cons_of_neg (by simp [hu]), gval, hu]
      simp
    · rw [List.filter_cons_of_neg (by simp; omega), List.filter_cons_of_pos (by simpa using hu),
        List.map_cons, List.prod_cons, gval, if_neg (by omega)]
      have : (u p.1).toNat = (u p.1).natAbs := by omega
      rw [this]; ring

theorem gval_reverse (n n' : ℕ) (u : ℤ) (h : (n' : ℤ) = n + u) :
    gval n u * ((n.factorial : ℝ) / (n'.factorial : ℝ)) = gval n' (-u) := by
  have h1 : (n.factorial : ℝ) ≠ 0 := by positivity
  have h2 : (n'.factorial : ℝ) ≠ 0 := by positivity
  unfold gval
  rcases lt_trichotomy u 0 with hu | hu | hu
  · rw [if_pos hu, if_neg (by omega), Int.natAbs_neg, show n - u.natAbs = n' by omega]
    field_simp
  · subst hu
    have : n' = n := by omega
    subst this
    rw [div_self h2]; simp
  · rw [if_neg (by omega), if_pos (by omega), Int.natAbs_neg, show n' - u.natAbs = n by omega]
    ring

theorem filter_flatMap_length {α : Type} (l : List α) (f : α → List ℕ) :
    (l.flatMap f).length = (l.map fun a => (f a).length).sum := by
  rw [List.length_flatMap]

/-- number of members of a list counted by the value of a function into distinct codes -/
theorem length_eq_sum_codes (l : List ℕ) (y : Occ) (codes : List ℕ) (hc : codes.Nodup)
    (h : ∀ s ∈ l, y s ∈ codes) :
    l.length = (codes.map fun c => (l.filter fun s => y s == c).length).sum := by
  induction l with
  | nil => simp
  | cons a l ih =>
    have ha := h a (by simp)
    have ih := ih fun s hs => h s (by simp [hs])
    have : (codes.map fun c => ((a :: l).filter fun s => y s == c).length) =
        codes.map fun c => (if y a = c then 1 else 0) + (l.filter fun s => y s == c).length := by
      apply List.map_congr_left
      intro c _
      by_cases hac : y a = c
      · rw [List.filter_cons_of_pos (by simpa using hac), if_pos hac, List.length_cons]; omega
      · rw [List.filter_cons_of_neg (by simpa using hac), if_neg hac]; omega
    rw [this, List.sum_map_add, List.length_cons, ← ih]
    have h1 : (codes.map fun c => if y a = c then 1 else 0).sum = 1 := by
      rw [← List.sum_toFinset _ hc, Finset.sum_ite_eq, if_pos (List.mem_toFinset.2 ha)]
    omega

open Classical in
/-- One sublattice of the loop. -/
theorem block_expect (x y : Occ) (species : ℕ → List ℕ) (u : ℕ → ℤ) (sl : Sublattice)
    (dims : List ℕ) (hb : BlockOk x species sl dims) (hy : ∀ s ∈ sl.active, y s ∈ sl.encoding)
    (R : ℕ → Prop) (hR : ∀ s ∈ sl.active, ¬ R s) (step : Step)
    (hstep : ∀ s ∈ sl.active, applyStep x step s = x s) (v : ℝ) :
    ((fromLoop species u (dims.filter fun d => decide (u d < 0)) []).expect fun siteIds =>
      (toLoop u ((dims.zip sl.encoding).filter fun p => decide (u p.1 > 0)) siteIds step).expect
        fun st => if ∀ s, ¬ R s → applyStep x st s = y s then v else 0) =
      if (∀ s, ¬ R s → s ∉ sl.active → applyStep x step s = y s) ∧ Compat x y u sl dims then
        cval x u sl dims * v
      else 0 := by
  set P := dims.zip sl.encoding with hP
  have hPfst : P.map Prod.fst = dims := List.map_fst_zip (le_of_eq hb.len)
  have hPsnd : P.map Prod.snd = sl.encoding := List.map_snd_zip (le_of_eq hb.len.symm)
  have hPn2 : (P.map Prod.snd).Nodup := hPsnd ▸ hb.enodup
  have hPn1 : (P.map Prod.fst).Nodup := hPfst ▸ hb.dnodup
  have hinj2 : ∀ p ∈ P, ∀ q ∈ P, p.2 = q.2 → p = q := fun p hp q hq h =>
    List.inj_on_of_nodup_map hPn2 hp hq h
  have hcodeP : ∀ c ∈ sl.encoding, ∃ p ∈ P, p.2 = c := by
    intro c hc
    rw [← hPsnd] at hc
    obtain ⟨p, hp, rfl⟩ := List.mem_map.1 hc
    exact ⟨p, hp, rfl⟩
  have hto2 : ((P.filter fun p => decide (u p.1 > 0)).map Prod.snd).Nodup :=
    (hPn2.sublist ((List.filter_sublist).map _))
  have hfrom : dims.filter (fun d => decide (u d < 0)) =
      (P.filter fun p => decide (u p.1 < 0)).map Prod.fst := zip_filter_fst u dims sl.encoding hb.len
  have hfmem : ∀ d, d ∈ dims.filter (fun d => decide (u d < 0)) ↔ ∃ p ∈ P, p.1 = d ∧ u d < 0 := by
    intro d
    rw [hfrom, List.mem_map]
    constructor
    · rintro ⟨p, hp, rfl⟩
      obtain ⟨h1, h2⟩ := List.mem_filter.1 hp
      exact ⟨p, h1, rfl, by simpa using h2⟩
    · rintro ⟨p, hp, rfl, h⟩
      exact ⟨p, List.mem_filter.2 ⟨hp, by simpa using h⟩, rfl⟩
  have htomem : ∀ c, c ∈ (P.filter fun p => decide (u p.1 > 0)).map Prod.snd ↔
      ∃ p ∈ P, p.2 = c ∧ 0 < u p.1 := by
    intro c
    rw [List.mem_map]
    constructor
    · rintro ⟨p, hp, rfl⟩
      obtain ⟨h1, h2⟩ := List.mem_filter.1 hp
      exact ⟨p, h1, rfl, by simpa using h2⟩
    · rintro ⟨p, hp, rfl, h⟩
      exact ⟨p, List.mem_filter.2 ⟨hp, by simpa using h⟩, rfl⟩
  -- value for a set of sites
  have hF : ∀ r : List ℕ, r.Nodup → (∀ s ∈ r, s ∈ sl.active) →
      ((toLoop u (P.filter fun p => decide (u p.1 > 0)) r step).expect
        fun st => if ∀ s, ¬ R s → applyStep x st s = y s then v else 0) =
      if (∀ s, ¬ R s → s ∉ r → applyStep x step s = y s) ∧
          (∀ s ∈ r, y s ∈ (P.filter fun p => decide (u p.1 > 0)).map Prod.snd) ∧
          (∀ p ∈ P.filter fun p => decide (u p.1 > 0),
            (r.filter fun s => y s == p.2).length = (u p.1).toNat) then
        toVal r.length ((P.filter fun p => decide (u p.1 > 0)).map fun p => (u p.1).toNat) * v
      else 0 := fun r hr hra => toLoop_expect u x y R v _ r step hr hto2 fun s hs => hR s (hra s hs)
  have hspec : ∀ d ∈ dims.filter (fun d => decide (u d < 0)), ∀ s ∈ species d, s ∈ sl.active := by
    intro d hd s hs
    obtain ⟨p, hp, rfl, _⟩ := (hfmem d).1 hd
    exact ((hb.mem p hp s).1 hs).1
  rw [fromLoop_expect species u (fun s => decide (x s ≠ y s))
    (dims.filter fun d => decide (u d < 0)) _ ?_ _ [] (fun d hd => hd) List.nodup_nil (by simp)
    ?_ ?_ (by simp)]
  rotate_left
  · intro r hr hrd hn
    rw [hF r hr fun s hs => by obtain ⟨d, hd, hs'⟩ := hrd s hs; exact hspec d hd s hs']
    rw [if_neg]
    rintro ⟨h1, h2, _⟩
    apply hn
    intro d hd s hs
    have hsa := hspec d hd s hs
    obtain ⟨p, hp, rfl, hu⟩ := (hfmem d).1 hd
    have hxs := ((hb.mem p hp s).1 hs).2
    rw [decide_eq_true_eq]
    constructor
    · intro hsr heq
      obtain ⟨q, hq, hqc, hqu⟩ := (htomem _).1 (h2 s hsr)
      have : p = q := hinj2 p hp q hq (by rw [hqc, ← heq, hxs])
      subst this
      omega
    · intro hne
      by_contra hsr
      have := h1 s (hR s hsa) hsr
      rw [hstep s hsa] at this
      exact hne this
  · intro d hd
    obtain ⟨p, hp, rfl, _⟩ := (hfmem d).1 hd
    exact hb.snodup p hp
  · rw [hfrom, List.pairwise_map]
    have : (P.filter fun p => decide (u p.1 < 0)).Pairwise fun p q => p.2 ≠ q.2 := by
      have := hPn2.sublist ((List.filter_sublist (p := fun p => decide (u p.1 < 0))).map Prod.snd)
      rwa [List.Nodup, List.pairwise_map] at this
    refine List.Pairwise.imp_of_mem ?_ this
    intro p q hp hq hpq s hs hs'
    have h1 := ((hb.mem p (List.mem_filter.1 hp).1 s).1 hs).2
    have h2 := ((hb.mem q (List.mem_filter.1 hq).1 s).1 hs').2
    exact hpq (h1.symm.trans h2)
  rw [List.nil_append]
  set r0 := (dims.filter fun d => decide (u d < 0)).flatMap fun d =>
    (species d).filter fun s => decide (x s ≠ y s) with hr0
  have hr0mem : ∀ s, s ∈ r0 ↔ s ∈ sl.active ∧ x s ≠ y s ∧ ∃ p ∈ P, p.2 = x s ∧ u p.1 < 0 := by
    intro s
    rw [hr0, List.mem_flatMap]
    constructor
    · rintro ⟨d, hd, hs⟩
      obtain ⟨p, hp, rfl, hu⟩ := (hfmem d).1 hd
      obtain ⟨hs1, hs2⟩ := List.mem_filter.1 hs
      obtain ⟨h1, h2⟩ := (hb.mem p hp s).1 hs1
      exact ⟨h1, by simpa using hs2, p, hp, h2.symm, hu⟩
    · rintro ⟨h1, h2, p, hp, h3, hu⟩
      exact ⟨p.1, (hfmem _).2 ⟨p, hp, rfl, hu⟩,
        List.mem_filter.2 ⟨(hb.mem p hp s).2 ⟨h1, h3.symm⟩, by simpa using h2⟩⟩
  have hr0n : r0.Nodup := by
    rw [hr0, List.nodup_flatMap]
    refine ⟨fun d hd => ?_, ?_⟩
    · obtain ⟨p, hp, rfl, _⟩ := (hfmem d).1 hd
      exact (hb.snodup p hp).filter _
    · rw [hfrom, List.pairwise_map]
      have : (P.filter fun p => decide (u p.1 < 0)).Pairwise fun p q => p.2 ≠ q.2 := by
        have := hPn2.sublist ((List.filter_sublist (p := fun p => decide (u p.1 < 0))).map Prod.snd)
        rwa [List.Nodup, List.pairwise_map] at this
      refine List.Pairwise.imp_of_mem ?_ this
      intro p q hp hq hpq
      rw [Function.onFun, List.disjoint_left]
      intro s hs hs'
      have h1 := ((hb.mem p (List.mem_filter.1 hp).1 s).1 (List.mem_of_mem_filter hs)).2
      have h2 := ((hb.mem q (List.mem_filter.1 hq).1 s).1 (List.mem_of_mem_filter hs')).2
      exact hpq (h1.symm.trans h2)
  rw [hF r0 hr0n fun s hs => ((hr0mem s).1 hs).1]
  have hsp : ∀ p ∈ P, ∀ Q : ℕ → Bool, ((species p.1).filter Q).length =
      (sl.active.filter fun s => decide (x s = p.2) && Q s).length := by
    intro p hp Q
    apply List.Perm.length_eq
    rw [List.perm_ext_iff_of_nodup ((hb.snodup p hp).filter _) (hb.anodup.filter _)]
    intro s
    simp only [List.mem_filter, hb.mem p hp s, Bool.and_eq_true, decide_eq_true_eq]
    tauto
  have hleave : ∀ p ∈ P, ((species p.1).filter fun s => decide (x s ≠ y s)).length =
      (sl.active.filter fun s => decide (x s = p.2 ∧ y s ≠ p.2)).length := by
    intro p hp
    rw [hsp p hp]
    congr 1
    apply List.filter_congr
    intro s _
    by_cases h : x s = p.2
    · simp only [h, decide_true, Bool.true_and, true_and]
      congr 1
      rw [ne_comm]
    · simp [h]
  have henter : ∀ c, (∀ s ∈ sl.active, x s ≠ y s → s ∈ r0) → (∀ s ∈ r0, y s = c → x s ≠ c) →
      (r0.filter fun s => y s == c).length =
      (sl.active.filter fun s => decide (x s ≠ c ∧ y s = c)).length := by
    intro c h1 h2
    apply List.Perm.length_eq
    rw [List.perm_ext_iff_of_nodup (hr0n.filter _) (hb.anodup.filter _)]
    intro s
    simp only [List.mem_filter, beq_iff_eq, decide_eq_true_eq]
    constructor
    · rintro ⟨a, b⟩; exact ⟨((hr0mem s).1 a).1, h2 s a b, b⟩
    · rintro ⟨a, b, d⟩; exact ⟨h1 s a (by rw [d]; exact b), d⟩
  -- conditions
  have hcond : ((∀ d ∈ dims.filter (fun d => decide (u d < 0)),
        ((species d).filter fun s => decide (x s ≠ y s)).length = (-(u d)).toNat) ∧
      ((∀ s, ¬ R s → s ∉ r0 → applyStep x step s = y s) ∧
        (∀ s ∈ r0, y s ∈ (P.filter fun p => decide (u p.1 > 0)).map Prod.snd) ∧
        (∀ p ∈ P.filter fun p => decide (u p.1 > 0),
          (r0.filter fun s => y s == p.2).length = (u p.1).toNat))) ↔
      ((∀ s, ¬ R s → s ∉ sl.active → applyStep x step s = y s) ∧ Compat x y u sl dims) := by
    constructor
    · rintro ⟨c1, c2, c3, c4⟩
      have hch : ∀ s ∈ sl.active, x s ≠ y s → s ∈ r0 := by
        intro s hs hne
        by_contra hn
        have := c2 s (hR s hs) hn
        rw [hstep s hs] at this
        exact hne this
      refine ⟨fun s hs hns => c2 s hs fun h => hns ((hr0mem s).1 h).1, ?_⟩
      intro p hp
      rcases lt_trichotomy (u p.1) 0 with hu | hu | hu
      · refine ⟨?_, ?_⟩
        · rw [← hleave p hp]
          exact c1 p.1 ((hfmem _).2 ⟨p, hp, rfl, hu⟩)
        · rw [show (u p.1).toNat = 0 by omega, List.length_eq_zero_iff, List.filter_eq_nil_iff]
          intro s hs h
          rw [decide_eq_true_eq] at h
          obtain ⟨q, hq, hqc, hqu⟩ := (htomem _).1 (c3 s (hch s hs (by rw [h.2]; exact h.1)))
          have : p = q := hinj2 p hp q hq (by rw [hqc, h.2])
          subst this; omega
      · refine ⟨?_, ?_⟩
        · rw [show (-(u p.1)).toNat = 0 by omega, List.length_eq_zero_iff, List.filter_eq_nil_iff]
          intro s hs h
          rw [decide_eq_true_eq] at h
          obtain ⟨_, _, q, hq, hqc, hqu⟩ := (hr0mem s).1 (hch s hs (by rw [h.1]; exact h.2.symm))
          have : p = q := hinj2 p hp q hq (by rw [hqc, h.1])
          subst this; omega
        · rw [show (u p.1).toNat = 0 by omega, List.length_eq_zero_iff, List.filter_eq_nil_iff]
          intro s hs h
          rw [decide_eq_true_eq] at h
          obtain ⟨q, hq, hqc, hqu⟩ := (htomem _).1 (c3 s (hch s hs (by rw [h.2]; exact h.1)))
          have : p = q := hinj2 p hp q hq (by rw [hqc, h.2])
          subst this; omega
      · refine ⟨?_, ?_⟩
        · rw [show (-(u p.1)).toNat = 0 by omega, List.length_eq_zero_iff, List.filter_eq_nil_iff]
          intro s hs h
          rw [decide_eq_true_eq] at h
          obtain ⟨_, _, q, hq, hqc, hqu⟩ := (hr0mem s).1 (hch s hs (by rw [h.1]; exact h.2.symm))
          have : p = q := hinj2 p hp q hq (by rw [hqc, h.1])
          subst this; omega
        · rw [← henter p.2 hch]
          · exact c4 p (List.mem_filter.2 ⟨hp, by simpa using hu⟩)
          · intro s hs hyc hxc
            exact ((hr0mem s).1 hs).2.1 (hxc.trans hyc.symm)
    · rintro ⟨c1, c2⟩
      have hch : ∀ s ∈ sl.active, x s ≠ y s → s ∈ r0 := by
        intro s hs hne
        obtain ⟨p, hp, hpc⟩ := hcodeP (x s) (hb.legal s hs)
        refine (hr0mem s).2 ⟨hs, hne, p, hp, hpc, ?_⟩
        have h1 := (c2 p hp).1
        have h2 : 0 < (sl.active.filter fun s => decide (x s = p.2 ∧ y s ≠ p.2)).length :=
          List.length_pos_of_mem (List.mem_filter.2 ⟨hs, by
            rw [decide_eq_true_eq, hpc]; exact ⟨rfl, Ne.symm hne⟩⟩)
        omega
      refine ⟨?_, ?_, ?_, ?_⟩
      · intro d hd
        obtain ⟨p, hp, rfl, hu⟩ := (hfmem d).1 hd
        rw [hleave p hp]; exact (c2 p hp).1
      · intro s hs hns
        by_cases hsa : s ∈ sl.active
        · rw [hstep s hsa]
          by_contra hne
          exact hns (hch s hsa hne)
        · exact c1 s hs hsa
      · intro s hs
        obtain ⟨hsa, hne, _⟩ := (hr0mem s).1 hs
        obtain ⟨p, hp, hpc⟩ := hcodeP (y s) (hy s hsa)
        refine (htomem _).2 ⟨p, hp, hpc, ?_⟩
        have h1 := (c2 p hp).2
        have h2 : 0 < (sl.active.filter fun s => decide (x s ≠ p.2 ∧ y s = p.2)).length :=
          List.length_pos_of_mem (List.mem_filter.2 ⟨hsa, by
            rw [decide_eq_true_eq, hpc]; exact ⟨hne, rfl⟩⟩)
        omega
      · intro p hp
        obtain ⟨hp1, hp2⟩ := List.mem_filter.1 hp
        rw [henter p.2 hch]
        · exact (c2 p hp1).2
        · intro s hs hyc hxc
          exact ((hr0mem s).1 hs).2.1 (hxc.trans hyc.symm)
  by_cases hc : (∀ s, ¬ R s → s ∉ sl.active → applyStep x step s = y s) ∧ Compat x y u sl dims
  · obtain ⟨d1, d2⟩ := hcond.2 hc
    rw [if_pos d1, if_pos d2, if_pos hc]
    have hlen : r0.length = ((P.filter fun p => decide (u p.1 > 0)).map fun p => (u p.1).toNat).sum := by
      rw [length_eq_sum_codes r0 y _ hto2 d2.2.1, List.map_map]
      congr 1
      apply List.map_congr_left
      intro p hp
      exact d2.2.2 p hp
    have hsum : ((P.filter fun p => decide (u p.1 > 0)).map fun p => (u p.1).toNat).sum =
        (P.map fun p => (u p.1).toNat).sum := by
      clear_value P
      clear * -
      induction P with
      | nil => rfl
      | cons p P ih =>
        by_cases h : u p.1 > 0
        · rw [List.filter_cons_of_pos (by simpa using h), List.map_cons, List.sum_cons, ih]; rfl
        · rw [List.filter_cons_of_neg (by simpa using h), ih, List.map_cons, List.sum_cons]; omega
    rw [toVal_eq _ _ hlen.symm, cval, ← hP, hlen, hsum, List.map_map, ← mul_assoc, mul_div_assoc']
    congr 2
    rw [← prod_split u (fun c => holding sl x c) P]
    · congr 1
      · rw [hfrom, List.map_map]
        congr 1
        apply List.map_congr_left
        intro p hp
        have hp1 := (List.mem_filter.1 hp).1
        simp only [Function.comp]
        congr 3
        have := hsp p hp1 fun _ => true
        simp only [Bool.and_true, List.filter_true] at this
        rw [this, holding]
        congr 1
    · intro p hp hu
      have h1 := (hc.2 p hp).1
      rw [← h1, holding]
      apply List.Sublist.length_le
      have : (sl.active.filter fun s => decide (x s = p.2 ∧ y s ≠ p.2)) =
          (sl.active.filter fun s => x s == p.2).filter fun s => decide (y s ≠ p.2) := by
        rw [List.filter_filter]
        apply List.filter_congr
        intro s _
        by_cases h : x s = p.2 <;> simp [h]
      rw [this]
      exact List.filter_sublist
  · rw [if_neg hc]
    split_ifs with d1 d2
    · exact absurd (hcond.1 ⟨d1, d2⟩) hc
    · rw [mul_zero]
    · rfl

/-! Which flips the loops can produce. -/

theorem outcome_chooseSub (g : Rng) (k : ℕ) (l t : List ℕ) :
    (chooseSub g k l).Outcome t ↔ t.Sublist l ∧ t.length = k := by
  rw [chooseSub, outcome_choose, List.mem_sublistsLen]

theorem outcome_toLoop_mem (u : ℕ → ℤ) (tos : List (ℕ × ℕ)) (siteIds : List ℕ) (step r : Step)
    (h : (toLoop u tos siteIds step).Outcome r) :
    ∀ f ∈ r, f ∈ step ∨ f.1 ∈ siteIds := by
  induction tos generalizing siteIds step with
  | nil =>
    rw [toLoop] at h
    split_ifs at h
    · intro f hf; rw [Outcome] at h; subst h; exact Or.inl hf
    · obtain ⟨i, _⟩ := h; exact i.elim0
  | cons p tos ih =>
    obtain ⟨d, c⟩ := p
    rw [toLoop, outcome_bind] at h
    obtain ⟨t, ht, hr⟩ := h
    rw [outcome_chooseSub] at ht
    intro f hf
    rcases ih _ _ hr f hf with h | h
    · rcases List.mem_append.1 h with h | h
      · exact Or.inl h
      · obtain ⟨s, hs, rfl⟩ := List.mem_map.1 h
        exact Or.inr (ht.1.subset hs)
    · exact Or.inr (List.mem_of_mem_filter h)

theorem outcome_fromLoop_mem (species : ℕ → List ℕ) (u : ℕ → ℤ) (ds acc r : List ℕ)
    (h : (fromLoop species u ds acc).Outcome r) :
    ∀ s ∈ r, s ∈ acc ∨ ∃ d ∈ ds, s ∈ species d := by
  induction ds generalizing acc with
  | nil => intro s hs; rw [fromLoop, Outcome] at h; subst h; exact Or.inl hs
  | cons d ds ih =>
    rw [fromLoop, outcome_bind] at h
    obtain ⟨t, ht, hr⟩ := h
    rw [outcome_chooseSub] at ht
    intro s hs
    rcases ih _ hr s hs with h | ⟨e, he, h⟩
    · rcases List.mem_append.1 h with h | h
      · exact Or.inl h
      · exact Or.inr ⟨d, by simp, ht.1.subset h⟩
    · exact Or.inr ⟨e, by simp [he], h⟩

open Classical in
/-- The whole loop over sublattices. -/
theorem tableLoop_expect (x y : Occ) (species : ℕ → List ℕ) (u : ℕ → ℤ)
    (bs : List (Sublattice × List ℕ)) (hb : ∀ b ∈ bs, BlockOk x species b.1 b.2)
    (hy : ∀ b ∈ bs, ∀ s ∈ b.1.active, y s ∈ b.1.encoding)
    (hdisj : bs.Pairwise fun a b => ∀ s ∈ a.1.active, s ∉ b.1.active)
    (step : Step) (hstep : ∀ b ∈ bs, ∀ f ∈ step, f.1 ∉ b.1.active) :
    (tableLoop species u bs step).expect (fun st => if applyStep x st = y then (1 : ℝ) else 0) =
      if (∀ s, (∀ b ∈ bs, s ∉ b.1.active) → applyStep x step s = y s) ∧
          ∀ b ∈ bs, b.1.isActive = true → Compat x y u b.1 b.2 then
        ((bs.filter fun b => b.1.isActive).map fun b => cval x u b.1 b.2).prod
      else 0 := by
  induction bs generalizing step with
  | nil =>
    have : applyStep x step = y ↔ ∀ s, applyStep x step s = y s := funext_iff
    simp [tableLoop, this]
  | cons b bs ih =>
    rw [List.pairwise_cons] at hdisj
    obtain ⟨sl, dims⟩ := b
    rw [tableLoop]
    have hb1 := hb (sl, dims) (by simp)
    by_cases hact : sl.isActive = true
    · rw [if_pos hact, expect_bind]
      simp only [expect_bind]
      -- continuation
      have hcont : ∀ st : Step, (∀ b ∈ bs, ∀ f ∈ st, f.1 ∉ b.1.active) →
          (tableLoop species u bs st).expect (fun st => if applyStep x st = y then (1 : ℝ) else 0) =
          if (∀ s, ¬ (∃ b ∈ bs, s ∈ b.1.active) → applyStep x st s = y s) then
            (if ∀ b ∈ bs, b.1.isActive = true → Compat x y u b.1 b.2 then
              ((bs.filter fun b => b.1.isActive).map fun b => cval x u b.1 b.2).prod else 0)
          else 0 := by
        intro st hst
        rw [ih (fun b h => hb b (by simp [h])) (fun b h => hy b (by simp [h])) hdisj.2 st hst]
        have : (∀ s, ¬ (∃ b ∈ bs, s ∈ b.1.active) → applyStep x st s = y s) ↔
            ∀ s, (∀ b ∈ bs, s ∉ b.1.active) → applyStep x st s = y s := by
          apply forall_congr'; intro s
          rw [show (¬ ∃ b ∈ bs, s ∈ b.1.active) ↔ ∀ b ∈ bs, s ∉ b.1.active by push Not; rfl]
        simp only [this]
        by_cases h1 : ∀ s, (∀ b ∈ bs, s ∉ b.1.active) → applyStep x st s = y s
        · by_cases h2 : ∀ b ∈ bs, b.1.isActive = true → Compat x y u b.1 b.2
          · rw [if_pos ⟨h1, h2⟩, if_pos h1, if_pos h2]
          · rw [if_neg (fun h => h2 h.2), if_pos h1, if_neg h2]
        · rw [if_neg (fun h => h1 h.1), if_neg h1]
      have hexp := block_expect x y species u sl dims hb1 (hy (sl, dims) (by simp))
        (fun s => ∃ b ∈ bs, s ∈ b.1.active)
        (fun s hs ⟨b, hbm, hsb⟩ => hdisj.1 b hbm s hs hsb) step
        (fun s hs => applyStep_of_not_mem x step s fun f hf hfs =>
          hstep (sl, dims) (by simp) f hf (hfs ▸ hs))
        (if ∀ b ∈ bs, b.1.isActive = true → Compat x y u b.1 b.2 then
              ((bs.filter fun b => b.1.isActive).map fun b => cval x u b.1 b.2).prod else 0)
      rw [show ((fromLoop species u (dims.filter fun d => decide (u d < 0)) []).expect fun a =>
          (toLoop u ((dims.zip sl.encoding).filter fun p => decide (u p.1 > 0)) a step).expect
            fun st => (tableLoop species u bs st).expect
              fun st => if applyStep x st = y then (1 : ℝ) else 0) =
        ((fromLoop species u (dims.filter fun d => decide (u d < 0)) []).expect fun a =>
          (toLoop u ((dims.zip sl.encoding).filter fun p => decide (u p.1 > 0)) a step).expect
            fun st => if ∀ s, ¬ (∃ b ∈ bs, s ∈ b.1.active) → applyStep x st s = y s then
              (if ∀ b ∈ bs, b.1.isActive = true → Compat x y u b.1 b.2 then
              ((bs.filter fun b => b.1.isActive).map fun b => cval x u b.1 b.2).prod else 0)
              else 0) from ?_]
      · rw [hexp]
        have e1 : (∀ s, ¬ (∃ b ∈ bs, s ∈ b.1.active) → s ∉ sl.active → applyStep x step s = y s) ↔
            ∀ s, (∀ b ∈ (sl, dims) :: bs, s ∉ b.1.active) → applyStep x step s = y s := by
          apply forall_congr'; intro s
          rw [List.forall_mem_cons]
          constructor
          · rintro h ⟨a, b⟩; exact h (by push Not; exact b) a
          · intro h a b; exact h ⟨b, by push Not at a; exact a⟩
        have e2 : (∀ b ∈ (sl, dims) :: bs, b.1.isActive = true → Compat x y u b.1 b.2) ↔
            Compat x y u sl dims ∧ ∀ b ∈ bs, b.1.isActive = true → Compat x y u b.1 b.2 := by
          rw [List.forall_mem_cons]
          simp only [hact, true_imp_iff]
        rw [List.filter_cons_of_pos (by simpa using hact), List.map_cons, List.prod_cons]
        by_cases h1 : ∀ s, (∀ b ∈ (sl, dims) :: bs, s ∉ b.1.active) → applyStep x step s = y s
        · by_cases h2 : Compat x y u sl dims
          · by_cases h3 : ∀ b ∈ bs, b.1.isActive = true → Compat x y u b.1 b.2
            · rw [if_pos ⟨e1.2 h1, h2⟩, if_pos h3, if_pos ⟨h1, e2.2 ⟨h2, h3⟩⟩]
            · rw [if_pos ⟨e1.2 h1, h2⟩, if_neg h3, if_neg (fun h => h3 (e2.1 h.2).2), mul_zero]
          · rw [if_neg (fun h => h2 h.2), if_neg (fun h => h2 (e2.1 h.2).1)]
        · rw [if_neg (fun h => h1 (e1.1 h.1)), if_neg (fun h => h1 h.1)]
      · apply expect_congr
        intro siteIds hs
        apply expect_congr
        intro st hst
        apply hcont
        intro b' hb' f hf
        rcases outcome_toLoop_mem _ _ _ _ _ hst f hf with h | h
        · exact hstep b' (by simp [hb']) f h
        · rcases outcome_fromLoop_mem _ _ _ _ _ hs f.1 h with h | ⟨d, hd, hsd⟩
          · simp at h
          · have hd' : d ∈ dims := List.mem_of_mem_filter hd
            obtain ⟨i, hi, rfl⟩ := List.mem_iff_getElem.1 hd'
            have hi2 : i < sl.encoding.length := by rw [← hb1.len]; exact hi
            have hm : (dims[i], sl.encoding[i]) ∈ dims.zip sl.encoding := by
              rw [List.mem_iff_getElem]
              refine ⟨i, by simp [hi, hi2], by simp⟩
            exact hdisj.1 b' hb' f.1 ((hb1.mem _ hm f.1).1 hsd).1
    · rw [if_neg hact, ih (fun b h => hb b (by simp [h])) (fun b h => hy b (by simp [h])) hdisj.2
        step (fun b h => hstep b (by simp [h]))]
      have hempty : sl.active = [] := by
        simpa [Sublattice.isActive] using hact
      have e1 : (∀ s, (∀ b ∈ bs, s ∉ b.1.active) → applyStep x step s = y s) ↔
            ∀ s, (∀ b ∈ (sl, dims) :: bs, s ∉ b.1.active) → applyStep x step s = y s := by
        apply forall_congr'; intro s
        rw [List.forall_mem_cons]
        simp [hempty]
      have e2 : (∀ b ∈ (sl, dims) :: bs, b.1.isActive = true → Compat x y u b.1 b.2) ↔
            ∀ b ∈ bs, b.1.isActive = true → Compat x y u b.1 b.2 := by
        rw [List.forall_mem_cons]
        simp only [hact]
        simp
      rw [List.filter_cons_of_neg (by simpa using hact)]
      exact if_congr (and_congr e1 e2.symm) rfl rfl

end Smol
