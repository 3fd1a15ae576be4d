import Verif.Model.RandomOccu
import Verif.Spec.RandomOccu
import Verif.Lemmas.Prog
import Verif.Lemmas.SiteSpace
import Mathlib.Tactic.Linarith
import Mathlib.Tactic.FieldSimp

namespace Smol
open Spec

/-! ## rounding -/

theorem pyRound_near (x : ℚ) : |(pyRound x : ℚ) - x| ≤ 1 / 2 := by
  have h1 := Int.floor_le x
  have h2 := Int.lt_floor_add_one x
  unfold pyRound
  split_ifs <;> push_cast <;> rw [abs_le] <;> constructor <;> linarith

theorem pyRound_eq {x : ℚ} {m : ℤ} (h : |(m : ℚ) - x| < 1 / 2) : pyRound x = m := by
  have h1 := pyRound_near x
  rw [abs_le] at h1
  rw [abs_lt] at h
  have h2 : ((pyRound x - m : ℤ) : ℚ) < 1 := by push_cast; linarith
  have h3 : (-1 : ℚ) < ((pyRound x - m : ℤ) : ℚ) := by push_cast; linarith
  have h4 : pyRound x - m < 1 := by exact_mod_cast h2
  have h5 : -1 < pyRound x - m := by exact_mod_cast h3
  omega

theorem pyRound_nonneg {x : ℚ} (h : 0 ≤ x) : 0 ≤ pyRound x := by
  have : 0 ≤ ⌊x⌋ := Int.floor_nonneg.2 h
  unfold pyRound
  split_ifs <;> omega

/-! ## outcomes -/

theorem not_outcome_raise {α : Type} (a : α) : ¬ (Prog.raise : Prog α).Outcome a := by
  rintro ⟨i, -⟩; exact i.elim0

theorem outcome_chooseSub_iff {α : Type} (g : Rng) (k : ℕ) (l a : List α) :
    (Prog.chooseSub g k l).Outcome a ↔ a.Sublist l ∧ a.length = k := by
  unfold Prog.chooseSub
  rw [Prog.outcome_choose, List.mem_sublistsLen]

theorem fillSites_outcome (g : Rng) (enc : List ℕ) (l : List ℕ) : ∀ occ occ' : Occ,
    (fillSites g enc l occ).Outcome occ' → (∀ s ∉ l, occ' s = occ s) ∧ ∀ s ∈ l, occ' s ∈ enc := by
  induction l with
  | nil =>
    intro occ occ' h
    cases (show occ' = occ from h)
    exact ⟨fun _ _ => rfl, by simp⟩
  | cons s l ih =>
    intro occ occ' h
    rw [fillSites, Prog.outcome_bind] at h
    obtain ⟨c, hc, h⟩ := h
    rw [Prog.outcome_choose] at hc
    obtain ⟨h1, h2⟩ := ih _ _ h
    constructor
    · intro t ht
      rw [List.mem_cons, not_or] at ht
      rw [h1 t ht.2, Function.update_of_ne ht.1]
    · intro t ht
      by_cases htl : t ∈ l
      · exact h2 t htl
      · rcases List.mem_cons.1 ht with rfl | h
        · rw [h1 t htl, Function.update_self]; exact hc
        · exact (htl h).elim

theorem fillSites_complete (g : Rng) (enc : List ℕ) (l : List ℕ) : ∀ occ occ' : Occ,
    (∀ s ∉ l, occ' s = occ s) → (∀ s ∈ l, occ' s ∈ enc) → (fillSites g enc l occ).Outcome occ' := by
  induction l with
  | nil =>
    intro occ occ' h _
    exact funext fun s => h s (by simp)
  | cons s l ih =>
    intro occ occ' h1 h2
    rw [fillSites, Prog.outcome_bind]
    refine ⟨occ' s, (Prog.outcome_choose _ _ _).2 (h2 s (by simp)), ih _ _ ?_ ?_⟩
    · intro t ht
      by_cases hts : t = s
      · subst hts; rw [Function.update_self]
      · rw [Function.update_of_ne hts]; exact h1 t (by simp [hts, ht])
    · intro t ht; exact h2 t (by simp [ht])

theorem fillSublattices_outcome (g : Rng) (l : List Sublattice)
    (hd : l.Pairwise fun a b => ∀ s ∈ a.sites, s ∉ b.sites) : ∀ occ occ' : Occ,
    (fillSublattices g l occ).Outcome occ' ↔
      (∀ s, (∀ sl ∈ l, s ∉ sl.sites) → occ' s = occ s) ∧ AllowedCodes l occ' := by
  induction l with
  | nil =>
    intro occ occ'
    refine ⟨fun h => ?_, fun h => funext fun s => h.1 s (by simp)⟩
    cases (show occ' = occ from h)
    exact ⟨fun _ _ => rfl, fun sl h => by simp at h⟩
  | cons sl l ih =>
    rw [List.pairwise_cons] at hd
    intro occ occ'
    rw [fillSublattices, Prog.outcome_bind]
    constructor
    · rintro ⟨o, h1, h2⟩
      obtain ⟨h3, h4⟩ := fillSites_outcome _ _ _ _ _ h1
      obtain ⟨h5, h6⟩ := (ih hd.2 _ _).1 h2
      constructor
      · intro s hs
        rw [h5 s fun t ht => hs t (by simp [ht]), h3 s (hs sl (by simp))]
      · intro t ht s hs
        rcases List.mem_cons.1 ht with rfl | ht
        · rw [h5 s fun u hu => hd.1 u hu s hs]; exact h4 s hs
        · exact h6 t ht s hs
    · rintro ⟨h1, h2⟩
      refine ⟨fun s => if s ∈ sl.sites then occ' s else occ s, ?_, ?_⟩
      · apply fillSites_complete
        · intro s hs; simp only [if_neg hs]
        · intro s hs; simp only [if_pos hs]; exact h2 sl (by simp) s hs
      · rw [ih hd.2]
        refine ⟨fun s hs => ?_, fun t ht => h2 t (by simp [ht])⟩
        by_cases h : s ∈ sl.sites
        · simp only [if_pos h]
        · simp only [if_neg h]
          apply h1
          intro t ht
          rcases List.mem_cons.1 ht with rfl | ht
          · exact h
          · exact hs t ht

/-! ## charges -/

theorem lookup_zip {enc : List ℕ} : ∀ {sp : List ℕ} {c : ℕ}, enc.length = sp.length → c ∈ enc →
    (enc.zip sp).lookup c = some (sp.getD (enc.idxOf c) 0) := by
  induction enc with
  | nil => intro sp c _ h; simp at h
  | cons a l ih =>
    intro sp c hl hc
    cases sp with
    | nil => simp at hl
    | cons b r =>
      rw [List.zip_cons_cons, List.lookup_cons, List.idxOf_cons]
      by_cases h : c = a
      · subst h; simp
      · have h' : (c == a) = false := by simpa using h
        have h'' : (a == c) = false := by simpa using fun e => h (Eq.symm e)
        rw [h', h'']
        have := ih (sp := r) (by simpa using hl) (by simpa [h] using hc)
        simpa using this

theorem chargeOf_eq (d : ChargeData) (subls : List Sublattice)
    (hl : ∀ sl ∈ subls, sl.encoding.length = sl.species.length) {occ : Occ}
    (h : AllowedCodes subls occ) : chargeOf d.charge subls occ = totalCharge d subls occ := by
  unfold chargeOf totalCharge
  congr 1
  apply List.map_congr_left
  intro sl hsl
  congr 1
  apply List.map_congr_left
  intro s hs
  unfold heldSpecies
  rw [lookup_zip (hl sl hsl) (h sl hsl s hs)]
  rfl

theorem neutralFlip_outcome (d : ChargeData) (accept : ℚ → ℚ) (subls : List Sublattice)
    (hd : subls.Pairwise fun a b => ∀ s ∈ a.sites, s ∉ b.sites) {occ : Occ}
    (h : AllowedCodes subls occ) {r : Occ × ℚ} (hr : (neutralFlip d accept subls occ).Outcome r) :
    AllowedCodes subls r.1 ∧ r.2 = totalCharge d subls r.1 := by
  unfold neutralFlip at hr
  simp only [Prog.outcome_bind, Prog.outcome_choose] at hr
  obtain ⟨sl, hsl, site, hsite, code, hcode, acc, -, hr⟩ := hr
  have hr : r = _ := hr
  rw [hr]
  split_ifs with hacc
  · refine ⟨?_, rfl⟩
    intro t ht s hs
    show Function.update occ site code s ∈ _
    by_cases hss : s = site
    · subst hss
      rw [Function.update_self]
      have hsl' := (List.mem_filter.1 hsl).1
      have : t = sl := by
        by_contra hne
        obtain ⟨i, hi, rfl⟩ := List.getElem_of_mem ht
        obtain ⟨j, hj, rfl⟩ := List.getElem_of_mem hsl'
        rcases lt_trichotomy i j with hij | hij | hij
        · exact List.pairwise_iff_getElem.1 hd i j hi hj hij s hs hsite
        · subst hij; exact hne rfl
        · exact List.pairwise_iff_getElem.1 hd j i hj hi hij s hsite hs
      rw [this]
      exact (List.mem_filter.1 hcode).1
    · rw [Function.update_of_ne hss]; exact h t ht s hs
  · exact ⟨h, rfl⟩

theorem neutralLoop_outcome (d : ChargeData) (accept : ℚ → ℚ) (subls : List Sublattice)
    (hd : subls.Pairwise fun a b => ∀ s ∈ a.sites, s ∉ b.sites) (n : ℕ) : ∀ {occ occ' : Occ},
    AllowedCodes subls occ → (neutralLoop d accept subls n occ).Outcome occ' →
    AllowedCodes subls occ' ∧ totalCharge d subls occ' = 0 := by
  induction n with
  | zero => intro occ occ' _ h; exact (not_outcome_raise _ h).elim
  | succ n ih =>
    intro occ occ' ho h
    rw [neutralLoop, Prog.outcome_bind] at h
    obtain ⟨r, hr, h⟩ := h
    obtain ⟨h1, h2⟩ := neutralFlip_outcome d accept subls hd ho hr
    split_ifs at h with h0
    · have : occ' = r.1 := h
      rw [this]
      exact ⟨h1, by rw [← h2, h0]⟩
    · exact ih h1 h

/-! ## placing species -/

theorem placeSpecies_outcome (space : SiteSpace) (n : ℕ) (l : List (ℕ × ℕ)) :
    ∀ (avail : List ℕ) (occ occ' : Occ), avail.Nodup → (l.map Prod.snd).Nodup →
    (placeSpecies space n l avail occ).Outcome occ' →
    (∀ s ∉ avail, occ' s = occ s) ∧
    ∃ rest : List ℕ, (∀ s ∈ rest, s ∈ avail) ∧ rest.Nodup ∧ (∀ s ∈ rest, occ' s = occ s) ∧
      (∀ s ∈ avail, s ∉ rest → occ' s ∈ l.map Prod.snd) ∧
      (∀ p ∈ l, ∃ x, space.data.lookup p.1 = some x ∧
        (avail.filter fun s => s ∉ rest ∧ occ' s = p.2).length = (pyRound (x * n)).toNat) := by
  induction l with
  | nil =>
    intro avail occ occ' hn _ h
    cases (show occ' = occ from h)
    exact ⟨fun _ _ => rfl, avail, fun _ h => h, hn, fun _ _ => rfl, fun s h h' => (h' h).elim,
      by simp⟩
  | cons p l ih =>
    intro avail occ occ' hn hc h
    rw [List.map_cons, List.nodup_cons] at hc
    rw [placeSpecies] at h
    cases hx : space.data.lookup p.1 with
    | none => rw [hx] at h; exact (not_outcome_raise _ h).elim
    | some x =>
      rw [hx] at h
      simp only [Prog.outcome_bind, outcome_chooseSub_iff] at h
      obtain ⟨S, ⟨hS, hSl⟩, h⟩ := h
      obtain ⟨h1, rest, h2, h3, h4, h5, h6⟩ := ih _ _ _ (hn.filter _) hc.2 h
      have hmem : ∀ s, s ∈ avail.filter (fun i => decide (i ∉ S)) ↔ s ∈ avail ∧ s ∉ S := by
        intro s; simp [List.mem_filter]
      have hrS : ∀ s ∈ rest, s ∈ avail ∧ s ∉ S := fun s hs => (hmem s).1 (h2 s hs)
      have hSv : ∀ s ∈ S, occ' s = p.2 := by
        intro s hs
        rw [h1 s (by rw [hmem]; exact fun h => h.2 hs), writeCode, if_pos hs]
      refine ⟨?_, rest, fun s hs => (hrS s hs).1, h3, ?_, ?_, ?_⟩
      · intro s hs
        rw [h1 s (by rw [hmem]; exact fun h => hs h.1), writeCode,
          if_neg fun h => hs (hS.subset h)]
      · intro s hs
        rw [h4 s hs, writeCode, if_neg (hrS s hs).2]
      · intro s hs hr
        by_cases hsS : s ∈ S
        · rw [hSv s hsS]; simp
        · exact List.mem_cons_of_mem _ (h5 s ((hmem s).2 ⟨hs, hsS⟩) hr)
      · intro q hq
        rcases List.mem_cons.1 hq with rfl | hq
        · refine ⟨x, hx, ?_⟩
          rw [← hSl]
          apply List.Perm.length_eq
          rw [List.perm_ext_iff_of_nodup (hn.filter _) (hS.nodup hn)]
          intro s
          simp only [List.mem_filter, decide_eq_true_eq]
          constructor
          · rintro ⟨h7, h8, h9⟩
            by_contra hsS
            have := h5 s ((hmem s).2 ⟨h7, hsS⟩) h8
            rw [h9] at this
            exact hc.1 this
          · intro hsS
            exact ⟨hS.subset hsS, fun h => (hrS s h).2 hsS, hSv s hsS⟩
        · obtain ⟨y, hy, hlen⟩ := h6 q hq
          refine ⟨y, hy, ?_⟩
          rw [← hlen, List.filter_filter]
          congr 1
          apply List.filter_congr
          intro s hs
          have key : s ∈ S → occ' s ≠ q.2 := by
            intro hsS e
            apply hc.1
            rw [← hSv s hsS, e]
            exact List.mem_map.2 ⟨q, hq, rfl⟩
          by_cases hsS : s ∈ S
          · simp [hsS, key hsS]
          · simp [hsS]

theorem placeSpecies_complete (space : SiteSpace) (n : ℕ) (l : List (ℕ × ℕ)) :
    ∀ (avail : List ℕ) (occ occ' : Occ), avail.Nodup → (l.map Prod.snd).Nodup →
    (∀ s ∉ avail, occ' s = occ s) → (∀ s ∈ avail, occ' s ∈ l.map Prod.snd) →
    (∀ p ∈ l, ∃ x, space.data.lookup p.1 = some x ∧
        (avail.filter fun s => occ' s = p.2).length = (pyRound (x * n)).toNat) →
    (placeSpecies space n l avail occ).Outcome occ' := by
  induction l with
  | nil =>
    intro avail occ occ' _ _ h1 h2 _
    refine funext fun s => h1 s fun hs => ?_
    have := h2 s hs
    simp at this
  | cons p l ih =>
    intro avail occ occ' hn hc h1 h2 h3
    rw [List.map_cons, List.nodup_cons] at hc
    obtain ⟨x, hx, hlen⟩ := h3 p (by simp)
    rw [placeSpecies, hx]
    simp only [Prog.outcome_bind, outcome_chooseSub_iff]
    refine ⟨avail.filter fun s => occ' s = p.2, ⟨List.filter_sublist, hlen⟩, ?_⟩
    have hmem : ∀ s, s ∈ avail.filter (fun i => decide (i ∉ avail.filter fun s => occ' s = p.2)) ↔
        s ∈ avail ∧ occ' s ≠ p.2 := by
      intro s; simp only [List.mem_filter, decide_eq_true_eq, not_and]
      exact ⟨fun h => ⟨h.1, h.2 h.1⟩, fun h => ⟨h.1, fun _ => h.2⟩⟩
    apply ih _ _ _ (hn.filter _) hc.2
    · intro s hs
      rw [hmem, not_and, not_not] at hs
      unfold writeCode
      by_cases hsa : s ∈ avail
      · rw [if_pos (List.mem_filter.2 ⟨hsa, decide_eq_true (hs hsa)⟩), hs hsa]
      · rw [if_neg fun h => hsa (List.mem_filter.1 h).1, h1 s hsa]
    · intro s hs
      rw [hmem] at hs
      have := h2 s hs.1
      rw [List.map_cons, List.mem_cons] at this
      exact this.resolve_left hs.2
    · intro q hq
      obtain ⟨y, hy, hl⟩ := h3 q (by simp [hq])
      refine ⟨y, hy, ?_⟩
      rw [← hl, List.filter_filter]
      congr 1
      apply List.filter_congr
      intro s hs
      have : occ' s = q.2 → occ' s ≠ p.2 := by
        intro e e'
        apply hc.1
        rw [← e', e]
        exact List.mem_map.2 ⟨q, hq, rfl⟩
      by_cases e : occ' s = q.2
      · have h' : s ∉ avail.filter fun s => occ' s = p.2 := fun h => this e (by
          simpa using (List.mem_filter.1 h).2)
        simp [e, h']
      · simp [e]

/-! ## all sublattices -/

theorem placeSublattices_outcome (k : VacKind) (l : List (SiteComp × Sublattice))
    (hd : l.Pairwise fun a b => ∀ s ∈ a.2.sites, s ∉ b.2.sites)
    (hn : ∀ q ∈ l, q.2.sites.Nodup) (he : ∀ q ∈ l, q.2.encoding.Nodup)
    (hl : ∀ q ∈ l, q.2.encoding.length = q.2.species.length) :
    ∀ occ occ' : Occ, (placeSublattices k l occ).Outcome occ' →
    (∀ s, (∀ q ∈ l, s ∉ q.2.sites) → occ' s = occ s) ∧
    ∀ q ∈ l, ∃ space, SiteSpace.make k q.1 = some space ∧
      ∃ rest : List ℕ, (∀ s ∈ rest, s ∈ q.2.sites) ∧ rest.Nodup ∧ (∀ s ∈ rest, occ' s = occ s) ∧
        (∀ s ∈ q.2.sites, s ∉ rest → occ' s ∈ q.2.encoding) ∧
        ∀ p ∈ q.2.species.zip q.2.encoding, ∃ x, space.data.lookup p.1 = some x ∧
          (q.2.sites.filter fun s => s ∉ rest ∧ occ' s = p.2).length =
            (pyRound (x * q.2.sites.length)).toNat := by
  induction l with
  | nil =>
    intro occ occ' h
    cases (show occ' = occ from h)
    exact ⟨fun _ _ => rfl, by simp⟩
  | cons q l ih =>
    intro occ occ' h
    rw [List.pairwise_cons] at hd
    rw [placeSublattices] at h
    cases hm : SiteSpace.make k q.1 with
    | none => rw [hm] at h; exact (not_outcome_raise _ h).elim
    | some space =>
      rw [hm] at h
      simp only [Prog.outcome_bind] at h
      obtain ⟨o, h1, h2⟩ := h
      have hz : (q.2.species.zip q.2.encoding).map Prod.snd = q.2.encoding :=
        List.map_snd_zip (by rw [hl q (by simp)])
      obtain ⟨h3, rest, h4, h5, h6, h7, h8⟩ := placeSpecies_outcome space _ _ _ _ _
        (hn q (by simp)) (by rw [hz]; exact he q (by simp)) h1
      rw [hz] at h7
      obtain ⟨h9, h10⟩ := ih hd.2 (fun q hq => hn q (by simp [hq])) (fun q hq => he q (by simp [hq]))
        (fun q hq => hl q (by simp [hq])) _ _ h2
      have hq : ∀ s ∈ q.2.sites, occ' s = o s := fun s hs => h9 s fun t ht => hd.1 t ht s hs
      constructor
      · intro s hs
        rw [h9 s fun t ht => hs t (by simp [ht]), h3 s (hs q (by simp))]
      · intro t ht
        rcases List.mem_cons.1 ht with rfl | ht
        · refine ⟨space, hm, rest, h4, h5, fun s hs => ?_, fun s hs hr => ?_, fun p hp => ?_⟩
          · rw [hq s (h4 s hs), h6 s hs]
          · rw [hq s hs]; exact h7 s hs hr
          · obtain ⟨x, hx, hlen⟩ := h8 p hp
            refine ⟨x, hx, ?_⟩
            rw [← hlen]
            congr 1
            apply List.filter_congr
            intro s hs
            rw [hq s hs]
        · obtain ⟨sp, hsp, rest', h11, h12, h13, h14, h15⟩ := h10 t ht
          refine ⟨sp, hsp, rest', h11, h12, fun s hs => ?_, h14, h15⟩
          rw [h13 s hs, h3 s fun h => hd.1 t ht s h (h11 s hs)]

theorem placeSublattices_complete (k : VacKind) (l : List (SiteComp × Sublattice))
    (hd : l.Pairwise fun a b => ∀ s ∈ a.2.sites, s ∉ b.2.sites)
    (hn : ∀ q ∈ l, q.2.sites.Nodup) (he : ∀ q ∈ l, q.2.encoding.Nodup)
    (hl : ∀ q ∈ l, q.2.encoding.length = q.2.species.length) :
    ∀ occ occ' : Occ, (∀ s, (∀ q ∈ l, s ∉ q.2.sites) → occ' s = occ s) →
    (∀ q ∈ l, ∃ space, SiteSpace.make k q.1 = some space ∧
      (∀ s ∈ q.2.sites, occ' s ∈ q.2.encoding) ∧
      ∀ p ∈ q.2.species.zip q.2.encoding, ∃ x, space.data.lookup p.1 = some x ∧
          (q.2.sites.filter fun s => occ' s = p.2).length =
            (pyRound (x * q.2.sites.length)).toNat) →
    (placeSublattices k l occ).Outcome occ' := by
  induction l with
  | nil => intro occ occ' h _; exact funext fun s => h s (by simp)
  | cons q l ih =>
    intro occ occ' h1 h2
    rw [List.pairwise_cons] at hd
    obtain ⟨space, hm, h3, h4⟩ := h2 q (by simp)
    rw [placeSublattices, hm]
    simp only [Prog.outcome_bind]
    have hz : (q.2.species.zip q.2.encoding).map Prod.snd = q.2.encoding :=
        List.map_snd_zip (by rw [hl q (by simp)])
    refine ⟨fun s => if s ∈ q.2.sites then occ' s else occ s, ?_, ?_⟩
    · apply placeSpecies_complete space _ _ _ _ _ (hn q (by simp)) (by rw [hz]; exact he q (by simp))
      · intro s hs; simp only [if_neg hs]
      · intro s hs; simp only [if_pos hs]; rw [hz]; exact h3 s hs
      · intro p hp
        obtain ⟨x, hx, hlen⟩ := h4 p hp
        refine ⟨x, hx, ?_⟩
        rw [← hlen]
        congr 1
        apply List.filter_congr
        intro s hs
        simp only [if_pos hs]
    · apply ih hd.2 (fun q hq => hn q (by simp [hq])) (fun q hq => he q (by simp [hq]))
        (fun q hq => hl q (by simp [hq]))
      · intro s hs
        by_cases h : s ∈ q.2.sites
        · simp only [if_pos h]
        · simp only [if_neg h]
          apply h1
          intro t ht
          rcases List.mem_cons.1 ht with rfl | ht
          · exact h
          · exact hs t ht
      · exact fun t ht => h2 t (by simp [ht])

theorem held_iff {sl : Sublattice} (hl : sl.encoding.length = sl.species.length)
    (he : sl.encoding.Nodup) (hs : sl.species.Nodup) {p : ℕ × ℕ}
    (hp : p ∈ sl.species.zip sl.encoding) (occ : Occ) (s : ℕ) :
    heldSpecies sl occ s = some p.1 ↔ occ s = p.2 := by
  obtain ⟨i, hi, rfl⟩ := List.getElem_of_mem hp
  have hi' := hi
  rw [List.length_zip] at hi'
  have hi1 : i < sl.encoding.length := by omega
  have hi2 : i < sl.species.length := by omega
  rw [List.getElem_zip]
  constructor
  · intro h
    have hm : occ s ∈ sl.encoding := by
      by_contra hm
      unfold heldSpecies at h
      rw [List.lookup_eq_none_iff.2] at h
      · cases h
      · intro q hq
        have := (List.of_mem_zip hq).1
        by_contra hne
        have e : occ s = q.1 := by simpa using hne
        exact hm (e ▸ this)
    unfold heldSpecies at h
    rw [lookup_zip hl hm, Option.some.injEq] at h
    have hj : sl.encoding.idxOf (occ s) < sl.encoding.length := List.idxOf_lt_length_iff.2 hm
    rw [List.getD_eq_getElem?_getD, List.getElem?_eq_getElem (by omega), Option.getD_some] at h
    have := (List.Nodup.getElem_inj_iff hs).1 h
    simp only
    rw [← List.getElem_idxOf hj]
    congr 1
  · intro h
    simp only at h
    unfold heldSpecies
    rw [h, lookup_zip hl (List.getElem_mem hi1), List.Nodup.idxOf_getElem he,
      List.getD_eq_getElem?_getD, List.getElem?_eq_getElem hi2, Option.getD_some]

theorem placeSpecies_none (space : SiteSpace) (n : ℕ) (l : List (ℕ × ℕ)) (p : ℕ × ℕ)
    (hp : p ∈ l) (h : space.data.lookup p.1 = none) : ∀ (avail : List ℕ) (occ occ' : Occ),
    ¬ (placeSpecies space n l avail occ).Outcome occ' := by
  induction l with
  | nil => simp at hp
  | cons q l ih =>
    intro avail occ occ' ho
    rw [placeSpecies] at ho
    cases hx : space.data.lookup q.1 with
    | none => rw [hx] at ho; exact not_outcome_raise _ ho
    | some x =>
      rw [hx] at ho
      simp only [Prog.outcome_bind] at ho
      obtain ⟨S, -, ho⟩ := ho
      rcases List.mem_cons.1 hp with rfl | hp
      · rw [hx] at h; cases h
      · exact ih hp _ _ _ ho

end Smol
