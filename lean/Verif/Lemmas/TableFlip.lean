import Verif.Lemmas.TableLoop
import Verif.Lemmas.FlipSwap
import Verif.Props.OccuUtils

/-! From the table-flip usher to the loops of `TableLoop`. -/

namespace Smol
open Prog Spec

/-- The usher has the tables its constructor computes from its sublattices. -/
structure TableOk (t : TableFlipper) (n : ℕ) : Prop where
  sls : SublatticesOk t.sls
  len : ∀ sl ∈ t.sls, sl.species.length = sl.encoding.length
  dimTable : getDimIdsTable true t.sls = some t.dimTable
  dimFull : getDimIdsTable false t.sls = some t.dimFull
  maxN : t.maxN = tableMaxN t.sls
  size : n = (t.sls.map fun sl => sl.sites.length).sum
  rows : ∀ u ∈ t.table, u.length = t.d
  weights : t.weights.length = 2 * t.table.length

/-- every site holds a code of its sublattice -/
def FullLegal (sls : List Sublattice) (occ : Occ) : Prop :=
  ∀ sl ∈ sls, ∀ s ∈ sl.sites, occ s ∈ sl.encoding

theorem flatMap_sites_nodup {sls : List Sublattice} (h1 : ∀ sl ∈ sls, sl.sites.Nodup)
    (h2 : sls.Pairwise fun x y => ∀ s ∈ x.sites, s ∉ y.sites) :
    (sls.flatMap Sublattice.sites).Nodup := by
  rw [List.nodup_flatMap]
  refine ⟨h1, h2.imp ?_⟩
  intro a b hab
  rw [Function.onFun, List.disjoint_left]
  exact fun s hs hs' => hab s hs hs'

theorem sites_cover {sls : List Sublattice} (h : SublatticesOk sls) (s : ℕ)
    (hs : s < (sls.map fun sl => sl.sites.length).sum) : ∃ sl ∈ sls, s ∈ sl.sites := by
  set n := (sls.map fun sl => sl.sites.length).sum with hn
  have hnd := flatMap_sites_nodup (fun sl hsl => (h.nodup sl hsl).1) h.disjoint
  have hlen : (sls.flatMap Sublattice.sites).length = n := by rw [List.length_flatMap]
  have hsub : (sls.flatMap Sublattice.sites).toFinset ⊆ Finset.range n := by
    intro a ha
    rw [List.mem_toFinset, List.mem_flatMap] at ha
    obtain ⟨sl, hsl, ha⟩ := ha
    exact Finset.mem_range.2 (h.range sl hsl a ha)
  have heq := Finset.eq_of_subset_of_card_le hsub (by
    rw [Finset.card_range, List.toFinset_card_of_nodup hnd, hlen])
  have : s ∈ (sls.flatMap Sublattice.sites).toFinset := by rw [heq]; exact Finset.mem_range.2 hs
  rw [List.mem_toFinset, List.mem_flatMap] at this
  exact this

/-- shape of the list of dimensions of each sublattice -/
theorem blocks_shape (a : Bool) (sls : List Sublattice) (d0 : ℕ)
    (hlen : ∀ sl ∈ sls, sl.species.length = sl.encoding.length) :
    ∀ b ∈ sls.zip (getDimIdsBySublattice (sls.map Sublattice.species) d0),
      b.1 ∈ sls ∧ b.2.length = b.1.encoding.length ∧ b.2.Nodup ∧
      ∀ p ∈ b.2.zip b.1.encoding, d0 ≤ p.1 ∧
        (countDimensions a sls)[p.1 - d0]? = some (b.1.tableSites a, p.2) := by
  induction sls generalizing d0 with
  | nil => simp
  | cons sl sls ih =>
    have hl := hlen sl (by simp)
    intro b hb
    rw [List.map_cons, getDimIdsBySublattice, List.zip_cons_cons, List.mem_cons] at hb
    have hcd : countDimensions a (sl :: sls) =
        (sl.encoding.map fun c => (sl.tableSites a, c)) ++ countDimensions a sls := by
      simp [countDimensions, Sublattice.tableSites]
    rcases hb with rfl | hb
    · refine ⟨by simp, by simp [hl], ?_, ?_⟩
      · exact List.nodup_range.map fun a b h => by simpa using h
      · intro p hp
        obtain ⟨i, hi, hpi⟩ := List.mem_iff_getElem.1 hp
        have hi1 : i < sl.species.length := by
          have : i < (List.map (· + d0) (List.range sl.species.length)).length := by
            have := hi; rw [List.length_zip] at this; exact lt_of_lt_of_le this (min_le_left _ _)
          simpa using this
        have hi2 : i < sl.encoding.length := by omega
        rw [List.getElem_zip] at hpi
        subst hpi
        simp only [List.getElem_map, List.getElem_range, Nat.add_sub_cancel]
        refine ⟨by omega, ?_⟩
        rw [hcd, List.getElem?_append_left (by simpa using hi2), List.getElem?_map,
          List.getElem?_eq_getElem hi2, Option.map_some]
    · obtain ⟨h1, h2, h3, h4⟩ := ih (d0 + sl.species.length) (fun s hs => hlen s (by simp [hs])) b hb
      refine ⟨by simp [h1], h2, h3, fun p hp => ?_⟩
      obtain ⟨h5, h6⟩ := h4 p hp
      refine ⟨by omega, ?_⟩
      rw [hcd, List.getElem?_append_right (by simp; omega)]
      rw [List.length_map, show p.1 - d0 - sl.encoding.length = p.1 - (d0 + sl.species.length) by omega]
      exact h6

theorem getDimIdsBySublattice_length (bits : List (List ℕ)) (d : ℕ) :
    (getDimIdsBySublattice bits d).length = bits.length := by
  induction bits generalizing d with
  | nil => rfl
  | cons b bs ih => simp [getDimIdsBySublattice, ih]

theorem countDimensions_length (a : Bool) (sls : List Sublattice)
    (hlen : ∀ sl ∈ sls, sl.species.length = sl.encoding.length) :
    (countDimensions a sls).length = (tableMaxN sls).length := by
  induction sls with
  | nil => rfl
  | cons sl sls ih =>
    have := ih fun s hs => hlen s (by simp [hs])
    simp only [countDimensions, tableMaxN, List.flatMap_cons, List.length_append, List.length_map]
      at this ⊢
    rw [this, hlen sl (by simp)]

theorem tableMaxN_get (sls : List Sublattice)
    (hlen : ∀ sl ∈ sls, sl.species.length = sl.encoding.length) (d : ℕ) (sites : List ℕ) (c : ℕ)
    (h : (countDimensions true sls)[d]? = some (sites, c)) :
    (tableMaxN sls)[d]? = some sites.length := by
  induction sls generalizing d with
  | nil => simp [countDimensions] at h
  | cons sl sls ih =>
    have hl := hlen sl (by simp)
    simp only [countDimensions, tableMaxN, List.flatMap_cons, if_true] at h ⊢
    by_cases hd : d < sl.encoding.length
    · rw [List.getElem?_append_left (by simpa using hd), List.getElem?_map,
        List.getElem?_eq_getElem hd, Option.map_some, Option.some.injEq, Prod.mk.injEq] at h
      rw [List.getElem?_append_left (by simp; omega), List.getElem?_map,
        List.getElem?_eq_getElem (by omega), Option.map_some, ← h.1]
    · rw [List.getElem?_append_right (by simpa using hd), List.length_map] at h
      rw [List.getElem?_append_right (by simp; omega), List.length_map, hl]
      exact ih (fun s hs => hlen s (by simp [hs])) _ h

/-- numbers of (active) sites holding each code -/
def countVec (a : Bool) (sls : List Sublattice) (occ : Occ) : List ℕ :=
  (countDimensions a sls).map fun p => (p.1.filter fun s => occ s == p.2).length

theorem TableOk.d_eq {t : TableFlipper} {n : ℕ} (h : TableOk t n) (a : Bool) :
    (countDimensions a t.sls).length = t.d := by
  rw [TableFlipper.d, h.maxN, countDimensions_length a t.sls h.len]

theorem countVec_length {t : TableFlipper} {n : ℕ} (h : TableOk t n) (a : Bool) (occ : Occ) :
    (countVec a t.sls occ).length = t.d := by
  rw [countVec, List.length_map, h.d_eq]

theorem TableOk.cover {t : TableFlipper} {n : ℕ} (h : TableOk t n) {x : Occ}
    (hx : FullLegal t.sls x) : ∀ s < n, ∃ sl ∈ t.sls, s ∈ sl.sites ∧ x s ∈ sl.encoding := by
  intro s hs
  obtain ⟨sl, hsl, hss⟩ := sites_cover h.sls s (h.size ▸ hs)
  exact ⟨sl, hsl, hss, hx sl hsl s hss⟩

/-- what `occu_to_species_list` gives for a legal occupancy -/
theorem TableOk.speciesList {t : TableFlipper} {n : ℕ} (h : TableOk t n) {x : Occ}
    (hx : FullLegal t.sls x) :
    ∃ sp, occuToSpeciesList t.dimTable t.d n x = some sp ∧
      sp.map List.length = countVec true t.sls x ∧
      ∀ (d : ℕ) (sites : List ℕ) (c : ℕ), (countDimensions true t.sls)[d]? = some (sites, c) →
        (sp.getD d []).Nodup ∧ ∀ s, s ∈ sp.getD d [] ↔ s ∈ sites ∧ x s = c := by
  obtain ⟨tb, htb, hcounts, lists, hl, hll, hd⟩ :=
    C18_counts_and_species_list true t.sls h.sls x n h.size (h.cover hx)
  rw [h.dimTable, Option.some.injEq] at htb
  subst htb
  rw [h.d_eq] at hl hcounts
  have hget : ∀ (d : ℕ) (sites : List ℕ) (c : ℕ),
      (countDimensions true t.sls)[d]? = some (sites, c) →
        (lists.getD d []).Nodup ∧ ∀ s, s ∈ lists.getD d [] ↔ s ∈ sites ∧ x s = c := by
    intro d sites c hdc
    obtain ⟨l, hl1, hl2, hl3⟩ := hd d sites c hdc
    rw [List.getD_eq_getElem?_getD, hl1, Option.getD_some]
    exact ⟨hl2.imp fun h => ne_of_lt h, hl3⟩
  refine ⟨lists, hl, ?_, hget⟩
  apply List.ext_getElem
  · rw [List.length_map, hll, countVec, List.length_map]
  · intro d h1 h2
    have hdl : d < (countDimensions true t.sls).length := by
      rw [List.length_map, hll] at h1; exact h1
    have hdl' : d < lists.length := by simpa using h1
    obtain ⟨hn, hm⟩ := hget d _ _ (List.getElem?_eq_getElem hdl)
    have e : lists.getD d [] = lists[d] := by
      rw [List.getD_eq_getElem?_getD, List.getElem?_eq_getElem hdl', Option.getD_some]
    rw [e] at hn hm
    simp only [List.getElem_map, countVec]
    apply List.Perm.length_eq
    have hsn : ((countDimensions true t.sls)[d]).1.Nodup := by
      have := List.getElem_mem hdl
      simp only [countDimensions, List.mem_flatMap, List.mem_map] at this
      obtain ⟨sl, hsl, c, _, hc⟩ := this
      have hc' : ((countDimensions true t.sls)[d]).1 = sl.active := by
        simpa [countDimensions] using (congrArg Prod.fst hc).symm
      rw [hc']; exact (h.sls.nodup sl hsl).2
    rw [List.perm_ext_iff_of_nodup hn (hsn.filter _)]
    intro s
    rw [hm s, List.mem_filter, beq_iff_eq]
    rfl

theorem TableOk.speciesFull {t : TableFlipper} {n : ℕ} (h : TableOk t n) {x : Occ}
    (hx : FullLegal t.sls x) :
    ∃ sp, occuToSpeciesList t.dimFull t.d n x = some sp ∧
      sp.map List.length = countVec false t.sls x := by
  obtain ⟨tb, htb, _, lists, hl, hll, hd⟩ :=
    C18_counts_and_species_list false t.sls h.sls x n h.size (h.cover hx)
  rw [h.dimFull, Option.some.injEq] at htb
  subst htb
  rw [h.d_eq] at hl
  refine ⟨lists, hl, ?_⟩
  apply List.ext_getElem
  · rw [List.length_map, hll, countVec, List.length_map]
  · intro d h1 h2
    have hdl : d < (countDimensions false t.sls).length := by
      rw [List.length_map, hll] at h1; exact h1
    have hdl' : d < lists.length := by simpa using h1
    obtain ⟨l, hl1, hl2, hl3⟩ := hd d _ _ (List.getElem?_eq_getElem hdl)
    rw [List.getElem?_eq_getElem hdl', Option.some.injEq] at hl1
    simp only [List.getElem_map, countVec]
    apply List.Perm.length_eq
    have hsn : ((countDimensions false t.sls)[d]).1.Nodup := by
      have := List.getElem_mem hdl
      simp only [countDimensions, List.mem_flatMap, List.mem_map] at this
      obtain ⟨sl, hsl, c, _, hc⟩ := this
      have hc' : ((countDimensions false t.sls)[d]).1 = sl.sites := by
        simpa [countDimensions] using (congrArg Prod.fst hc).symm
      rw [hc']; exact (h.sls.nodup sl hsl).1
    rw [hl1, List.perm_ext_iff_of_nodup (hl2.imp fun h => ne_of_lt h) (hsn.filter _)]
    intro s
    rw [hl3 s, List.mem_filter, beq_iff_eq]
    rfl

/-- the blocks handed to `tableLoop` -/
theorem TableOk.blocks {t : TableFlipper} {n : ℕ} (h : TableOk t n) {x : Occ}
    (hx : FullLegal t.sls x) (sp : List (List ℕ))
    (hsp : ∀ (d : ℕ) (sites : List ℕ) (c : ℕ), (countDimensions true t.sls)[d]? = some (sites, c) →
        (sp.getD d []).Nodup ∧ ∀ s, s ∈ sp.getD d [] ↔ s ∈ sites ∧ x s = c) :
    ∀ b ∈ t.sls.zip t.dimIds, BlockOk x (fun d => sp.getD d []) b.1 b.2 := by
  intro b hb
  obtain ⟨h1, h2, h3, h4⟩ := blocks_shape true t.sls 0 h.len b hb
  have key : ∀ p ∈ b.2.zip b.1.encoding,
      (countDimensions true t.sls)[p.1]? = some (b.1.active, p.2) := by
    intro p hp
    have := (h4 p hp).2
    simpa [Sublattice.tableSites] using this
  exact
    { len := h2
      dnodup := h3
      enodup := (h.sls.encoding _ h1).1
      anodup := (h.sls.nodup _ h1).2
      snodup := fun p hp => (hsp _ _ _ (key p hp)).1
      mem := fun p hp => (hsp _ _ _ (key p hp)).2
      legal := fun s hs => hx _ h1 s (h.sls.active _ h1 s hs) }

theorem zip_pairwise_fst {α β : Type} (R : α → α → Prop) (l : List α) (m : List β)
    (h : l.Pairwise R) : (l.zip m).Pairwise fun a b => R a.1 b.1 := by
  induction l generalizing m with
  | nil => simp
  | cons a l ih =>
    cases m with
    | nil => simp
    | cons b m =>
      rw [List.pairwise_cons] at h
      rw [List.zip_cons_cons, List.pairwise_cons]
      refine ⟨?_, ih m h.2⟩
      rintro ⟨c, d⟩ hcd
      exact h.1 c (List.of_mem_zip hcd).1

theorem TableOk.blocks_disjoint {t : TableFlipper} {n : ℕ} (h : TableOk t n) :
    (t.sls.zip t.dimIds).Pairwise fun a b => ∀ s ∈ a.1.active, s ∉ b.1.active := by
  apply zip_pairwise_fst (fun a b : Sublattice => ∀ s ∈ a.active, s ∉ b.active)
  refine List.Pairwise.imp_of_mem ?_ h.sls.disjoint
  intro a b ha hb hab s hs hs'
  exact hab s (h.sls.active a ha s hs) (h.sls.active b hb s hs')

/-- every sublattice is in some block -/
theorem TableOk.block_of {t : TableFlipper} {sl : Sublattice} (hsl : sl ∈ t.sls) :
    ∃ dims, (sl, dims) ∈ t.sls.zip t.dimIds := by
  obtain ⟨i, hi, rfl⟩ := List.mem_iff_getElem.1 hsl
  have hi2 : i < t.dimIds.length := by
    rw [TableFlipper.dimIds, getDimIdsBySublattice_length, List.length_map]; exact hi
  refine ⟨t.dimIds[i], ?_⟩
  rw [List.mem_iff_getElem]
  exact ⟨i, by simp [hi, hi2], by simp⟩

end Smol
