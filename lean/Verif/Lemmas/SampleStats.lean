import Verif.Model.SampleStats
import Verif.Spec.SampleStats
import Verif.Lemmas.Sublattice
import Verif.Lemmas.TableFlip
import Verif.Lemmas.SiteSpace
import Verif.Lemmas.SupercellRows

namespace Smol
open Spec

theorem getElem?_map_idxOf {β : Type*} (l : List ℕ) (f : ℕ → β) {c : ℕ} (h : c ∈ l) :
    (l.map f)[l.idxOf c]? = some (f c) := by
  rw [List.getElem?_map, List.getElem?_eq_getElem (List.idxOf_lt_length_of_mem h),
    List.getElem_idxOf, Option.map_some]

theorem count_codes (sites : List ℕ) (occ : List ℕ) (c : ℕ)
    (h : ∀ s ∈ sites, s < occ.length) :
    (sites.map fun s => occ.getD s 0).count c = codeCount sites occ c := by
  unfold codeCount
  rw [List.count, List.countP_map, List.countP_eq_length_filter]
  congr 1
  refine List.filter_congr fun s hs => ?_
  rw [Function.comp_apply, List.getD_eq_getElem?_getD, List.getElem?_eq_getElem (h s hs),
    Option.getD_some, Bool.beq_eq_decide_eq]
  simp

/-- the codes found on the sites of the occupancy -/
theorem countRow_inside (ord : List ℕ → List ℕ) (hord : ∀ l, (ord l).Perm l) (sl : Sublattice)
    (occ : List ℕ) (hin : ∀ s ∈ sl.sites, s < occ.length) :
    countRow ord sl occ =
      sl.encoding.mapM fun c =>
        if (npUnique (sl.sites.map fun s => occ.getD s 0)).length ≠ sl.species.length ∨
            c ∈ sl.sites.map fun s => occ.getD s 0 then
          some (codeCount sl.sites occ c) else none := by
  unfold countRow
  rw [mapM_eq_map (g := fun s => occ.getD s 0)]
  swap
  · intro s hs
    rw [List.getD_eq_getElem?_getD, List.getElem?_eq_getElem (hin s hs), Option.getD_some]
  rw [Option.bind_some]
  simp only
  set vals := sl.sites.map fun s => occ.getD s 0 with hvals
  set missed := (if (npUnique vals).length ≠ sl.species.length then
        ord (sl.encoding.dedup.filter fun c => decide (c ∉ npUnique vals)) else []) with hm
  have hmiss : ∀ c ∈ missed, c ∉ vals := by
    intro c hc
    rw [hm] at hc
    split_ifs at hc
    · have := ((hord _).mem_iff).1 hc
      rw [List.mem_filter] at this
      have h2 := this.2
      simp only [decide_eq_true_eq, mem_npUnique] at h2
      exact h2
    · cases hc
  have hcount : ((npUnique vals).map fun c => vals.count c) ++ missed.map (fun _ => 0)
      = (npUnique vals ++ missed).map fun c => codeCount sl.sites occ c := by
    rw [List.map_append]
    congr 1
    · exact List.map_congr_left fun c _ => count_codes sl.sites occ c hin
    · refine List.map_congr_left fun c hc => ?_
      rw [← count_codes sl.sites occ c hin]
      exact (List.count_eq_zero_of_not_mem (hmiss c hc)).symm
  have key : ∀ c ∈ sl.encoding, (if c ∈ npUnique vals ++ missed then
      (((npUnique vals).map fun c => vals.count c) ++ missed.map (fun _ => 0))[(npUnique vals ++
        missed).idxOf c]? else none) =
      (if (npUnique vals).length ≠ sl.species.length ∨ c ∈ vals then
          some (codeCount sl.sites occ c) else none) := by
    intro c hc
    rw [hcount]
    by_cases h : c ∈ npUnique vals ++ missed
    · rw [if_pos h, getElem?_map_idxOf _ _ h, if_pos]
      rcases List.mem_append.1 h with h | h
      · exact Or.inr (mem_npUnique.1 h)
      · rw [hm] at h
        split_ifs at h with h'
        · exact Or.inl h'
        · cases h
    · rw [if_neg h, if_neg]
      intro hcon
      apply h
      rw [List.mem_append]
      rcases hcon with hcon | hcon
      · by_cases hv : c ∈ npUnique vals
        · exact Or.inl hv
        · right
          rw [hm, if_pos hcon, (hord _).mem_iff, List.mem_filter]
          exact ⟨List.mem_dedup.2 hc, by simpa using hv⟩
      · exact Or.inl (mem_npUnique.2 hcon)
  clear_value missed
  clear hm hmiss hcount
  generalize sl.encoding = l at key ⊢
  induction l with
  | nil => rfl
  | cons a t ih =>
    rw [List.mapM_cons, List.mapM_cons, key a List.mem_cons_self,
      ih fun c hc => key c (List.mem_cons_of_mem _ hc)]

theorem countRow_outside (ord : List ℕ → List ℕ) (sl : Sublattice)
    (occ : List ℕ) (s : ℕ) (hs : s ∈ sl.sites) (hout : occ.length ≤ s) :
    countRow ord sl occ = none := by
  unfold countRow
  have : (sl.sites.mapM fun s => occ[s]?) = none := by
    rw [mapM_eq_none_iff]
    exact ⟨s, hs, List.getElem?_eq_none hout⟩
  rw [this, Option.bind_none]

/-- a legal occupancy -/
theorem countRow_legal (ord : List ℕ → List ℕ) (hord : ∀ l, (ord l).Perm l) (sl : Sublattice)
    (hnd : sl.encoding.Nodup) (hlen : sl.species.length = sl.encoding.length) (occ : List ℕ)
    (hocc : ∀ s ∈ sl.sites, ∃ c ∈ sl.encoding, occ[s]? = some c) :
    countRow ord sl occ = some (sl.encoding.map fun c => codeCount sl.sites occ c) := by
  have hin : ∀ s ∈ sl.sites, s < occ.length := by
    intro s hs
    obtain ⟨c, _, h⟩ := hocc s hs
    exact (List.getElem?_eq_some_iff.1 h).1
  rw [countRow_inside ord hord sl occ hin]
  apply mapM_eq_map
  intro c hc
  rw [if_pos]
  by_contra hcon
  push Not at hcon
  obtain ⟨h1, h2⟩ := hcon
  have hsub : npUnique (sl.sites.map fun s => occ.getD s 0) ⊆ sl.encoding.erase c := by
    intro x hx
    rw [mem_npUnique] at hx
    rw [hnd.mem_erase_iff]
    refine ⟨fun h => h2 (h ▸ hx), ?_⟩
    obtain ⟨s, hs, rfl⟩ := List.mem_map.1 hx
    obtain ⟨c', hc', h⟩ := hocc s hs
    rw [List.getD_eq_getElem?_getD, h]
    exact hc'
  have := ((npUnique_nodup _).subperm hsub).length_le
  rw [List.length_erase_of_mem hc, h1, hlen] at this
  have := List.length_pos_of_mem hc
  omega

theorem subCounts_legal (ord : List ℕ → List ℕ) (hord : ∀ l, (ord l).Perm l)
    (sls : List Sublattice) (sl : Sublattice) (hsl : ∃ x ∈ sls, x.pyEq sl = true)
    (hnd : sl.encoding.Nodup) (hlen : sl.species.length = sl.encoding.length)
    (occus : List (List (List ℕ)))
    (hocc : ∀ ws ∈ occus, ∀ occ ∈ ws, ∀ s ∈ sl.sites, ∃ c ∈ sl.encoding, occ[s]? = some c) :
    subCounts ord sls sl occus =
      some (occus.map fun ws => ws.map fun occ => sl.encoding.map fun c =>
        codeCount sl.sites occ c) := by
  unfold subCounts
  rw [if_pos (List.any_eq_true.2 hsl)]
  apply mapM_eq_map
  intro ws hws
  apply mapM_eq_map
  intro occ ho
  exact countRow_legal ord hord sl hnd hlen occ (hocc ws hws occ ho)

/-- adding the columns of one sublattice -/
theorem fold_items {β : Type*} (rows : List β) (tri : List (ℕ × (ℕ ⊕ List ℕ) × (β → ℕ)))
    (h : ∀ t ∈ tri, ∀ F : β → ℕ,
      addItem (rows.map F) t.2.1 = some (rows.map fun b => F b + t.2.2 b))
    (d : SpeciesDict (List ℕ)) (G : ℕ → β → ℕ) (hd : ∀ sp, d.val sp = rows.map (G sp)) :
    ∃ d', (tri.map fun t => (t.1, t.2.1)).foldlM (fun (d : SpeciesDict (List ℕ)) p =>
          (addItem (d.val p.1) p.2).map fun v => d.set p.1 v) d = some d' ∧
      (∀ sp, d'.val sp = rows.map fun b =>
        G sp b + (tri.map fun t => if t.1 = sp then t.2.2 b else 0).sum) ∧
      (∀ sp, sp ∈ d'.keys ↔ sp ∈ d.keys ∨ ∃ t ∈ tri, t.1 = sp) ∧
      (d.keys.Nodup → d'.keys.Nodup) := by
  induction tri generalizing d G with
  | nil =>
    refine ⟨d, rfl, fun sp => ?_, fun sp => by simp, id⟩
    rw [hd]; simp
  | cons t ts ih =>
    have h1 : addItem (d.val t.1) t.2.1 = some (rows.map fun b => G t.1 b + t.2.2 b) := by
      rw [hd]; exact h t List.mem_cons_self _
    obtain ⟨d', e, hv, hk, hn⟩ := ih (fun u hu => h u (List.mem_cons_of_mem _ hu))
      (d.set t.1 (rows.map fun b => G t.1 b + t.2.2 b))
      (fun sp b => G sp b + if t.1 = sp then t.2.2 b else 0) (by
        intro sp
        by_cases hsp : sp = t.1
        · subst hsp
          simp [SpeciesDict.set]
        · rw [SpeciesDict.set]
          show Function.update d.val t.1 _ sp = _
          rw [Function.update_of_ne hsp, hd]
          exact List.map_congr_left fun b _ => by rw [if_neg (Ne.symm hsp), Nat.add_zero])
    refine ⟨d', ?_, fun sp => ?_, fun sp => ?_, fun hnd => hn ?_⟩
    · rw [List.map_cons, List.foldlM_cons]
      show ((addItem (d.val t.1) t.2.1).map _).bind _ = _
      rw [h1]
      exact e
    · rw [hv]
      exact List.map_congr_left fun b _ => by rw [List.map_cons, List.sum_cons]; omega
    · rw [hk]
      have : sp ∈ (d.set t.1 (rows.map fun b => G t.1 b + t.2.2 b)).keys ↔ sp ∈ d.keys ∨ t.1 = sp := by
        unfold SpeciesDict.set
        simp only
        split_ifs with hm
        · constructor
          · exact Or.inl
          · rintro (h | rfl)
            · exact h
            · exact hm
        · rw [List.mem_append, List.mem_singleton, eq_comm (a := sp)]
      rw [this]
      simp only [List.mem_cons, exists_eq_or_imp, or_assoc]
    · unfold SpeciesDict.set
      simp only
      split_ifs with hm
      · exact hnd
      · rw [List.nodup_append]
        refine ⟨hnd, List.nodup_singleton _, ?_⟩
        intro a ha b hb
        rw [List.mem_singleton] at hb
        subst hb
        exact fun h => hm (h ▸ ha)

theorem codeCount_cons (s : ℕ) (ss occ : List ℕ) (c : ℕ) :
    codeCount (s :: ss) occ c = (if occ[s]? = some c then 1 else 0) + codeCount ss occ c := by
  unfold codeCount
  rw [List.filter_cons]
  by_cases h : occ[s]? = some c
  · rw [if_pos (by simpa using h), if_pos h, List.length_cons]; omega
  · rw [if_neg (by simpa using h), if_neg h]; omega

theorem sum_lookup (l : List (ℕ × ℕ)) (hnd : (l.map Prod.snd).Nodup) (sp c : ℕ) :
    (l.map fun p => if p.1 = sp then (if some c = some p.2 then 1 else 0) else 0).sum =
      if ((l.map Prod.swap).find? fun p => decide (p.1 = c)).map Prod.snd = some sp then 1 else 0 := by
  induction l with
  | nil => simp
  | cons p ps ih =>
    rw [List.map_cons, List.nodup_cons] at hnd
    rw [List.map_cons, List.sum_cons, ih hnd.2, List.map_cons, List.find?_cons]
    by_cases hc : p.2 = c
    · have h0 : (ps.map Prod.swap).find? (fun p => decide (p.1 = c)) = none := by
        rw [List.find?_eq_none]
        intro q hq
        obtain ⟨r, hr, rfl⟩ := List.mem_map.1 hq
        simp only [Prod.fst_swap, decide_eq_true_eq]
        intro h
        exact hnd.1 (List.mem_map.2 ⟨r, hr, by rw [h, hc]⟩)
      rw [h0]
      subst hc
      simp
    · have hc' : c ≠ p.2 := fun h => hc h.symm
      have hd : decide (p.swap.1 = c) = false := by simpa using hc
      rw [hd]
      simp [hc']

/-- counts of the species' codes on one sublattice -/
theorem sublattice_tally (sl : Sublattice) (hnd : sl.encoding.Nodup)
    (hlen : sl.species.length = sl.encoding.length) (occ : List ℕ) (sp : ℕ) (sites : List ℕ)
    (hocc : ∀ s ∈ sites, s < occ.length) :
    ((sl.species.zip sl.encoding).map fun p => if p.1 = sp then codeCount sites occ p.2 else 0).sum =
      (sites.map fun s => if (occ[s]?.bind fun c =>
        ((sl.encoding.zip sl.species).find? fun p => decide (p.1 = c)).map Prod.snd) = some sp
        then 1 else 0).sum := by
  have hz : (sl.species.zip sl.encoding).map Prod.snd = sl.encoding :=
    List.map_snd_zip (by omega)
  induction sites with
  | nil => simp [codeCount]
  | cons s ss ih =>
    rw [List.map_cons, List.sum_cons, ← ih fun x hx => hocc x (List.mem_cons_of_mem _ hx)]
    have hs := hocc s List.mem_cons_self
    have e : (fun p : ℕ × ℕ => if p.1 = sp then codeCount (s :: ss) occ p.2 else 0) =
        fun p => (if p.1 = sp then (if some occ[s] = some p.2 then 1 else 0) else 0) +
          if p.1 = sp then codeCount ss occ p.2 else 0 := by
      funext p
      rw [codeCount_cons, List.getElem?_eq_getElem hs]
      split_ifs <;> rfl
    rw [e, List.sum_map_add, sum_lookup _ (by rw [hz]; exact hnd), List.zip_swap,
      List.getElem?_eq_getElem hs]
    rfl

theorem sites_perm {sls : List Sublattice} (h : SublatticesOk sls) :
    (sls.flatMap Sublattice.sites).Perm (List.range (sls.map fun sl => sl.sites.length).sum) := by
  have hnd := flatMap_sites_nodup (fun sl hsl => (h.nodup sl hsl).1) h.disjoint
  have hlen : (sls.flatMap Sublattice.sites).length = (sls.map fun sl => sl.sites.length).sum := by
    rw [List.length_flatMap]
  refine (hnd.subperm ?_).perm_of_length_le (by rw [hlen, List.length_range])
  intro s hs
  obtain ⟨sl, hsl, hs⟩ := List.mem_flatMap.1 hs
  exact List.mem_range.2 (h.range sl hsl s hs)

theorem find_sublattice_of_site {sls : List Sublattice}
    (h : sls.Pairwise fun x y => ∀ s ∈ x.sites, s ∉ y.sites) {sl : Sublattice} (hsl : sl ∈ sls)
    {s : ℕ} (hs : s ∈ sl.sites) :
    (sls.find? fun sl => decide (s ∈ sl.sites)) = some sl := by
  induction sls with
  | nil => cases hsl
  | cons x xs ih =>
    rw [List.pairwise_cons] at h
    rw [List.find?_cons]
    rcases List.mem_cons.1 hsl with rfl | hm
    · simp [hs]
    · have : s ∉ x.sites := fun hx => h.1 sl hm s hx hs
      simp [this, ih h.2 hm]

/-- all sublattices together -/
theorem tally_eq {sls : List Sublattice} (h : SublatticesOk sls)
    (hlen : ∀ sl ∈ sls, sl.species.length = sl.encoding.length) (occ : List ℕ)
    (hocc : ValidRow sls occ) (sp : ℕ) :
    (sls.map fun sl => ((sl.species.zip sl.encoding).map fun p =>
      if p.1 = sp then codeCount sl.sites occ p.2 else 0).sum).sum = speciesCount sls occ sp := by
  unfold speciesCount
  rw [hocc.1, ← List.countP_eq_length_filter, ← (sites_perm h).countP_eq,
    List.countP_flatMap]
  congr 1
  refine List.map_congr_left fun sl hsl => ?_
  rw [sublattice_tally sl (h.encoding sl hsl).1 (hlen sl hsl) occ sp sl.sites]
  · rw [Function.comp_apply, List.countP_eq_length_filter]
    have : ∀ l : List ℕ, (∀ s ∈ l, s ∈ sl.sites) → (l.map fun s => if (occ[s]?.bind fun c =>
        ((sl.encoding.zip sl.species).find? fun p => decide (p.1 = c)).map Prod.snd) = some sp
        then 1 else 0).sum =
        (l.filter fun s => decide (speciesOn sls occ s = some sp)).length := by
      intro l hl
      induction l with
      | nil => rfl
      | cons s ss ih =>
        rw [List.map_cons, List.sum_cons, ih fun x hx => hl x (List.mem_cons_of_mem _ hx),
          List.filter_cons]
        have e : speciesOn sls occ s = (occ[s]?.bind fun c =>
            ((sl.encoding.zip sl.species).find? fun p => decide (p.1 = c)).map Prod.snd) := by
          unfold speciesOn
          rw [find_sublattice_of_site h.disjoint hsl (hl s List.mem_cons_self), Option.bind_some]
        rw [← e]
        by_cases hh : speciesOn sls occ s = some sp
        · rw [if_pos hh, if_pos (by simpa using hh), List.length_cons]; omega
        · rw [if_neg hh, if_neg (by simpa using hh)]; omega
    exact this _ fun s hs => hs
  · intro s hs
    rw [hocc.1]
    exact h.range sl hsl s hs

/-- the columns of one sublattice, whatever the shape after `_flatten` -/
theorem sublattice_items (sl : Sublattice) (hlen : sl.species.length = sl.encoding.length)
    (rows : List (List ℕ)) (hone : rows.length = 1 → sl.species.length ≠ 1)
    (hocc : ∀ occ ∈ rows, ∀ s ∈ sl.sites, ∃ c ∈ sl.encoding, occ[s]? = some c) :
    ∃ items, ∃ tri : List (ℕ × (ℕ ⊕ List ℕ) × (List ℕ → ℕ)),
      (squeeze sl.species.length (rows.map fun occ => sl.encoding.map fun c =>
        codeCount sl.sites occ c)).iterT sl.species.length = some items ∧
      sl.species.zip items = tri.map (fun t => (t.1, t.2.1)) ∧
      (∀ t ∈ tri, ∀ F : List ℕ → ℕ,
        addItem (rows.map F) t.2.1 = some (rows.map fun b => F b + t.2.2 b)) ∧
      (∀ sp, ∀ b ∈ rows, (tri.map fun t => if t.1 = sp then t.2.2 b else 0).sum =
        ((sl.species.zip sl.encoding).map fun p =>
          if p.1 = sp then codeCount sl.sites b p.2 else 0).sum) ∧
      (∀ t ∈ tri, t.1 ∈ sl.species) ∧
      (rows ≠ [] → ∀ sp ∈ sl.species, ∃ t ∈ tri, t.1 = sp) := by
  have general : ∀ item : ℕ → ℕ ⊕ List ℕ,
      (∀ c ∈ sl.encoding, ∀ F : List ℕ → ℕ,
        addItem (rows.map F) (item c) = some (rows.map fun b => F b + codeCount sl.sites b c)) →
      ∃ tri : List (ℕ × (ℕ ⊕ List ℕ) × (List ℕ → ℕ)),
        sl.species.zip (sl.encoding.map item) = tri.map (fun t => (t.1, t.2.1)) ∧
        (∀ t ∈ tri, ∀ F : List ℕ → ℕ,
          addItem (rows.map F) t.2.1 = some (rows.map fun b => F b + t.2.2 b)) ∧
        (∀ sp, ∀ b ∈ rows, (tri.map fun t => if t.1 = sp then t.2.2 b else 0).sum =
          ((sl.species.zip sl.encoding).map fun p =>
            if p.1 = sp then codeCount sl.sites b p.2 else 0).sum) ∧
        (∀ t ∈ tri, t.1 ∈ sl.species) ∧
        (rows ≠ [] → ∀ sp ∈ sl.species, ∃ t ∈ tri, t.1 = sp) := by
    intro item hitem
    refine ⟨(sl.species.zip sl.encoding).map fun p =>
      (p.1, item p.2, fun b => codeCount sl.sites b p.2), ?_, ?_, ?_, ?_, ?_⟩
    · rw [List.zip_map_right, List.map_map]
      rfl
    · intro t ht F
      obtain ⟨p, hp, rfl⟩ := List.mem_map.1 ht
      exact hitem p.2 (List.of_mem_zip hp).2 F
    · intro sp b _
      rw [List.map_map]
      rfl
    · intro t ht
      obtain ⟨p, hp, rfl⟩ := List.mem_map.1 ht
      exact (List.of_mem_zip hp).1
    · intro _ sp hsp
      have : sp ∈ (sl.species.zip sl.encoding).map Prod.fst := by
        rw [List.map_fst_zip (by omega)]; exact hsp
      obtain ⟨p, hp, rfl⟩ := List.mem_map.1 this
      exact ⟨_, List.mem_map_of_mem hp, rfl⟩
  by_cases hn : sl.species.length = 1
  · -- one species: only the first number is read
    have hrow : rows.length ≠ 1 := fun h => hone h hn
    obtain ⟨e0, he⟩ := List.length_eq_one_iff.1 (hlen ▸ hn)
    obtain ⟨sp0, hsp⟩ := List.length_eq_one_iff.1 hn
    have hcc : ∀ b ∈ rows, codeCount sl.sites b e0 = sl.sites.length := by
      intro b hb
      unfold codeCount
      rw [List.filter_eq_self.2]
      intro s hs
      obtain ⟨c, hc, h⟩ := hocc b hb s hs
      rw [he, List.mem_singleton] at hc
      subst hc
      simpa using h
    have hsq : squeeze sl.species.length (rows.map fun occ => sl.encoding.map fun c =>
        codeCount sl.sites occ c) = .vec (rows.map fun occ => codeCount sl.sites occ e0) := by
      unfold squeeze
      rw [he, hn]
      match rows, hrow with
      | [], _ => rfl
      | [_], h => exact absurd rfl h
      | a :: b :: r, _ => simp
    rw [hsq]
    match rows, hcc with
    | [], _ => exact ⟨[], [], rfl, by simp, by simp, by simp, by simp, by simp⟩
    | b0 :: r, hcc =>
      refine ⟨_, [(sp0, .inl (codeCount sl.sites b0 e0), fun b => codeCount sl.sites b e0)], rfl,
        ?_, ?_, ?_, ?_, ?_⟩
      · rw [hsp]; rfl
      · intro t ht F
        rw [List.mem_singleton] at ht
        subst ht
        show some (((b0 :: r).map F).map _) = _
        rw [List.map_map]
        congr 1
        refine List.map_congr_left fun b hb => ?_
        show F b + codeCount sl.sites b0 e0 = F b + codeCount sl.sites b e0
        rw [hcc b0 List.mem_cons_self, hcc b hb]
      · intro sp b _
        rw [hsp, he]
        rfl
      · intro t ht
        rw [List.mem_singleton] at ht
        subst ht
        rw [hsp]; exact List.mem_singleton_self _
      · intro _ sp h
        rw [hsp, List.mem_singleton] at h
        exact ⟨_, List.mem_singleton_self _, h.symm⟩
  · by_cases h1 : rows.length = 1
    · obtain ⟨b0, rfl⟩ := List.length_eq_one_iff.1 h1
      obtain ⟨tri, h⟩ := general (fun c => .inl (codeCount sl.sites b0 c)) (by
        intro c _ F
        rfl)
      refine ⟨_, tri, ?_, h⟩
      unfold squeeze
      simp only [List.map_cons, List.map_nil, if_neg hn, Arr.iterT, List.map_map]
      rfl
    · obtain ⟨tri, h⟩ := general (fun c => .inr (rows.map fun b => codeCount sl.sites b c)) (by
        intro c _ F
        unfold addItem
        simp only [List.length_map, if_true, List.zipWith_map, List.zipWith_self])
      refine ⟨_, tri, ?_, h⟩
      have hsq : squeeze sl.species.length (rows.map fun occ => sl.encoding.map fun c =>
          codeCount sl.sites occ c) = .mat (rows.map fun occ => sl.encoding.map fun c =>
          codeCount sl.sites occ c) := by
        unfold squeeze
        match rows, h1 with
        | [], _ => simp [hn]
        | [_], h => exact absurd rfl h
        | a :: b :: r, _ => simp [hn]
      rw [hsq]
      unfold Arr.iterT
      simp only
      congr 1
      apply List.ext_getElem
      · simp [hlen]
      · intro k h1 h2
        simp only [List.getElem_map, List.getElem_range, List.map_map]
        congr 1
        refine List.map_congr_left fun b _ => ?_
        rw [List.length_map] at h2
        rw [Function.comp_apply, List.getD_eq_getElem?_getD, List.getElem?_map,
          List.getElem?_eq_getElem h2]
        rfl

theorem SpeciesDict.mem_set {β : Type*} (d : SpeciesDict β) (x : ℕ) (v : β) (sp : ℕ) :
    sp ∈ (d.set x v).keys ↔ sp ∈ d.keys ∨ x = sp := by
  unfold SpeciesDict.set
  simp only
  split_ifs with hm
  · constructor
    · exact Or.inl
    · rintro (h | rfl)
      · exact h
      · exact hm
  · rw [List.mem_append, List.mem_singleton, eq_comm (a := sp)]

theorem SpeciesDict.nodup_set {β : Type*} (d : SpeciesDict β) (x : ℕ) (v : β) (h : d.keys.Nodup) :
    (d.set x v).keys.Nodup := by
  unfold SpeciesDict.set
  simp only
  split_ifs with hm
  · exact h
  · rw [List.nodup_append]
    refine ⟨h, List.nodup_singleton _, ?_⟩
    intro a ha b hb
    rw [List.mem_singleton] at hb
    subst hb
    exact fun h => hm (h ▸ ha)

/-- tables by walker and sample: adding the tables of one sublattice -/
theorem fold_tables {β : Type*} (w : ℕ) (rows : List β) (F : ℕ → ℕ → β → ℕ) (ps : List (ℕ × ℕ))
    (d : SpeciesDict (List (List ℕ))) (G : ℕ → ℕ → β → ℕ)
    (hd : ∀ sp, d.val sp = (List.range w).map fun j => rows.map (G sp j)) :
    (∀ sp, ((ps.map fun p => (p.1, (List.range w).map fun j => rows.map (F p.2 j))).foldl
        (fun (d : SpeciesDict (List (List ℕ))) p =>
          d.set p.1 (List.zipWith (List.zipWith (· + ·)) (d.val p.1) p.2)) d).val sp =
      (List.range w).map fun j => rows.map fun b =>
        G sp j b + (ps.map fun p => if p.1 = sp then F p.2 j b else 0).sum) ∧
    (∀ sp, sp ∈ ((ps.map fun p => (p.1, (List.range w).map fun j => rows.map (F p.2 j))).foldl
        (fun (d : SpeciesDict (List (List ℕ))) p =>
          d.set p.1 (List.zipWith (List.zipWith (· + ·)) (d.val p.1) p.2)) d).keys ↔
      sp ∈ d.keys ∨ ∃ p ∈ ps, p.1 = sp) ∧
    (d.keys.Nodup → ((ps.map fun p => (p.1, (List.range w).map fun j => rows.map (F p.2 j))).foldl
        (fun (d : SpeciesDict (List (List ℕ))) p =>
          d.set p.1 (List.zipWith (List.zipWith (· + ·)) (d.val p.1) p.2)) d).keys.Nodup) := by
  induction ps generalizing d G with
  | nil =>
    refine ⟨fun sp => ?_, fun sp => by simp, id⟩
    rw [List.map_nil, List.foldl_nil, hd]
    simp
  | cons t ts ih =>
    rw [List.map_cons, List.foldl_cons]
    obtain ⟨h1, h2, h3⟩ := ih (d.set t.1 (List.zipWith (List.zipWith (· + ·)) (d.val t.1)
      ((List.range w).map fun j => rows.map (F t.2 j))))
      (fun sp j b => G sp j b + if t.1 = sp then F t.2 j b else 0) (by
        intro sp
        show Function.update d.val t.1 _ sp = _
        by_cases hsp : sp = t.1
        · subst hsp
          rw [Function.update_self, hd, List.zipWith_map, List.zipWith_self]
          refine List.map_congr_left fun j _ => ?_
          rw [List.zipWith_map, List.zipWith_self]
          simp
        · rw [Function.update_of_ne hsp, hd]
          refine List.map_congr_left fun j _ => List.map_congr_left fun b _ => ?_
          rw [if_neg (Ne.symm hsp), Nat.add_zero])
    refine ⟨fun sp => ?_, fun sp => ?_, fun h => h3 (d.nodup_set _ _ h)⟩
    · rw [h1]
      refine List.map_congr_left fun j _ => List.map_congr_left fun b _ => ?_
      rw [List.map_cons, List.sum_cons]
      omega
    · rw [h2, SpeciesDict.mem_set]
      simp only [List.mem_cons, exists_eq_or_imp, or_assoc]

end Smol
