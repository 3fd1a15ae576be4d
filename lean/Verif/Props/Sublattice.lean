import Verif.Lemmas.Sublattice

/-!
# C16 Restricting, resetting and splitting sublattices
-/

namespace Smol
open Spec

/-- C16. Whatever the history of restrictions and resets, a site of a sublattice with several
species is active iff it is a site of the sublattice that is not frozen; the sublattice with one
species never has an active site; sites, species and encoding never change. -/
theorem C16_active_after_history (species sites : List ℕ) (ops : List SubOp) :
    let sl := (Sublattice.new species sites).run ops
    (∀ s, s ∈ sl.active ↔ 1 < species.length ∧ s ∈ sites ∧ ¬ Frozen (ops.map SubOp.request) s) ∧
      (∀ s, s ∈ sl.sites ↔ s ∈ sites) ∧ sl.species = species := by
  induction ops using List.reverseRecOn with
  | nil =>
    refine ⟨?_, ?_, ?_⟩
    · intro s
      have hf : ¬ Frozen ([] : List (Option (List ℕ))) s := by
        rintro ⟨b, x, a, h, -⟩; simp at h
      simp only [Sublattice.run, List.foldl_nil, new_active, List.map_nil]
      split <;> rename_i h
      · simp; omega
      · simp only [mem_npUnique]; constructor
        · intro hs; exact ⟨by omega, hs, hf⟩
        · rintro ⟨_, hs, _⟩; exact hs
    · intro s; simp [Sublattice.run, new_sites, mem_npUnique]
    · simp [Sublattice.run, new_species]
  | append_singleton ops op ih =>
    obtain ⟨ih1, ih2, ih3⟩ := ih
    have fx := run_fixed (Sublattice.new species sites) (ops ++ [op])
    refine ⟨?_, ?_, ?_⟩
    · intro s
      rw [Sublattice.run_append, List.map_append]
      cases op with
      | restrict xs =>
        have : ((Sublattice.new species sites).run ops).run [.restrict xs] =
            ((Sublattice.new species sites).run ops).restrict xs := rfl
        rw [this]
        simp only [List.map_cons, List.map_nil, SubOp.request, frozen_snoc_some,
          Sublattice.restrict, List.mem_filter, ih1, decide_eq_true_eq]
        tauto
      | reset =>
        have : ((Sublattice.new species sites).run ops).run [.reset] =
            ((Sublattice.new species sites).run ops).reset := rfl
        rw [this]
        simp only [List.map_cons, List.map_nil, SubOp.request, frozen_snoc_none, not_false_iff,
          and_true, Sublattice.reset]
        split <;> rename_i h
        · simp only [ih2]; rw [ih3] at h; tauto
        · rw [ih1]; rw [ih3] at h
          constructor
          · rintro ⟨h1, _⟩; exact absurd h1 h
          · rintro ⟨h1, _⟩; exact absurd h1 h
    · intro s; rw [fx.1, new_sites, mem_npUnique]
    · rw [fx.2.1, new_species]

/-- C16. `restricted_sites` are, in increasing order and without repetition, exactly the sites
that are not active. -/
theorem C16_restricted_complement (sl : Sublattice) :
    (∀ s, s ∈ sl.restricted ↔ s ∈ sl.sites ∧ s ∉ sl.active) ∧
      sl.restricted.Pairwise (· < ·) := by
  refine ⟨fun s => by simp [Sublattice.restricted, mem_npUnique], ?_⟩
  have h1 := npUnique_sorted (sl.sites.filter fun i => decide (i ∉ sl.active))
  have h2 := npUnique_nodup (sl.sites.filter fun i => decide (i ∉ sl.active))
  exact (h1.and h2).imp fun {a b} h => lt_of_le_of_ne h.1 h.2

/-- C16. Restricting twice the same sites is restricting once, and the order of two restrictions
does not matter. -/
theorem C16_restrict_idem_comm (sl : Sublattice) (xs ys : List ℕ) :
    (sl.restrict xs).restrict xs = sl.restrict xs ∧
      (sl.restrict xs).restrict ys = (sl.restrict ys).restrict xs := by
  have hc : (sl.active.filter fun i => decide (i ∉ xs)).filter (fun i => decide (i ∉ ys)) =
      (sl.active.filter fun i => decide (i ∉ ys)).filter (fun i => decide (i ∉ xs)) := by
    rw [List.filter_filter, List.filter_filter]
    congr 1; funext i; rw [Bool.and_comm]
  constructor
  · simp [Sublattice.restrict]
  · unfold Sublattice.restrict
    simp only
    rw [hc]

/-- The parts of a split, described without the code: `part` has the sites of `sl` whose
occupation is one of `codes`; the active ones among them stay active unless there is one code. -/
structure IsSplitPart (sl : Sublattice) (occ : Occ) (codes : List ℕ) (part : Sublattice) :
    Prop where
  sites : ∀ s, s ∈ part.sites ↔ s ∈ sl.sites ∧ occ s ∈ codes
  nodup : part.sites.Nodup
  active : ∀ s, s ∈ part.active ↔ s ∈ sl.active ∧ occ s ∈ codes ∧ codes.length ≠ 1
  encoding : part.encoding.Perm codes
  sorted : part.encoding.Pairwise (· ≤ ·)
  species : ∀ i c : ℕ, part.encoding[i]? = some c →
    part.species[i]? = sl.species[sl.encoding.idxOf c]?
  activeNodup : sl.active.Nodup → codes.Nodup → part.active.Nodup
  length : part.species.length = part.encoding.length

/-- C16. Every part returned by a successful split is the set of sites holding its codes, keeps
restricted sites restricted, freezes single-species parts, and pairs each code with the species
that had this code before. -/
theorem C16_split_parts (sl : Sublattice) (hlen : sl.encoding.length = sl.species.length)
    (hact : ∀ s ∈ sl.active, s ∈ sl.sites) (occ : Occ)
    (parts : List (List ℕ)) (out : List Sublattice) (h : sl.split occ parts = some out) :
    List.Forall₂ (IsSplitPart sl occ) parts out := by
  rw [Sublattice.split, mapM_eq_some_forall₂] at h
  refine h.imp fun codes part hp => ?_
  have hmem : ∀ c, c ∈ codes.insertionSort (· ≤ ·) ↔ c ∈ codes := fun c => by simp
  unfold Sublattice.splitPart at hp
  simp only at hp
  split at hp
  · cases hp
  rename_i hcond
  push Not at hcond
  obtain ⟨hin, _⟩ := hcond
  simp only [Option.some.injEq] at hp
  have e_sites : part.sites = npUnique ((codes.insertionSort (· ≤ ·)).flatMap
      fun c => sl.sites.filter fun s => occ s == c) := by
    rw [← hp]; split
    · simp only [Sublattice.restrict, new_sites]
    · simp only [new_sites]
  have e_enc : part.encoding = codes.insertionSort (· ≤ ·) := by
    rw [← hp]; split <;> rfl
  have e_sp : part.species = (codes.insertionSort (· ≤ ·)).map
      fun c => sl.species.getD (sl.encoding.idxOf c) 0 := by
    rw [← hp]; split
    · simp only [Sublattice.restrict, new_species]
    · simp only [new_species]
  have hs : ∀ s, s ∈ part.sites ↔ s ∈ sl.sites ∧ occ s ∈ codes := by
    intro s
    rw [e_sites, mem_npUnique]
    simp only [List.mem_flatMap, hmem, List.mem_filter, beq_iff_eq]
    constructor
    · rintro ⟨c, hc, hs, rfl⟩; exact ⟨hs, hc⟩
    · rintro ⟨hs, hc⟩; exact ⟨_, hc, hs, rfl⟩
  refine ⟨hs, ?_, ?_, ?_, ?_, ?_, ?_, by rw [e_sp, e_enc, List.length_map]⟩
  · rw [e_sites]; exact npUnique_nodup _
  · intro s
    have hA : s ∈ ((codes.insertionSort (· ≤ ·)).flatMap fun c =>
        sl.active.filter fun s => occ s == c) ↔ s ∈ sl.active ∧ occ s ∈ codes := by
      simp only [List.mem_flatMap, hmem, List.mem_filter, beq_iff_eq]
      constructor
      · rintro ⟨c, hc, hs, rfl⟩; exact ⟨hs, hc⟩
      · rintro ⟨hs, hc⟩; exact ⟨_, hc, hs, rfl⟩
    have hl : (codes.insertionSort (· ≤ ·)).length = codes.length :=
      List.length_insertionSort _ _
    by_cases h1 : codes.length = 1
    · rw [hl, if_pos h1] at hp
      rw [← hp]
      simp only [Sublattice.restrict, List.mem_filter, hA, new_sites, mem_npUnique,
        decide_eq_true_eq]
      constructor
      · rintro ⟨⟨ha, hc⟩, hn⟩
        exfalso; apply hn
        simp only [List.mem_flatMap, hmem, List.mem_filter, beq_iff_eq]
        exact ⟨_, hc, hact s ha, rfl⟩
      · rintro ⟨_, _, h⟩; exact absurd h1 h
    · rw [hl, if_neg h1] at hp
      rw [← hp]
      simp only [hA]
      tauto
  · rw [e_enc]; exact List.perm_insertionSort _ _
  · rw [e_enc]; exact List.pairwise_insertionSort _ _
  · intro i c hic
    rw [e_sp, List.getElem?_map]
    rw [e_enc] at hic
    rw [hic]
    have hc : c ∈ codes.insertionSort (· ≤ ·) := List.mem_of_getElem? hic
    have hidx : sl.encoding.idxOf c < sl.species.length := by
      rw [← hlen]; exact List.idxOf_lt_length_of_mem (hin c hc)
    simp [List.getD_eq_getElem?_getD, List.getElem?_eq_getElem hidx]
  · intro h1 h2
    have hnd : ((codes.insertionSort (· ≤ ·)).flatMap fun c =>
        sl.active.filter fun s => occ s == c).Nodup := by
      rw [List.nodup_flatMap]
      refine ⟨fun c _ => h1.filter _, ?_⟩
      have h3 : (codes.insertionSort (· ≤ ·)).Nodup := (List.perm_insertionSort _ _).nodup_iff.2 h2
      refine h3.imp fun {a b} hab => ?_
      intro s ha hb
      simp only [List.mem_filter, beq_iff_eq] at ha hb
      exact hab (ha.2.symm.trans hb.2)
    rw [← hp]
    split
    · simp only [Sublattice.restrict]
      exact hnd.filter _
    · exact hnd

/-- C16. When the listed codes are all the codes, each once, and the occupancy is legal, every
site is in exactly one of the parts: the parts' sites together are the old sites. -/
theorem C16_split_partitions_sites (sl : Sublattice)
    (hlen : sl.encoding.length = sl.species.length)
    (hact : ∀ s ∈ sl.active, s ∈ sl.sites) (hnd : sl.sites.Nodup) (occ : Occ)
    (parts : List (List ℕ)) (out : List Sublattice) (h : sl.split occ parts = some out)
    (hocc : ∀ s ∈ sl.sites, occ s ∈ sl.encoding) (hparts : parts.flatten.Perm sl.encoding)
    (hencnd : sl.encoding.Nodup) :
    (out.flatMap Sublattice.sites).Perm sl.sites ∧
      (out.flatMap Sublattice.encoding).Perm sl.encoding := by
  have hF := C16_split_parts sl hlen hact occ parts out h
  have hndp : parts.flatten.Nodup := hparts.nodup_iff.2 hencnd
  have key : ∀ (parts : List (List ℕ)) (out : List Sublattice),
      List.Forall₂ (IsSplitPart sl occ) parts out → parts.flatten.Nodup →
      (out.flatMap Sublattice.sites).Nodup ∧
      (∀ s, s ∈ out.flatMap Sublattice.sites ↔ s ∈ sl.sites ∧ occ s ∈ parts.flatten) ∧
      (out.flatMap Sublattice.encoding).Perm parts.flatten := by
    intro parts out hF
    induction hF with
    | nil => intro _; simp
    | @cons codes part ps os hp _ ih =>
      intro hnd
      rw [List.flatten_cons, List.nodup_append] at hnd
      obtain ⟨i1, i2, i3⟩ := ih hnd.2.1
      refine ⟨?_, ?_, ?_⟩
      · rw [List.flatMap_cons, List.nodup_append]
        refine ⟨hp.nodup, i1, ?_⟩
        intro a ha b hb hab
        subst hab
        exact hnd.2.2 _ ((hp.sites a).1 ha).2 _ ((i2 a).1 hb).2 rfl
      · intro s
        rw [List.flatMap_cons, List.mem_append, hp.sites, i2, List.flatten_cons, List.mem_append]
        tauto
      · rw [List.flatMap_cons, List.flatten_cons]
        exact hp.encoding.append i3
  obtain ⟨k1, k2, k3⟩ := key parts out hF hndp
  refine ⟨(List.perm_ext_iff_of_nodup k1 hnd).2 fun s => ?_, k3.trans hparts⟩
  rw [k2]
  constructor
  · exact fun h => h.1
  · exact fun hs => ⟨hs, hparts.mem_iff.2 (hocc s hs)⟩

/-- C16. When the split succeeds and when it fails: every listed code must be in the encoding, and
the active sites must not have been emptied by a restriction. -/
theorem C16_split_succeeds_iff (sl : Sublattice) (occ : Occ) (parts : List (List ℕ)) :
    (∃ out, sl.split occ parts = some out) ↔
      (∀ codes ∈ parts, ∀ c ∈ codes, c ∈ sl.encoding) ∧
        (sl.activeFloat = true → ∀ codes ∈ parts, codes = []) := by
  have hp : ∀ codes, (∃ o, sl.splitPart occ codes = some o) ↔
      (∀ c ∈ codes, c ∈ sl.encoding) ∧ (sl.activeFloat = true → codes = []) := by
    intro codes
    unfold Sublattice.splitPart
    simp only
    split <;> rename_i h
    · simp only [reduceCtorEq, exists_false, false_iff]
      rintro ⟨h1, h2⟩
      rcases h with ⟨c, hc, hn⟩ | ⟨h3, h4⟩
      · exact hn (h1 c (by simpa using hc))
      · exact h3 (h2 h4)
    · push Not at h
      simp only [Option.some.injEq, exists_eq', true_iff]
      refine ⟨fun c hc => h.1 c (by simpa using hc), fun hf => ?_⟩
      by_contra hne
      exact absurd hf (by simpa using h.2 hne)
  unfold Sublattice.split
  induction parts with
  | nil => simp
  | cons codes parts ih =>
    have e : (∃ out, (codes :: parts).mapM (sl.splitPart occ) = some out) ↔
        (∃ o, sl.splitPart occ codes = some o) ∧
          ∃ out, parts.mapM (sl.splitPart occ) = some out := by
      constructor
      · rintro ⟨out, ho⟩
        rw [mapM_eq_some_forall₂] at ho
        cases ho with
        | cons h1 h2 => exact ⟨⟨_, h1⟩, ⟨_, (mapM_eq_some_forall₂ _ _ _).2 h2⟩⟩
      · rintro ⟨⟨o, h1⟩, ⟨out, h2⟩⟩
        exact ⟨o :: out, (mapM_eq_some_forall₂ _ _ _).2
          (.cons h1 ((mapM_eq_some_forall₂ _ _ _).1 h2))⟩
    refine e.trans ((and_congr (hp codes) ih).trans ?_)
    simp only [List.mem_cons, forall_eq_or_imp]
    tauto

/-- C16, what the code does not do: after all sites have been restricted, splitting fails whatever
the (non-empty) partition, since the emptied array of active sites has a float dtype. -/
theorem C16_split_after_full_restriction_fails (species sites : List ℕ) (occ : Occ)
    (xs : List ℕ) (hx : ∀ s ∈ sites, s ∈ xs) (codes : List ℕ) (hc : codes ≠ []) :
    ((Sublattice.new species sites).restrict xs).split occ [codes] = none := by
  have ha : ((Sublattice.new species sites).restrict xs).activeFloat = true := by
    simp only [Sublattice.restrict, List.isEmpty_iff]
    rw [List.filter_eq_nil_iff]
    intro s hs
    rw [new_active] at hs
    split at hs
    · cases hs
    · simpa using hx s (by simpa [mem_npUnique] using hs)
  by_contra hne
  obtain ⟨o, ho⟩ := Option.ne_none_iff_exists'.1 hne
  have := (C16_split_succeeds_iff _ occ [codes]).1 ⟨o, ho⟩
  exact hc (this.2 ha codes (by simp))

/-- C16. Splitting by species names: every name of the partition must be one of the species of the
sublattice, and then each name stands for the code at its place. -/
theorem C16_split_by_names (sl : Sublattice) (hlen : sl.encoding.length = sl.species.length)
    (parts : List (List ℕ)) :
    ((∃ codes, sl.codesOf parts = some codes) ↔ ∀ part ∈ parts, ∀ sp ∈ part, sp ∈ sl.species) ∧
    ∀ codes, sl.codesOf parts = some codes →
      List.Forall₂ (List.Forall₂ fun sp c =>
        ∃ i : ℕ, sl.species[i]? = some sp ∧ sl.encoding[i]? = some c) parts codes := by
  have hiff : ∀ {α : Type} (f : α → Option (List ℕ)) (l : List α),
      (∃ o, l.mapM f = some o) ↔ ∀ a ∈ l, ∃ o, f a = some o := by
    intro α f l
    induction l with
    | nil => simp
    | cons a l ih =>
      rw [List.forall_mem_cons, ← ih]
      constructor
      · rintro ⟨o, ho⟩
        rw [mapM_eq_some_forall₂] at ho
        cases ho with
        | cons h1 h2 => exact ⟨⟨_, h1⟩, ⟨_, (mapM_eq_some_forall₂ _ _ _).2 h2⟩⟩
      · rintro ⟨⟨o, h1⟩, ⟨out, h2⟩⟩
        exact ⟨o :: out, (mapM_eq_some_forall₂ _ _ _).2
          (.cons h1 ((mapM_eq_some_forall₂ _ _ _).1 h2))⟩
  have hiff' : ∀ (f : ℕ → Option ℕ) (l : List ℕ),
      (∃ o, l.mapM f = some o) ↔ ∀ a ∈ l, ∃ o, f a = some o := by
    intro f l
    induction l with
    | nil => simp
    | cons a l ih =>
      rw [List.forall_mem_cons, ← ih]
      constructor
      · rintro ⟨o, ho⟩
        rw [mapM_eq_some_forall₂] at ho
        cases ho with
        | cons h1 h2 => exact ⟨⟨_, h1⟩, ⟨_, (mapM_eq_some_forall₂ _ _ _).2 h2⟩⟩
      · rintro ⟨⟨o, h1⟩, ⟨out, h2⟩⟩
        exact ⟨o :: out, (mapM_eq_some_forall₂ _ _ _).2
          (.cons h1 ((mapM_eq_some_forall₂ _ _ _).1 h2))⟩
  unfold Sublattice.codesOf
  constructor
  · rw [hiff]
    refine forall₂_congr fun part _ => ?_
    rw [hiff']
    refine forall₂_congr fun sp _ => ?_
    by_cases h : sp ∈ sl.species <;> simp [h]
  · intro codes h
    rw [mapM_eq_some_forall₂] at h
    refine h.imp fun part cs hp => ?_
    rw [mapM_eq_some_forall₂] at hp
    refine hp.imp fun sp c hc => ?_
    split_ifs at hc with hm
    cases hc
    have hi := List.idxOf_lt_length_iff.2 hm
    refine ⟨sl.species.idxOf sp, ?_, ?_⟩
    · rw [List.getElem?_eq_getElem hi, List.getElem_idxOf]
    · rw [List.getElem?_eq_getElem (hlen ▸ hi), List.getD_eq_getElem?_getD,
        List.getElem?_eq_getElem (hlen ▸ hi), Option.getD_some]

/-- species named in another order than the codes -/
example : (⟨[7, 8, 9], [0, 1], [0, 1], false, [2, 0, 5]⟩ : Sublattice).codesOf [[9, 7], [8]] =
      some [[5, 2], [0]] ∧
    (⟨[7, 8, 9], [0, 1], [0, 1], false, [2, 0, 5]⟩ : Sublattice).codesOf [[9, 6]] = none := by
  decide +kernel

/-- five sites, three species, a history that freezes, unfreezes and freezes again -/
example : ((Sublattice.new [7, 8, 9] [4, 2, 0, 3, 1, 2]).run
    [.restrict [0, 1], .reset, .restrict [3, 9]]).active = [0, 1, 2, 4] := by decide +kernel

example : Frozen [some [0, 1], none, some [3, 9]] 3 :=
  ⟨[some [0, 1], none], [3, 9], [], rfl, by simp, by simp⟩

/-- a split of it into `{0, 2}` and `{1}`: hypotheses and result -/
example :
    (((Sublattice.new [7, 8, 9] [4, 2, 0, 3, 1]).restrict [3]).split
      (fun s => if s = 2 then 1 else if s = 4 then 2 else 0) [[2, 0], [1]]) =
    some [⟨[7, 9], [0, 1, 3, 4], [0, 1, 4], false, [0, 2]⟩, ⟨[8], [2], [], true, [1]⟩] := by
  decide +kernel

end Smol
