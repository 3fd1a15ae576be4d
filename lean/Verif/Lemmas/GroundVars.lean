import Verif.Spec.GroundVars
import Verif.Lemmas.Sublattice
import Verif.Lemmas.SiteSpace
import Mathlib.Tactic.Linarith
import Mathlib.Algebra.BigOperators.Group.List.Lemmas

namespace Smol
open Spec

/-! ## rows of marks -/

inductive Mark | var | one | zero
  deriving DecidableEq

def markRow : ℕ → List Mark → List ℤ
  | _, [] => []
  | next, .var :: ks => (next : ℤ) :: markRow (next + 1) ks
  | next, .one :: ks => -1 :: markRow next ks
  | next, .zero :: ks => -2 :: markRow next ks

def markOf (sl : Sublattice) (o : Occ) (s sp : ℕ) : Mark :=
  if sp ∈ sl.species then
    if 1 < sl.species.length then
      if s ∈ sl.active then .var
      else if o s = sl.encoding.getD (sl.species.idxOf sp) 0 then .one else .zero
    else .one
  else .zero

theorem siteMarks_eq {sl : Sublattice} {init : Option Occ} {o : Occ} {s : ℕ}
    (h : 1 < sl.species.length → s ∉ sl.active → init = some o) (space : List ℕ) :
    ∀ next, siteMarks sl init s next space =
      some (markRow next (space.map (markOf sl o s)),
        next + (space.map (markOf sl o s)).count .var) := by
  induction space with
  | nil => intro next; simp [siteMarks, markRow]
  | cons sp rest ih =>
    intro next
    have key : speciesMark sl init s next sp = some (match markOf sl o s sp with
        | .var => ((next : ℤ), next + 1) | .one => (-1, next) | .zero => (-2, next)) := by
      unfold speciesMark markOf
      by_cases h1 : sp ∈ sl.species
      · by_cases h2 : 1 < sl.species.length
        · by_cases h3 : s ∈ sl.active
          · simp [h1, h2, h3]
          · rw [h h2 h3]
            simp only [h1, h2, h3, if_true, if_false]
            split <;> simp
        · simp [h1, h2]
      · simp [h1]
    rw [siteMarks, key]
    cases hm : markOf sl o s sp <;>
      simp [ih, hm, markRow, Nat.add_assoc, Nat.add_comm]

theorem siteMarks_none {sl : Sublattice} {s : ℕ} (h1 : 1 < sl.species.length)
    (h2 : s ∉ sl.active) (space : List ℕ) :
    ∀ next, (∃ sp ∈ space, sp ∈ sl.species) → siteMarks sl none s next space = none := by
  induction space with
  | nil => intro next h; obtain ⟨_, h, _⟩ := h; cases h
  | cons sp rest ih =>
    intro next h
    rw [siteMarks]
    by_cases h3 : sp ∈ sl.species
    · simp [speciesMark, h1, h2, h3]
    · have : speciesMark sl none s next sp = some (-2, next) := by simp [speciesMark, h3]
      rw [this]
      obtain ⟨x, hx, hx'⟩ := h
      rcases List.mem_cons.1 hx with rfl | hx
      · exact absurd hx' h3
      · simp [ih next ⟨x, hx, hx'⟩]

theorem markRow_length (ks : List Mark) : ∀ next, (markRow next ks).length = ks.length := by
  induction ks with
  | nil => intro; rfl
  | cons k ks ih => intro next; cases k <;> simp [markRow, ih]

theorem varInds_markRow (ks : List Mark) :
    ∀ next, varInds (markRow next ks) = List.range' next (ks.count .var) := by
  induction ks with
  | nil => intro; rfl
  | cons k ks ih =>
    intro next
    have := ih next
    have h2 := ih (next + 1)
    unfold varInds at *
    cases k <;> simp [markRow, *, List.range'_succ]

theorem markRow_getElem? (ks : List Mark) : ∀ next c : ℕ,
    (markRow next ks)[c]? = ks[c]?.map fun k : Mark => match k with
      | .var => ((next + (ks.take c).count .var : ℕ) : ℤ) | .one => -1 | .zero => -2 := by
  induction ks with
  | nil => intro next c; simp [markRow]
  | cons k ks ih =>
    intro next c
    cases c with
    | zero => cases k <;> simp [markRow]
    | succ c =>
      cases k
      · simp only [markRow, List.getElem?_cons_succ, ih, List.take_succ_cons,
          List.count_cons_self]
        congr 1; funext k; cases k
        · simp; omega
        · rfl
        · rfl
      · simp only [markRow, List.getElem?_cons_succ, ih, List.take_succ_cons]
        simp
      · simp only [markRow, List.getElem?_cons_succ, ih, List.take_succ_cons]
        simp

/-! ## encodings -/

theorem _root_.Smol.Spec.SiteFits.enc_nodup {sl : Sublattice} {space : List ℕ}
    (h : SiteFits sl space) : sl.encoding.Nodup :=
  h.increasing.imp fun h => Nat.ne_of_lt h

theorem _root_.Smol.Spec.SiteFits.species_of_mem {sl : Sublattice} {space : List ℕ}
    (h : SiteFits sl space) {c : ℕ} (hc : c ∈ sl.encoding) :
    ∃ sp, space[c]? = some sp ∧ sp ∈ sl.species ∧
      sl.species[sl.encoding.idxOf c]? = some sp := by
  have hp := List.idxOf_lt_length_of_mem hc
  have h1 : sl.encoding[sl.encoding.idxOf c]? = some c := by
    rw [List.getElem?_eq_getElem hp, List.getElem_idxOf]
  have h2 := h.code _ _ h1
  have hp' : sl.encoding.idxOf c < sl.species.length := h.length ▸ hp
  rw [List.getElem?_eq_getElem hp'] at h2
  exact ⟨_, h2, List.getElem_mem _, List.getElem?_eq_getElem hp'⟩

theorem _root_.Smol.Spec.SiteFits.mem_species {sl : Sublattice} {space : List ℕ}
    (h : SiteFits sl space) {c sp : ℕ} (hc : space[c]? = some sp) :
    sp ∈ sl.species ↔ c ∈ sl.encoding := by
  constructor
  · intro hs
    obtain ⟨p, hp, rfl⟩ := List.getElem_of_mem hs
    have hp' : p < sl.encoding.length := h.length ▸ hp
    have := h.code p _ (List.getElem?_eq_getElem hp')
    rw [List.getElem?_eq_getElem hp] at this
    obtain ⟨hc1, hc2⟩ := List.getElem?_eq_some_iff.1 hc
    obtain ⟨hd1, hd2⟩ := List.getElem?_eq_some_iff.1 this
    have : c = sl.encoding[p] := (h.nodup.getElem_inj_iff).1 (hc2.trans hd2.symm)
    rw [this]; exact List.getElem_mem _
  · intro hm
    obtain ⟨sp', h1, h2, _⟩ := h.species_of_mem hm
    rw [hc] at h1; cases h1; exact h2

theorem _root_.Smol.Spec.SiteFits.species_nodup {sl : Sublattice} {space : List ℕ}
    (h : SiteFits sl space) : sl.species.Nodup := by
  rw [List.nodup_iff_injective_get]
  intro p q hpq
  have hp : p.1 < sl.encoding.length := by rw [h.length]; exact p.2
  have hq : q.1 < sl.encoding.length := by rw [h.length]; exact q.2
  have e1 := h.code p.1 _ (List.getElem?_eq_getElem hp)
  have e2 := h.code q.1 _ (List.getElem?_eq_getElem hq)
  rw [List.getElem?_eq_getElem p.2] at e1
  rw [List.getElem?_eq_getElem q.2] at e2
  simp only [List.get_eq_getElem] at hpq
  obtain ⟨a1, a2⟩ := List.getElem?_eq_some_iff.1 e1
  obtain ⟨b1, b2⟩ := List.getElem?_eq_some_iff.1 e2
  have := (h.nodup.getElem_inj_iff).1 (a2.trans (hpq.trans b2.symm))
  exact Fin.ext ((h.enc_nodup.getElem_inj_iff).1 this)

theorem _root_.Smol.Spec.SiteFits.idx_species {sl : Sublattice} {space : List ℕ}
    (h : SiteFits sl space) {c sp : ℕ} (hc : space[c]? = some sp) (hm : c ∈ sl.encoding) :
    sl.encoding.getD (sl.species.idxOf sp) 0 = c := by
  obtain ⟨sp', h1, h2, h3⟩ := h.species_of_mem hm
  rw [hc] at h1; cases h1
  obtain ⟨hl, he⟩ := List.getElem?_eq_some_iff.1 h3
  have : sl.species.idxOf sp = sl.encoding.idxOf c := by
    rw [← he]; exact h.species_nodup.idxOf_getElem _ _
  rw [this, List.getD_eq_getElem?_getD,
    List.getElem?_eq_getElem (List.idxOf_lt_length_of_mem hm), List.getElem_idxOf]
  rfl

/-- the number of allowed species before an allowed code is its position in the encoding -/
theorem _root_.Smol.Spec.SiteFits.rank {sl : Sublattice} {space : List ℕ}
    (h : SiteFits sl space) {c : ℕ} (hm : c ∈ sl.encoding) :
    (space.take c).countP (fun sp => decide (sp ∈ sl.species)) = sl.encoding.idxOf c := by
  obtain ⟨sp, h1, -, -⟩ := h.species_of_mem hm
  obtain ⟨hc, -⟩ := List.getElem?_eq_some_iff.1 h1
  have e1 : space.take c = (List.range c).map fun i => space.getD i 0 := by
    apply List.ext_getElem
    · simp; omega
    · intro i h1 h2
      have : i < space.length := by simp at h1; omega
      simp [List.getElem?_eq_getElem this]
  rw [e1, List.countP_map, List.countP_eq_length_filter]
  have e2 : (List.range c).filter ((fun sp => decide (sp ∈ sl.species)) ∘ fun i => space.getD i 0)
      = sl.encoding.take (sl.encoding.idxOf c) := by
    apply sorted_ext
    · exact (List.pairwise_le_range).filter _
    · exact (h.increasing.imp fun h => Nat.le_of_lt h).sublist (List.take_sublist _ _)
    · exact List.nodup_range.filter _
    · exact h.enc_nodup.sublist (List.take_sublist _ _)
    · intro a
      have hp := List.idxOf_lt_length_of_mem hm
      simp only [List.mem_filter, List.mem_range, Function.comp, decide_eq_true_eq]
      constructor
      · rintro ⟨ha, hs⟩
        have hl : a < space.length := by omega
        have hg : space[a]? = some (space.getD a 0) := by
          simp [List.getElem?_eq_getElem hl]
        have hae := (h.mem_species hg).1 hs
        obtain ⟨q, hq, rfl⟩ := List.getElem_of_mem hae
        rw [List.mem_take_iff_getElem]
        refine ⟨q, ?_, rfl⟩
        by_contra hn
        have hle : sl.encoding.idxOf c ≤ q := by omega
        have hcq : c ≤ sl.encoding[q] := by
          rcases Nat.eq_or_lt_of_le hle with e | e
          · conv_lhs => rw [← List.getElem_idxOf hp]
            simp [e]
          · have := List.pairwise_iff_getElem.1 h.increasing _ _ hp hq e
            rw [List.getElem_idxOf] at this
            omega
        omega
      · intro ha
        rw [List.mem_take_iff_getElem] at ha
        obtain ⟨q, hq, rfl⟩ := ha
        have hq' : q < sl.encoding.length := by omega
        have hlt := List.pairwise_iff_getElem.1 h.increasing q _ hq' hp (by omega)
        rw [List.getElem_idxOf] at hlt
        refine ⟨hlt, ?_⟩
        obtain ⟨sp', k1, k2, -⟩ := h.species_of_mem (List.getElem_mem hq')
        rw [List.getD_eq_getElem?_getD, k1]; exact k2
  rw [e2, List.length_take]
  have := List.idxOf_lt_length_of_mem hm
  omega

/-- Marks of a free site. -/
structure FreeRow (sl : Sublattice) (space : List ℕ) (base : ℕ) (row : List ℤ) : Prop where
  length : row.length = space.length
  mark : ∀ c < space.length, row[c]? =
    some (if c ∈ sl.encoding then ((base + sl.encoding.idxOf c : ℕ) : ℤ) else -2)
  inds : varInds row = List.range' base sl.encoding.length

/-- Marks of a site that always holds the code `f`. -/
structure FixedRow (space : List ℕ) (f : ℕ) (row : List ℤ) : Prop where
  length : row.length = space.length
  mark : ∀ c < space.length, row[c]? = some (if c = f then -1 else -2)
  inds : varInds row = []

theorem _root_.Smol.Spec.SiteFits.enc_lt {sl : Sublattice} {space : List ℕ}
    (h : SiteFits sl space) {c : ℕ} (hm : c ∈ sl.encoding) : c < space.length := by
  obtain ⟨sp, h1, -, -⟩ := h.species_of_mem hm
  exact (List.getElem?_eq_some_iff.1 h1).1

theorem freeRow_of {sl : Sublattice} {space : List ℕ} (h : SiteFits sl space) {o : Occ} {s : ℕ}
    (hf : FreeSite sl s) (next : ℕ) :
    FreeRow sl space next (markRow next (space.map (markOf sl o s))) ∧
      (space.map (markOf sl o s)).count .var = sl.encoding.length := by
  have hk : ∀ sp, markOf sl o s sp = if sp ∈ sl.species then .var else .zero := by
    intro sp; simp [markOf, hf.1, hf.2]
  have hcount : ∀ l : List ℕ, (l.map (markOf sl o s)).count .var =
      l.countP fun sp => decide (sp ∈ sl.species) := by
    intro l
    rw [List.count, List.countP_map]
    apply List.countP_congr
    intro sp _
    simp only [Function.comp, hk]
    by_cases h1 : sp ∈ sl.species <;> simp [h1]
  have htot : (space.map (markOf sl o s)).count .var = sl.encoding.length := by
    rw [hcount]
    have hne : sl.encoding ≠ [] := by
      intro he; have := h.length; rw [he] at this
      exact h.nonempty (List.length_eq_zero_iff.1 this.symm)
    set c := sl.encoding.getLast hne with hc
    have hcm : c ∈ sl.encoding := List.getLast_mem hne
    obtain ⟨sp, h1, h2, -⟩ := h.species_of_mem hcm
    obtain ⟨hl, he⟩ := List.getElem?_eq_some_iff.1 h1
    have hr := h.rank hcm
    have hidx : sl.encoding.idxOf c = sl.encoding.length - 1 := by
      have hlen : sl.encoding.length - 1 < sl.encoding.length := by
        have := List.length_pos_iff.2 hne; omega
      rw [hc, List.getLast_eq_getElem]
      exact h.enc_nodup.idxOf_getElem _ _
    have hsplit : space = space.take c ++ sp :: space.drop (c + 1) := by
      rw [← he, List.getElem_cons_drop, List.take_append_drop]
    have hrest : (space.drop (c + 1)).countP (fun sp => decide (sp ∈ sl.species)) = 0 := by
      rw [List.countP_eq_zero]
      intro x hx
      obtain ⟨i, hi, rfl⟩ := List.getElem_of_mem hx
      rw [List.length_drop] at hi
      have hg : space[c + 1 + i]? = some (space[c + 1 + i]'(by omega)) :=
        List.getElem?_eq_getElem _
      rw [List.getElem_drop, decide_eq_true_eq, h.mem_species hg]
      intro hmem
      obtain ⟨q, hq, hqe⟩ := List.getElem_of_mem hmem
      have hlast : c = sl.encoding[sl.encoding.length - 1]'(by
          have := List.length_pos_iff.2 hne; omega) := by rw [hc, List.getLast_eq_getElem]
      rcases Nat.lt_or_ge q (sl.encoding.length - 1) with hlt | hge
      · have := List.pairwise_iff_getElem.1 h.increasing q _ hq (by omega) hlt
        omega
      · have hq2 : q = sl.encoding.length - 1 := by omega
        subst hq2; omega
    have : space.countP (fun sp => decide (sp ∈ sl.species)) =
        (space.take c).countP (fun sp => decide (sp ∈ sl.species)) + 1 := by
      conv_lhs => rw [hsplit]
      rw [List.countP_append, List.countP_cons, hrest]
      simp [h2]
    rw [this, hr, hidx]
    have := List.length_pos_iff.2 hne; omega
  refine ⟨⟨?_, ?_, ?_⟩, htot⟩
  · rw [markRow_length, List.length_map]
  · intro c hc
    have hg : space[c]? = some space[c] := List.getElem?_eq_getElem hc
    rw [markRow_getElem?, List.getElem?_map, hg, Option.map_some, Option.map_some, hk,
      ← List.map_take, hcount]
    by_cases hm : c ∈ sl.encoding
    · have hs := (h.mem_species hg).2 hm
      simp only [hs, if_true, hm, h.rank hm]
    · have hs : space[c] ∉ sl.species := fun h' => hm ((h.mem_species hg).1 h')
      simp only [hs, if_false, hm]
  · rw [varInds_markRow, htot]

theorem varInds_eq_nil {row : List ℤ} (h : ∀ x ∈ row, x < 0) : varInds row = [] := by
  unfold varInds
  rw [List.map_eq_nil_iff, List.filter_eq_nil_iff]
  intro x hx; have := h x hx; simp; exact this

/-- The code a site that cannot change holds. -/
def forcedCode (sl : Sublattice) (o : Occ) (s : ℕ) : ℕ :=
  if 1 < sl.species.length then o s else sl.encoding.getD 0 0

theorem single_encoding {sl : Sublattice} {space : List ℕ} (h : SiteFits sl space)
    (h1 : ¬ 1 < sl.species.length) : sl.encoding = [sl.encoding.getD 0 0] := by
  have hl : sl.encoding.length = 1 := by
    rw [h.length]
    have := List.length_pos_iff.2 h.nonempty; omega
  obtain ⟨a, ha⟩ := List.length_eq_one_iff.1 hl
  rw [ha]; rfl

theorem fixedRow_of {sl : Sublattice} {space : List ℕ} (h : SiteFits sl space) {o : Occ} {s : ℕ}
    (hf : ¬ FreeSite sl s) (ho : 1 < sl.species.length → o s ∈ sl.encoding) (next : ℕ) :
    FixedRow space (forcedCode sl o s) (markRow next (space.map (markOf sl o s))) ∧
      (space.map (markOf sl o s)).count .var = 0 ∧ forcedCode sl o s ∈ sl.encoding := by
  have hfc : forcedCode sl o s ∈ sl.encoding := by
    unfold forcedCode
    split
    · rename_i h1; exact ho h1
    · rename_i h1
      have := single_encoding h h1
      generalize hx : sl.encoding.getD 0 0 = x at *
      rw [this]; exact List.mem_singleton.2 rfl
  have hk : ∀ c sp, space[c]? = some sp →
      markOf sl o s sp = if c = forcedCode sl o s then .one else .zero := by
    intro c sp hc
    have hms := h.mem_species hc
    unfold markOf
    by_cases hs : sp ∈ sl.species
    · have hce := hms.1 hs
      by_cases h1 : 1 < sl.species.length
      · have h2 : s ∉ sl.active := fun h2 => hf ⟨h1, h2⟩
        simp only [hs, h1, h2, if_true, if_false, h.idx_species hc hce, forcedCode]
        by_cases e : o s = c
        · simp [e]
        · have e' : ¬ c = o s := fun h => e h.symm
          simp [e, e']
      · have he := single_encoding h h1
        have : c = forcedCode sl o s := by
          rw [he] at hce
          simp only [List.mem_singleton] at hce
          simp only [forcedCode, h1, if_false]; exact hce
        rw [if_pos hs, if_neg h1, if_pos this]
    · have : ¬ c = forcedCode sl o s := by
        rintro rfl; exact hs (hms.2 hfc)
      rw [if_neg hs, if_neg this]
  have hmark : ∀ c < space.length, (markRow next (space.map (markOf sl o s)))[c]? =
      some (if c = forcedCode sl o s then -1 else -2) := by
    intro c hc
    have hg : space[c]? = some space[c] := List.getElem?_eq_getElem hc
    rw [markRow_getElem?, List.getElem?_map, hg, Option.map_some, Option.map_some, hk c _ hg]
    by_cases e : c = forcedCode sl o s <;> simp [e]
  have hlen : (markRow next (space.map (markOf sl o s))).length = space.length := by
    rw [markRow_length, List.length_map]
  have hnil : varInds (markRow next (space.map (markOf sl o s))) = [] := by
    apply varInds_eq_nil
    intro x hx
    obtain ⟨c, hc, rfl⟩ := List.getElem_of_mem hx
    have := hmark c (hlen ▸ hc)
    rw [List.getElem?_eq_getElem hc, Option.some.injEq] at this
    rw [this]; split <;> decide
  refine ⟨⟨hlen, hmark, hnil⟩, ?_, hfc⟩
  rw [varInds_markRow] at hnil
  by_contra hne
  have := congrArg List.length hnil
  simp at this
  exact hne this

/-! ## sublattices of sites -/

section ids
variable {subls : List Sublattice} {spaces : List (List ℕ)}

theorem _root_.Smol.Spec.GroundFits.lt (h : GroundFits subls spaces) {sl : Sublattice}
    (hsl : sl ∈ subls) {s : ℕ} (hs : s ∈ sl.sites) : s < spaces.length := by
  obtain ⟨_, h1, _⟩ := h.fits sl hsl s hs
  exact (List.getElem?_eq_some_iff.1 h1).1

theorem _root_.Smol.Spec.GroundFits.index_unique (h : GroundFits subls spaces)
    {j k : ℕ} {a b : Sublattice} (ha : subls[j]? = some a) (hb : subls[k]? = some b) {s : ℕ}
    (hsa : s ∈ a.sites) (hsb : s ∈ b.sites) : j = k := by
  have hp := (List.nodup_flatMap.1 h.disjoint).2
  obtain ⟨hj, rfl⟩ := List.getElem?_eq_some_iff.1 ha
  obtain ⟨hk, rfl⟩ := List.getElem?_eq_some_iff.1 hb
  rw [List.pairwise_iff_getElem] at hp
  rcases Nat.lt_trichotomy j k with hlt | heq | hgt
  · exact absurd hsb (hp j k hj hk hlt hsa)
  · exact heq
  · exact absurd hsa (hp k j hk hj hgt hsb)

theorem _root_.Smol.Spec.GroundFits.unique (h : GroundFits subls spaces)
    {a b : Sublattice} (ha : a ∈ subls) (hb : b ∈ subls) {s : ℕ}
    (hsa : s ∈ a.sites) (hsb : s ∈ b.sites) : a = b := by
  obtain ⟨j, hj⟩ := List.mem_iff_getElem?.1 ha
  obtain ⟨k, hk⟩ := List.mem_iff_getElem?.1 hb
  have := h.index_unique hj hk hsa hsb
  subst this; rw [hj] at hk; exact Option.some.inj hk

theorem sublatticeOf_eq (h : GroundFits subls spaces) {k : ℕ} {sl : Sublattice}
    (hk : subls[k]? = some sl) {s : ℕ} (hs : s ∈ sl.sites) : sublatticeOf subls s = some k := by
  unfold sublatticeOf
  have : (List.range subls.length).filter (fun k =>
      decide (∃ sl, subls[k]? = some sl ∧ s ∈ sl.sites)) = [k] := by
    apply List.Perm.eq_singleton
    rw [List.perm_ext_iff_of_nodup (List.nodup_range.filter _) (List.nodup_singleton k)]
    intro j
    simp only [List.mem_filter, List.mem_range, decide_eq_true_eq, List.mem_singleton]
    constructor
    · rintro ⟨_, sl', hj, hs'⟩; exact h.index_unique hj hk hs' hs
    · rintro rfl
      exact ⟨(List.getElem?_eq_some_iff.1 hk).1, sl, hk, hs⟩
  rw [this]; rfl

theorem numSites_eq (h : GroundFits subls spaces) :
    (subls.map fun sl => sl.sites.length).sum = spaces.length := by
  have e : (subls.map fun sl => sl.sites.length).sum = (subls.flatMap Sublattice.sites).length := by
    rw [List.length_flatMap]
  rw [e]
  have hp : (subls.flatMap Sublattice.sites).Perm (List.range spaces.length) := by
    rw [List.perm_ext_iff_of_nodup h.disjoint List.nodup_range]
    intro s
    rw [List.mem_flatMap, List.mem_range]
    constructor
    · rintro ⟨sl, hsl, hs⟩; exact h.lt hsl hs
    · intro hs; exact h.cover s hs
  rw [hp.length_eq, List.length_range]

theorem sublatticeIds_eq (h : GroundFits subls spaces) :
    ∃ ids, sublatticeIds subls = some ids ∧ ids.length = spaces.length ∧
      ∀ sl ∈ subls, ∀ s ∈ sl.sites, sublatticeAt subls ids s = some sl := by
  have hno : ¬ ∃ sl ∈ subls, ∃ s ∈ sl.sites, spaces.length ≤ s := by
    rintro ⟨sl, hsl, s, hs, hle⟩
    exact absurd (h.lt hsl hs) (by omega)
  have hex : ∀ s ∈ List.range spaces.length, ∃ k, sublatticeOf subls s = some k := by
    intro s hs
    obtain ⟨sl, hsl, hs⟩ := h.cover s (List.mem_range.1 hs)
    obtain ⟨k, hk⟩ := List.mem_iff_getElem?.1 hsl
    exact ⟨k, sublatticeOf_eq h hk hs⟩
  have hm : ∃ ids, (List.range spaces.length).mapM (sublatticeOf subls) = some ids := by
    cases hh : (List.range spaces.length).mapM (sublatticeOf subls) with
    | some ids => exact ⟨ids, rfl⟩
    | none =>
      rw [mapM_eq_none_iff] at hh
      obtain ⟨s, hs, hn⟩ := hh
      obtain ⟨k, hk⟩ := hex s hs
      rw [hk] at hn; cases hn
  obtain ⟨ids, hids⟩ := hm
  have hf := (mapM_eq_some_forall₂ _ _ _).1 hids
  have hlen : ids.length = spaces.length := by
    rw [← hf.length_eq, List.length_range]
  refine ⟨ids, ?_, hlen, ?_⟩
  · unfold sublatticeIds
    simp only [numSites_eq h]
    rw [if_neg hno]; exact hids
  · intro sl hsl s hs
    obtain ⟨k, hk⟩ := List.mem_iff_getElem?.1 hsl
    have hlt := h.lt hsl hs
    have hg := (List.forall₂_iff_get.1 hf).2 s (by simpa using hlt) (by omega)
    simp only [List.get_eq_getElem, List.getElem_range] at hg
    rw [sublatticeOf_eq h hk hs, Option.some.injEq] at hg
    unfold sublatticeAt
    rw [List.getElem?_eq_getElem (by omega), ← hg]
    exact hk

end ids

/-! ## all marks -/

/-- How marks and variable numbers are laid out: `base s` is the first variable of site `s`. -/
structure Layout (subls : List Sublattice) (spaces : List (List ℕ)) (init : Option Occ)
    (marks : List (List ℤ)) (n : ℕ) (base : ℕ → ℕ) : Prop where
  length : marks.length = spaces.length
  first : base 0 = 0
  last : base spaces.length = n
  free : ∀ sl ∈ subls, ∀ s ∈ sl.sites, FreeSite sl s →
    base (s + 1) = base s + sl.encoding.length ∧
    ∃ row, marks[s]? = some row ∧ FreeRow sl (spaces.getD s []) (base s) row
  fixed : ∀ sl ∈ subls, ∀ s ∈ sl.sites, ¬ FreeSite sl s →
    base (s + 1) = base s ∧
    ∃ row, marks[s]? = some row ∧
      FixedRow (spaces.getD s []) (forcedCode sl (init.getD fun _ => 0) s) row ∧
      forcedCode sl (init.getD fun _ => 0) s ∈ sl.encoding

/-- first variable of each site -/
def baseOf (subls : List Sublattice) (ids : List ℕ) : ℕ → ℕ
  | 0 => 0
  | s + 1 => baseOf subls ids s + match sublatticeAt subls ids s with
    | some sl => if FreeSite sl s then sl.encoding.length else 0
    | none => 0

theorem marksLoop_eq {subls : List Sublattice} {spaces : List (List ℕ)} {init : Option Occ}
    (h : GroundFits subls spaces) (hi : InitLegal subls init) {ids : List ℕ}
    (hids : ∀ sl ∈ subls, ∀ s ∈ sl.sites, sublatticeAt subls ids s = some sl) :
    ∀ (rest : List (List ℕ)) (s : ℕ), spaces.drop s = rest →
      ∃ rows, marksLoop subls ids init s (baseOf subls ids s) rest =
        some (rows, baseOf subls ids (s + rest.length)) ∧ rows.length = rest.length ∧
      ∀ i < rest.length, ∃ sl ∈ subls, s + i ∈ sl.sites ∧ rows[i]? = some
        (markRow (baseOf subls ids (s + i))
          ((spaces.getD (s + i) []).map (markOf sl (init.getD fun _ => 0) (s + i)))) := by
  intro rest
  induction rest with
  | nil => intro s _; exact ⟨[], rfl, rfl, by simp⟩
  | cons space rest ih =>
    intro s hd
    have hs : s < spaces.length := by
      by_contra hn
      rw [List.drop_eq_nil_of_le (by omega)] at hd
      cases hd
    have hsp : spaces[s]? = some space := by
      have := congrArg List.head? hd
      simpa [List.head?_drop] using this
    have hd' : spaces.drop (s + 1) = rest := by
      have := congrArg List.tail hd
      simpa using this
    obtain ⟨sl, hsl, hss⟩ := h.cover s hs
    obtain ⟨space', e1, hfit⟩ := h.fits sl hsl s hss
    rw [hsp, Option.some.injEq] at e1; subst e1
    have hat := hids sl hsl s hss
    have ho : 1 < sl.species.length → s ∉ sl.active → init = some (init.getD fun _ => 0) := by
      intro h1 h2
      obtain ⟨o, ho, _⟩ := hi sl hsl s hss h1 h2
      rw [ho]; rfl
    have hcnt : baseOf subls ids s +
        (space.map (markOf sl (init.getD fun _ => 0) s)).count .var = baseOf subls ids (s + 1) := by
      rw [baseOf, hat]
      by_cases hf : FreeSite sl s
      · simp only [hf, if_true]
        rw [(freeRow_of hfit hf 0).2]
      · simp only [hf, if_false]
        rw [(fixedRow_of hfit hf (fun h1 => by
          obtain ⟨o, ho, ho'⟩ := hi sl hsl s hss h1 (fun h2 => hf ⟨h1, h2⟩)
          rw [ho]; exact ho') 0).2.1]
    obtain ⟨rows, er, hlen, hrow⟩ := ih (s + 1) hd'
    refine ⟨markRow (baseOf subls ids s) (space.map (markOf sl (init.getD fun _ => 0) s)) :: rows,
      ?_, by simp [hlen], ?_⟩
    · rw [marksLoop, hat, Option.bind_some, siteMarks_eq ho, Option.bind_some]
      simp only [hcnt, er, Option.map_some]
      congr 3
      simp; omega
    · intro i hlt
      cases i with
      | zero =>
        refine ⟨sl, hsl, hss, ?_⟩
        simp only [List.getElem?_cons_zero, Nat.add_zero]
        rw [List.getD_eq_getElem?_getD, hsp]; rfl
      | succ i =>
        obtain ⟨sl', h1, h2, h3⟩ := hrow i (by simp at hlt; omega)
        have e : s + 1 + i = s + (i + 1) := by omega
        rw [e] at h2 h3
        exact ⟨sl', h1, h2, by rw [List.getElem?_cons_succ]; exact h3⟩

theorem groundVariables_eq {subls : List Sublattice} {spaces : List (List ℕ)} {init : Option Occ}
    (h : GroundFits subls spaces) (hi : InitLegal subls init) :
    ∃ marks n base, groundVariables subls spaces init = some (marks, n) ∧
      Layout subls spaces init marks n base := by
  obtain ⟨ids, hids, _, hat⟩ := sublatticeIds_eq h
  obtain ⟨rows, er, hlen, hrow⟩ := marksLoop_eq h hi hat spaces 0 (by simp)
  refine ⟨rows, baseOf subls ids spaces.length, baseOf subls ids, ?_, hlen, rfl, rfl, ?_, ?_⟩
  · unfold groundVariables
    rw [hids, Option.bind_some]
    have e0 : baseOf subls ids 0 = 0 := rfl
    rw [e0] at er
    rw [er]; simp
  · intro sl hsl s hs hf
    have hlt := h.lt hsl hs
    obtain ⟨sl', h1, h2, h3⟩ := hrow s hlt
    simp only [Nat.zero_add] at h2 h3
    have := h.unique hsl h1 hs h2
    subst this
    obtain ⟨space, e1, hfit⟩ := h.fits sl hsl s hs
    have esp : spaces.getD s [] = space := by rw [List.getD_eq_getElem?_getD, e1]; rfl
    rw [esp] at h3 ⊢
    refine ⟨?_, _, h3, (freeRow_of hfit hf _).1⟩
    rw [baseOf, hat sl hsl s hs]; simp only [hf, if_true]
  · intro sl hsl s hs hf
    have hlt := h.lt hsl hs
    obtain ⟨sl', h1, h2, h3⟩ := hrow s hlt
    simp only [Nat.zero_add] at h2 h3
    have := h.unique hsl h1 hs h2
    subst this
    obtain ⟨space, e1, hfit⟩ := h.fits sl hsl s hs
    have esp : spaces.getD s [] = space := by rw [List.getD_eq_getElem?_getD, e1]; rfl
    rw [esp] at h3 ⊢
    have ho : 1 < sl.species.length → (init.getD fun _ => 0) s ∈ sl.encoding := fun h1 => by
      obtain ⟨o, ho, ho'⟩ := hi sl hsl s hs h1 (fun h2 => hf ⟨h1, h2⟩)
      rw [ho]; exact ho'
    have hfr := fixedRow_of hfit hf ho (baseOf subls ids s)
    refine ⟨?_, _, h3, hfr.1, hfr.2.2⟩
    rw [baseOf, hat sl hsl s hs]; simp only [hf, if_false, Nat.add_zero]

theorem marksLoop_none {subls : List Sublattice} {spaces : List (List ℕ)}
    (h : GroundFits subls spaces) {ids : List ℕ}
    (hids : ∀ sl ∈ subls, ∀ s ∈ sl.sites, sublatticeAt subls ids s = some sl)
    {sl : Sublattice} (hsl : sl ∈ subls) {t : ℕ} (ht : t ∈ sl.sites)
    (h1 : 1 < sl.species.length) (h2 : t ∉ sl.active) :
    ∀ (rest : List (List ℕ)) (s next : ℕ), spaces.drop s = rest → s ≤ t →
      marksLoop subls ids none s next rest = none := by
  intro rest
  induction rest with
  | nil =>
    intro s next hd hst
    have := h.lt hsl ht
    have := congrArg List.length hd
    simp at this; omega
  | cons space rest ih =>
    intro s next hd hst
    have hs : s < spaces.length := by
      by_contra hn
      rw [List.drop_eq_nil_of_le (by omega)] at hd
      cases hd
    have hsp : spaces[s]? = some space := by
      have := congrArg List.head? hd
      simpa [List.head?_drop] using this
    have hd' : spaces.drop (s + 1) = rest := by
      have := congrArg List.tail hd
      simpa using this
    rw [marksLoop]
    obtain ⟨sl', hsl', hss⟩ := h.cover s hs
    rw [hids sl' hsl' s hss, Option.bind_some]
    rcases Nat.eq_or_lt_of_le hst with e | hlt
    · subst e
      have := h.unique hsl hsl' ht hss
      subst this
      obtain ⟨space', e1, hfit⟩ := h.fits sl hsl s ht
      rw [hsp, Option.some.injEq] at e1; subst e1
      have hpos : 0 < sl.encoding.length := by rw [hfit.length]; omega
      obtain ⟨sp, k1, k2, -⟩ := hfit.species_of_mem (List.getElem_mem hpos)
      rw [siteMarks_none h1 h2 space next ⟨sp, List.mem_of_getElem? k1, k2⟩]
      rfl
    · cases siteMarks sl' none s next space with
      | none => rfl
      | some r => rw [Option.bind_some, ih (s + 1) r.2 hd' (by omega)]; rfl

end Smol
