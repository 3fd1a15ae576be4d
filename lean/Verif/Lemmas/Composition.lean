import Verif.Model.Composition
import Verif.Spec.Composition
import Verif.Lemmas.Ewald
import Mathlib.Data.List.Perm.Basic
import Mathlib.Algebra.BigOperators.Group.List.Basic
import Mathlib.Algebra.Order.BigOperators.Group.List
import Mathlib.Tactic.FieldSimp
import Mathlib.Tactic.Linarith
import Mathlib.Tactic.Ring

namespace Smol
open Spec

/-! ### One sublattice -/

/-- The table in the order of the species. -/
def canonFractions (vac : ℕ → Bool) (sites : ℚ) (l : List (ℕ × ℚ)) : List (ℕ × ℚ) :=
  (l.filter fun e => ¬ vac e.1 ∧ e.2 ≠ 0).map fun e => (e.1, e.2 / sites)

theorem fst_sublist_zip {α β : Type} (a : List α) (b : List β) :
    ((a.zip b).map Prod.fst).Sublist a := by
  induction a generalizing b with
  | nil => simp
  | cons x a ih =>
    cases b with
    | nil => simp
    | cons y b => simpa using ih b

theorem zip_unique {sp : List ℕ} (h : sp.Nodup) {n : List ℚ} {s : ℕ} {x y : ℚ}
    (hx : (s, x) ∈ sp.zip n) (hy : (s, y) ∈ sp.zip n) : x = y := by
  have hn : ((sp.zip n).map Prod.fst).Nodup := (fst_sublist_zip sp n).nodup h
  have := List.inj_on_of_nodup_map hn hx hy rfl
  exact (Prod.mk.inj this).2

theorem canon_keys {vac : ℕ → Bool} {sites : ℚ} {sp : List ℕ} (h : sp.Nodup) (n : List ℚ) :
    ((canonFractions vac sites (sp.zip n)).map Prod.fst).Nodup := by
  have e : (canonFractions vac sites (sp.zip n)).map Prod.fst =
      ((sp.zip n).filter fun e => ¬ vac e.1 ∧ e.2 ≠ 0).map Prod.fst := by
    simp [canonFractions, List.map_map, Function.comp_def]
  rw [e]
  exact ((List.filter_sublist.map _).trans (fst_sublist_zip sp n)).nodup h

theorem canon_isFractions {vac : ℕ → Bool} {sites : ℚ} {sp : List ℕ} (h : sp.Nodup) (n : List ℚ) :
    IsFractions vac sp sites n (canonFractions vac sites (sp.zip n)) where
  keys := canon_keys h n
  mem := by
    intro s v
    simp only [canonFractions, List.mem_map, List.mem_filter, Prod.exists, Prod.mk.injEq]
    constructor
    · rintro ⟨a, b, ⟨h1, h2⟩, rfl, rfl⟩
      simp only [Bool.not_eq_true, ne_eq, decide_eq_true_eq] at h2
      exact ⟨b, h1, h2.1, h2.2, rfl⟩
    · rintro ⟨x, h1, h2, h3, rfl⟩
      exact ⟨s, x, ⟨h1, by simp [h2, h3]⟩, rfl, rfl⟩

theorem isFractions_perm {vac : ℕ → Bool} {sites : ℚ} {sp : List ℕ} (h : sp.Nodup) {n : List ℚ}
    {c : List (ℕ × ℚ)} (hc : IsFractions vac sp sites n c) :
    c.Perm (canonFractions vac sites (sp.zip n)) := by
  have h' := canon_isFractions (vac := vac) (sites := sites) h n
  rw [List.perm_ext_iff_of_nodup hc.keys.of_map h'.keys.of_map]
  rintro ⟨s, v⟩
  rw [hc.mem, h'.mem]

theorem zip_mem_right {sp : List ℕ} {n : List ℚ} {e : ℕ × ℚ} (h : e ∈ sp.zip n) : e.2 ∈ n :=
  (List.of_mem_zip h).2

/-- Sum over the non-vacancies. -/
def nonVac (vac : ℕ → Bool) (l : List (ℕ × ℚ)) : ℚ :=
  (l.map fun e => if vac e.1 then 0 else e.2).sum

theorem canon_numAtoms {vac : ℕ → Bool} {sites : ℚ} (hs : 0 < sites) (l : List (ℕ × ℚ))
    (h0 : ∀ e ∈ l, 0 ≤ e.2) :
    Comp.numAtoms (canonFractions vac sites l) = nonVac vac l / sites := by
  induction l with
  | nil => simp [canonFractions, Comp.numAtoms, nonVac]
  | cons e l ih =>
    have ih := ih fun x hx => h0 x (List.mem_cons_of_mem _ hx)
    have he := h0 e (List.mem_cons_self ..)
    simp only [canonFractions, Comp.numAtoms, nonVac] at ih ⊢
    by_cases hv : vac e.1 = true
    · rw [List.filter_cons_of_neg (by simp [hv]), ih, List.map_cons, List.sum_cons]
      simp [hv]
    · by_cases hx : e.2 = 0
      · rw [List.filter_cons_of_neg (by simp [hx]), ih, List.map_cons, List.sum_cons]
        simp [hx]
      · rw [List.filter_cons_of_pos (by simp [hv, hx]), List.map_cons, List.map_cons, List.sum_cons, ih,
          List.map_cons, List.sum_cons, if_neg hv, abs_of_nonneg (div_nonneg he hs.le)]
        ring

theorem isFractions_numAtoms {vac : ℕ → Bool} {sites : ℚ} (hs : 0 < sites) {sp : List ℕ} (h : sp.Nodup)
    {n : List ℚ} (h0 : ∀ x ∈ n, 0 ≤ x) {c : List (ℕ × ℚ)} (hc : IsFractions vac sp sites n c) :
    Comp.numAtoms c = nonVac vac (sp.zip n) / sites := by
  rw [← canon_numAtoms hs _ fun e he => h0 _ (zip_mem_right he)]
  exact ((isFractions_perm h hc).map _).sum_eq

theorem isFractions_novac {vac : ℕ → Bool} {sites : ℚ} {sp : List ℕ}
    {n : List ℚ} {c : List (ℕ × ℚ)} (hc : IsFractions vac sp sites n c) :
    (c.filter fun e => ¬ vac e.1) = c := by
  rw [List.filter_eq_self]
  rintro ⟨s, v⟩ he
  obtain ⟨x, -, h2, -⟩ := (hc.mem s v).1 he
  simp [h2]

theorem amount_of_mem {c : Comp} (hk : (c.map Prod.fst).Nodup) {s : ℕ} {v : ℚ} (h : (s, v) ∈ c) :
    c.amount s = v := by
  induction c with
  | nil => simp at h
  | cons e c ih =>
    rw [List.map_cons, List.nodup_cons] at hk
    unfold Comp.amount
    rcases List.mem_cons.1 h with rfl | h
    · simp
    · have : e.1 ≠ s := by
        rintro rfl
        exact hk.1 (List.mem_map.2 ⟨_, h, rfl⟩)
      rw [List.find?_cons_of_neg (by simpa using this)]
      exact ih hk.2 h

theorem amount_of_not_mem {c : Comp} {s : ℕ} (h : ∀ v, (s, v) ∉ c) : c.amount s = 0 := by
  unfold Comp.amount
  rw [List.find?_eq_none.2]
  · rfl
  · rintro ⟨a, v⟩ he
    simp only [decide_eq_true_eq]
    rintro rfl
    exact h v he

theorem isFractions_amount {vac : ℕ → Bool} {sites : ℚ} {sp : List ℕ} (h : sp.Nodup)
    {n : List ℚ} {c : List (ℕ × ℚ)} (hc : IsFractions vac sp sites n c) {s : ℕ} {x : ℚ}
    (hm : (s, x) ∈ sp.zip n) (hv : vac s = false) : Comp.amount c s = x / sites := by
  by_cases hx : x = 0
  · subst hx
    rw [zero_div]
    apply amount_of_not_mem
    intro v hv'
    obtain ⟨y, h1, -, h3, -⟩ := (hc.mem s v).1 hv'
    exact h3 (zip_unique h h1 hm)
  · exact amount_of_mem hc.keys ((hc.mem s _).2 ⟨x, hm, hv, hx, rfl⟩)

theorem nonVac_le {vac : ℕ → Bool} (l : List (ℕ × ℚ)) (h0 : ∀ e ∈ l, 0 ≤ e.2) :
    0 ≤ nonVac vac l ∧ nonVac vac l ≤ (l.map Prod.snd).sum := by
  induction l with
  | nil => simp [nonVac]
  | cons e l ih =>
    obtain ⟨i1, i2⟩ := ih fun x hx => h0 x (List.mem_cons_of_mem _ hx)
    have he := h0 e (List.mem_cons_self ..)
    simp only [nonVac, List.map_cons, List.sum_cons] at *
    split_ifs
    · constructor <;> linarith
    · constructor <;> linarith

/-- With at most one vacancy in the list, its amount is what is missing. -/
theorem vac_amount {vac : ℕ → Bool} (l : List (ℕ × ℚ)) (h1 : l.countP (fun e => vac e.1) ≤ 1)
    {e : ℕ × ℚ} (he : e ∈ l) (hv : vac e.1 = true) :
    (l.map Prod.snd).sum - nonVac vac l = e.2 := by
  induction l with
  | nil => simp at he
  | cons a l ih =>
    simp only [nonVac, List.map_cons, List.sum_cons] at *
    rcases List.mem_cons.1 he with rfl | he'
    · rw [List.countP_cons_of_pos (by simpa using hv)] at h1
      have h0 : l.countP (fun e => vac e.1) = 0 := by omega
      rw [List.countP_eq_zero] at h0
      have : (l.map fun e => if vac e.1 then 0 else e.2) = l.map Prod.snd :=
        List.map_congr_left fun x hx => by simp [h0 x hx]
      rw [this, if_pos hv]
      ring
    · by_cases ha : vac a.1 = true
      · rw [List.countP_cons_of_pos (by simpa using ha)] at h1
        have h0 : l.countP (fun e => vac e.1) = 0 := by omega
        rw [List.countP_eq_zero] at h0
        exact absurd hv (h0 _ he')
      · rw [List.countP_cons_of_neg (by simpa using ha)] at h1
        have := ih h1 he'
        rw [if_neg ha]
        linarith

theorem map_snd_zip' {sp : List ℕ} {n : List ℚ} (h : sp.length = n.length) :
    (sp.zip n).map Prod.snd = n := by
  rw [List.map_snd_zip]
  omega

theorem map_fst_zip' {sp : List ℕ} {n : List ℚ} (h : sp.length = n.length) :
    (sp.zip n).map Prod.fst = sp := by
  rw [List.map_fst_zip]
  omega

/-- Counts of a sublattice from any table giving its fractions. -/
theorem sublatticeCounts_spec {vac : ℕ → Bool} {sites : ℚ} (hs : 0 < sites) {sp : List ℕ} (h : sp.Nodup)
    (hvac : sp.countP vac ≤ 1) {n : List ℚ} (hl : sp.length = n.length) (h0 : ∀ x ∈ n, 0 ≤ x)
    (hsum : n.sum = sites) {c : List (ℕ × ℚ)} (hc : IsFractions vac sp sites n c) :
    sublatticeCounts vac sp sites c = some n := by
  have hz : ∀ e ∈ sp.zip n, 0 ≤ e.2 := fun e he => h0 _ (zip_mem_right he)
  have hle := nonVac_le (vac := vac) (sp.zip n) hz
  rw [map_snd_zip' hl, hsum] at hle
  have hna := isFractions_numAtoms hs h h0 hc
  unfold sublatticeCounts
  rw [if_neg, if_neg (by omega), isFractions_novac hc, hna]
  · congr 1
    have : ∀ e ∈ sp.zip n, (if vac e.1 = true then (1 - nonVac vac (sp.zip n) / sites) * sites
        else Comp.amount c e.1 * sites) = e.2 := by
      rintro ⟨s, x⟩ he
      split_ifs with hv
      · have hcount : (sp.zip n).countP (fun e => vac e.1) ≤ 1 := by
          have e1 : (sp.zip n).countP (fun e => vac e.1) = ((sp.zip n).map Prod.fst).countP vac := by
            rw [List.countP_map]; rfl
          rw [e1, map_fst_zip' hl]
          exact hvac
        have := vac_amount (sp.zip n) hcount he hv
        rw [map_snd_zip' hl, hsum] at this
        simp only at this ⊢
        rw [← this]
        field_simp
      · rw [isFractions_amount h hc he (by simpa using hv)]
        simp only
        field_simp
    calc sp.map _ = ((sp.zip n).map Prod.fst).map _ := by rw [map_fst_zip' hl]
      _ = (sp.zip n).map Prod.snd := by
        rw [List.map_map]
        exact List.map_congr_left fun e he => this e he
      _ = n := map_snd_zip' hl
  · rw [hna]
    push Not
    exact ⟨by rw [div_le_one hs]; exact hle.2, div_nonneg hle.1 hs.le⟩

/-- The table computed from counts. -/
theorem sublatticeComp_spec {vac : ℕ → Bool} {sites atol : ℚ} (hs : 0 < sites) (ha : 0 < atol)
    {sp : List ℕ} (h : sp.Nodup) {n : List ℚ} (h0 : ∀ x ∈ n, 0 ≤ x)
    (hgap : ∀ x ∈ n, x = 0 ∨ atol * sites ≤ x) :
    ∃ c, sublatticeComp vac atol sp sites n = some c ∧ IsFractions vac sp sites n c := by
  refine ⟨canonFractions vac sites (sp.zip n), ?_, canon_isFractions h n⟩
  unfold sublatticeComp Comp.make
  have hzip : sp.zip (n.map fun x => x / sites) = (sp.zip n).map fun e => (e.1, e.2 / sites) := by
    rw [List.zip_map_right]
    rfl
  rw [if_neg, hzip]
  · congr 1
    unfold canonFractions
    rw [List.filter_map, List.filter_map, List.filter_filter]
    congr 1
    apply List.filter_congr
    rintro ⟨s, x⟩ he
    have hx := h0 _ (zip_mem_right he)
    simp only [Function.comp_apply]
    rw [abs_of_nonneg (div_nonneg hx hs.le)]
    have hiff : (atol ≤ x / sites) ↔ x ≠ 0 := by
      rw [le_div_iff₀ hs]
      rcases hgap _ (zip_mem_right he) with h | h
      · simp only at h
        subst h
        simp [mul_pos ha hs]
      · simp only at h
        exact ⟨fun _ hx => by rw [hx] at h; exact absurd h (not_le.2 (mul_pos ha hs)), fun _ => h⟩
    by_cases hv : vac s = true <;> simp [hv, hiff]
  · simp only [List.any_eq_true, decide_eq_true_eq, not_exists, not_and, not_lt]
    intro e he
    have := List.of_mem_zip (List.mem_filter.1 he).1
    obtain ⟨x, hx, hx'⟩ := List.mem_map.1 this.2
    rw [← hx']
    have := div_nonneg (h0 x hx) hs.le
    linarith

/-! ### Slices -/

/-- `n[dim_id]` for all sublattices. -/
theorem slices (spaces : List (List ℕ)) (ns : List (List ℚ)) (pre : List ℚ)
    (h : List.Forall₂ (fun sp n => sp.length = n.length) spaces ns) :
    (dimIdsFrom pre.length spaces).map (fun ids => ids.map fun i => (pre ++ ns.flatten).getD i 0) = ns := by
  induction h generalizing pre with
  | nil => rfl
  | @cons sp n spaces ns h1 h2 ih =>
    rw [dimIdsFrom, List.map_cons]
    congr 1
    · apply List.ext_getElem
      · simp [h1]
      · intro i hi hi'
        simp only [List.getElem_map, List.getElem_range', List.flatten_cons]
        rw [List.getD_eq_getElem?_getD, List.getElem?_append_right (by omega),
          List.getElem?_append_left (by omega)]
        simp [List.getElem?_eq_getElem hi']
    · have := ih (pre ++ n)
      rw [List.length_append, ← h1] at this
      rw [List.flatten_cons, ← List.append_assoc]
      exact this

end Smol
