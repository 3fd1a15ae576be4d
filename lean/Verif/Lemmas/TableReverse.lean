import Verif.Lemmas.TableBalance

/-! The reverse of a table step and its probability. -/

namespace Smol
open Prog Spec

/-- index of the opposite direction -/
def revIdx (idx : ℕ) : ℕ := idx / 2 * 2 + (1 - idx % 2)

theorem revIdx_revIdx (idx : ℕ) : revIdx (revIdx idx) = idx := by unfold revIdx; omega

theorem revIdx_lt {idx k : ℕ} (h : idx < 2 * k) : revIdx idx < 2 * k := by unfold revIdx; omega

theorem direction_rev (t : TableFlipper) (idx d : ℕ) :
    t.direction (revIdx idx) d = -t.direction idx d := by
  unfold TableFlipper.direction
  have h1 : revIdx idx / 2 = idx / 2 := by unfold revIdx; omega
  rw [h1]
  by_cases h : idx % 2 = 1
  · have : ¬ revIdx idx % 2 = 1 := by unfold revIdx; omega
    rw [if_pos h, if_neg this, neg_neg]
  · have : revIdx idx % 2 = 1 := by unfold revIdx; omega
    rw [if_neg h, if_pos this]

theorem holding_le (sl : Sublattice) (x : Occ) (c : ℕ) : holding sl x c ≤ sl.active.length :=
  List.length_filter_le _ _

theorem feas_rev {t : TableFlipper} {n : ℕ} (h : TableOk t n) {x y : Occ} {idx : ℕ}
    (hf : t.Feas (countVec true t.sls x) idx) (hl : t.Leads x y (t.direction idx)) :
    t.Feas (countVec true t.sls y) (revIdx idx) := by
  intro d hd
  have hdel := leads_delta h hf hl d hd
  rw [direction_rev, hdel]
  obtain ⟨b, hb, p, hp, rfl⟩ := h.dim_block d hd
  obtain ⟨_, hc, hm⟩ := (h.block_dims b hb).2 p hp
  have := holding_le b.1 x p.2
  rw [hc, hm]
  omega

theorem leads_rev {t : TableFlipper} {x y : Occ} {idx : ℕ}
    (h : t.Leads x y (t.direction idx)) : t.Leads y x (t.direction (revIdx idx)) :=
  leads_symm (direction_rev t idx) h

/-- probability of the step of direction `u` leading to a compatible state -/
noncomputable def TableFlipper.tval (t : TableFlipper) (x : Occ) (u : ℕ → ℤ) : ℝ :=
  (((t.sls.zip t.dimIds).filter fun b => b.1.isActive).map fun b => cval x u b.1 b.2).prod

theorem prod_filter_one {α : Type} (l : List α) (p : α → Bool) (f : α → ℝ)
    (h : ∀ a ∈ l, p a = false → f a = 1) : ((l.filter p).map f).prod = (l.map f).prod := by
  induction l with
  | nil => rfl
  | cons a l ih =>
    have ih := ih fun b hb => h b (by simp [hb])
    cases hp : p a
    · rw [List.filter_cons_of_neg (by simp [hp]), ih, List.map_cons, List.prod_cons,
        h a (by simp) hp, one_mul]
    · rw [List.filter_cons_of_pos hp, List.map_cons, List.map_cons, List.prod_cons, List.prod_cons,
        ih]

theorem prod_flatMap {α β : Type} (l : List α) (g : α → List β) (f : β → ℝ) :
    ((l.flatMap g).map f).prod = (l.map fun a => ((g a).map f).prod).prod := by
  induction l with
  | nil => rfl
  | cons a l ih => simp [ih]

theorem prod_map_mul' {α : Type} (l : List α) (f g : α → ℝ) :
    (l.map fun a => f a * g a).prod = (l.map f).prod * (l.map g).prod := by
  induction l with
  | nil => simp
  | cons a l ih => simp [ih]; ring

theorem sum_toNat_sub {α : Type} (l : List α) (u : α → ℤ) :
    ((l.map fun a => (u a).toNat).sum : ℤ) - ((l.map fun a => (-(u a)).toNat).sum : ℕ) =
      (l.map u).sum := by
  induction l with
  | nil => rfl
  | cons a l ih => simp only [List.map_cons, List.sum_cons, Nat.cast_add]; omega

/-- as many sites leave their species as arrive, sublattice by sublattice -/
theorem block_balance {x y : Occ} {sl : Sublattice} {dims : List ℕ} {u : ℕ → ℤ}
    (hx : ∀ s ∈ sl.active, x s ∈ sl.encoding) (hy : ∀ s ∈ sl.active, y s ∈ sl.encoding)
    (hlen : dims.length = sl.encoding.length) (henc : sl.encoding.Nodup)
    (hu : ∀ p ∈ dims.zip sl.encoding, (holding sl y p.2 : ℤ) = holding sl x p.2 + u p.1) :
    ((dims.zip sl.encoding).map fun p => (u p.1).toNat).sum =
      ((dims.zip sl.encoding).map fun p => (-(u p.1)).toNat).sum := by
  have h1 := sum_toNat_sub (dims.zip sl.encoding) fun p => u p.1
  have h2 : ((dims.zip sl.encoding).map fun p => u p.1).sum = 0 := by
    have e : ((dims.zip sl.encoding).map fun p => u p.1) =
        (dims.zip sl.encoding).map fun p => (holding sl y p.2 : ℤ) - holding sl x p.2 := by
      apply List.map_congr_left
      intro p hp
      rw [hu p hp]; ring
    have e2 : ((dims.zip sl.encoding).map fun p => (holding sl y p.2 : ℤ) - holding sl x p.2) =
        sl.encoding.map fun c => (holding sl y c : ℤ) - holding sl x c := by
      have : sl.encoding = (dims.zip sl.encoding).map Prod.snd := by
        rw [List.map_snd_zip (by omega)]
      nth_rw 2 [this]
      rw [List.map_map]
      rfl
    rw [e, e2]
    have hX := length_eq_sum_codes sl.active x sl.encoding henc hx
    have hY := length_eq_sum_codes sl.active y sl.encoding henc hy
    have : ∀ l : List ℕ, (l.map fun c => (holding sl y c : ℤ) - holding sl x c).sum =
        ((l.map fun c => (sl.active.filter fun s => y s == c).length).sum : ℕ) -
        ((l.map fun c => (sl.active.filter fun s => x s == c).length).sum : ℕ) := by
      intro l
      induction l with
      | nil => simp
      | cons a l ih =>
        simp only [List.map_cons, List.sum_cons]
        rw [ih]; unfold holding; push_cast; ring
    rw [this, ← hX, ← hY]; ring
  omega

theorem tval_rev {t : TableFlipper} {n : ℕ} (h : TableOk t n) {x y : Occ}
    (hx : FullLegal t.sls x) (hy : FullLegal t.sls y) {idx : ℕ}
    (hf : t.Feas (countVec true t.sls x) idx) (hl : t.Leads x y (t.direction idx)) :
    t.tval x (t.direction idx) * ((List.range t.d).map fun d =>
        (((countVec true t.sls x).getD d 0).factorial : ℝ) /
          (((countVec true t.sls y).getD d 0).factorial : ℝ)).prod =
      t.tval y (t.direction (revIdx idx)) := by
  set f : ℕ → ℝ := fun d => (((countVec true t.sls x).getD d 0).factorial : ℝ) /
          (((countVec true t.sls y).getD d 0).factorial : ℝ) with hfdef
  have hprod : ((List.range t.d).map f).prod =
      ((t.sls.zip t.dimIds).map fun b => ((b.2.zip b.1.encoding).map fun p => f p.1).prod).prod := by
    have hc := blocks_cover t.sls 0 h.len
    rw [h.d_eq] at hc
    have : List.range t.d = (List.range t.d).map (· + 0) := by simp
    rw [this, ← hc, prod_flatMap]
    simp only [List.map_map]
    rfl
  rw [hprod, ← prod_filter_one (t.sls.zip t.dimIds) (fun b => b.1.isActive)]
  · unfold TableFlipper.tval
    rw [← prod_map_mul']
    congr 1
    apply List.map_congr_left
    intro b hb
    rw [List.mem_filter] at hb
    obtain ⟨hb, hact⟩ := hb
    obtain ⟨hsl, hall⟩ := h.block_dims b hb
    obtain ⟨_, hlen, _, _⟩ := blocks_shape true t.sls 0 h.len b hb
    have hd : ∀ p ∈ b.2.zip b.1.encoding,
        (holding b.1 y p.2 : ℤ) = holding b.1 x p.2 + t.direction idx p.1 := by
      intro p hp
      obtain ⟨h1, h2, _⟩ := hall p hp
      rw [← h2, ← h2]
      exact leads_delta h hf hl p.1 h1
    have hbal := block_balance (fun s hs => hx _ hsl s (h.sls.active _ hsl s hs))
      (fun s hs => hy _ hsl s (h.sls.active _ hsl s hs)) hlen (h.sls.encoding _ hsl).1 hd
    unfold cval
    have hden : ((b.2.zip b.1.encoding).map fun p => (t.direction (revIdx idx) p.1).toNat).sum =
        ((b.2.zip b.1.encoding).map fun p => (t.direction idx p.1).toNat).sum := by
      rw [hbal]; simp only [direction_rev]
    rw [hden, div_mul_eq_mul_div, ← prod_map_mul']
    congr 2
    apply List.map_congr_left
    intro p hp
    obtain ⟨h1, h2, _⟩ := hall p hp
    rw [hfdef]
    simp only [h2, direction_rev]
    exact gval_reverse _ _ _ (hd p hp)
  · intro b hb hact
    obtain ⟨hsl, hall⟩ := h.block_dims b hb
    have he : b.1.active = [] := by simpa [Sublattice.isActive] using hact
    apply List.prod_eq_one
    intro r hr
    obtain ⟨p, hp, rfl⟩ := List.mem_map.1 hr
    obtain ⟨_, h2, _⟩ := hall p hp
    rw [hfdef]
    simp only [h2, holding, he, List.filter_nil, List.length_nil]
    simp

/-! ### The probability that a table step leads to `y` -/

/-- Hypotheses on the table beyond construction. -/
structure TableRows (t : TableFlipper) : Prop where
  nonzero : ∀ u ∈ t.table, ∃ z ∈ u, z ≠ 0
  distinct : ∀ (i j : ℕ) (u v : List ℤ), t.table[i]? = some u → t.table[j]? = some v →
    (u = v ∨ u = v.map fun x => -x) → i = j
  conserve : ∀ row ∈ t.A, ∀ u ∈ t.table, (List.zipWith (· * ·) row u).sum = 0
  nonneg : ∀ w ∈ t.weights, 0 ≤ w

theorem row_of_idx {t : TableFlipper} {idx : ℕ} (hi : idx < 2 * t.table.length) :
    t.table[idx / 2]? = some (t.table.getD (idx / 2) []) ∧ t.table.getD (idx / 2) [] ∈ t.table := by
  have hl : idx / 2 < t.table.length := by omega
  rw [List.getD_eq_getElem?_getD, List.getElem?_eq_getElem hl, Option.getD_some]
  exact ⟨rfl, List.getElem_mem hl⟩

theorem dirList_length {t : TableFlipper} {n : ℕ} (h : TableOk t n) {idx : ℕ}
    (hi : idx < 2 * t.table.length) : (t.dirList idx).length = t.d := by
  unfold TableFlipper.dirList
  have := h.rows _ (row_of_idx hi).2
  split_ifs
  · rw [List.length_map, this]
  · exact this

theorem ext_getD {l m : List ℤ} (h : l.length = m.length)
    (h' : ∀ d < l.length, l.getD d 0 = m.getD d 0) : l = m := by
  apply List.ext_getElem h
  intro i h1 h2
  have := h' i h1
  rwa [List.getD_eq_getElem?_getD, List.getD_eq_getElem?_getD, List.getElem?_eq_getElem h1,
    List.getElem?_eq_getElem h2, Option.getD_some, Option.getD_some] at this

theorem map_neg_neg (l : List ℤ) : (l.map fun x => -x).map (fun x => -x) = l := by
  rw [List.map_map]; simp

theorem dirList_nonzero {t : TableFlipper} (hr : TableRows t) {idx : ℕ}
    (hi : idx < 2 * t.table.length) : ¬ ∀ z ∈ t.dirList idx, z = 0 := by
  intro h0
  obtain ⟨z, hz, hne⟩ := hr.nonzero _ (row_of_idx hi).2
  unfold TableFlipper.dirList at h0
  split_ifs at h0
  · exact hne (neg_eq_zero.1 (h0 (-z) (List.mem_map.2 ⟨z, hz, rfl⟩)))
  · exact hne (h0 z hz)

theorem neg_eq_self_zero (l : List ℤ) (h : l = l.map fun x => -x) : ∀ z ∈ l, z = 0 := by
  induction l with
  | nil => simp
  | cons a l ih =>
    rw [List.map_cons, List.cons.injEq] at h
    intro z hz
    rcases List.mem_cons.1 hz with rfl | hz
    · omega
    · exact ih h.2 z hz

/-- two indices with the same direction are the same -/
theorem dirList_inj {t : TableFlipper} (hr : TableRows t) {i j : ℕ}
    (hi : i < 2 * t.table.length) (hj : j < 2 * t.table.length)
    (h : t.dirList i = t.dirList j) : i = j := by
  obtain ⟨ri, mi⟩ := row_of_idx hi
  obtain ⟨rj, mj⟩ := row_of_idx hj
  have hz := dirList_nonzero hr hi
  have hz' := dirList_nonzero hr hj
  unfold TableFlipper.dirList at h hz hz'
  by_cases h1 : i % 2 = 1 <;> by_cases h2 : j % 2 = 1
  · rw [if_pos h1, if_pos h2] at h
    have := hr.distinct _ _ _ _ ri rj (Or.inl (by
      have := congrArg (List.map fun x : ℤ => -x) h
      rwa [map_neg_neg, map_neg_neg] at this))
    omega
  · rw [if_pos h1, if_neg h2] at h
    have hh := hr.distinct _ _ _ _ rj ri (Or.inr h.symm)
    rw [hh] at h
    exfalso
    rw [if_neg h2] at hz'
    rw [hh] at hz'
    exact hz' (neg_eq_self_zero _ h.symm)
  · rw [if_neg h1, if_pos h2] at h
    have hh := hr.distinct _ _ _ _ ri rj (Or.inr h)
    rw [hh] at h
    exfalso
    rw [if_pos h2] at hz'
    rw [← h] at hz'
    exact hz' (neg_eq_self_zero _ h)
  · rw [if_neg h1, if_neg h2] at h
    have := hr.distinct _ _ _ _ ri rj (Or.inl h)
    omega

theorem dirList_eq_delta {t : TableFlipper} {n : ℕ} (h : TableOk t n) {x y : Occ} {idx : ℕ}
    (hi : idx < 2 * t.table.length)
    (hf : t.Feas (countVec true t.sls x) idx) (hl : t.Leads x y (t.direction idx)) :
    t.dirList idx = List.zipWith (fun (a b : ℕ) => (b : ℤ) - a) (countVec true t.sls x)
      (countVec true t.sls y) := by
  apply ext_getD
  · rw [dirList_length h hi, List.length_zipWith, countVec_length h, countVec_length h, min_self]
  · intro d hd
    rw [dirList_length h hi] at hd
    have := leads_delta h hf hl d hd
    rw [← direction_eq]
    have h1 : d < (countVec true t.sls x).length := by rw [countVec_length h]; exact hd
    have h2 : d < (countVec true t.sls y).length := by rw [countVec_length h]; exact hd
    rw [List.getD_eq_getElem?_getD, List.getElem?_zipWith]
    rw [List.getD_eq_getElem?_getD, List.getD_eq_getElem?_getD] at this
    rw [List.getElem?_eq_getElem h1, List.getElem?_eq_getElem h2] at this ⊢
    simp only [Option.getD_some] at this ⊢
    omega

end Smol
