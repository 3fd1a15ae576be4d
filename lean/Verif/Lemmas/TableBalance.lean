import Verif.Lemmas.TableOutcome

/-! Proposal probabilities of the table-flip usher in both directions. -/

namespace Smol
open Prog Spec

/-! ### Directions and mask -/

/-- the direction with index `idx` as a list -/
def TableFlipper.dirList (t : TableFlipper) (idx : ℕ) : List ℤ :=
  if idx % 2 = 1 then (t.table.getD (idx / 2) []).map fun x => -x else t.table.getD (idx / 2) []

theorem direction_eq (t : TableFlipper) (idx d : ℕ) :
    t.direction idx d = (t.dirList idx).getD d 0 := by
  unfold TableFlipper.direction TableFlipper.dirList
  split_ifs
  · simp only [List.getD_eq_getElem?_getD, List.getElem?_map]
    cases (t.table[idx / 2]?.getD [])[d]? <;> simp
  · rfl

theorem flipDirections_length (table : List (List ℤ)) :
    (flipDirections table).length = 2 * table.length := by
  unfold flipDirections
  induction table with
  | nil => rfl
  | cons u table ih => simp [ih]; ring

theorem flipDirections_get (table : List (List ℤ)) (idx : ℕ) (h : idx < 2 * table.length) :
    (flipDirections table)[idx]? =
      some (if idx % 2 = 1 then (table.getD (idx / 2) []).map fun x => -x
        else table.getD (idx / 2) []) := by
  induction table generalizing idx with
  | nil => simp at h
  | cons u table ih =>
    have hc : flipDirections (u :: table) = [u, u.map fun x => -x] ++ flipDirections table := by
      simp [flipDirections]
    rw [hc]
    rcases Nat.lt_or_ge idx 2 with h2 | h2
    · have : idx = 0 ∨ idx = 1 := by omega
      rcases this with rfl | rfl <;> simp
    · rw [List.getElem?_append_right (by simpa using h2)]
      have := ih (idx - 2) (by simp at h; omega)
      simp only [List.length_cons, List.length_nil] at this ⊢
      rw [this]
      have e1 : (idx - 2) % 2 = idx % 2 := by omega
      have e2 : idx / 2 = (idx - 2) / 2 + 1 := by omega
      rw [e1, e2, List.getD_cons_succ]

/-- one direction is allowed: every count stays between 0 and its maximum -/
theorem mask_iff (v : List ℤ) (n m : List ℕ) (h1 : v.length = n.length) (h2 : n.length = m.length) :
    (!((List.zipWith (fun (a : ℤ) (b : ℕ) => a + b) v n).any (fun x => decide (x < 0)) ||
      (List.zipWith (fun (x : ℤ) (m : ℕ) => decide (x > m))
        (List.zipWith (fun (a : ℤ) (b : ℕ) => a + b) v n) m).any id)) = true ↔
      ∀ d < v.length, 0 ≤ (n.getD d 0 : ℤ) + v.getD d 0 ∧
        (n.getD d 0 : ℤ) + v.getD d 0 ≤ m.getD d 0 := by
  induction v generalizing n m with
  | nil => simp
  | cons a v ih =>
    match n, m with
    | [], _ => simp at h1
    | b :: n, [] => simp at h2
    | b :: n, c :: m =>
      have := ih n m (by simpa using h1) (by simpa using h2)
      simp only [Bool.not_eq_true', Bool.or_eq_false_iff] at this
      simp only [List.zipWith_cons_cons, List.any_cons, Bool.not_eq_true', Bool.or_eq_false_iff,
        decide_eq_false_iff_not, id]
      have key : ((¬ a + (b : ℤ) < 0 ∧
          (List.zipWith (fun (a : ℤ) (b : ℕ) => a + b) v n).any (fun x => decide (x < 0)) = false) ∧
          ¬ a + (b : ℤ) > c ∧ (List.zipWith (fun (x : ℤ) (m : ℕ) => decide (x > m))
            (List.zipWith (fun (a : ℤ) (b : ℕ) => a + b) v n) m).any id = false) ↔
          (0 ≤ (b : ℤ) + a ∧ (b : ℤ) + a ≤ c) ∧ ∀ d < v.length,
            0 ≤ (n.getD d 0 : ℤ) + v.getD d 0 ∧ (n.getD d 0 : ℤ) + v.getD d 0 ≤ m.getD d 0 := by
        rw [← this]
        constructor
        · rintro ⟨⟨h, h'⟩, h'', h'''⟩; exact ⟨⟨by omega, by omega⟩, h', h'''⟩
        · rintro ⟨⟨h, h'⟩, h'', h'''⟩; exact ⟨⟨by omega, h''⟩, by omega, h'''⟩
      rw [key]
      constructor
      · rintro ⟨h, h'⟩ d hd
        cases d with
        | zero => simpa using h
        | succ d => simpa using h' d (by simpa using hd)
      · intro h
        refine ⟨by simpa using h 0 (by simp), fun d hd => ?_⟩
        simpa using h (d + 1) (by simpa using hd)

theorem flipWeightsMask_get (table : List (List ℤ)) (n m : List ℕ)
    (hrows : ∀ u ∈ table, u.length = n.length) (hm : n.length = m.length) (idx : ℕ)
    (hidx : idx < 2 * table.length) :
    ∃ b, (flipWeightsMask table n m)[idx]? = some b ∧
      (b = true ↔ ∀ d < n.length,
        0 ≤ (n.getD d 0 : ℤ) +
          (if idx % 2 = 1 then (table.getD (idx / 2) []).map fun x => -x
            else table.getD (idx / 2) []).getD d 0 ∧
        (n.getD d 0 : ℤ) +
          (if idx % 2 = 1 then (table.getD (idx / 2) []).map fun x => -x
            else table.getD (idx / 2) []).getD d 0 ≤ m.getD d 0) := by
  unfold flipWeightsMask
  rw [List.getElem?_map, flipDirections_get table idx hidx, Option.map_some]
  refine ⟨_, rfl, ?_⟩
  have hl : idx / 2 < table.length := by omega
  have hu : (table.getD (idx / 2) []).length = n.length := by
    rw [List.getD_eq_getElem?_getD, List.getElem?_eq_getElem hl, Option.getD_some]
    exact hrows _ (List.getElem_mem hl)
  have hv : (if idx % 2 = 1 then (table.getD (idx / 2) []).map fun x => -x
      else table.getD (idx / 2) []).length = n.length := by
    split_ifs
    · rw [List.length_map, hu]
    · exact hu
  rw [mask_iff _ n m hv hm, hv]

/-- the direction may be taken from counts `c` -/
def TableFlipper.Feas (t : TableFlipper) (c : List ℕ) (idx : ℕ) : Prop :=
  ∀ d < t.d, 0 ≤ (c.getD d 0 : ℤ) + t.direction idx d ∧
    (c.getD d 0 : ℤ) + t.direction idx d ≤ t.maxN.getD d 0

/-- weights after masking, constraints aside -/
def TableFlipper.mw (t : TableFlipper) (c : List ℕ) : List ℚ :=
  List.zipWith (fun w m => if m then w else 0) t.weights (flipWeightsMask t.table c t.maxN)

theorem mw_length {t : TableFlipper} {n : ℕ} (h : TableOk t n) (c : List ℕ) :
    (t.mw c).length = 2 * t.table.length := by
  rw [TableFlipper.mw, List.length_zipWith, h.weights, flipWeightsMask, List.length_map,
    flipDirections_length, min_self]

open Classical in
theorem mw_get {t : TableFlipper} {n : ℕ} (h : TableOk t n) (c : List ℕ) (hc : c.length = t.d)
    (idx : ℕ) (hidx : idx < 2 * t.table.length) :
    (t.mw c).getD idx 0 = if t.Feas c idx then t.weights.getD idx 0 else 0 := by
  obtain ⟨b, hb, hiff⟩ := flipWeightsMask_get t.table c t.maxN
    (fun u hu => by rw [h.rows u hu, hc]) hc idx hidx
  have hw : idx < t.weights.length := by rw [h.weights]; exact hidx
  have hb' : b = true ↔ t.Feas c idx := by
    rw [hiff, hc]
    unfold TableFlipper.Feas
    simp only [direction_eq, TableFlipper.dirList]
  rw [TableFlipper.mw, List.getD_eq_getElem?_getD, List.getElem?_zipWith, hb,
    List.getElem?_eq_getElem hw, List.getD_eq_getElem?_getD, List.getElem?_eq_getElem hw]
  simp only [Option.getD_some]
  by_cases hf : t.Feas c idx
  · rw [if_pos hf, if_pos (hb'.2 hf)]
  · rw [if_neg hf, if_neg (fun h' => hf (hb'.1 h'))]

/-! ### Counts -/

theorem blocks_cover (sls : List Sublattice) (d0 : ℕ)
    (hlen : ∀ sl ∈ sls, sl.species.length = sl.encoding.length) :
    (sls.zip (getDimIdsBySublattice (sls.map Sublattice.species) d0)).flatMap
      (fun b => (b.2.zip b.1.encoding).map Prod.fst) =
      (List.range (countDimensions true sls).length).map (· + d0) := by
  induction sls generalizing d0 with
  | nil => simp [countDimensions]
  | cons sl sls ih =>
    have hl := hlen sl (by simp)
    rw [List.map_cons, getDimIdsBySublattice, List.zip_cons_cons, List.flatMap_cons,
      ih _ fun s hs => hlen s (by simp [hs])]
    have hcd : countDimensions true (sl :: sls) =
        (sl.encoding.map fun c => (sl.active, c)) ++ countDimensions true sls := by
      simp [countDimensions]
    rw [hcd, List.length_append, List.length_map, List.range_add, List.map_append, List.map_map]
    congr 1
    · rw [List.map_fst_zip (by simp [hl]), hl]
    · apply List.map_congr_left
      intro a _
      simp only [Function.comp]
      omega

/-- a dimension and the block it belongs to -/
theorem TableOk.dim_block {t : TableFlipper} {n : ℕ} (h : TableOk t n) (d : ℕ) (hd : d < t.d) :
    ∃ b ∈ t.sls.zip t.dimIds, ∃ p ∈ b.2.zip b.1.encoding, p.1 = d := by
  have := blocks_cover t.sls 0 h.len
  rw [h.d_eq] at this
  have hm : d ∈ (List.range t.d).map (· + 0) := by simpa using hd
  rw [← this, List.mem_flatMap] at hm
  obtain ⟨b, hb, hm⟩ := hm
  obtain ⟨p, hp, hpd⟩ := List.mem_map.1 hm
  exact ⟨b, hb, p, hp, hpd⟩

/-- what is known of a block -/
theorem TableOk.block_dims {t : TableFlipper} {n : ℕ} (h : TableOk t n) :
    ∀ b ∈ t.sls.zip t.dimIds, b.1 ∈ t.sls ∧ ∀ p ∈ b.2.zip b.1.encoding, p.1 < t.d ∧
      (∀ x, (countVec true t.sls x).getD p.1 0 = holding b.1 x p.2) ∧
      t.maxN.getD p.1 0 = b.1.active.length := by
  intro b hb
  obtain ⟨h1, h2, h3, h4⟩ := blocks_shape true t.sls 0 h.len b hb
  refine ⟨h1, fun p hp => ?_⟩
  have hcd : (countDimensions true t.sls)[p.1]? = some (b.1.active, p.2) := by
    simpa [Sublattice.tableSites] using (h4 p hp).2
  refine ⟨?_, ?_, ?_⟩
  · rw [← h.d_eq true]
    by_contra hh
    rw [List.getElem?_eq_none (by omega)] at hcd
    cases hcd
  · intro x
    rw [countVec, List.getD_eq_getElem?_getD, List.getElem?_map, hcd]
    rfl
  · rw [h.maxN, List.getD_eq_getElem?_getD, tableMaxN_get t.sls h.len _ _ _ hcd]
    rfl

theorem holding_change (sl : Sublattice) (x y : Occ) (c : ℕ) :
    (holding sl y c : ℤ) + (sl.active.filter fun s => decide (x s = c ∧ y s ≠ c)).length =
      holding sl x c + (sl.active.filter fun s => decide (x s ≠ c ∧ y s = c)).length := by
  unfold holding
  induction sl.active with
  | nil => simp
  | cons a l ih =>
    simp only [List.filter_cons]
    by_cases h1 : x a = c <;> by_cases h2 : y a = c <;>
      simp only [h1, h2, beq_self_eq_true, beq_iff_eq, ne_eq, not_true_eq_false, not_false_eq_true,
        and_true, and_false, decide_true, decide_false, if_true, if_false, List.length_cons,
        Bool.false_eq_true] at ih ⊢ <;> push_cast <;> omega

/-- the step of direction `u` can lead from `x` to `y` -/
def TableFlipper.Leads (t : TableFlipper) (x y : Occ) (u : ℕ → ℤ) : Prop :=
  (∀ s, (∀ sl ∈ t.sls, s ∉ sl.active) → x s = y s) ∧
    ∀ b ∈ t.sls.zip t.dimIds, b.1.isActive = true → Compat x y u b.1 b.2

theorem leads_symm {t : TableFlipper} {x y : Occ} {u u' : ℕ → ℤ} (hu : ∀ d, u' d = -u d)
    (h : t.Leads x y u) : t.Leads y x u' := by
  refine ⟨fun s hs => (h.1 s hs).symm, fun b hb hact p hp => ?_⟩
  obtain ⟨h1, h2⟩ := h.2 b hb hact p hp
  rw [hu]
  refine ⟨?_, ?_⟩
  · rw [neg_neg, ← h2]
    congr 1
    apply List.filter_congr
    intro s _
    simp [and_comm]
  · rw [← h1]
    congr 1
    apply List.filter_congr
    intro s _
    simp [and_comm]

/-- the direction is the change of the counts -/
theorem leads_delta {t : TableFlipper} {n : ℕ} (h : TableOk t n) {x y : Occ} {idx : ℕ}
    (hf : t.Feas (countVec true t.sls x) idx) (hl : t.Leads x y (t.direction idx)) :
    ∀ d < t.d, ((countVec true t.sls y).getD d 0 : ℤ) =
      (countVec true t.sls x).getD d 0 + t.direction idx d := by
  intro d hd
  obtain ⟨b, hb, p, hp, rfl⟩ := h.dim_block d hd
  obtain ⟨hsl, hall⟩ := h.block_dims b hb
  obtain ⟨_, hc, hm⟩ := hall p hp
  rw [hc, hc]
  by_cases hact : b.1.isActive = true
  · obtain ⟨h1, h2⟩ := hl.2 b hb hact p hp
    have := holding_change b.1 x y p.2
    rw [h1, h2] at this
    omega
  · have he : b.1.active = [] := by simpa [Sublattice.isActive] using hact
    have hfd := hf p.1 hd
    rw [hc, hm, he] at hfd
    unfold holding at hfd ⊢
    rw [he] at hfd ⊢
    simp only [List.filter_nil, List.length_nil, Nat.cast_zero, zero_add] at hfd ⊢
    omega

end Smol
