import Verif.Lemmas.Balance
import Verif.Spec.Usher

namespace Smol
open Prog Spec

theorem expect_choose_const (g : Rng) {α : Type} (l : List α) (c : ℝ) :
    (choose g l).expect (fun _ => c) = if l = [] then 0 else c := by
  rw [expect_choose]
  split_ifs with h
  · simp [h]
  · have : (l.length : ℝ) ≠ 0 := by
      have := List.length_pos_iff.2 h
      positivity
    rw [List.map_const', List.sum_replicate, nsmul_eq_mul]
    field_simp

theorem flip_options_length (l : List ℕ) (c : ℕ) (h : c ∈ l) :
    (l.dedup.filter fun d => decide (d ≠ c)).length = l.dedup.length - 1 := by
  have : (l.dedup.filter fun d => decide (d ≠ c)) = l.dedup.erase c := by
    rw [(List.nodup_dedup l).erase_eq_filter]
    apply List.filter_congr
    intro x _
    by_cases hx : x = c <;> simp [hx]
  rw [this, List.length_erase_of_mem (List.mem_dedup.2 h)]

theorem update_mix (U : Finset ℕ) (x y : Occ) (s : ℕ) :
    Function.update (mix U y x) s (y s) = mix (U ∪ {s}) y x := by
  funext t
  by_cases ht : t = s
  · subst ht; simp [mix]
  · rw [Function.update_of_ne ht]; simp [mix, ht]

/-- expectation over the code of a flip of an unused site -/
theorem flip_code_expect (l : List ℕ) (U : Finset ℕ) (x y : Occ) (s : ℕ)
    (hy : y s ∈ l) (g : Rng) (κ : Occ → Finset ℕ → ℝ)
    (hκ : ∀ z V s, s ∈ V → z s ≠ y s → κ z V = 0) :
    ((choose g (l.dedup.filter fun c => decide (c ≠ x s))).expect fun c =>
      κ (Function.update (mix U y x) s c) (U ∪ {s})) =
    if x s = y s then 0
    else 1 / ((l.dedup.filter fun c => decide (c ≠ x s)).length : ℝ) * κ (mix (U ∪ {s}) y x) (U ∪ {s}) := by
  rw [expect_choose]
  set L := l.dedup.filter fun c => decide (c ≠ x s) with hL
  have hnd : L.Nodup := (List.nodup_dedup l).filter _
  have hz : ∀ c, c ≠ y s → κ (Function.update (mix U y x) s c) (U ∪ {s}) = 0 := by
    intro c hc
    apply hκ _ _ s (by simp)
    rw [Function.update_self]; exact hc
  rw [← List.sum_toFinset _ hnd]
  split_ifs with h
  · apply Finset.sum_eq_zero
    intro c hc
    rw [hz c, mul_zero]
    rw [List.mem_toFinset, hL, List.mem_filter] at hc
    rw [← h]; simpa using hc.2
  · rw [Finset.sum_eq_single (y s)]
    · rw [update_mix]
    · intro c _ hc; rw [hz c hc, mul_zero]
    · intro hn
      exfalso; apply hn
      rw [List.mem_toFinset, hL, List.mem_filter]
      exact ⟨List.mem_dedup.2 hy, by simpa using fun h' => h h'.symm⟩

theorem matches_flip (act act' : List Sublattice) (hsub : ∀ sl ∈ act', sl ∈ act) (g : Rng)
    (probs : List ℚ) :
    Matches (fun x y _ => LegalOcc act x ∧ LegalOcc act y) (flipPropose g act' probs) := by
  intro x y U κ κ' hC h1 h2 h3
  unfold flipPropose
  simp only [expect_bind]
  apply expect_congr
  intro sl hsl
  have hsl' := hsub sl (outcome_chooseW _ _ _ _ hsl)
  apply expect_congr
  intro s hs
  rw [outcome_choose] at hs
  have hx := hC.1 sl hsl' s hs
  have hy := hC.2 sl hsl' s hs
  simp only [expect_ret, List.mem_singleton, forall_eq, List.map_cons, List.map_nil,
    List.toFinset_cons, List.toFinset_nil, applyStep]
  by_cases hU : s ∈ U
  · simp only [hU, not_true_eq_false, if_false]
    rw [expect_choose_const, expect_choose_const, h3 U hC]
    have hm : mix U y x s = y s := by simp [mix, hU]
    have hm' : mix U x y s = x s := by simp [mix, hU]
    rw [hm, hm']
    have : ((sl.encoding.dedup.filter fun c => decide (c ≠ y s)) = []) ↔
        ((sl.encoding.dedup.filter fun c => decide (c ≠ x s)) = []) := by
      rw [← List.length_eq_zero_iff, ← List.length_eq_zero_iff, flip_options_length _ _ hx,
        flip_options_length _ _ hy]
    simp only [this]
  · simp only [hU, not_false_eq_true, if_true]
    have hm : mix U y x s = x s := by simp [mix, hU]
    have hm' : mix U x y s = y s := by simp [mix, hU]
    rw [hm, hm']
    have e1 := flip_code_expect sl.encoding U x y s hy g κ h1
    have e2 := flip_code_expect sl.encoding U y x s hx g κ' h2
    simp only [insert_empty_eq] at *
    rw [e1, e2, flip_options_length _ _ hx, flip_options_length _ _ hy, h3 _ hC]
    by_cases hxy : x s = y s
    · simp [hxy]
    · rw [if_neg hxy, if_neg (Ne.symm hxy)]

/-! ### Swap -/

/-- what is carried along for swaps: legality is not needed, the used sites hold the same species
counts in both, and so do all active sites -/
def SwapC (act : List Sublattice) (x y : Occ) (U : Finset ℕ) : Prop :=
  ∀ sl ∈ act, ∀ c,
    ((sl.active.toFinset.filter fun s => x s = c).card =
      (sl.active.toFinset.filter fun s => y s = c).card) ∧
    ((sl.active.toFinset.filter fun s => s ∉ U ∧ x s = c).card =
      (sl.active.toFinset.filter fun s => s ∉ U ∧ y s = c).card)

theorem card_eq_multiset_map (S : Finset ℕ) (x y : Occ)
    (h : ∀ c, (S.filter fun s => x s = c).card = (S.filter fun s => y s = c).card) :
    S.val.map x = S.val.map y := by
  ext c
  rw [Multiset.count_map, Multiset.count_map]
  have := h c
  rw [Finset.card_def, Finset.card_def, Finset.filter_val, Finset.filter_val] at this
  rw [Multiset.filter_congr (q := fun s => x s = c) fun s _ => eq_comm,
    Multiset.filter_congr (p := fun s => c = y s) (q := fun s => y s = c) fun s _ => eq_comm]
  exact this

theorem sum_comp_eq (S : Finset ℕ) (x y : Occ)
    (h : ∀ c, (S.filter fun s => x s = c).card = (S.filter fun s => y s = c).card)
    (φ : ℕ → ℝ) : ∑ s ∈ S, φ (x s) = ∑ s ∈ S, φ (y s) := by
  have := card_eq_multiset_map S x y h
  have h2 := congrArg (fun m => (m.map φ).sum) this
  simp only [Multiset.map_map] at h2
  exact h2

theorem card_comp_eq (S : Finset ℕ) (x y : Occ)
    (h : ∀ c, (S.filter fun s => x s = c).card = (S.filter fun s => y s = c).card)
    (c : ℕ) : (S.filter fun s => x s ≠ c).card = (S.filter fun s => y s ≠ c).card := by
  have h1 := Finset.card_filter_add_card_filter_not (s := S) (fun s => x s = c)
  have h2 := Finset.card_filter_add_card_filter_not (s := S) (fun s => y s = c)
  have := h c
  simp only [ne_eq]
  omega

/-- counts of the mixed state over all sites -/
theorem card_mix (S : Finset ℕ) (U : Finset ℕ) (x y : Occ)
    (h2 : ∀ c, (S.filter fun s => s ∉ U ∧ x s = c).card =
      (S.filter fun s => s ∉ U ∧ y s = c).card) (c : ℕ) :
    (S.filter fun s => mix U y x s = c).card = (S.filter fun s => y s = c).card := by
  have e1 : ∀ z : Occ, (S.filter fun s => z s = c).card =
      (S.filter fun s => s ∈ U ∧ z s = c).card + (S.filter fun s => s ∉ U ∧ z s = c).card := by
    intro z
    rw [← Finset.card_filter_add_card_filter_not (s := S.filter fun s => z s = c) (fun s => s ∈ U),
      Finset.filter_filter, Finset.filter_filter]
    congr 2 <;> (apply Finset.filter_congr; intro s _; tauto)
  rw [e1 (mix U y x), e1 y]
  congr 1
  · congr 1; apply Finset.filter_congr; intro s _
    constructor <;> rintro ⟨a, b⟩ <;> simpa [mix, a] using b
  · rw [← h2 c]
    congr 1; apply Finset.filter_congr; intro s _
    constructor <;> rintro ⟨a, b⟩ <;> simpa [mix, a] using b

theorem applyStep_swap (z : Occ) (a b : ℕ) :
    applyStep z [(a, z b), (b, z a)] = Function.update (Function.update z a (z b)) b (z a) := rfl

/-- the sum over first and second sites of a swap, written out -/
theorem swap_site_expect (g : Rng) (A : List ℕ) (hA : A.Nodup) (z : Occ) (U : Finset ℕ)
    (κ : Occ → Finset ℕ → ℝ) :
    ((choose g A).expect fun s1 =>
      (if (A.filter fun s => decide (z s ≠ z s1)) ≠ [] then
        (choose g (A.filter fun s => decide (z s ≠ z s1))).bind fun s2 =>
          ret [(s1, z s2), (s2, z s1)]
      else ret ([] : Step)).expect fun st =>
        if ∀ f ∈ st, f.1 ∉ U then κ (applyStep z st) (U ∪ (st.map Prod.fst).toFinset) else κ z U) =
    1 / (A.length : ℝ) * ((A.length : ℝ) * κ z U +
      ∑ s1 ∈ A.toFinset.filter (· ∉ U), ∑ s2 ∈ A.toFinset.filter (· ∉ U),
        if z s1 ≠ z s2 then
          1 / ((A.toFinset.filter fun s => z s ≠ z s1).card : ℝ) *
            (κ (applyStep z [(s1, z s2), (s2, z s1)]) (U ∪ {s1, s2}) - κ z U)
        else 0) := by
  have hinner : ∀ s1 ∈ A,
      ((if (A.filter fun s => decide (z s ≠ z s1)) ≠ [] then
        (choose g (A.filter fun s => decide (z s ≠ z s1))).bind fun s2 =>
          ret [(s1, z s2), (s2, z s1)]
      else ret ([] : Step)).expect fun st =>
        if ∀ f ∈ st, f.1 ∉ U then κ (applyStep z st) (U ∪ (st.map Prod.fst).toFinset) else κ z U) =
      κ z U + if s1 ∉ U then ∑ s2 ∈ A.toFinset.filter (· ∉ U),
        (if z s1 ≠ z s2 then
          1 / ((A.toFinset.filter fun s => z s ≠ z s1).card : ℝ) *
            (κ (applyStep z [(s1, z s2), (s2, z s1)]) (U ∪ {s1, s2}) - κ z U)
        else 0) else 0 := by
    intro s1 _
    set L := A.filter fun s => decide (z s ≠ z s1) with hL
    have hLf : L.toFinset = A.toFinset.filter fun s => z s ≠ z s1 := by
      rw [hL, List.toFinset_filter]; simp
    have hLn : L.Nodup := hA.filter _
    have hLc : (A.toFinset.filter fun s => z s ≠ z s1).card = L.length := by
      rw [← hLf, List.toFinset_card_of_nodup hLn]
    by_cases hLe : L = []
    · have hz : ∀ s2 ∈ A.toFinset, ¬ z s1 ≠ z s2 := by
        intro s2 hs2 hne
        have : s2 ∈ L := by
          rw [hL, List.mem_filter]; exact ⟨List.mem_toFinset.1 hs2, by simpa using hne.symm⟩
        rw [hLe] at this; simp at this
      simp only [hLe, ne_eq, not_true_eq_false, if_false]
      rw [Finset.sum_eq_zero]
      · simp [applyStep]
      · intro s2 hs2
        rw [if_neg]
        exact hz s2 (Finset.mem_filter.1 hs2).1
    · rw [if_pos hLe, expect_bind]
      simp only [expect_ret]
      rw [expect_choose, ← List.sum_toFinset _ hLn, hLc]
      have hne : (L.length : ℝ) ≠ 0 := by
        have := List.length_pos_iff.2 hLe; positivity
      have hone : κ z U = ∑ s2 ∈ L.toFinset, 1 / (L.length : ℝ) * κ z U := by
        rw [Finset.sum_const, List.toFinset_card_of_nodup hLn, nsmul_eq_mul]; field_simp
      have hsplit : ∀ s2 ∈ L.toFinset,
          1 / (L.length : ℝ) * (if ∀ f ∈ [(s1, z s2), (s2, z s1)], f.1 ∉ U then
            κ (applyStep z [(s1, z s2), (s2, z s1)])
              (U ∪ (List.map Prod.fst [(s1, z s2), (s2, z s1)]).toFinset) else κ z U) =
          1 / (L.length : ℝ) * κ z U + (if s1 ∉ U ∧ s2 ∉ U then 1 / (L.length : ℝ) *
            (κ (applyStep z [(s1, z s2), (s2, z s1)]) (U ∪ {s1, s2}) - κ z U) else 0) := by
        intro s2 _
        have e : (∀ f ∈ [(s1, z s2), (s2, z s1)], f.1 ∉ U) ↔ s1 ∉ U ∧ s2 ∉ U := by simp
        by_cases hc : s1 ∉ U ∧ s2 ∉ U
        · rw [if_pos (e.2 hc), if_pos hc]
          simp only [List.map_cons, List.map_nil, List.toFinset_cons, List.toFinset_nil,
            insert_empty_eq]
          ring
        · rw [if_neg (fun h => hc (e.1 h)), if_neg hc, add_zero]
      rw [Finset.sum_congr rfl hsplit, Finset.sum_add_distrib, ← hone]
      congr 1
      by_cases hU : s1 ∉ U
      · rw [if_pos hU, ← Finset.sum_filter, ← Finset.sum_filter]
        · apply Finset.sum_congr _ fun _ _ => rfl
          ext s2
          simp only [hLf, Finset.mem_filter, hU, not_false_eq_true, true_and]
          constructor
          · rintro ⟨⟨a, b⟩, c⟩; exact ⟨⟨a, c⟩, fun h => b h.symm⟩
          · rintro ⟨⟨a, c⟩, b⟩; exact ⟨⟨a, fun h => b h.symm⟩, c⟩
      · rw [if_neg hU]
        apply Finset.sum_eq_zero
        intro s2 _
        rw [if_neg]; tauto
  rw [expect_choose]
  rw [List.map_congr_left fun s1 hs1 => by rw [hinner s1 hs1]]
  rw [List.sum_map_mul_left, ← List.sum_toFinset _ hA, Finset.sum_add_distrib, Finset.sum_const,
    List.toFinset_card_of_nodup hA, nsmul_eq_mul, ← Finset.sum_filter]

/-- removing a swapped pair keeps the counts of the unused sites equal -/
theorem swapC_step (act : List Sublattice)
    (hdisj : ∀ a ∈ act, ∀ b ∈ act, a ≠ b → ∀ s ∈ a.active, s ∉ b.active)
    (x y : Occ) (U : Finset ℕ) (hC : SwapC act x y U) (sl : Sublattice) (hsl : sl ∈ act)
    (s1 s2 : ℕ) (h1 : s1 ∈ sl.active) (h2 : s2 ∈ sl.active) (hU1 : s1 ∉ U) (hU2 : s2 ∉ U)
    (hne : s1 ≠ s2) (e1 : x s2 = y s1) (e2 : x s1 = y s2) : SwapC act x y (U ∪ {s1, s2}) := by
  intro sl' hsl' c
  refine ⟨(hC sl' hsl' c).1, ?_⟩
  by_cases hss : sl = sl'
  · subst hss
    have key : ∀ z : Occ, (sl.active.toFinset.filter fun s => s ∉ U ∧ z s = c).card =
        (sl.active.toFinset.filter fun s => s ∉ U ∪ {s1, s2} ∧ z s = c).card +
          ((if z s1 = c then 1 else 0) + (if z s2 = c then 1 else 0)) := by
      intro z
      rw [← Finset.card_filter_add_card_filter_not
        (s := sl.active.toFinset.filter fun s => s ∉ U ∧ z s = c) (fun s => s ∉ ({s1, s2} : Finset ℕ)),
        Finset.filter_filter, Finset.filter_filter]
      congr 1
      · congr 1; apply Finset.filter_congr; intro s _; simp; tauto
      · have : (sl.active.toFinset.filter fun s => (s ∉ U ∧ z s = c) ∧ ¬ s ∉ ({s1, s2} : Finset ℕ)) =
            ({s1, s2} : Finset ℕ).filter fun s => z s = c := by
          ext s
          simp only [Finset.mem_filter, List.mem_toFinset, Finset.mem_insert, Finset.mem_singleton,
            not_not]
          constructor
          · rintro ⟨_, ⟨_, a⟩, b⟩; exact ⟨b, a⟩
          · rintro ⟨rfl | rfl, a⟩
            · exact ⟨h1, ⟨hU1, a⟩, Or.inl rfl⟩
            · exact ⟨h2, ⟨hU2, a⟩, Or.inr rfl⟩
        rw [this, Finset.card_filter, Finset.sum_pair hne]
    have := (hC sl hsl' c).2
    rw [key x, key y, e1, e2] at this
    omega
  · have hno : ∀ z : Occ, (sl'.active.toFinset.filter fun s => s ∉ U ∪ {s1, s2} ∧ z s = c) =
        sl'.active.toFinset.filter fun s => s ∉ U ∧ z s = c := by
      intro z
      apply Finset.filter_congr
      intro s hs
      have hs' := List.mem_toFinset.1 hs
      have a1 : s ≠ s1 := by rintro rfl; exact hdisj sl hsl sl' hsl' hss _ h1 hs'
      have a2 : s ≠ s2 := by rintro rfl; exact hdisj sl hsl sl' hsl' hss _ h2 hs'
      simp [a1, a2]
    rw [hno, hno]
    exact (hC sl' hsl' c).2

theorem matches_swap (act act' : List Sublattice) (hsub : ∀ sl ∈ act', sl ∈ act)
    (hok : SitesOk act) (g : Rng) (probs : List ℚ) :
    Matches (SwapC act) (swapPropose g act' probs) := by
  intro x y U κ κ' hC h1 h2 h3
  unfold swapPropose
  simp only [expect_bind]
  apply expect_congr
  intro sl hsl
  have hsl' := hsub sl (outcome_chooseW _ _ _ _ hsl)
  have hA := hok.nodup sl hsl'
  have hCx := fun c => (hC sl hsl' c).1
  have hCu := fun c => (hC sl hsl' c).2
  rw [swap_site_expect g sl.active hA (mix U y x) U κ,
    swap_site_expect g sl.active hA (mix U x y) U κ', h3 U hC]
  congr 2
  set A := sl.active.toFinset with hAdef
  set W := A.filter (· ∉ U) with hW
  -- the number of partners depends on the composition only
  have hN : ∀ c, (A.filter fun s => mix U y x s ≠ c).card = (A.filter fun s => y s ≠ c).card :=
    card_comp_eq A _ _ (card_mix A U x y hCu)
  have hN' : ∀ c, (A.filter fun s => mix U x y s ≠ c).card = (A.filter fun s => y s ≠ c).card := by
    intro c
    rw [card_comp_eq A _ _ (card_mix A U y x fun c => (hCu c).symm) c]
    exact card_comp_eq A _ _ hCx c
  set N : ℕ → ℝ := fun c => 1 / ((A.filter fun s => y s ≠ c).card : ℝ) with hNdef
  have hWm : ∀ s ∈ W, mix U y x s = x s ∧ mix U x y s = y s := by
    intro s hs
    have := (Finset.mem_filter.1 hs).2
    simp [mix, this]
  have hsplit : ∀ (z : Occ) (F : ℕ → ℕ → ℝ) (k : ℝ),
      (∑ s1 ∈ W, ∑ s2 ∈ W, if z s1 ≠ z s2 then N (z s1) * (F s1 s2 - k) else 0) =
      (∑ s1 ∈ W, ∑ s2 ∈ W, if z s1 ≠ z s2 then N (z s1) * F s1 s2 else 0) -
      k * ∑ s1 ∈ W, N (z s1) * (((W.filter fun s2 => z s2 ≠ z s1).card : ℕ) : ℝ) := by
    intro z F k
    rw [Finset.mul_sum, ← Finset.sum_sub_distrib]
    apply Finset.sum_congr rfl
    intro s1 _
    rw [Finset.card_filter]
    push_cast
    rw [Finset.mul_sum, Finset.mul_sum, ← Finset.sum_sub_distrib]
    apply Finset.sum_congr rfl
    intro s2 _
    by_cases h : z s1 = z s2
    · simp [h]
    · rw [if_pos h, if_pos h, if_pos (Ne.symm h)]; ring
  -- rewrite both sides with `x` and `y`
  have eL : (∑ s1 ∈ W, ∑ s2 ∈ W, if mix U y x s1 ≠ mix U y x s2 then
        1 / ((A.filter fun s => mix U y x s ≠ mix U y x s1).card : ℝ) *
          (κ (applyStep (mix U y x) [(s1, mix U y x s2), (s2, mix U y x s1)]) (U ∪ {s1, s2})
            - κ' (mix U x y) U) else 0) =
      ∑ s1 ∈ W, ∑ s2 ∈ W, if x s1 ≠ x s2 then N (x s1) *
          (κ (applyStep (mix U y x) [(s1, x s2), (s2, x s1)]) (U ∪ {s1, s2})
            - κ' (mix U x y) U) else 0 := by
    apply Finset.sum_congr rfl; intro s1 hs1
    apply Finset.sum_congr rfl; intro s2 hs2
    rw [(hWm s1 hs1).1, (hWm s2 hs2).1, hN]
  have eR : (∑ s1 ∈ W, ∑ s2 ∈ W, if mix U x y s1 ≠ mix U x y s2 then
        1 / ((A.filter fun s => mix U x y s ≠ mix U x y s1).card : ℝ) *
          (κ' (applyStep (mix U x y) [(s1, mix U x y s2), (s2, mix U x y s1)]) (U ∪ {s1, s2})
            - κ' (mix U x y) U) else 0) =
      ∑ s1 ∈ W, ∑ s2 ∈ W, if y s1 ≠ y s2 then N (y s1) *
          (κ' (applyStep (mix U x y) [(s1, y s2), (s2, y s1)]) (U ∪ {s1, s2})
            - κ' (mix U x y) U) else 0 := by
    apply Finset.sum_congr rfl; intro s1 hs1
    apply Finset.sum_congr rfl; intro s2 hs2
    rw [(hWm s1 hs1).2, (hWm s2 hs2).2, hN']
  rw [eL, eR, hsplit x, hsplit y]
  have hWc : ∀ c, (W.filter fun s => x s = c).card = (W.filter fun s => y s = c).card := by
    intro c
    have := hCu c
    rw [hW, Finset.filter_filter, Finset.filter_filter]
    exact this
  congr 1
  · rw [Finset.sum_comm]
    apply Finset.sum_congr rfl; intro s2 hs2
    apply Finset.sum_congr rfl; intro s1 hs1
    obtain ⟨hs1A, hs1U⟩ := Finset.mem_filter.1 hs1
    obtain ⟨hs2A, hs2U⟩ := Finset.mem_filter.1 hs2
    have hz : ∀ (κ : Occ → Finset ℕ → ℝ) (x y : Occ),
        (∀ z V s, s ∈ V → z s ≠ y s → κ z V = 0) → s1 ≠ s2 →
        ¬ (x s2 = y s1 ∧ x s1 = y s2) →
        κ (applyStep (mix U y x) [(s1, x s2), (s2, x s1)]) (U ∪ {s1, s2}) = 0 := by
      intro κ x y hκ hne hcon
      by_cases hc : x s2 = y s1
      · apply hκ _ _ s2 (by simp)
        simp only [applyStep, Function.update_self]
        exact fun h => hcon ⟨hc, h⟩
      · apply hκ _ _ s1 (by simp)
        simp only [applyStep]
        rw [Function.update_of_ne hne, Function.update_self]
        exact hc
    have hz' : ∀ (κ : Occ → Finset ℕ → ℝ) (x y : Occ), s1 ≠ s2 → x s2 = y s1 → x s1 = y s2 →
        applyStep (mix U y x) [(s1, x s2), (s2, x s1)] = mix (U ∪ {s1, s2}) y x := by
      intro κ x y hne a b
      funext t
      simp only [applyStep]
      by_cases ht2 : t = s2
      · subst ht2; rw [Function.update_self]; simp [mix, b]
      · rw [Function.update_of_ne ht2]
        by_cases ht1 : t = s1
        · subst ht1; rw [Function.update_self]; simp [mix, a]
        · rw [Function.update_of_ne ht1]; simp [mix, ht1, ht2]
    by_cases hne : s1 = s2
    · subst hne; simp
    have hcomm : applyStep (mix U x y) [(s2, y s1), (s1, y s2)] =
        applyStep (mix U x y) [(s1, y s2), (s2, y s1)] := by
      simp only [applyStep]; rw [Function.update_comm (Ne.symm hne)]
    rw [hcomm, show ({s2, s1} : Finset ℕ) = {s1, s2} from Finset.pair_comm _ _]
    by_cases hcon : x s2 = y s1 ∧ x s1 = y s2
    · rw [hz' κ x y hne hcon.1 hcon.2, hz' κ' y x hne hcon.2.symm hcon.1.symm,
        h3 _ (swapC_step act hok.disjoint x y U hC sl hsl' s1 s2 (List.mem_toFinset.1 hs1A)
          (List.mem_toFinset.1 hs2A) hs1U hs2U hne hcon.1 hcon.2), hcon.1, hcon.2]
    · rw [hz κ x y h1 hne hcon, hz κ' y x h2 hne (fun h => hcon ⟨h.2.symm, h.1.symm⟩)]
      simp
  · congr 1
    have := sum_comp_eq W x y hWc fun c => N c * (((W.filter fun s2 => y s2 ≠ c).card : ℕ) : ℝ)
    rw [← this]
    apply Finset.sum_congr rfl
    intro s1 _
    rw [card_comp_eq W x y hWc]

end Smol
