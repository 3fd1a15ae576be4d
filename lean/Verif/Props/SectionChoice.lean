import Verif.Lemmas.SectionChoice
import Mathlib.MeasureTheory.Measure.Lebesgue.Basic
import Mathlib.Tactic.NormNum

/-!
# C103: choices by weight
-/

namespace Smol
open Smol.Spec

section
variable {K : Type*} [Field K] [LinearOrder K] [IsStrictOrderedRing K]

/-- C103. For weights that are not negative, one of them above the tolerance, exactly the section is chosen to
which the uniform number falls. -/
theorem C103_chosen {atol tol : K} (ha : 0 ≤ atol) (ht : 0 ≤ tol) {w : List K} (hw : ∀ x ∈ w, 0 ≤ x)
    (hb : ∃ x ∈ w, atol < x) {u : K} (h0 : 0 ≤ u) (h1 : u < 1) (i : ℕ) :
    chooseSection atol tol w u = some i ↔ FallsTo w u i := by
  obtain ⟨y, hy, hya⟩ := hb
  have hn : allNegligible atol w = false := by
    rw [Bool.eq_false_iff]
    intro h
    exact absurd ((le_abs_self y).trans ((allNegligible_iff atol w).1 h y hy)) (not_le.2 hya)
  have hall : (w.all fun x => decide (-tol ≤ x)) = true := by
    rw [List.all_eq_true]
    intro x hx
    have := hw x hx
    simp only [decide_eq_true_eq]
    linarith
  unfold chooseSection
  simp only [hn, Bool.false_eq_true, if_false, hall, if_true]
  exact npChoice_iff w hw (sum_pos_of_not_negligible ha hw hy hya) u h0 h1 i

/-- C103. Some section is chosen, and only sections of positive weight are. -/
theorem C103_possible {atol tol : K} (ha : 0 ≤ atol) (ht : 0 ≤ tol) {w : List K} (hw : ∀ x ∈ w, 0 ≤ x)
    (hb : ∃ x ∈ w, atol < x) {u : K} (h0 : 0 ≤ u) (h1 : u < 1) :
    ∃ i x, chooseSection atol tol w u = some i ∧ w[i]? = some x ∧ 0 < x := by
  have hs : 0 < w.sum := by
    obtain ⟨y, hy, hya⟩ := hb
    exact sum_pos_of_not_negligible ha hw hy hya
  have hi : FallsTo w u (searchRight (runSums 0 w) (u * w.sum)) := by
    have := (searchRight_iff w hw 0 (u * w.sum) (mul_nonneg h0 hs.le)
      (by rw [zero_add]; exact (mul_lt_iff_lt_one_left hs).2 h1) _).1 rfl
    unfold FallsTo
    simpa using this
  refine ⟨_, w[searchRight (runSums 0 w) (u * w.sum)]'hi.1, (C103_chosen ha ht hw hb h0 h1 _).2 hi,
    List.getElem?_eq_getElem hi.1, ?_⟩
  obtain ⟨hl, h2, h3⟩ := hi
  rw [List.take_add_one, List.getElem?_eq_getElem hl] at h3
  simp only [Option.toList_some, List.sum_append, List.sum_singleton] at h3
  linarith

/-- C103. The choice depends only on the ratios of the weights, as long as a weight stays above the
tolerance. -/
theorem C103_scaled {atol tol : K} (ha : 0 ≤ atol) (ht : 0 ≤ tol) {w : List K} (hw : ∀ x ∈ w, 0 ≤ x)
    {c : K} (hc : 0 < c) (hb : ∃ x ∈ w, atol < x) (hb' : ∃ x ∈ w, atol < c * x) {u : K} (h0 : 0 ≤ u)
    (h1 : u < 1) : chooseSection atol tol (w.map (c * ·)) u = chooseSection atol tol w u := by
  have hsum : ∀ l : List K, (l.map (c * ·)).sum = c * l.sum := by
    intro l
    induction l with
    | nil => simp
    | cons x l ih => simp [ih, mul_add]
  apply Option.ext
  intro i
  rw [C103_chosen ha ht hw hb h0 h1, C103_chosen ha ht _ _ h0 h1]
  · unfold FallsTo
    rw [← List.map_take, ← List.map_take, hsum, hsum, hsum, List.length_map, mul_left_comm u c,
      mul_le_mul_iff_of_pos_left hc, mul_lt_mul_iff_of_pos_left hc]
  · intro x hx
    obtain ⟨y, hy, rfl⟩ := List.mem_map.1 hx
    exact mul_nonneg hc.le (hw y hy)
  · obtain ⟨y, hy, h⟩ := hb'
    exact ⟨_, List.mem_map.2 ⟨y, hy, rfl⟩, h⟩

/-- C103. If no weight exceeds the tolerance, all sections are chosen alike. -/
theorem C103_negligible {atol tol : K} (ht : 0 ≤ tol) {w : List K} (hn : ∀ x ∈ w, |x| ≤ atol) (hne : w ≠ [])
    {u : K} (h0 : 0 ≤ u) (h1 : u < 1) (i : ℕ) :
    chooseSection atol tol w u = some i ↔ (i : K) ≤ u * w.length ∧ u * w.length < i + 1 := by
  have hlen : 0 < w.length := List.length_pos_iff.2 hne
  have hneg := (allNegligible_iff atol w).2 hn
  have hall : ((List.replicate w.length (1 : K)).all fun x => decide (-tol ≤ x)) = true := by
    rw [List.all_eq_true]
    intro x hx
    rw [List.eq_of_mem_replicate hx]
    simp only [decide_eq_true_eq]
    linarith
  have hsum : ∀ n, (List.replicate n (1 : K)).sum = n := by simp
  unfold chooseSection
  simp only [hneg, if_true, hall]
  rw [npChoice_iff _ (fun x hx => by rw [List.eq_of_mem_replicate hx]; exact zero_le_one)
    (by rw [hsum]; exact_mod_cast hlen) u h0 h1]
  unfold FallsTo
  rw [List.length_replicate, List.take_replicate, List.take_replicate, hsum, hsum, hsum]
  constructor
  · rintro ⟨hi, h2, h3⟩
    rw [min_eq_left hi.le] at h2
    rw [min_eq_left (by omega)] at h3
    exact ⟨h2, by exact_mod_cast h3⟩
  · rintro ⟨h2, h3⟩
    have hi : i < w.length := by
      have : (i : K) < w.length := lt_of_le_of_lt h2 ((mul_lt_iff_lt_one_left (by exact_mod_cast hlen)).2 h1)
      exact_mod_cast this
    refine ⟨hi, ?_, ?_⟩
    · rw [min_eq_left hi.le]
      exact h2
    · rw [min_eq_left (by omega)]
      exact_mod_cast h3

/-- C103, violated. "Will be normalized": any weights, scaled down far enough, are chosen alike, also those
that are zero. -/
theorem C103_not_normalized {atol tol : K} (ha : 0 < atol) (ht : 0 ≤ tol) {w : List K} (hne : w ≠ []) :
    ∃ c, 0 < c ∧ ∀ i < w.length, ∃ u, 0 ≤ u ∧ u < 1 ∧ chooseSection atol tol (w.map (c * ·)) u = some i := by
  have hS : 0 ≤ (w.map (|·|)).sum := List.sum_nonneg fun x hx => by
    obtain ⟨y, -, rfl⟩ := List.mem_map.1 hx
    exact abs_nonneg y
  refine ⟨atol / (1 + (w.map (|·|)).sum), by positivity, fun i hi => ?_⟩
  have hlen : (0 : K) < w.length := by exact_mod_cast List.length_pos_iff.2 hne
  have hil : (i : K) < w.length := by exact_mod_cast hi
  refine ⟨i / w.length, by positivity, (div_lt_one hlen).2 hil, ?_⟩
  rw [C103_negligible ht _ (by simpa using hne) (by positivity) ((div_lt_one hlen).2 hil), List.length_map,
    div_mul_cancel₀ _ hlen.ne']
  · exact ⟨le_refl _, by linarith⟩
  · intro x hx
    obtain ⟨y, hy, rfl⟩ := List.mem_map.1 hx
    have hle : |y| ≤ (w.map (|·|)).sum := List.single_le_sum (fun x hx => by
      obtain ⟨z, -, rfl⟩ := List.mem_map.1 hx
      exact abs_nonneg z) _ (List.mem_map.2 ⟨y, hy, rfl⟩)
    rw [abs_mul, abs_of_pos (by positivity), div_mul_eq_mul_div, div_le_iff₀ (by positivity)]
    nlinarith

/-- C103. Nothing to choose from raises, and so does every negative weight below the tolerance or beside a
positive one, unless all are negligible. -/
theorem C103_raises {atol tol : K} {w : List K} (u : K) :
    (w = [] → chooseSection atol tol w u = none) ∧
      ((∃ x ∈ w, atol < |x|) → (∃ x ∈ w, x < 0) → ((∃ x ∈ w, x < -tol) ∨ ∃ x ∈ w, 0 < x) →
        chooseSection atol tol w u = none) := by
  refine ⟨?_, ?_⟩
  · rintro rfl
    simp [chooseSection, allNegligible, npChoice]
  · rintro ⟨y, hy, hya⟩ ⟨z, hz, hz0⟩ h
    have hn : allNegligible atol w = false := by
      rw [Bool.eq_false_iff]
      intro h
      exact absurd ((allNegligible_iff atol w).1 h y hy) (not_le.2 hya)
    unfold chooseSection
    simp only [hn, Bool.false_eq_true, if_false]
    split
    · rename_i hall
      rw [List.all_eq_true] at hall
      rcases h with ⟨x, hx, hxt⟩ | ⟨x, hx, hx0⟩
      · have := hall x hx
        simp only [decide_eq_true_eq] at this
        exact absurd hxt (not_lt.2 this)
      · unfold npChoice
        rw [if_pos]
        rcases lt_trichotomy w.sum 0 with hs | hs | hs
        · exact Or.inr (Or.inl ⟨x / w.sum, List.mem_map.2 ⟨x, hx, rfl⟩, div_neg_of_pos_of_neg hx0 hs⟩)
        · refine Or.inr (Or.inr ?_)
          rw [sum_map_div_weights, hs]
          simp
        · exact Or.inr (Or.inl ⟨z / w.sum, List.mem_map.2 ⟨z, hz, rfl⟩, div_neg_of_neg_of_pos hz0 hs⟩)
    · rfl

/-- C103, violated. Negative weights do not always raise: if all are negative, within the tolerance of the
check and not all negligible, the choice is made by their absolute values. -/
theorem C103_negative_accepted {atol tol : K} (ha : 0 ≤ atol) {w : List K}
    (hw : ∀ x ∈ w, -tol ≤ x ∧ x ≤ 0) (hb : ∃ x ∈ w, x < -atol) {u : K} (h0 : 0 ≤ u) (h1 : u < 1) (i : ℕ) :
    chooseSection atol tol w u = some i ↔ FallsTo (w.map (-·)) u i := by
  obtain ⟨y, hy, hya⟩ := hb
  have hn : allNegligible atol w = false := by
    rw [Bool.eq_false_iff]
    intro h
    have := (abs_le.1 ((allNegligible_iff atol w).1 h y hy)).1
    exact absurd hya (not_lt.2 this)
  have hall : (w.all fun x => decide (-tol ≤ x)) = true := by
    rw [List.all_eq_true]
    intro x hx
    simpa using (hw x hx).1
  have hneg : (w.map (-·)).sum = -w.sum := by
    clear hw hy hn hall
    induction w with
    | nil => simp
    | cons x l ih => simp [ih]; ring
  have hmap : w.map (· / w.sum) = (w.map (-·)).map (· / (w.map (-·)).sum) := by
    rw [hneg, List.map_map]
    apply List.map_congr_left
    intro x _
    simp [neg_div_neg_eq]
  unfold chooseSection
  simp only [hn, Bool.false_eq_true, if_false, hall, if_true]
  rw [hmap]
  have hnn : ∀ x ∈ w.map (-·), 0 ≤ x := by
    intro x hx
    obtain ⟨z, hz, rfl⟩ := List.mem_map.1 hx
    have := (hw z hz).2
    linarith
  exact npChoice_iff _ hnn
    (sum_pos_of_not_negligible ha hnn (List.mem_map.2 ⟨y, hy, rfl⟩) (by linarith)) u h0 h1 i

end

/-- C103. Of the uniform numbers between zero and one, the share that chooses a section is its share of the
weights. -/
theorem C103_probability {atol tol : ℝ} (ha : 0 ≤ atol) (ht : 0 ≤ tol) {w : List ℝ} (hw : ∀ x ∈ w, 0 ≤ x)
    (hb : ∃ x ∈ w, atol < x) {i : ℕ} {x : ℝ} (hi : w[i]? = some x) :
    MeasureTheory.volume {u : ℝ | 0 ≤ u ∧ u < 1 ∧ chooseSection atol tol w u = some i} =
      ENNReal.ofReal (x / w.sum) := by
  have hs : 0 < w.sum := by
    obtain ⟨y, hy, hya⟩ := hb
    exact sum_pos_of_not_negligible ha hw hy hya
  obtain ⟨hl, hx⟩ := List.getElem?_eq_some_iff.1 hi
  have htake : (w.take (i + 1)).sum = (w.take i).sum + x := by
    rw [List.take_add_one, hi]
    simp
  have hlow : 0 ≤ (w.take i).sum := List.sum_nonneg fun y hy => hw y (List.mem_of_mem_take hy)
  have hhigh : (w.take (i + 1)).sum ≤ w.sum := by
    conv_rhs => rw [← List.take_append_drop (i + 1) w, List.sum_append]
    have : 0 ≤ (w.drop (i + 1)).sum := List.sum_nonneg fun y hy => hw y (List.mem_of_mem_drop hy)
    linarith
  have hset : {u : ℝ | 0 ≤ u ∧ u < 1 ∧ chooseSection atol tol w u = some i} =
      Set.Ico ((w.take i).sum / w.sum) ((w.take (i + 1)).sum / w.sum) := by
    ext u
    simp only [Set.mem_ofPred_eq, Set.mem_Ico, div_le_iff₀ hs, lt_div_iff₀ hs]
    constructor
    · rintro ⟨h0, h1, h⟩
      exact ((C103_chosen ha ht hw hb h0 h1 i).1 h).2
    · rintro ⟨h2, h3⟩
      have h0 : 0 ≤ u := by
        by_contra hu
        have := mul_neg_of_neg_of_pos (not_le.1 hu) hs
        linarith
      have h1 : u < 1 := by
        by_contra hu
        have := mul_le_mul_of_nonneg_right (not_lt.1 hu) hs.le
        linarith
      exact ⟨h0, h1, (C103_chosen ha ht hw hb h0 h1 i).2 ⟨hl, h2, h3⟩⟩
  rw [hset, Real.volume_Ico, htake]
  congr 1
  ring

/-! ### examples -/

/-- numbers of the code: `1e-8` and `1e-6` -/
example : chooseSection (1 / 100000000 : ℚ) (1 / 1000000) [2, 0, 3, 5] (1 / 4) = some 2 := by decide +kernel

example : chooseSection (1 / 100000000 : ℚ) (1 / 1000000) [2, 0, 3, 5] (1 / 2) = some 3 := by decide +kernel

/-- small weights -/
example : chooseSection (1 / 100000000 : ℚ) (1 / 1000000) [1 / 1000000000, 0] (3 / 4) = some 1 := by
  decide +kernel

/-- negative weights -/
example : chooseSection (1 / 100000000 : ℚ) (1 / 1000000) [-1 / 2000000, 0] (3 / 4) = some 0 ∧
    chooseSection (1 / 100000000 : ℚ) (1 / 1000000) [-1 / 2000000, 1] (3 / 4) = none ∧
    chooseSection (1 / 100000000 : ℚ) (1 / 1000000) [-1, -1] (3 / 4) = none := by decide +kernel

end Smol
