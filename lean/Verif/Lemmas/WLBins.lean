import Verif.Lemmas.WLChain
import Mathlib.Analysis.SpecialFunctions.Log.Basic

/-! Bins of a Wang-Landau run at fixed entropies. -/

namespace Smol
open Prog Spec

theorem bin_eq_iff {c : WLConf ℝ} (hs : 0 < c.size) {e : ℝ} (h1 : c.lo ≤ e) (b : ℕ) :
    c.bin e = b ↔ c.lo + b * c.size ≤ e ∧ e < c.lo + (b + 1) * c.size := by
  have h0 : 0 ≤ c.binId e := Int.floor_nonneg.2 (div_nonneg (sub_nonneg.2 h1) hs.le)
  have : c.bin e = b ↔ c.binId e = (b : ℤ) := by
    unfold WLConf.bin; omega
  rw [this, WLConf.binId, Int.floor_eq_iff, le_div_iff₀ hs, div_lt_iff₀ hs, Int.cast_natCast]
  constructor
  · rintro ⟨h, h'⟩; constructor <;> linarith
  · rintro ⟨h, h'⟩; constructor <;> linarith

open Classical in
/-- is the energy in bin `b`? -/
noncomputable def inBin (c : WLConf ℝ) (k : Kern ℝ) (b : ℕ) (x : Occ) : ℝ :=
  if c.lo + b * c.size ≤ enthalpyOf k x ∧ enthalpyOf k x < c.lo + (b + 1) * c.size then 1 else 0

section
variable {c : WLConf ℝ} {k : Kern ℝ} (hs : 0 < c.size) {Ω : Set Occ} (hfin : Ω.Finite)
  (hin : ∀ x ∈ Ω, c.In k x)
include hs hfin hin

/-- number of states per bin -/
local notation "g" => statesInBin Ω (enthalpyOf k) c.lo c.size

omit hfin in
open Classical in
theorem statesInBin_eq [Fintype Ω] (b : ℕ) :
    (g b) = (Finset.univ.filter fun x : Ω => c.bin (enthalpyOf k x.1) = b).card := by
  unfold statesInBin
  rw [← Set.ncard_coe_finset, ← Set.ncard_image_of_injective _ Subtype.val_injective]
  congr 1
  ext x
  simp only [Set.mem_ofPred_eq, Set.mem_image, Finset.coe_filter, Finset.mem_univ, true_and]
  constructor
  · rintro ⟨hx, h⟩
    exact ⟨⟨x, hx⟩, (bin_eq_iff hs (hin x hx).1 b).2 h, rfl⟩
  · rintro ⟨⟨x, hx⟩, h, rfl⟩
    exact ⟨hx, (bin_eq_iff hs (hin x hx).1 b).1 h⟩

theorem bin_pos_lt {b : ℕ} (hb : 0 < g b) : b < c.nbins := by
  classical
  let _ : Fintype Ω := hfin.fintype
  rw [statesInBin_eq hs hin, Finset.card_pos] at hb
  obtain ⟨x, hx⟩ := hb
  rw [Finset.mem_filter] at hx
  have h2 := bin_valid hs (hin x.1 x.2).1 (hin x.1 x.2).2
  rw [← hx.2, WLConf.bin]
  omega

omit hfin in
theorem total_weight [Fintype Ω] (S : ℕ → ℝ) :
    (∑ x : Ω, wlWeight c k S x.1) =
      ∑ b ∈ Finset.range c.nbins, (g b : ℝ) * Real.exp (-S b) := by
  classical
  have hmap : ∀ x ∈ (Finset.univ : Finset Ω), c.bin (enthalpyOf k x.1) ∈ Finset.range c.nbins := by
    intro x _
    have h2 := bin_valid hs (hin x.1 x.2).1 (hin x.1 x.2).2
    rw [Finset.mem_range, WLConf.bin]; omega
  rw [← Finset.sum_fiberwise_of_maps_to hmap]
  refine Finset.sum_congr rfl fun b _ => ?_
  rw [statesInBin_eq hs hin, ← nsmul_eq_mul, ← Finset.sum_const]
  refine Finset.sum_congr rfl fun x hx => ?_
  rw [wlWeight, (Finset.mem_filter.1 hx).2]

theorem bin_mean (S : ℕ → ℝ) (b : ℕ) :
    weightedMean (wlWeight c k S) Ω (inBin c k b) =
      (g b : ℝ) * Real.exp (-S b) /
        ∑ b' ∈ Finset.range c.nbins, (g b' : ℝ) * Real.exp (-S b') := by
  classical
  let _ : Fintype Ω := hfin.fintype
  rw [weightedMean_eq, total_weight hs hin]
  congr 1
  rw [statesInBin_eq hs hin, ← nsmul_eq_mul, ← Finset.sum_const, Finset.sum_filter]
  refine Finset.sum_congr rfl fun x _ => ?_
  unfold inBin wlWeight
  by_cases h : c.bin (enthalpyOf k x.1) = b
  · rw [if_pos ((bin_eq_iff hs (hin x.1 x.2).1 b).1 h), if_pos h, mul_one, h]
  · rw [if_neg (mt (bin_eq_iff hs (hin x.1 x.2).1 b).2 h), if_neg h, mul_zero]

theorem total_pos (hne : Ω.Nonempty) (S : ℕ → ℝ) :
    0 < ∑ b' ∈ Finset.range c.nbins, (g b' : ℝ) * Real.exp (-S b') := by
  classical
  let _ : Fintype Ω := hfin.fintype
  rw [← total_weight hs hin]
  obtain ⟨x, hx⟩ := hne
  exact Finset.sum_pos (fun _ _ => Real.exp_pos _) ⟨⟨x, hx⟩, Finset.mem_univ _⟩

theorem flat_iff (hne : Ω.Nonempty) (S : ℕ → ℝ) :
    (∀ b b', 0 < g b → 0 < g b' → weightedMean (wlWeight c k S) Ω (inBin c k b) =
        weightedMean (wlWeight c k S) Ω (inBin c k b')) ↔
      ∃ C : ℝ, ∀ b, 0 < g b → S b = Real.log (g b) + C := by
  have hpos := total_pos hs hfin hin hne S
  have key : ∀ b, 0 < g b → (g b : ℝ) * Real.exp (-S b) = Real.exp (Real.log (g b) - S b) := by
    intro b hb
    rw [sub_eq_add_neg, Real.exp_add, Real.exp_log (Nat.cast_pos.2 hb)]
  constructor
  · intro h
    by_cases hb0 : ∃ b0, 0 < g b0
    · obtain ⟨b0, hb0⟩ := hb0
      refine ⟨S b0 - Real.log (g b0), fun b hb => ?_⟩
      have := h b b0 hb hb0
      rw [bin_mean hs hfin hin, bin_mean hs hfin hin, div_left_inj' hpos.ne', key b hb,
        key b0 hb0, Real.exp_eq_exp] at this
      linarith
    · exact ⟨0, fun b hb => absurd ⟨b, hb⟩ hb0⟩
  · rintro ⟨C, hC⟩ b b' hb hb'
    rw [bin_mean hs hfin hin, bin_mean hs hfin hin, key b hb, key b' hb', hC b hb, hC b' hb']
    congr 2
    ring

/-- with the right entropies every bin that is reached gets the same share -/
theorem flat_share (S : ℕ → ℝ) (C : ℝ)
    (hC : ∀ b, 0 < g b → S b = Real.log (g b) + C) {b : ℕ} (hb : 0 < g b) :
    weightedMean (wlWeight c k S) Ω (inBin c k b) =
      1 / (((Finset.range c.nbins).filter fun b' => 0 < g b').card : ℝ) := by
  have key : ∀ b, (g b : ℝ) * Real.exp (-S b) = if 0 < g b then Real.exp (-C) else 0 := by
    intro b
    split_ifs with h
    · rw [hC b h, neg_add, Real.exp_add, Real.exp_neg, Real.exp_log (Nat.cast_pos.2 h)]
      field_simp
    · rw [Nat.eq_zero_of_not_pos h]; simp
  rw [bin_mean hs hfin hin]
  simp only [key]
  rw [if_pos hb, ← Finset.sum_filter, Finset.sum_const, nsmul_eq_mul]
  have h0 : (0 : ℝ) < (((Finset.range c.nbins).filter fun b' => 0 < g b').card : ℝ) := by
    rw [Nat.cast_pos, Finset.card_pos]
    exact ⟨b, Finset.mem_filter.2 ⟨Finset.mem_range.2 (bin_pos_lt hs hfin hin hb), hb⟩⟩
  have := Real.exp_pos (-C)
  field_simp

end

theorem foldl_min_mem (e : ℝ) (es : List ℝ) :
    es.foldl min e ∈ e :: es ∧ ∀ a ∈ e :: es, es.foldl min e ≤ a := by
  induction es generalizing e with
  | nil => simp
  | cons d es ih =>
    obtain ⟨h1, h2⟩ := ih (min e d)
    rw [List.foldl_cons]
    constructor
    · rcases List.mem_cons.1 h1 with h | h
      · rw [h]
        rcases min_choice e d with h' | h' <;> rw [h'] <;> simp
      · simp [h]
    · have hm := h2 (min e d) (by simp)
      intro a ha
      simp only [List.mem_cons] at ha
      rcases ha with rfl | rfl | ha
      · exact hm.trans (min_le_left _ _)
      · exact hm.trans (min_le_right _ _)
      · exact h2 a (by simp [ha])

theorem dos_eq (c : WLConf ℝ) (s : WL ℝ) (hne : s.seen c ≠ []) :
    ∃ b0 ∈ s.seen c, (∀ b ∈ s.seen c, s.entropy b0 ≤ s.entropy b) ∧
      s.dos c = some ((s.seen c).map fun b => Real.exp (s.entropy b - s.entropy b0)) := by
  unfold WL.dos WL.entropySeen
  cases hl : s.seen c with
  | nil => exact absurd hl hne
  | cons e es =>
    obtain ⟨h1, h2⟩ := foldl_min_mem (s.entropy e) (es.map s.entropy)
    rw [← List.map_cons, List.mem_map] at h1
    obtain ⟨b0, hb0, he⟩ := h1
    refine ⟨b0, hb0, fun b hb => ?_, ?_⟩
    · rw [he]; exact h2 _ (by rw [← List.map_cons]; exact List.mem_map_of_mem hb)
    · simp only [List.map_cons, ← he, List.map_map, Function.comp_def]

end Smol
