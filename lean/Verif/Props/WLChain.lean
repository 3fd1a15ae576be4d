import Verif.Lemmas.WLBins

/-!
# C82 Wang-Landau: the fixed point is the density of states
-/

namespace Smol
open Prog Spec

section
variable {act : List Sublattice} {T : Occ → Prop} {u : Usher} {c : WLConf ℝ} {m0 : ℝ}
  {k : Kern ℝ}

/-- C82. The probability that a step is accepted: `min(1, exp(S(old) - S(new)) · factor)` when the
new energy is in the window, 0 otherwise. -/
theorem C82_acceptance (hv : c.valid m0 = true) (s : WL ℝ) (factor : Occ → Step → ℝ) (x : Occ)
    (h1 : c.lo ≤ enthalpyOf k x) (h2 : enthalpyOf k x < c.hi) (st : Step) (hf : 0 ≤ factor x st)
    (hk : dot k.params (k.change x st) = enthalpyOf k (applyStep x st) - enthalpyOf k x) :
    (c.lo ≤ enthalpyOf k (applyStep x st) ∧ enthalpyOf k (applyStep x st) < c.hi →
      wlAcc c k s factor x st = min 1 (Real.exp (s.entropy ⌊(enthalpyOf k x - c.lo) / c.size⌋.toNat -
        s.entropy ⌊(enthalpyOf k (applyStep x st) - c.lo) / c.size⌋.toNat) * factor x st)) ∧
    (¬(c.lo ≤ enthalpyOf k (applyStep x st) ∧ enthalpyOf k (applyStep x st) < c.hi) →
      wlAcc c k s factor x st = 0) := by
  rw [wlAcc_eq (valid_iff hv).2.1 s factor ⟨h1, h2⟩ hf, hk, add_sub_cancel]
  exact ⟨fun h => if_pos h, fun h => if_neg h⟩

/-- C82. While the entropies are not updated, steps are in detailed balance for the weights
`exp(-S)` of the bins, on the legal occupancies in the window. -/
theorem C82_detailed_balance (h : Fair act T u) (hk : ExactKern act k) (hv : c.valid m0 = true)
    (s : WL ℝ) :
    DetailedBalance (fun x => T x ∧ c.lo ≤ enthalpyOf k x ∧ enthalpyOf k x < c.hi)
      (fun x => Real.exp (-s.entropy ⌊(enthalpyOf k x - c.lo) / c.size⌋.toNat))
      (transition u.propose (wlAcc c k s u.ratio)) :=
  h.wl_balance hk (valid_iff hv).2.1 s

/-- C82. The entropies do change only at the steps divisible by the update period, and then only
that of the bin of the new occupancy, by the modification factor. -/
theorem C82_frozen (hv : c.valid m0 = true) (hu : c.update ≠ 0) (hc : c.check ≠ 0) (s s' : WL ℝ)
    (he : s.enth = some (enthalpyOf k s.occ)) (hfe : s.feats = k.feature s.occ)
    (h1 : c.lo ≤ enthalpyOf k s.occ) (h2 : enthalpyOf k s.occ < c.hi) (st : Step) (lp lu : ℝ)
    (hlen : (k.feature (applyStep s.occ st)).length = (k.feature s.occ).length)
    (hchange : k.change s.occ st =
      List.zipWith (· - ·) (k.feature (applyStep s.occ st)) (k.feature s.occ))
    (hstep : s.step c k (st, lp, lu) = some s') :
    (¬ c.update ∣ s.counter + 1 → s'.entropy = s.entropy) ∧
    (c.update ∣ s.counter + 1 → ∀ b, s'.entropy b = s.entropy b +
      if ⌊(enthalpyOf k s'.occ - c.lo) / c.size⌋.toNat = b then s.m else 0) := by
  obtain ⟨t, ht, he', e1, e2, e3, e4, e5, e6, _⟩ := step_inside (valid_iff hv).2.1 hu hc
    ⟨he, hfe, h1, h2⟩ st lp lu hlen hchange
  rw [hstep, Option.some.injEq] at he'
  have hent : s'.entropy = (t.tally c (c.bin (enthalpyOf k t.occ))).entropy := by
    rw [he']; exact (finish_occ c _).2.2.2.2.1
  have hocc : s'.occ = t.occ := by
    rw [he', (finish_occ c _).1, (tally_occ c t _).1]
  rw [hent, hocc]
  unfold WL.tally
  simp only [e5, e1, e6]
  constructor
  · intro hd
    rw [if_neg fun h => hd (Nat.dvd_of_mod_eq_zero h)]
  · intro hd b
    rw [if_pos (Nat.mod_eq_zero_of_dvd hd)]
    by_cases hb : c.bin (enthalpyOf k t.occ) = b
    · subst hb
      dsimp only
      rw [Function.update_self]
      unfold WLConf.bin WLConf.binId
      rw [if_pos rfl]
    · dsimp only
      rw [Function.update_of_ne (Ne.symm hb)]
      unfold WLConf.bin WLConf.binId at hb
      rw [if_neg hb, add_zero]

/-- C82. `levels`, `entropy` and `histogram` list, in the order of the energy, the same bins: those
with positive entropy. -/
theorem C82_reports (c : WLConf ℝ) (s : WL ℝ) :
    ∃ bins : List ℕ, bins.Pairwise (· < ·) ∧ (∀ b, b ∈ bins ↔ b < c.nbins ∧ 0 < s.entropy b) ∧
      s.levelsSeen c = bins.map (fun (b : ℕ) => c.lo + (b : ℝ) * c.size) ∧
      s.entropySeen c = bins.map s.entropy ∧ s.histogramSeen c = bins.map s.hist := by
  refine ⟨s.seen c, List.Pairwise.filter _ List.pairwise_lt_range, fun b => ?_, rfl, rfl, rfl⟩
  rw [WL.seen, List.mem_filter, List.mem_range, decide_eq_true_eq]

variable (h : Fair act T u) (hk : ExactKern act k) (hv : c.valid m0 = true) (s : WL ℝ)
  {x0 : Occ} (hx0 : T x0) (h1 : c.lo ≤ enthalpyOf k x0) (h2 : enthalpyOf k x0 < c.hi)
  {Ω : Set Occ} (hΩ : Ω = reached (transition u.propose (wlAcc c k s u.ratio)) x0)
include h hk hv hx0 h1 h2 hΩ

/-- C82. Averages over the samples taken with these entropies converge to averages with the weights
`exp(-S)` over the states that can be reached, which all lie in the window. -/
theorem C82_average (f : Occ → ℝ) :
    (∀ x ∈ Ω, T x ∧ c.lo ≤ enthalpyOf k x ∧ enthalpyOf k x < c.hi) ∧
    ∃ C : ℝ, ∀ n : ℕ, 0 < n → ∀ x ∈ Ω,
      sampleMean u.propose (wlAcc c k s u.ratio) 1 n x (fun l => ((l.map f).sum / n -
        weightedMean (fun x => Real.exp (-s.entropy ⌊(enthalpyOf k x - c.lo) / c.size⌋.toNat))
          Ω f) ^ 2) ≤ C / n := by
  subst hΩ
  obtain ⟨herg, hall⟩ := h.wl_ergodic hk (valid_iff hv).2.1 s hx0 ⟨h1, h2⟩
  exact ⟨hall, herg.mean_square 1 one_pos (Or.inl rfl) f⟩

open Classical in
/-- C82. The share of the samples that fall into bin `b` converges to `g(b) exp(-S(b))`, divided by
the sum of these over the bins, where `g(b)` is the number of states in the bin. -/
theorem C82_bin_share (b : ℕ) (g : ℕ → ℕ) (hg : g = statesInBin Ω (enthalpyOf k) c.lo c.size) :
    ∃ C : ℝ, ∀ n : ℕ, 0 < n → ∀ x ∈ Ω,
      sampleMean u.propose (wlAcc c k s u.ratio) 1 n x (fun l =>
        (((l.filter fun y => decide (c.lo + b * c.size ≤ enthalpyOf k y ∧
            enthalpyOf k y < c.lo + (b + 1) * c.size)).length : ℝ) / n -
          g b * Real.exp (-s.entropy b) /
            ∑ b' ∈ Finset.range c.nbins, g b' * Real.exp (-s.entropy b')) ^ 2) ≤ C / n := by
  obtain ⟨hall, C, hC⟩ := C82_average h hk hv s hx0 h1 h2 hΩ (inBin c k b)
  have hfin : Ω.Finite := hΩ ▸
    (legalStates_finite act x0).subset (h.reached_subset _ hx0)
  refine ⟨C, fun n hn x hx => ?_⟩
  have hlen : ∀ l : List Occ, ((l.filter fun y => decide (c.lo + b * c.size ≤ enthalpyOf k y ∧
      enthalpyOf k y < c.lo + (b + 1) * c.size)).length : ℝ) = (l.map (inBin c k b)).sum := by
    intro l
    induction l with
    | nil => simp
    | cons a l ih =>
      rw [List.map_cons, List.sum_cons, ← ih, List.filter_cons]
      unfold inBin
      by_cases ha : c.lo + b * c.size ≤ enthalpyOf k a ∧ enthalpyOf k a < c.lo + (b + 1) * c.size
      · rw [if_pos (decide_eq_true ha), if_pos ha]; push_cast [List.length_cons]; ring
      · rw [if_neg (by rw [decide_eq_true_eq]; exact ha), if_neg ha, zero_add]
  simp only [hlen]
  have := hC n hn x hx
  rw [hg]
  have hm := bin_mean (valid_iff hv).2.1 hfin (fun x hx => (hall x hx).2) s.entropy b
  rw [← hm]
  exact this

open Classical in
/-- C82. The histogram becomes flat, every bin that can be reached getting the same share in the
long run, exactly when the entropies are the logarithms of the numbers of states, up to a
constant. -/
theorem C82_flat_iff (g : ℕ → ℕ) (hg : g = statesInBin Ω (enthalpyOf k) c.lo c.size)
    (share : ℕ → ℝ)
    (hsh : ∀ b, share b = g b * Real.exp (-s.entropy b) /
      ∑ b' ∈ Finset.range c.nbins, g b' * Real.exp (-s.entropy b')) :
    (∀ b b', 0 < g b → 0 < g b' → share b = share b') ↔
      ∃ C : ℝ, ∀ b, 0 < g b → s.entropy b = Real.log (g b) + C := by
  obtain ⟨hall, _⟩ := C82_average h hk hv s hx0 h1 h2 hΩ (fun _ => 0)
  have hfin : Ω.Finite := hΩ ▸
    (legalStates_finite act x0).subset (h.reached_subset _ hx0)
  have hne : Ω.Nonempty := ⟨x0, hΩ ▸ Relation.ReflTransGen.refl⟩
  have := flat_iff (valid_iff hv).2.1 hfin (fun x hx => (hall x hx).2) hne s.entropy
  simp only [bin_mean (valid_iff hv).2.1 hfin (fun x hx => (hall x hx).2) s.entropy] at this
  simp only [hsh, hg]
  exact this

/-- C82. With the right entropies the share of every bin that can be reached is one over the number
of such bins. -/
theorem C82_flat_share (g : ℕ → ℕ) (hg : g = statesInBin Ω (enthalpyOf k) c.lo c.size) (C : ℝ)
    (hC : ∀ b, 0 < g b → s.entropy b = Real.log (g b) + C) (b : ℕ) (hb : 0 < g b) :
    g b * Real.exp (-s.entropy b) / ∑ b' ∈ Finset.range c.nbins, g b' * Real.exp (-s.entropy b') =
      1 / (((Finset.range c.nbins).filter fun b' => 0 < g b').card : ℝ) := by
  obtain ⟨hall, _⟩ := C82_average h hk hv s hx0 h1 h2 hΩ (fun _ => 0)
  have hfin : Ω.Finite := hΩ ▸
    (legalStates_finite act x0).subset (h.reached_subset _ hx0)
  subst hg
  rw [← flat_share (valid_iff hv).2.1 hfin (fun x hx => (hall x hx).2) s.entropy C hC hb,
    bin_mean (valid_iff hv).2.1 hfin (fun x hx => (hall x hx).2) s.entropy b]

/-- C82. At that fixed point `dos` is, for the visited levels in order, the number of states divided
by the smallest number of states of a level. -/
theorem C82_dos (g : ℕ → ℕ) (hg : g = statesInBin Ω (enthalpyOf k) c.lo c.size) (C : ℝ)
    (hC : ∀ b, 0 < g b → s.entropy b = Real.log (g b) + C)
    (hseen : ∀ b < c.nbins, 0 < s.entropy b ↔ 0 < g b) :
    s.levelsSeen c = ((List.range c.nbins).filter fun b => decide (0 < g b)).map
      (fun (b : ℕ) => c.lo + (b : ℝ) * c.size) ∧
    ∃ b0, 0 < g b0 ∧ (∀ b, 0 < g b → g b0 ≤ g b) ∧
      s.dos c = some (((List.range c.nbins).filter fun b => decide (0 < g b)).map
        fun b => (g b : ℝ) / g b0) := by
  obtain ⟨hall, _⟩ := C82_average h hk hv s hx0 h1 h2 hΩ (fun _ => 0)
  have hfin : Ω.Finite := hΩ ▸
    (legalStates_finite act x0).subset (h.reached_subset _ hx0)
  have hsz := (valid_iff hv).2.1
  have hin : ∀ x ∈ Ω, c.In k x := fun x hx => (hall x hx).2
  have hse : s.seen c = (List.range c.nbins).filter fun b => decide (0 < g b) := by
    unfold WL.seen
    refine List.filter_congr fun b hb => ?_
    rw [decide_eq_decide]
    exact hseen b (List.mem_range.1 hb)
  have hmem : ∀ b, b ∈ s.seen c ↔ 0 < g b := by
    intro b
    rw [hse, List.mem_filter, List.mem_range, decide_eq_true_eq]
    refine ⟨fun h => h.2, fun h => ⟨?_, h⟩⟩
    rw [hg] at h
    exact bin_pos_lt hsz hfin hin h
  have hne : s.seen c ≠ [] := by
    have hx : x0 ∈ Ω := hΩ ▸ Relation.ReflTransGen.refl
    have hb := (bin_eq_iff hsz h1 (c.bin (enthalpyOf k x0))).1 rfl
    have : 0 < g (c.bin (enthalpyOf k x0)) := by
      rw [hg, statesInBin, Set.ncard_pos (hfin.subset (Set.sep_subset _ _))]
      exact ⟨x0, hx, hb⟩
    exact List.ne_nil_of_mem ((hmem _).2 this)
  refine ⟨by rw [WL.levelsSeen, hse], ?_⟩
  obtain ⟨b0, hb0, hmin, hd⟩ := dos_eq c s hne
  have hb0' := (hmem b0).1 hb0
  refine ⟨b0, hb0', fun b hb => ?_, ?_⟩
  · have := hmin b ((hmem b).2 hb)
    rw [hC b hb, hC b0 hb0', add_le_add_iff_right, Real.log_le_log_iff (Nat.cast_pos.2 hb0')
      (Nat.cast_pos.2 hb)] at this
    exact_mod_cast this
  · rw [hd, ← hse, Option.some.injEq]
    refine List.map_congr_left fun b hb => ?_
    have hb' := (hmem b).1 hb
    rw [hC b hb', hC b0 hb0', add_sub_add_right_eq_sub, Real.exp_sub,
      Real.exp_log (Nat.cast_pos.2 hb'), Real.exp_log (Nat.cast_pos.2 hb0')]

omit hΩ in
/-- C82. Which states can be reached does not depend on the entropies, and there are entropies that
are the fixed point: positive exactly on the bins that can be reached, and there the logarithms of
the numbers of states up to a constant. -/
theorem C82_fixed_point :
    (∀ s' : WL ℝ, reached (transition u.propose (wlAcc c k s' u.ratio)) x0 =
      reached (transition u.propose (wlAcc c k s u.ratio)) x0) ∧
    ∃ (S : ℕ → ℝ) (Ω : Set Occ) (g : ℕ → ℕ) (C : ℝ),
      Ω = reached (transition u.propose (wlAcc c k { s with entropy := S } u.ratio)) x0 ∧
      g = statesInBin Ω (enthalpyOf k) c.lo c.size ∧
      (∀ b, 0 < g b → S b = Real.log (g b) + C) ∧ ∀ b, 0 < S b ↔ 0 < g b := by
  have hin : c.In k x0 := ⟨h1, h2⟩
  have hsz := (valid_iff hv).2.1
  refine ⟨fun s' => h.wl_reached hk hsz s' s hx0 hin, ?_⟩
  set Ω := reached (transition u.propose (wlAcc c k s u.ratio)) x0 with hΩ
  set g := statesInBin Ω (enthalpyOf k) c.lo c.size with hg
  refine ⟨fun b => if 0 < g b then Real.log (g b) + 1 else 0, Ω, g, 1,
    h.wl_reached hk hsz _ _ hx0 hin, rfl, fun b hb => if_pos hb, fun b => ?_⟩
  by_cases hb : 0 < g b
  · simp only [hb, if_true, iff_true]
    have := Real.log_nonneg (Nat.one_le_cast.2 hb : (1 : ℝ) ≤ g b)
    linarith
  · simp [hb]

end

/-! ### A setting that meets the hypotheses -/

/-- Two binary sites, the energy is the number of ones. -/
def sumKern : Kern ℝ :=
  ⟨[1], fun o => [(o 0 : ℝ) + o 1],
    fun o st => [((applyStep o st 0 : ℝ) + applyStep o st 1) - ((o 0 : ℝ) + o 1)], none,
    fun _ _ => 0⟩

/-- Energies 0 and 1 are inside, each with its bin; 2 is outside. -/
noncomputable def sumConf : WLConf ℝ := ⟨0, 2, 1, 4 / 5, 4, 2, fun x => x / 2⟩

theorem sumKern_enthalpy (x : Occ) : enthalpyOf sumKern x = (x 0 : ℝ) + x 1 := by
  simp [enthalpyOf, sumKern]

/-- the hypotheses of C82 are met -/
example : Fair [pairSublattice] (LegalOcc [pairSublattice]) pairFlip ∧
    ExactKern [pairSublattice] sumKern ∧ sumConf.valid 1 = true ∧ sumConf.update ≠ 0 ∧
    sumConf.check ≠ 0 ∧ LegalOcc [pairSublattice] (fun _ => 0) ∧
    sumConf.lo ≤ enthalpyOf sumKern (fun _ => 0) ∧
    enthalpyOf sumKern (fun _ => 0) < sumConf.hi := by
  refine ⟨.symmetric (sitesOk_of pair_ok) pairFlip (fun _ h => h) pairFlip_built, ?_, ?_, by
    decide, by decide, ?_, ?_, ?_⟩
  · intro x st _ _
    rw [sumKern_enthalpy, sumKern_enthalpy]
    simp [dot, sumKern]
  · simp only [WLConf.valid, sumConf, Bool.and_eq_true, Bool.not_eq_true', decide_eq_false_iff_not]
    norm_num
  · intro sl hsl s hs
    rw [List.mem_singleton] at hsl
    subst hsl
    show 0 ∈ pairSublattice.encoding
    decide
  · rw [sumKern_enthalpy]; norm_num [sumConf]
  · rw [sumKern_enthalpy]; norm_num [sumConf]

/-- a step to a bin of twice the number of states is accepted half of the time, a step out of the
window never -/
example (s : WL ℝ) (h0 : s.entropy 0 = 1) (h1 : s.entropy 1 = 1 + Real.log 2) :
    wlAcc sumConf sumKern s (fun _ _ => 1) (fun _ => 0) [(0, 1)] = 1 / 2 ∧
    wlAcc sumConf sumKern s (fun _ _ => 1) (fun _ => 0) [(0, 1), (1, 1)] = 0 := by
  have hv : sumConf.valid 1 = true := by
    simp only [WLConf.valid, sumConf, Bool.and_eq_true, Bool.not_eq_true', decide_eq_false_iff_not]
    norm_num
  have hin : sumConf.lo ≤ enthalpyOf sumKern (fun _ => 0) ∧
      enthalpyOf sumKern (fun _ => 0) < sumConf.hi := by
    rw [sumKern_enthalpy]; norm_num [sumConf]
  have ha : ∀ st, dot sumKern.params (sumKern.change (fun _ => 0) st) =
      enthalpyOf sumKern (applyStep (fun _ => 0) st) - enthalpyOf sumKern (fun _ => 0) := by
    intro st
    rw [sumKern_enthalpy, sumKern_enthalpy]
    simp [dot, sumKern]
  have e0 : enthalpyOf sumKern (fun _ => 0) = 0 := by rw [sumKern_enthalpy]; simp
  have e1 : enthalpyOf sumKern (applyStep (fun _ => 0) [(0, 1)]) = 1 := by
    rw [sumKern_enthalpy]; simp [applyStep]
  have e2 : enthalpyOf sumKern (applyStep (fun _ => 0) [(0, 1), (1, 1)]) = 2 := by
    rw [sumKern_enthalpy]; simp [applyStep]; norm_num
  constructor
  · rw [(C82_acceptance hv s (fun _ _ => 1) _ hin.1 hin.2 [(0, 1)] zero_le_one (ha _)).1
      (by rw [e1]; norm_num [sumConf]), e0, e1]
    have b0 : ⌊((0 : ℝ) - sumConf.lo) / sumConf.size⌋.toNat = 0 := by simp [sumConf]
    have b1 : ⌊((1 : ℝ) - sumConf.lo) / sumConf.size⌋.toNat = 1 := by simp [sumConf]
    rw [b0, b1, h0, h1, mul_one, sub_add_cancel_left, Real.exp_neg, Real.exp_log two_pos]
    norm_num
  · exact (C82_acceptance hv s (fun _ _ => 1) _ hin.1 hin.2 [(0, 1), (1, 1)] zero_le_one (ha _)).2
      (by rw [e2]; norm_num [sumConf])

end Smol
