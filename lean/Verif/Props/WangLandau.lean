import Verif.Model.WangLandau
import Verif.Spec.WangLandau
import Verif.Lemmas.Sampler
import Mathlib.Tactic.FieldSimp
import Mathlib.Algebra.Order.Floor.Ring
import Mathlib.Algebra.Order.BigOperators.Group.Finset

/-!
# C24, C25, C26 Wang-Landau sampling
-/

set_option linter.unusedSectionVars false

namespace Smol
open Spec
variable {K : Type*} [Field K] [LinearOrder K] [IsStrictOrderedRing K] [FloorRing K]

/-- Enthalpy of an occupancy. -/
def enthalpyOf (k : Kern K) (x : Occ) : K := (List.zipWith (· * ·) k.params (k.feature x)).sum

theorem valid_iff {c : WLConf K} {m0 : K} (h : c.valid m0 = true) :
    c.lo < c.hi ∧ 0 < c.size ∧ 0 < m0 := by
  simp only [WLConf.valid, Bool.and_eq_true, Bool.not_eq_true', decide_eq_false_iff_not, not_lt,
    not_le] at h
  obtain ⟨⟨⟨h1, h2⟩, h3⟩, h4⟩ := h
  have hd : 0 ≤ c.hi - c.lo := sub_nonneg.2 h1
  have hs : 0 < c.size := by
    by_contra hneg
    have : (c.hi - c.lo) / c.size ≤ 0 := div_nonpos_of_nonneg_of_nonpos hd (not_lt.1 hneg)
    have := h3.trans_le this
    exact absurd this (by norm_num)
  refine ⟨?_, hs, h4⟩
  rcases h1.lt_or_eq with h | h
  · exact h
  · rw [h, sub_self, zero_div] at h3
    exact absurd h3 (by norm_num)

theorem bin_valid {c : WLConf K} (hs : 0 < c.size) {e : K} (h1 : c.lo ≤ e) (h2 : e < c.hi) :
    0 ≤ c.binId e ∧ c.binId e < c.nbins := by
  have h0 : 0 ≤ c.binId e := Int.floor_nonneg.2 (div_nonneg (sub_nonneg.2 h1) hs.le)
  refine ⟨h0, ?_⟩
  have hlt : c.binId e < ⌈(c.hi - c.lo) / c.size⌉ := by
    rw [WLConf.binId, Int.floor_lt]
    have : (e - c.lo) / c.size < (c.hi - c.lo) / c.size := by
      apply div_lt_div_of_pos_right _ hs
      linarith
    exact this.trans_le (Int.le_ceil _)
  rw [WLConf.nbins, Int.toNat_of_nonneg (by omega)]
  exact hlt

/-- The state is that of an occupancy inside the window. -/
structure WL.Inside (c : WLConf K) (k : Kern K) (s : WL K) : Prop where
  enth : s.enth = some (enthalpyOf k s.occ)
  feats : s.feats = k.feature s.occ
  lo : c.lo ≤ enthalpyOf k s.occ
  hi : enthalpyOf k s.occ < c.hi

/-- The reset at the end of a step. -/
def WL.finish (c : WLConf K) (s : WL K) : WL K :=
  if s.counter % c.check = 0 ∧ s.isFlat c then { s with hist := fun _ => 0, m := c.modUpdate s.m }
  else s

/-- The bin of an enthalpy, as a natural number. -/
def WLConf.bin (c : WLConf K) (e : K) : ℕ := (c.binId e).toNat

theorem pyAt_valid {n : ℕ} {a : ℕ → K} {b : ℤ} (h0 : 0 ≤ b) (h1 : b < n) :
    pyAt n a b = some (a b.toNat) := by
  rw [pyAt, if_pos h0, if_pos h1]

theorem accept_inside {c : WLConf K} {k : Kern K} {s : WL K} (hs : 0 < c.size)
    (h : s.Inside c k) (dH lp lu : K) :
    s.accept c dH lp lu = some (decide ((c.lo ≤ enthalpyOf k s.occ + dH ∧
      enthalpyOf k s.occ + dH < c.hi) ∧
      (0 ≤ s.entropy (c.bin (enthalpyOf k s.occ)) -
          s.entropy (c.bin (enthalpyOf k s.occ + dH)) + lp ∨
        lu < s.entropy (c.bin (enthalpyOf k s.occ)) -
          s.entropy (c.bin (enthalpyOf k s.occ + dH)) + lp))) := by
  rw [WL.accept, h.enth]
  simp only
  by_cases hout : enthalpyOf k s.occ + dH < c.lo ∨ c.hi ≤ enthalpyOf k s.occ + dH
  · rw [if_pos hout]
    congr 1
    symm
    rw [decide_eq_false_iff_not]
    rintro ⟨⟨h1, h2⟩, _⟩
    rcases hout with h | h
    · exact absurd h (not_lt.2 h1)
    · exact absurd h (not_le.2 h2)
  · rw [if_neg hout]
    simp only [not_or, not_lt, not_le] at hout
    obtain ⟨a0, a1⟩ := bin_valid hs h.lo h.hi
    obtain ⟨b0, b1⟩ := bin_valid hs hout.1 hout.2
    rw [pyAt_valid a0 a1, pyAt_valid b0 b1]
    simp only [Option.bind_some, Option.map_some, Option.some.injEq]
    change (if 0 ≤ s.entropy (c.bin (enthalpyOf k s.occ)) -
          s.entropy (c.bin (enthalpyOf k s.occ + dH)) + lp then true else decide _) = _
    split_ifs with hz
    · symm; rw [decide_eq_true_iff]; exact ⟨hout, Or.inl hz⟩
    · rw [decide_eq_decide]
      constructor
      · intro hlu; exact ⟨hout, Or.inr hlu⟩
      · rintro ⟨_, h | h⟩
        · exact absurd h hz
        · exact h

theorem post_inside {c : WLConf K} {k : Kern K} {s : WL K} (hs : 0 < c.size) (hu : c.update ≠ 0)
    (hc : c.check ≠ 0) (h : s.Inside c k) :
    s.post c = some ((s.tally c (c.bin (enthalpyOf k s.occ))).finish c) := by
  obtain ⟨a0, a1⟩ := bin_valid hs h.lo h.hi
  have hb : s.validBin c = some (c.bin (enthalpyOf k s.occ)) := by
    rw [WL.validBin, h.enth, Option.bind_some, if_pos ⟨a0, a1⟩]; rfl
  rw [WL.post, hb]
  simp only
  rw [if_neg hu, Option.bind_some, if_neg hc, WL.finish]
  split_ifs <;> rfl

theorem tally_occ (c : WLConf K) (s : WL K) (b : ℕ) : (s.tally c b).occ = s.occ ∧
    (s.tally c b).feats = s.feats ∧ (s.tally c b).enth = s.enth ∧
    (s.tally c b).counter = s.counter + 1 ∧ (s.tally c b).m = s.m := by
  unfold WL.tally
  simp only
  split_ifs <;> exact ⟨rfl, rfl, rfl, rfl, rfl⟩

theorem finish_occ (c : WLConf K) (s : WL K) : (s.finish c).occ = s.occ ∧
    (s.finish c).feats = s.feats ∧ (s.finish c).enth = s.enth ∧
    (s.finish c).counter = s.counter ∧ (s.finish c).entropy = s.entropy ∧
    (s.finish c).occurrences = s.occurrences ∧ (s.finish c).mean = s.mean := by
  unfold WL.finish
  split_ifs <;> exact ⟨rfl, rfl, rfl, rfl, rfl, rfl, rfl⟩

/-- One step from a state inside the window. -/
theorem step_inside {c : WLConf K} {k : Kern K} {s : WL K} (hs : 0 < c.size) (hu : c.update ≠ 0)
    (hc : c.check ≠ 0) (h : s.Inside c k) (st : Step) (lp lu : K)
    (hlen : (k.feature (applyStep s.occ st)).length = (k.feature s.occ).length)
    (hchange : k.change s.occ st =
      List.zipWith (· - ·) (k.feature (applyStep s.occ st)) (k.feature s.occ)) :
    ∃ t : WL K, t.Inside c k ∧
      s.step c k (st, lp, lu) = some ((t.tally c (c.bin (enthalpyOf k t.occ))).finish c) ∧
      t.entropy = s.entropy ∧ t.hist = s.hist ∧ t.occurrences = s.occurrences ∧ t.mean = s.mean ∧
      t.counter = s.counter ∧ t.m = s.m ∧
      (t.occ = applyStep s.occ st ∧
        ((c.lo ≤ enthalpyOf k (applyStep s.occ st) ∧ enthalpyOf k (applyStep s.occ st) < c.hi) ∧
          (0 ≤ s.entropy (c.bin (enthalpyOf k s.occ)) -
              s.entropy (c.bin (enthalpyOf k (applyStep s.occ st))) + lp ∨
            lu < s.entropy (c.bin (enthalpyOf k s.occ)) -
              s.entropy (c.bin (enthalpyOf k (applyStep s.occ st))) + lp)) ∨
       t.occ = s.occ ∧ ¬((c.lo ≤ enthalpyOf k (applyStep s.occ st) ∧
          enthalpyOf k (applyStep s.occ st) < c.hi) ∧
          (0 ≤ s.entropy (c.bin (enthalpyOf k s.occ)) -
              s.entropy (c.bin (enthalpyOf k (applyStep s.occ st))) + lp ∨
            lu < s.entropy (c.bin (enthalpyOf k s.occ)) -
              s.entropy (c.bin (enthalpyOf k (applyStep s.occ st))) + lp))) := by
  have hfull : List.zipWith (· + ·) (k.feature s.occ) (k.change s.occ st) =
      k.feature (applyStep s.occ st) := by
    rw [hchange]; exact zip_add_sub _ _ hlen.symm
  have hH : enthalpyOf k s.occ + dot k.params (k.change s.occ st) =
      enthalpyOf k (applyStep s.occ st) := by
    unfold enthalpyOf
    rw [← hfull]
    exact (dot_add _ _ _ (by rw [hchange, List.length_zipWith, hlen, min_self])).symm
  have ha := accept_inside hs h (dot k.params (k.change s.occ st)) lp lu
  rw [hH] at ha
  rw [WL.step]
  simp only
  rw [ha, Option.bind_some]
  split_ifs with hacc
  · rw [decide_eq_true_iff] at hacc
    have hin : (s.doAccept k st).Inside c k := by
      refine ⟨?_, ?_, hacc.1.1, hacc.1.2⟩
      · simp only [WL.doAccept, h.enth, Option.map_some, hH]
      · simp only [WL.doAccept, h.feats, hfull]
    exact ⟨_, hin, post_inside hs hu hc hin, rfl, rfl, rfl, rfl, rfl, rfl, Or.inl ⟨rfl, hacc⟩⟩
  · rw [decide_eq_true_iff] at hacc
    exact ⟨_, h, post_inside hs hu hc h, rfl, rfl, rfl, rfl, rfl, rfl, Or.inr ⟨rfl, hacc⟩⟩

theorem finish_tally_inside {c : WLConf K} {k : Kern K} {t : WL K} (h : t.Inside c k) (b : ℕ) :
    ((t.tally c b).finish c).Inside c k := by
  obtain ⟨h1, h2, h3, _⟩ := tally_occ c t b
  obtain ⟨g1, g2, g3, _⟩ := finish_occ c (t.tally c b)
  constructor
  · rw [g3, g1, h3, h1]; exact h.enth
  · rw [g2, g1, h2, h1]; exact h.feats
  · rw [g1, h1]; exact h.lo
  · rw [g1, h1]; exact h.hi

section Run
variable (c : WLConf K) (m0 : K) (k : Kern K) (ch : ℕ → Occ → Step × K × K) (I : Occ → Prop)
  (occ0 : Occ)

/-- What the theorems assume: the constructor accepted the settings, the periods are positive,
feature changes are exact for the proposals (C02-C06), and the run starts inside the window. -/
structure WLSetting : Prop where
  valid : c.valid m0 = true
  update : 0 < c.update
  check : 0 < c.check
  stays : ∀ n x, I x → I (applyStep x (ch n x).1)
  len : ∀ x y, (k.feature x).length = (k.feature y).length
  change : ∀ n x, I x → k.change x (ch n x).1 =
    List.zipWith (· - ·) (k.feature (applyStep x (ch n x).1)) (k.feature x)
  start : I occ0
  lo : c.lo ≤ enthalpyOf k occ0
  hi : enthalpyOf k occ0 < c.hi

variable {c m0 k ch I occ0}

theorem run_inside (h : WLSetting c m0 k ch I occ0) (s0 : WL K) (n : ℕ) :
    ∃ s, wlRun c k ch (s0.setAux k occ0) n = some s ∧ s.Inside c k ∧ I s.occ := by
  obtain ⟨_, hs, _⟩ := valid_iff h.valid
  induction n with
  | zero => exact ⟨_, rfl, ⟨rfl, rfl, h.lo, h.hi⟩, h.start⟩
  | succ n ih =>
    obtain ⟨s, h1, h2, h3⟩ := ih
    obtain ⟨t, t1, t2, _, _, _, _, _, _, t3⟩ := step_inside hs h.update.ne' h.check.ne' h2
      (ch n s.occ).1 (ch n s.occ).2.1 (ch n s.occ).2.2 (h.len _ _) (h.change n s.occ h3)
    refine ⟨(t.tally c (c.bin (enthalpyOf k t.occ))).finish c, ?_, finish_tally_inside t1 _, ?_⟩
    · rw [wlRun, h1, Option.bind_some]; exact t2
    · rw [(finish_occ c _).1, (tally_occ c t _).1]
      rcases t3 with ⟨e, _⟩ | ⟨e, _⟩
      · rw [e]; exact h.stays n _ h3
      · rw [e]; exact h3

/-- C24. A run started inside the window never raises and never leaves it; its bin index is valid
and the tracked enthalpy and features are those of its occupancy. -/
theorem C24_stays_in_window (h : WLSetting c m0 k ch I occ0) (s0 : WL K) :
    ∃ s : ℕ → WL K, (∀ n, wlRun c k ch (s0.setAux k occ0) n = some (s n)) ∧ ∀ n,
      (s n).enth = some (enthalpyOf k (s n).occ) ∧ (s n).feats = k.feature (s n).occ ∧
      c.lo ≤ enthalpyOf k (s n).occ ∧ enthalpyOf k (s n).occ < c.hi ∧
      0 ≤ ⌊(enthalpyOf k (s n).occ - c.lo) / c.size⌋ ∧
      ⌊(enthalpyOf k (s n).occ - c.lo) / c.size⌋ < c.nbins := by
  choose s h1 h2 h3 using run_inside h s0
  obtain ⟨_, hs, _⟩ := valid_iff h.valid
  exact ⟨s, h1, fun n => ⟨(h2 n).enth, (h2 n).feats, (h2 n).lo, (h2 n).hi,
    bin_valid hs (h2 n).lo (h2 n).hi⟩⟩

/-- C24. Continuing a run is seamless: setting the auxiliary state from the last occupancy changes
nothing. -/
theorem C24_resume (h : WLSetting c m0 k ch I occ0) (s0 : WL K) (n : ℕ) (s : WL K)
    (hn : wlRun c k ch (s0.setAux k occ0) n = some s) : s.setAux k s.occ = s := by
  obtain ⟨s', h1, h2, _⟩ := run_inside h s0 n
  rw [hn, Option.some.injEq] at h1
  subst h1
  obtain ⟨o, f, e, _, _, _, _, _, _⟩ := s
  have := h2.enth; have := h2.feats
  simp_all [WL.setAux, enthalpyOf, dot]

/-- C25. The acceptance rule: a proposal is taken iff it stays in the window and
`S(old) - S(new) + log_priori` is nonnegative or above the logarithm of the random number. -/
theorem C25_accept_rule (h : WLSetting c m0 k ch I occ0) (s0 : WL K) (n : ℕ) (s s' : WL K)
    (hn : wlRun c k ch (s0.setAux k occ0) n = some s)
    (hn' : wlRun c k ch (s0.setAux k occ0) (n + 1) = some s') (st : Step) (lp lu : K)
    (hch : ch n s.occ = (st, lp, lu)) (dS : K)
    (hdS : dS = s.entropy ⌊(enthalpyOf k s.occ - c.lo) / c.size⌋.toNat -
      s.entropy ⌊(enthalpyOf k (applyStep s.occ st) - c.lo) / c.size⌋.toNat) :
    (c.lo ≤ enthalpyOf k (applyStep s.occ st) ∧ enthalpyOf k (applyStep s.occ st) < c.hi ∧
        (0 ≤ dS + lp ∨ lu < dS + lp) → s'.occ = applyStep s.occ st) ∧
    (¬(c.lo ≤ enthalpyOf k (applyStep s.occ st) ∧ enthalpyOf k (applyStep s.occ st) < c.hi ∧
        (0 ≤ dS + lp ∨ lu < dS + lp)) → s'.occ = s.occ) := by
  obtain ⟨s1, h1, h2, h3⟩ := run_inside h s0 n
  rw [hn, Option.some.injEq] at h1
  subst h1
  obtain ⟨_, hs, _⟩ := valid_iff h.valid
  have hc := h.change n s.occ h3
  rw [hch] at hc
  obtain ⟨t, t1, t2, _, _, _, _, _, _, t3⟩ := step_inside hs h.update.ne' h.check.ne' h2
      st lp lu (h.len _ _) hc
  rw [wlRun, hn, Option.bind_some, hch, t2, Option.some.injEq] at hn'
  have ho : s'.occ = t.occ := by
    rw [← hn', (finish_occ c _).1, (tally_occ c t _).1]
  rw [ho]
  change _ = s.entropy (c.bin _) - s.entropy (c.bin _) at hdS
  rw [← hdS] at t3
  rcases t3 with ⟨e, g⟩ | ⟨e, g⟩
  · exact ⟨fun _ => e, fun hneg => absurd ⟨g.1.1, g.1.2, g.2⟩ hneg⟩
  · exact ⟨fun hp => absurd ⟨⟨hp.1, hp.2.1⟩, hp.2.2⟩ g, fun _ => e⟩

/-! ### Bookkeeping -/

theorem mem_updateSteps {u : ℕ} {bins : ℕ → ℕ} {r n b j : ℕ} :
    j ∈ updateSteps u bins r n b ↔ (r < j ∧ j ≤ n) ∧ u ∣ j ∧ bins j = b := by
  rw [updateSteps, Finset.mem_filter, Finset.mem_Ioc]

theorem updateSteps_self (u : ℕ) (bins : ℕ → ℕ) (n b : ℕ) : updateSteps u bins n n b = ∅ := by
  simp [updateSteps]

theorem updateSteps_succ (u : ℕ) (bins : ℕ → ℕ) {r n : ℕ} (hr : r ≤ n) (b : ℕ) :
    updateSteps u bins r (n + 1) b =
      if u ∣ n + 1 ∧ bins (n + 1) = b then insert (n + 1) (updateSteps u bins r n b)
      else updateSteps u bins r n b := by
  ext j
  split_ifs with h
  · rw [Finset.mem_insert, mem_updateSteps, mem_updateSteps]
    constructor
    · rintro ⟨⟨h1, h2⟩, h3⟩
      by_cases hj : j = n + 1
      · exact Or.inl hj
      · exact Or.inr ⟨⟨h1, by omega⟩, h3⟩
    · rintro (rfl | ⟨⟨h1, h2⟩, h3⟩)
      · exact ⟨⟨by omega, le_refl _⟩, h⟩
      · exact ⟨⟨h1, by omega⟩, h3⟩
  · rw [mem_updateSteps, mem_updateSteps]
    constructor
    · rintro ⟨⟨h1, h2⟩, h3⟩
      by_cases hj : j = n + 1
      · subst hj; exact absurd h3 h
      · exact ⟨⟨h1, by omega⟩, h3⟩
    · rintro ⟨⟨h1, h2⟩, h3⟩
      exact ⟨⟨h1, by omega⟩, h3⟩

theorem succ_not_mem (u : ℕ) (bins : ℕ → ℕ) (r n b : ℕ) : n + 1 ∉ updateSteps u bins r n b := by
  rw [mem_updateSteps]; omega

/-- How the counters of successive states are related. -/
theorem seq_step (h : WLSetting c m0 k ch I occ0) (s0 : WL K) (n : ℕ) (s s' : WL K)
    (hn : wlRun c k ch (s0.setAux k occ0) n = some s)
    (hn' : wlRun c k ch (s0.setAux k occ0) (n + 1) = some s') :
    ∃ t : WL K, t.occ = s'.occ ∧ t.feats = k.feature s'.occ ∧
      t.entropy = s.entropy ∧ t.hist = s.hist ∧ t.occurrences = s.occurrences ∧ t.mean = s.mean ∧
      t.counter = s.counter ∧ t.m = s.m ∧
      s' = (t.tally c (c.bin (enthalpyOf k s'.occ))).finish c := by
  obtain ⟨s1, h1, h2, h3⟩ := run_inside h s0 n
  rw [hn, Option.some.injEq] at h1
  subst h1
  obtain ⟨_, hs, _⟩ := valid_iff h.valid
  obtain ⟨t, t1, t2, a1, a2, a3, a4, a5, a6, _⟩ := step_inside hs h.update.ne' h.check.ne' h2
      (ch n s.occ).1 (ch n s.occ).2.1 (ch n s.occ).2.2 (h.len _ _) (h.change n s.occ h3)
  rw [wlRun, hn, Option.bind_some] at hn'
  rw [show ch n s.occ = ((ch n s.occ).1, (ch n s.occ).2.1, (ch n s.occ).2.2) from rfl, t2,
    Option.some.injEq] at hn'
  have ho : t.occ = s'.occ := by
    rw [← hn', (finish_occ c _).1, (tally_occ c t _).1]
  refine ⟨t, ho, ?_, a1, a2, a3, a4, a5, a6, ?_⟩
  · rw [t1.feats, ho]
  · rw [← ho]; exact hn'.symm

theorem filter_range_card (N : ℕ) (p : ℕ → Prop) [DecidablePred p] :
    ((List.range N).filter fun b => decide (p b)).length = ((Finset.range N).filter p).card := by
  rw [← List.toFinset_card_of_nodup (List.Nodup.filter _ List.nodup_range)]
  congr 1
  ext b
  simp

theorem filter_range_sum (N : ℕ) (p : ℕ → Prop) [DecidablePred p] (f : ℕ → ℕ) :
    (((List.range N).filter fun b => decide (p b)).map f).sum =
      ∑ b ∈ (Finset.range N).filter p, f b := by
  rw [← List.sum_toFinset f (List.Nodup.filter _ List.nodup_range)]
  apply Finset.sum_congr _ fun _ _ => rfl
  ext b
  simp

theorem isFlat_iff (s : WL K) (V : Finset ℕ) (g : ℕ → ℕ)
    (hV : ∀ b < c.nbins, 0 < s.entropy b ↔ b ∈ V) (hV' : ∀ b ∈ V, b < c.nbins)
    (hg : ∀ b, s.hist b = g b) : s.isFlat c = true ↔ Flat c.flat V g := by
  have hVe : (Finset.range c.nbins).filter (fun b => 0 < s.entropy b) = V := by
    ext b
    rw [Finset.mem_filter, Finset.mem_range]
    constructor
    · rintro ⟨a, b⟩; exact (hV _ a).1 b
    · intro hb; exact ⟨hV' b hb, (hV b (hV' b hb)).2 hb⟩
  have hg' : s.hist = g := funext hg
  unfold WL.isFlat Flat
  simp only [Bool.and_eq_true, decide_eq_true_eq, List.length_map, List.all_map,
    List.all_eq_true, Function.comp]
  rw [filter_range_card c.nbins (fun b => 0 < s.entropy b), filter_range_sum, hVe, hg']
  apply and_congr_right
  intro _
  constructor
  · intro hh b hb
    exact hh b (by simp [hV' b hb, (hV b (hV' b hb)).2 hb])
  · intro hh b hb
    apply hh
    rw [List.mem_filter, List.mem_range, decide_eq_true_eq] at hb
    exact (hV b hb.1).1 hb.2

/-- C25. Everything a fresh kernel counts is determined by the bins of the visited occupancies:
the histogram counts the updates since the last reset, occurrences count all of them, the entropy of
a bin is the sum of the modification factors in force at its updates, and resets and changes of the
modification factor happen exactly when the check period divides the number of steps and the
histogram is flat over at least two visited bins. -/
theorem C25_bookkeeping (h : WLSetting c m0 k ch I occ0) (hf : ∀ x, 0 < x → 0 < c.modUpdate x)
    (nfeat : ℕ) (s : ℕ → WL K)
    (hs : ∀ n, wlRun c k ch ((WL.init m0 nfeat).setAux k occ0) n = some (s n))
    (bins : ℕ → ℕ) (hbins : ∀ n, bins n = ⌊(enthalpyOf k (s n).occ - c.lo) / c.size⌋.toNat) (n : ℕ) :
    let plan := schedule c.update c.check c.nbins c.flat m0 c.modUpdate bins
    (s n).counter = n ∧ (s n).m = (plan n).2 ∧ 0 < (s n).m ∧
    (∀ b, (s n).hist b = (updateSteps c.update bins (plan n).1 n b).card) ∧
    (∀ b, (s n).occurrences b = (updateSteps c.update bins 0 n b).card) ∧
    (∀ b, (s n).entropy b = ∑ j ∈ updateSteps c.update bins 0 n b, (plan (j - 1)).2) ∧
    (∀ b, 0 ≤ (s n).entropy b ∧ (0 < (s n).entropy b ↔ (updateSteps c.update bins 0 n b).Nonempty))
      ∧ (plan n).1 ≤ n := by
  classical
  intro plan
  obtain ⟨_, hsz, hm0⟩ := valid_iff h.valid
  induction n with
  | zero =>
    have h0 := hs 0
    rw [wlRun, Option.some.injEq] at h0
    rw [← h0]
    refine ⟨rfl, rfl, hm0, fun b => ?_, fun b => ?_, fun b => ?_, fun b => ?_, le_refl _⟩
    · rw [show (plan 0).1 = 0 from rfl, updateSteps_self]; rfl
    · rw [updateSteps_self]; rfl
    · rw [updateSteps_self]; rfl
    · rw [updateSteps_self]; simp [WL.setAux, WL.init]
  | succ n ih =>
    obtain ⟨i1, i2, i3, i4, i5, i6, i7, i8⟩ := ih
    obtain ⟨t, _, _, a1, a2, a3, a4, a5, a6, e⟩ := seq_step h _ n _ _ (hs n) (hs (n + 1))
    have hbin : c.bin (enthalpyOf k (s (n + 1)).occ) = bins (n + 1) := (hbins (n + 1)).symm
    rw [hbin] at e
    -- the counters after the tally
    set q := t.tally c (bins (n + 1)) with hq
    have q1 : q.counter = n + 1 := by rw [hq, (tally_occ c t _).2.2.2.1, a5, i1]
    have q2 : q.m = (plan n).2 := by rw [hq, (tally_occ c t _).2.2.2.2, a6, i2]
    have hdvd : t.counter + 1 = n + 1 := by rw [a5, i1]
    have q3 : (∀ b, q.hist b = (updateSteps c.update bins (plan n).1 (n + 1) b).card) ∧
        (∀ b, q.occurrences b = (updateSteps c.update bins 0 (n + 1) b).card) ∧
        (∀ b, q.entropy b = ∑ j ∈ updateSteps c.update bins 0 (n + 1) b, (plan (j - 1)).2) ∧
        (∀ b, 0 ≤ q.entropy b ∧
          (0 < q.entropy b ↔ (updateSteps c.update bins 0 (n + 1) b).Nonempty)) := by
      by_cases hu : c.update ∣ n + 1
      · have ht : q.hist = Function.update t.hist (bins (n + 1)) (t.hist (bins (n + 1)) + 1) ∧
            q.occurrences = Function.update t.occurrences (bins (n + 1))
              (t.occurrences (bins (n + 1)) + 1) ∧
            q.entropy = Function.update t.entropy (bins (n + 1))
              (t.entropy (bins (n + 1)) + t.m) := by
          rw [hq, WL.tally]
          simp only
          rw [hdvd, if_pos (Nat.mod_eq_zero_of_dvd hu)]
          exact ⟨rfl, rfl, rfl⟩
        obtain ⟨t1, t2, t3⟩ := ht
        refine ⟨fun b => ?_, fun b => ?_, fun b => ?_, fun b => ?_⟩
        · rw [t1, updateSteps_succ _ _ i8, a2]
          by_cases hb : bins (n + 1) = b
          · subst hb
            rw [Function.update_self, if_pos ⟨hu, rfl⟩, Finset.card_insert_of_notMem
              (succ_not_mem _ _ _ _ _), i4]
          · rw [Function.update_of_ne (Ne.symm hb), if_neg (fun hh => hb hh.2), i4]
        · rw [t2, updateSteps_succ _ _ (Nat.zero_le n), a3]
          by_cases hb : bins (n + 1) = b
          · subst hb
            rw [Function.update_self, if_pos ⟨hu, rfl⟩, Finset.card_insert_of_notMem
              (succ_not_mem _ _ _ _ _), i5]
          · rw [Function.update_of_ne (Ne.symm hb), if_neg (fun hh => hb hh.2), i5]
        · rw [t3, updateSteps_succ _ _ (Nat.zero_le n), a1, a6]
          by_cases hb : bins (n + 1) = b
          · subst hb
            rw [Function.update_self, if_pos ⟨hu, rfl⟩, Finset.sum_insert
              (succ_not_mem _ _ _ _ _), i6, i2, add_comm]
            rfl
          · rw [Function.update_of_ne (Ne.symm hb), if_neg (fun hh => hb hh.2), i6]
        · rw [t3, updateSteps_succ _ _ (Nat.zero_le n), a1, a6]
          by_cases hb : bins (n + 1) = b
          · subst hb
            rw [Function.update_self, if_pos ⟨hu, rfl⟩]
            have := (i7 (bins (n + 1))).1
            exact ⟨by linarith, fun _ => ⟨_, Finset.mem_insert_self _ _⟩, fun _ => by linarith⟩
          · rw [Function.update_of_ne (Ne.symm hb), if_neg (fun hh => hb hh.2)]
            exact i7 b
      · have ht : q.hist = t.hist ∧ q.occurrences = t.occurrences ∧ q.entropy = t.entropy := by
          rw [hq, WL.tally]
          simp only
          rw [hdvd, if_neg (fun hh => hu (Nat.dvd_of_mod_eq_zero hh))]
          exact ⟨rfl, rfl, rfl⟩
        obtain ⟨t1, t2, t3⟩ := ht
        have hno : ∀ r b, r ≤ n → updateSteps c.update bins r (n + 1) b =
            updateSteps c.update bins r n b := by
          intro r b hr
          rw [updateSteps_succ _ _ hr, if_neg (fun hh => hu hh.1)]
        refine ⟨fun b => ?_, fun b => ?_, fun b => ?_, fun b => ?_⟩
        · rw [t1, a2, hno _ _ i8, i4]
        · rw [t2, a3, hno _ _ (Nat.zero_le n), i5]
        · rw [t3, a1, hno _ _ (Nat.zero_le n), i6]
        · rw [t3, a1, hno _ _ (Nat.zero_le n)]; exact i7 b
    obtain ⟨r1, r2, r3, r4⟩ := q3
    have hV : q.isFlat c = true ↔ Flat c.flat (visited c.update c.nbins bins (n + 1))
        (fun b => (updateSteps c.update bins (plan n).1 (n + 1) b).card) := by
      apply isFlat_iff _ _ _ _ _ r1
      · intro b hb
        rw [visited, Finset.mem_filter, Finset.mem_range, (r4 b).2]
        exact ⟨fun h => ⟨hb, h⟩, fun h => h.2⟩
      · intro b hb
        rw [visited, Finset.mem_filter, Finset.mem_range] at hb
        exact hb.1
    have hplan : plan (n + 1) = if c.check ∣ n + 1 ∧ Flat c.flat
        (visited c.update c.nbins bins (n + 1))
        (fun b => (updateSteps c.update bins (plan n).1 (n + 1) b).card)
        then (n + 1, c.modUpdate (plan n).2) else plan n := by
      simp only [plan, schedule]
    obtain ⟨_, _, _, f4, f5, f6, _⟩ := finish_occ c q
    by_cases hres : c.check ∣ n + 1 ∧ Flat c.flat (visited c.update c.nbins bins (n + 1))
        (fun b => (updateSteps c.update bins (plan n).1 (n + 1) b).card)
    · rw [if_pos hres] at hplan
      have hfin : q.finish c = { q with hist := fun _ => 0, m := c.modUpdate q.m } := by
        rw [WL.finish, q1, if_pos ⟨Nat.mod_eq_zero_of_dvd hres.1, hV.2 hres.2⟩]
      rw [e]
      refine ⟨by rw [f4, q1], ?_, ?_, fun b => ?_, fun b => ?_, fun b => ?_, fun b => ?_, ?_⟩
      · rw [hfin, hplan, ← q2]
      · rw [hfin]; exact hf _ (by rw [q2, ← i2]; exact i3)
      · rw [hfin, hplan, updateSteps_self]; rfl
      · rw [f6, r2]
      · rw [f5, r3]
      · rw [f5]; exact r4 b
      · rw [hplan]
    · rw [if_neg hres] at hplan
      have hfin : q.finish c = q := by
        rw [WL.finish, q1, if_neg]
        rintro ⟨x, y⟩
        exact hres ⟨Nat.dvd_of_mod_eq_zero x, hV.1 y⟩
      rw [e]
      refine ⟨by rw [f4, q1], ?_, ?_, fun b => ?_, fun b => ?_, fun b => ?_, fun b => ?_, ?_⟩
      · rw [hfin, hplan, q2]
      · rw [hfin, q2, ← i2]; exact i3
      · rw [hfin, hplan, r1]
      · rw [f6, r2]
      · rw [f5, r3]
      · rw [f5]; exact r4 b
      · rw [hplan]; omega

/-- C25. The histogram total is the number of updates since the last reset. -/
theorem C25_histogram_total (h : WLSetting c m0 k ch I occ0) (hf : ∀ x, 0 < x → 0 < c.modUpdate x)
    (nfeat : ℕ) (s : ℕ → WL K)
    (hs : ∀ n, wlRun c k ch ((WL.init m0 nfeat).setAux k occ0) n = some (s n)) (n : ℕ) :
    ∃ r ≤ n, (∑ b ∈ Finset.range c.nbins, (s n).hist b) =
        ((Finset.Ioc r n).filter fun j => c.update ∣ j).card ∧
      (r = 0 ∨ ∀ b, (s r).hist b = 0) := by
  obtain ⟨_, hsz, _⟩ := valid_iff h.valid
  set bins : ℕ → ℕ := fun n => ⌊(enthalpyOf k (s n).occ - c.lo) / c.size⌋.toNat with hb
  have key := fun n => C25_bookkeeping h hf nfeat s hs bins (fun _ => rfl) n
  set plan := schedule c.update c.check c.nbins c.flat m0 c.modUpdate bins with hplan
  simp only at key
  refine ⟨(plan n).1, (key n).2.2.2.2.2.2.2, ?_, ?_⟩
  · rw [Finset.sum_congr rfl fun b _ => (key n).2.2.2.1 b, ← Finset.card_biUnion]
    · congr 1
      ext j
      simp only [Finset.mem_biUnion, Finset.mem_range, mem_updateSteps, Finset.mem_filter,
        Finset.mem_Ioc]
      constructor
      · rintro ⟨b, _, h1, h2, _⟩; exact ⟨h1, h2⟩
      · rintro ⟨h1, h2⟩
        refine ⟨bins j, ?_, h1, h2, rfl⟩
        obtain ⟨s', w1, w2, _⟩ := run_inside h (WL.init m0 nfeat) j
        rw [hs j, Option.some.injEq] at w1
        subst w1
        have := bin_valid hsz w2.lo w2.hi
        simp only [hb]
        change (c.binId _).toNat < _
        omega
    · intro b _ b' _ hne
      rw [Function.onFun, Finset.disjoint_left]
      intro j hj hj'
      rw [mem_updateSteps] at hj hj'
      exact hne (hj.2.2.symm.trans hj'.2.2)
  · have hp : ∀ n, (plan n).1 = 0 ∨ (plan (plan n).1).1 = (plan n).1 := by
      intro n
      induction n with
      | zero => exact Or.inl rfl
      | succ n ih =>
        by_cases hc : (plan (n + 1)).1 = n + 1
        · right; rw [hc, hc]
        · have : plan (n + 1) = plan n := by
            by_contra hne
            apply hc
            rw [hplan, schedule] at hne ⊢
            split_ifs at hne ⊢ with hh
            · rfl
            · exact absurd rfl hne
          rw [this]; exact ih
    rcases hp n with h0 | h0
    · exact Or.inl h0
    · right
      intro b
      rw [(key (plan n).1).2.2.2.1 b, h0, updateSteps_self]
      rfl

/-- C25. Entropies never decrease. -/
theorem C25_entropy_monotone (h : WLSetting c m0 k ch I occ0)
    (hf : ∀ x, 0 < x → 0 < c.modUpdate x) (nfeat : ℕ) (s : ℕ → WL K)
    (hs : ∀ n, wlRun c k ch ((WL.init m0 nfeat).setAux k occ0) n = some (s n)) (n n' b : ℕ)
    (hn : n ≤ n') : (s n).entropy b ≤ (s n').entropy b := by
  have key := fun n => C25_bookkeeping h hf nfeat s hs _ (fun _ => rfl) n
  simp only at key
  rw [(key n).2.2.2.2.2.1 b, (key n').2.2.2.2.2.1 b]
  apply Finset.sum_le_sum_of_subset_of_nonneg
  · intro j hj
    rw [mem_updateSteps] at hj ⊢
    exact ⟨⟨hj.1.1, hj.1.2.trans hn⟩, hj.2⟩
  · intro j _ _
    rw [← (key (j - 1)).2.1]
    exact (key (j - 1)).2.2.1.le

/-- C25. The modification factor changes only by the update function, and only after a check. -/
theorem C25_mod_factor (h : WLSetting c m0 k ch I occ0)
    (hf : ∀ x, 0 < x → 0 < c.modUpdate x) (nfeat : ℕ) (s : ℕ → WL K)
    (hs : ∀ n, wlRun c k ch ((WL.init m0 nfeat).setAux k occ0) n = some (s n)) (n : ℕ)
    (hne : (s (n + 1)).m ≠ (s n).m) :
    c.check ∣ n + 1 ∧ (s (n + 1)).m = c.modUpdate (s n).m ∧ ∀ b, (s (n + 1)).hist b = 0 := by
  have key := fun n => C25_bookkeeping h hf nfeat s hs _ (fun _ => rfl) n
  simp only at key
  have k1 := (key (n + 1)).2.1
  have k2 := (key n).2.1
  have k3 := (key (n + 1)).2.2.2.1
  rw [schedule] at k1 k3
  split_ifs at k1 k3 with hh
  · refine ⟨hh.1, by rw [k1, k2], fun b => ?_⟩
    rw [k3 b, updateSteps_self]; rfl
  · exact absurd (k1.trans k2.symm) hne

/-! ### Mean features -/

/-- C26, for `update_period = 1`: the mean features of a visited bin are the average over all visits
to it.  `_partial`: the claim is false for other periods, see below. -/
theorem C26_mean_features_partial (h : WLSetting c m0 k ch I occ0)
    (hf : ∀ x, 0 < x → 0 < c.modUpdate x) (hup : c.update = 1) (nfeat : ℕ)
    (hnf : ∀ x, (k.feature x).length = nfeat) (s : ℕ → WL K)
    (hs : ∀ n, wlRun c k ch ((WL.init m0 nfeat).setAux k occ0) n = some (s n)) (n b i : ℕ)
    (hi : i < nfeat) (visits : Finset ℕ)
    (hv : visits = (Finset.Ioc 0 n).filter fun j =>
      ⌊(enthalpyOf k (s j).occ - c.lo) / c.size⌋.toNat = b) (hne : visits.Nonempty) :
    ((s n).mean b)[i]? =
      some ((∑ j ∈ visits, (k.feature (s j).occ).getD i 0) / (visits.card : K)) := by
  have key := fun n => C25_bookkeeping h hf nfeat s hs _ (fun _ => rfl) n
  set bins : ℕ → ℕ := fun n => ⌊(enthalpyOf k (s n).occ - c.lo) / c.size⌋.toNat with hb
  have hvis : ∀ n b, updateSteps c.update bins 0 n b = (Finset.Ioc 0 n).filter fun j =>
      bins j = b := by
    intro n b
    ext j
    rw [mem_updateSteps, Finset.mem_filter, Finset.mem_Ioc, hup]
    simp
  have main : ∀ n b, ((s n).mean b).length = nfeat ∧ ∀ i < nfeat,
      ((updateSteps c.update bins 0 n b).card : K) * ((s n).mean b).getD i 0 =
        ∑ j ∈ updateSteps c.update bins 0 n b, (k.feature (s j).occ).getD i 0 := by
    intro n
    induction n with
    | zero =>
      intro b
      have h0 := hs 0
      rw [wlRun, Option.some.injEq] at h0
      refine ⟨by rw [← h0]; simp [WL.setAux, WL.init], fun i _ => ?_⟩
      rw [updateSteps_self]; simp
    | succ n ih =>
      intro b
      obtain ⟨t, _, a0, _, _, a3, a4, a5, _, e⟩ := seq_step h _ n _ _ (hs n) (hs (n + 1))
      have hbin : c.bin (enthalpyOf k (s (n + 1)).occ) = bins (n + 1) := rfl
      rw [hbin] at e
      have hmean : (s (n + 1)).mean = Function.update (s n).mean (bins (n + 1)) (List.zipWith
          (fun f m => 1 / (((s n).occurrences (bins (n + 1)) : K) + 1) *
            (f + ((s n).occurrences (bins (n + 1)) : K) * m)) (k.feature (s (n + 1)).occ)
              ((s n).mean (bins (n + 1)))) := by
        conv_lhs => rw [e]
        rw [(finish_occ c _).2.2.2.2.2.2, ← a0, ← a3, ← a4]
        unfold WL.tally
        simp only
        split_ifs <;> rfl
      rw [hmean]
      by_cases hbb : bins (n + 1) = b
      · rw [hbb, Function.update_self]
        obtain ⟨l1, l2⟩ := ih b
        refine ⟨by rw [List.length_zipWith, hnf, l1, min_self], fun i hi => ?_⟩
        have hocc := (key n).2.2.2.2.1 b
        rw [updateSteps_succ _ _ (Nat.zero_le n), if_pos ⟨by rw [hup]; exact one_dvd _, hbb⟩,
          Finset.card_insert_of_notMem (succ_not_mem _ _ _ _ _),
          Finset.sum_insert (succ_not_mem _ _ _ _ _), ← l2 i hi]
        have hlt : i < (k.feature (s (n + 1)).occ).length := by rw [hnf]; exact hi
        rw [List.getD_eq_getElem?_getD, List.getElem?_zipWith, List.getElem?_eq_getElem hlt,
          List.getElem?_eq_getElem (lt_of_lt_of_eq hi l1.symm)]
        simp only [Option.getD_some, List.getD_eq_getElem?_getD]
        rw [List.getElem?_eq_getElem hlt, List.getElem?_eq_getElem (lt_of_lt_of_eq hi l1.symm),
          Option.getD_some, Option.getD_some, hocc]
        have hpos : ((updateSteps c.update bins 0 n b).card : K) + 1 ≠ 0 := by positivity
        push_cast
        field_simp
      · rw [Function.update_of_ne (Ne.symm hbb), updateSteps_succ _ _ (Nat.zero_le n),
          if_neg fun hh => hbb hh.2]
        exact ih b
  obtain ⟨l1, l2⟩ := main n b
  have l3 := l2 i hi
  rw [hvis] at l3
  rw [← hv] at l3
  rw [List.getElem?_eq_getElem (lt_of_lt_of_eq hi l1.symm)]
  rw [List.getD_eq_getElem?_getD, List.getElem?_eq_getElem (lt_of_lt_of_eq hi l1.symm),
    Option.getD_some] at l3
  rw [← l3]
  have hpos : (visits.card : K) ≠ 0 := by
    have := Finset.card_pos.2 hne
    positivity
  rw [mul_div_cancel_left₀ _ hpos]

end Run

/-- C24, starts outside the window are not refused.  From above, the first proposal into the window
raises `IndexError`; from below, it is judged with the entropy of a bin at the upper end. -/
theorem C24_started_outside (c : WLConf K) (s : WL K) (e dH lp lu : K) (he : s.enth = some e)
    (h1 : c.lo ≤ e + dH) (h2 : e + dH < c.hi) :
    (c.nbins ≤ c.binId e → s.accept c dH lp lu = none) ∧
    (∀ b : ℕ, 0 < b → b ≤ c.nbins → c.binId e = -(b : ℤ) → 0 < c.size →
      s.accept c dH lp lu =
        some (decide (0 ≤ s.entropy (c.nbins - b) - s.entropy (c.bin (e + dH)) + lp ∨
          lu < s.entropy (c.nbins - b) - s.entropy (c.bin (e + dH)) + lp))) := by
  have hout : ¬(e + dH < c.lo ∨ c.hi ≤ e + dH) := by
    rintro (h | h)
    · exact absurd h (not_lt.2 h1)
    · exact absurd h (not_le.2 h2)
  rw [WL.accept, he]
  simp only
  rw [if_neg hout]
  constructor
  · intro hb
    have : pyAt c.nbins s.entropy (c.binId e) = none := by
      rw [pyAt, if_pos (by omega), if_neg (by omega)]
    rw [this]; rfl
  · intro b hb0 hb hbe hs
    obtain ⟨b0, b1⟩ := bin_valid hs h1 h2
    have : pyAt c.nbins s.entropy (c.binId e) = some (s.entropy (c.nbins - b)) := by
      rw [pyAt, if_neg (by omega), if_pos (by omega), hbe]
      congr 2
      omega
    rw [this, pyAt_valid b0 b1]
    simp only [Option.bind_some, Option.map_some, Option.some.injEq]
    change (if 0 ≤ s.entropy (c.nbins - b) - s.entropy (c.bin (e + dH)) + lp then true
      else decide _) = _
    split_ifs with hz
    · symm; rw [decide_eq_true_iff]; exact Or.inl hz
    · rw [decide_eq_decide]
      exact ⟨Or.inr, fun h => h.resolve_left hz⟩

/-! ### A concrete system: one site whose code is its energy, bins `[0, 2)` and `[2, 4)` -/

def wlConf (update : ℕ) : WLConf ℚ := ⟨0, 4, 2, 4 / 5, 4, update, fun x => x / 2⟩

def wlKern : Kern ℚ := ⟨[1], fun o => [(o 0 : ℚ)], fun o st => [(applyStep o st 0 : ℚ) - o 0], none,
  fun _ _ => 0⟩

/-- Proposals 1, 0, 1 or 3, 0, 3, 0, ... with a small random number. -/
def wlChoice (codes : List ℕ) : ℕ → Occ → Step × ℚ × ℚ := fun n _ => ([(0, codes.getD n 0)], 0, -100)

theorem wlSetting (update : ℕ) (h : 0 < update) (codes : List ℕ) :
    WLSetting (wlConf update) 1 wlKern (wlChoice codes) (fun _ => True) (fun _ => 0) where
  valid := show (wlConf 1).valid 1 = true by decide +kernel
  update := h
  check := show 0 < 4 by decide
  stays := fun _ _ _ => trivial
  len := fun _ _ => rfl
  change := fun _ _ _ => rfl
  start := trivial
  lo := show (0 : ℚ) ≤ enthalpyOf wlKern fun _ => 0 by decide +kernel
  hi := show (enthalpyOf wlKern fun _ => 0) < (4 : ℚ) by decide +kernel

/-- C26, the claim is false for `update_period = 2`: three visits to bin 0 with features 1, 0, 1 are
reported with mean 1/2, neither the average of the visits nor that of the counted one. -/
theorem C26_update_period_fails :
    let c := wlConf 2
    let run := wlRun c wlKern (wlChoice [1, 0, 1]) ((WL.init 1 1).setAux wlKern fun _ => 0)
    WLSetting c 1 wlKern (wlChoice [1, 0, 1]) (fun _ => True) (fun _ => 0) ∧
    [run 1, run 2, run 3].map (fun r => r.map fun s => (s.feats, c.bin (enthalpyOf wlKern s.occ))) =
      [some ([1], 0), some ([0], 0), some ([1], 0)] ∧
    (run 3).map (fun s => (s.mean 0, s.occurrences 0)) = some ([1 / 2], 1) ∧
    ([1 / 2] : List ℚ) ≠ [(1 + 0 + 1) / 3] :=
  ⟨wlSetting 2 (by decide) _, by decide +kernel, by decide +kernel, by decide +kernel⟩

/-- The hypotheses of C24-C26 are met and the run does something: a proposal outside the window is
refused, both bins are visited, and after four steps the histogram is flat, so it is reset and the
modification factor halved. -/
example :
    let run := wlRun (wlConf 1) wlKern (wlChoice [3, 7, 1, 0, 3]) ((WL.init 1 1).setAux wlKern fun _ => 0)
    WLSetting (wlConf 1) 1 wlKern (wlChoice [3, 7, 1, 0, 3]) (fun _ => True) (fun _ => 0) ∧
    (∀ x : ℚ, 0 < x → 0 < (wlConf 1).modUpdate x) ∧
    (run 3).map (fun s => ([s.hist 0, s.hist 1], s.m, s.occ 0)) = some ([1, 2], 1, 1) ∧
    (run 4).map (fun s => ([s.hist 0, s.hist 1], s.m, s.occ 0)) = some ([0, 0], 1 / 2, 0) ∧
    (run 5).map (fun s => ([s.entropy 0, s.entropy 1], s.mean 0, s.mean 1)) =
      some ([2, 5 / 2], [1 / 2], [3]) :=
  ⟨wlSetting 1 (by decide) _, fun x hx => by simp only [wlConf]; positivity,
    by decide +kernel, by decide +kernel, by decide +kernel⟩

/-- Both kinds of starts outside the window occur. -/
example : ((wlConf 1).nbins : ℤ) ≤ (wlConf 1).binId 5 ∧ (wlConf 1).binId (-1) = -((1 : ℕ) : ℤ) := by
  decide +kernel

end Smol
