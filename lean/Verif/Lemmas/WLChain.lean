import Verif.Model.WLChain
import Verif.Spec.WLChain
import Verif.Props.WangLandau
import Verif.Props.Ergodic

/-! Wang-Landau steps at fixed entropies. -/

namespace Smol
open Prog Spec

/-- inside the window -/
def WLConf.In (c : WLConf ℝ) (k : Kern ℝ) (x : Occ) : Prop :=
  c.lo ≤ enthalpyOf k x ∧ enthalpyOf k x < c.hi

theorem wlAcc_nonneg (c : WLConf ℝ) (k : Kern ℝ) (s : WL ℝ) (factor : Occ → Step → ℝ) (x : Occ)
    (st : Step) : 0 ≤ wlAcc c k s factor x st := by
  unfold wlAcc
  split_ifs
  · exact le_rfl
  · exact ENNReal.toReal_nonneg

theorem wlAcc_le_one (c : WLConf ℝ) (k : Kern ℝ) (s : WL ℝ) (factor : Occ → Step → ℝ) (x : Occ)
    (st : Step) : wlAcc c k s factor x st ≤ 1 := by
  unfold wlAcc
  split_ifs
  · exact zero_le_one
  · refine ENNReal.toReal_le_of_le_ofReal zero_le_one ?_
    refine (MeasureTheory.measure_mono (Set.sep_subset _ _)).trans ?_
    rw [Real.volume_Ioo, sub_zero]

theorem wlAcc_eq {c : WLConf ℝ} {k : Kern ℝ} (hs : 0 < c.size) (s : WL ℝ)
    (factor : Occ → Step → ℝ) {x : Occ} (hx : c.In k x) {st : Step} (hf : 0 ≤ factor x st) :
    wlAcc c k s factor x st =
      if c.lo ≤ enthalpyOf k x + dot k.params (k.change x st) ∧
          enthalpyOf k x + dot k.params (k.change x st) < c.hi then
        min 1 (Real.exp (s.entropy (c.bin (enthalpyOf k x)) -
          s.entropy (c.bin (enthalpyOf k x + dot k.params (k.change x st)))) * factor x st)
      else 0 := by
  unfold wlAcc
  by_cases h0 : factor x st = 0
  · rw [if_pos h0, h0, mul_zero, min_eq_right zero_le_one, ite_self]
  rw [if_neg h0]
  have hpos : 0 < factor x st := lt_of_le_of_ne hf (Ne.symm h0)
  have hin : (s.setAux k x).Inside c k := ⟨rfl, rfl, hx.1, hx.2⟩
  simp only [accept_inside hs hin, Option.some.injEq, decide_eq_true_eq]
  simp only [WL.setAux]
  split_ifs with hw
  · have h7 := C07_acceptance_probability (s.entropy (c.bin (enthalpyOf k x)) -
          s.entropy (c.bin (enthalpyOf k x + dot k.params (k.change x st))) +
          Real.log (factor x st))
    rw [Real.exp_add, Real.exp_log hpos] at h7
    have hset : {v ∈ Set.Ioo (0 : ℝ) 1 | (c.lo ≤ enthalpyOf k x + dot k.params (k.change x st) ∧
          enthalpyOf k x + dot k.params (k.change x st) < c.hi) ∧
        (0 ≤ s.entropy (c.bin (enthalpyOf k x)) -
          s.entropy (c.bin (enthalpyOf k x + dot k.params (k.change x st))) +
            Real.log (factor x st) ∨
          Real.log v < s.entropy (c.bin (enthalpyOf k x)) -
            s.entropy (c.bin (enthalpyOf k x + dot k.params (k.change x st))) +
              Real.log (factor x st))} =
        {u ∈ Set.Ioo (0 : ℝ) 1 | (acceptDraw (s.entropy (c.bin (enthalpyOf k x)) -
          s.entropy (c.bin (enthalpyOf k x + dot k.params (k.change x st))) +
          Real.log (factor x st)) u).1 = true} := by
      ext v
      simp only [Set.mem_ofPred_eq, acceptDraw, hw, true_and]
      refine and_congr_right fun _ => ?_
      split_ifs with hz
      · simp [hz]
      · simp [hz]
    rw [hset, h7, ENNReal.toReal_ofReal]
    exact le_min zero_le_one (mul_nonneg (Real.exp_pos _).le hf)
  · simp [hw]

/-- The ushers for which Metropolis-Hastings balance holds, with the occupancies they can be used on:
flips, swaps, multi-steps and composites of these (C08, C09, C11), and table flips (C10). -/
inductive Fair (act : List Sublattice) : (Occ → Prop) → Usher → Prop
  | symmetric (hok : SitesOk act) (u : Usher) (hu : u.Symmetric act) (hb : u.Built) :
    Fair act (LegalOcc act) u
  | table (t : TableFlipper) (n : ℕ) (h : TableOk t n) (hb : (Usher.table t n).Built)
    (ha : act = activeSublattices t.sls) : Fair act (FullLegal t.sls) (.table t n)

/-- the usher's a-priori factor -/
def Usher.ratio (u : Usher) (x : Occ) (st : Step) : ℝ := (((u.factor x st).getD 0 : ℚ) : ℝ)

variable {act : List Sublattice} {T : Occ → Prop} {u : Usher}

theorem Fair.sitesOk (h : Fair act T u) : SitesOk act := by
  cases h with
  | symmetric hok _ _ _ => exact hok
  | table t n h hb ha => subst ha; exact activeSitesOk h.sitesOk

theorem Fair.proper (h : Fair act T u) {x : Occ} (hx : T x) : (u.propose x).Proper := by
  cases h with
  | symmetric hok _ hu hb => exact proper_symmetric u hu hb x
  | table t n h hb ha =>
    obtain ⟨hr, hbal, h0, h1, hact⟩ := hb
    exact proper_table h hr hbal h0 h1 hact x hx

theorem Fair.legal (h : Fair act T u) {x : Occ} (hx : T x) : LegalOcc act x := by
  cases h with
  | symmetric hok _ hu hb => exact hx
  | table t n h hb ha => subst ha; exact fullLegal_legalOcc h.sls hx

theorem Fair.step (h : Fair act T u) {x : Occ} (hx : T x) {st : Step}
    (hst : (u.propose x).Outcome st) : LegalStep act st := by
  cases h with
  | symmetric hok _ hu hb => exact symmetric_legal hok u hu hx hst
  | table t n h hb ha => subst ha; exact (table_outcome h hx hst).1

theorem Fair.stays (h : Fair act T u) {x : Occ} (hx : T x) {st : Step}
    (hst : (u.propose x).Outcome st) : T (applyStep x st) := by
  cases h with
  | symmetric hok _ hu hb => exact legalOcc_apply hok hx (symmetric_legal hok u hu hx hst).flips
  | table t n h hb ha => exact hx.apply h (table_flips h hx hst)

theorem Fair.nonneg (h : Fair act T u) {x : Occ} (hx : T x) {st : Step}
    (hst : (u.propose x).Outcome st) : 0 ≤ u.ratio x st := by
  have hS := h.stays hx hst
  cases h with
  | symmetric hok _ hu hb =>
    cases u with
    | table t n => exact hu.elim
    | _ => simp [Usher.ratio, Usher.factor]
  | table t n h hb ha =>
    obtain ⟨hr, hbal, h0, h1, hact⟩ := hb
    have hq := table_prob_ne_zero hr h0 h1 hst
    have := (table_reversible h hr h1 hx hS hq).2
    rw [← ratio_eq h hr hx hst] at this
    exact this

theorem Fair.balance (h : Fair act T u) (G : Occ → ℝ) :
    DetailedBalance T (boltzmann 1 G fun _ => 0) (transition u.propose
      (metropolisAcc 1 (fun x st => G (applyStep x st) - G x) (fun _ _ => 0) u.ratio)) := by
  cases h with
  | symmetric hok _ hu hb =>
    exact symmetric_detailedBalance hok u hu 1 G (fun _ => 0) _ (fun _ _ => 0)
      ⟨fun _ _ _ _ => rfl, fun _ _ _ _ => by simp⟩
  | table t n h hb ha =>
    obtain ⟨hr, hbal, h0, h1, hact⟩ := hb
    exact C10_table_detailed_balance t n h hr h1 1 G (fun _ => 0) _ (fun _ _ => 0)
      ⟨fun _ _ _ _ => rfl, fun _ _ _ _ => by simp⟩

theorem Fair.reached_subset (h : Fair act T u) (acc : Occ → Step → ℝ) {x0 : Occ} (hx0 : T x0) :
    reached (transition u.propose acc) x0 ⊆ legalStates act x0 :=
  Smol.reached_subset h.sitesOk (h.legal hx0) T hx0 (fun _ _ hx hst => h.stays hx hst)
    fun _ _ hx _ hst => (h.step hx hst).flips

/-- weights at fixed entropies -/
noncomputable def wlWeight (c : WLConf ℝ) (k : Kern ℝ) (S : ℕ → ℝ) (x : Occ) : ℝ :=
  Real.exp (-S (c.bin (enthalpyOf k x)))

/-- the kernel's enthalpy changes are differences of enthalpies -/
def ExactKern (act : List Sublattice) (k : Kern ℝ) : Prop :=
  ∀ x st, LegalOcc act x → LegalStep act st →
    dot k.params (k.change x st) = enthalpyOf k (applyStep x st) - enthalpyOf k x

theorem Fair.wl_acc (h : Fair act T u) {c : WLConf ℝ} {k : Kern ℝ} (hk : ExactKern act k)
    (hs : 0 < c.size) (s : WL ℝ) {x : Occ} (hx : T x) (hin : c.In k x) {st : Step}
    (hst : (u.propose x).Outcome st) [Decidable (c.In k (applyStep x st))] :
    wlAcc c k s u.ratio x st = if c.In k (applyStep x st) then
      metropolisAcc 1 (fun x st => s.entropy (c.bin (enthalpyOf k (applyStep x st))) -
        s.entropy (c.bin (enthalpyOf k x))) (fun _ _ => 0) u.ratio x st else 0 := by
  rw [wlAcc_eq hs s u.ratio hin (h.nonneg hx hst), hk x st (h.legal hx) (h.step hx hst),
    add_sub_cancel]
  unfold metropolisAcc WLConf.In
  congr 3
  rw [add_zero]; congr 1; ring

theorem Fair.wl_balance (h : Fair act T u) {c : WLConf ℝ} {k : Kern ℝ} (hk : ExactKern act k)
    (hs : 0 < c.size) (s : WL ℝ) :
    DetailedBalance (fun x => T x ∧ c.In k x) (wlWeight c k s.entropy)
      (transition u.propose (wlAcc c k s u.ratio)) := by
  classical
  rintro x y ⟨hx, hxi⟩ ⟨hy, hyi⟩
  have key : ∀ x y, T x → c.In k x → c.In k y →
      transition u.propose (wlAcc c k s u.ratio) x y = transition u.propose
        (metropolisAcc 1 (fun x st => s.entropy (c.bin (enthalpyOf k (applyStep x st))) -
        s.entropy (c.bin (enthalpyOf k x))) (fun _ _ => 0) u.ratio) x y := by
    intro x y hx hxi hyi
    unfold transition
    refine expect_congr _ _ _ fun st hst => ?_
    split_ifs with he
    · rw [h.wl_acc hk hs s hx hxi hst, if_pos (he ▸ hyi)]
    · rfl
  rw [key x y hx hxi hyi, key y x hy hyi hxi]
  have := h.balance (fun x => s.entropy (c.bin (enthalpyOf k x))) x y hx hy
  unfold boltzmann at this
  simpa only [wlWeight, neg_mul, one_mul, add_zero] using this

theorem Fair.wl_ergodic (h : Fair act T u) {c : WLConf ℝ} {k : Kern ℝ} (hk : ExactKern act k)
    (hs : 0 < c.size) (s : WL ℝ) {x0 : Occ} (hx0 : T x0) (hin : c.In k x0) :
    Ergodic u.propose (wlAcc c k s u.ratio) (wlWeight c k s.entropy)
        (reached (transition u.propose (wlAcc c k s u.ratio)) x0) ∧
      ∀ x ∈ reached (transition u.propose (wlAcc c k s u.ratio)) x0, T x ∧ c.In k x := by
  classical
  refine ergodic_reached (fun x => T x ∧ c.In k x) (fun x hx => h.proper hx.1) ?_
    (fun x st _ _ => wlAcc_nonneg _ _ _ _ _ _) (fun x st => wlAcc_le_one _ _ _ _ _ _)
    (fun x => Real.exp_pos _) (h.wl_balance hk hs s) x0 ⟨hx0, hin⟩
    ((legalStates_finite act x0).subset (h.reached_subset _ hx0))
  rintro x st ⟨hx, hxi⟩ hst hne
  refine ⟨h.stays hx hst, ?_⟩
  by_contra hout
  exact hne (by rw [h.wl_acc hk hs s hx hxi hst, if_neg hout])

theorem Fair.wl_pos (h : Fair act T u) {c : WLConf ℝ} {k : Kern ℝ} (hk : ExactKern act k)
    (hs : 0 < c.size) (s : WL ℝ) {x : Occ} (hx : T x) (hin : c.In k x) (y : Occ) :
    0 < transition u.propose (wlAcc c k s u.ratio) x y ↔
      ∃ st, (u.propose x).Outcome st ∧ applyStep x st = y ∧ u.ratio x st ≠ 0 ∧ c.In k y := by
  classical
  constructor
  · intro hp
    obtain ⟨st, hst, rfl, hne⟩ := transition_pos_outcome hp
    rw [h.wl_acc hk hs s hx hin hst] at hne
    have hI : c.In k (applyStep x st) := by
      by_contra hI; exact hne (if_neg hI)
    refine ⟨st, hst, rfl, ?_, hI⟩
    intro h0
    rw [if_pos hI, metropolisAcc, h0, mul_zero, min_eq_right zero_le_one] at hne
    exact hne rfl
  · rintro ⟨st, hst, rfl, hne, hI⟩
    refine transition_pos (h.proper hx) (fun st _ => wlAcc_nonneg _ _ _ _ _ _) st hst ?_
    rw [h.wl_acc hk hs s hx hin hst, if_pos hI]
    exact lt_min one_pos (mul_pos (Real.exp_pos _)
      (lt_of_le_of_ne (h.nonneg hx hst) (Ne.symm hne)))

/-- which states are reached does not depend on the entropies -/
theorem Fair.wl_reached (h : Fair act T u) {c : WLConf ℝ} {k : Kern ℝ} (hk : ExactKern act k)
    (hs : 0 < c.size) (s s' : WL ℝ) {x0 : Occ} (hx0 : T x0) (hin : c.In k x0) :
    reached (transition u.propose (wlAcc c k s u.ratio)) x0 =
      reached (transition u.propose (wlAcc c k s' u.ratio)) x0 := by
  have key : ∀ s s' : WL ℝ, reached (transition u.propose (wlAcc c k s u.ratio)) x0 ⊆
      reached (transition u.propose (wlAcc c k s' u.ratio)) x0 := by
    intro s s' y hy
    obtain ⟨_, hall⟩ := h.wl_ergodic hk hs s hx0 hin
    have hy : Relation.ReflTransGen _ x0 y := hy
    induction hy with
    | refl => exact Relation.ReflTransGen.refl
    | @tail b d hb hbd ih =>
      obtain ⟨hT, hI⟩ := hall b hb
      exact Relation.ReflTransGen.tail (ih hb)
        ((h.wl_pos hk hs s' hT hI d).2 ((h.wl_pos hk hs s hT hI d).1 hbd))
  exact Set.Subset.antisymm (key s s') (key s' s)

end Smol
