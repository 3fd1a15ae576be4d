import Verif.Lemmas.Ergodic
import Verif.Props.Balance

/-!
# Sampled averages converge to ensemble averages (C76)
-/

namespace Smol
open Prog Spec

theorem proper_symmetric {act : List Sublattice} (u : Usher) (hu : u.Symmetric act) (hb : u.Built)
    (x : Occ) : (u.propose x).Proper := by
  have hlike : ∀ v : Usher, v.FlipLike act ∨ v.SwapLike act → v.Built →
      ∀ x, (v.propose x).Proper := by
    intro v
    induction v with
    | flip g act' probs => intro _ hb x; exact proper_flip g act' probs hb.1 hb.2 x
    | swap g act' probs => intro _ hb x; exact proper_swap g act' probs hb.1 hb.2 x
    | composite g n us w ih =>
      intro hv hb x
      refine proper_composite g _ w (by simpa using hb.1) hb.2.1 hb.2.2.1 x fun v hv' => ?_
      obtain ⟨i, rfl⟩ := (List.mem_ofFn' _ _).1 hv'
      exact ih i (hv.imp (fun h => h i) fun h => h i) (hb.2.2.2 i) x
    | multi g lens p inner ih => intro hv; rcases hv with hv | hv <;> exact hv.elim
    | table t n => intro hv; rcases hv with hv | hv <;> exact hv.elim
  induction u generalizing x with
  | flip g act' probs => exact proper_flip g act' probs hb.1 hb.2 x
  | swap g act' probs => exact proper_swap g act' probs hb.1 hb.2 x
  | multi g lens p inner ih =>
    exact proper_multi g lens p inner.propose (fun _ => True) hb.1
      (fun x _ => hlike inner hu hb.2 x) (fun _ _ _ _ => trivial) x trivial
  | composite g n us w ih =>
    refine proper_composite g _ w (by simpa using hb.1) hb.2.1 hb.2.2.1 x fun v hv => ?_
    obtain ⟨i, rfl⟩ := (List.mem_ofFn' _ _).1 hv
    exact ih i (hu i) (hb.2.2.2 i) x
  | table t n => exact hu.elim

theorem symmetric_acc {act : List Sublattice} (u : Usher) (hu : u.Symmetric act) (beta : ℝ)
    (dH dB : Occ → Step → ℝ) (x : Occ) (st : Step) :
    kernelAcc beta dH dB u x st = min 1 (Real.exp (-beta * dH x st + dB x st)) := by
  have hfac : (((u.factor x st).getD 0 : ℚ) : ℝ) = 1 := by
    cases u with
    | table t n => exact hu.elim
    | _ => simp [Usher.factor]
  show min 1 (Real.exp (-beta * dH x st + dB x st) * (((u.factor x st).getD 0 : ℚ) : ℝ)) = _
  rw [hfac, mul_one]

section Symmetric
variable {act : List Sublattice} (hok : SitesOk act) (u : Usher) (hu : u.Symmetric act)
  (hb : u.Built) (beta : ℝ) (H B : Occ → ℝ) (dH dB : Occ → Step → ℝ)
  (hex : ExactChanges act H B dH dB) (x0 : Occ) (hx0 : LegalOcc act x0)
include hok hu hb hex hx0

omit hb hex in
theorem symmetric_reached_subset :
    reached (transition u.propose (kernelAcc beta dH dB u)) x0 ⊆ legalStates act x0 :=
  reached_subset hok hx0 (LegalOcc act) hx0
    (fun _ _ hx hst => legalOcc_apply hok hx (symmetric_legal hok u hu hx hst).flips)
    fun _ _ _ hx hst => (symmetric_legal hok u hu hx hst).flips

theorem symmetric_ergodic :
    Ergodic u.propose (kernelAcc beta dH dB u) (boltzmann beta H B)
        (reached (transition u.propose (kernelAcc beta dH dB u)) x0) ∧
      ∀ x ∈ reached (transition u.propose (kernelAcc beta dH dB u)) x0, LegalOcc act x :=
  ergodic_reached (LegalOcc act) (fun x _ => proper_symmetric u hu hb x)
    (fun _ _ hx hst _ => legalOcc_apply hok hx (symmetric_legal hok u hu hx hst).flips)
    (fun x st _ _ => by
      show 0 ≤ kernelAcc beta dH dB u x st
      rw [symmetric_acc u hu]
      exact le_min zero_le_one (Real.exp_pos _).le)
    (fun x st => min_le_left _ _) (fun _ => Real.exp_pos _)
    (symmetric_detailedBalance hok u hu beta H B dH dB hex) x0 hx0
    ((legalStates_finite act x0).subset
      (symmetric_reached_subset hok u hu beta dH dB x0 hx0))

theorem symmetric_canStay (a b : Occ)
    (ha : a ∈ reached (transition u.propose (kernelAcc beta dH dB u)) x0)
    (hb' : b ∈ reached (transition u.propose (kernelAcc beta dH dB u)) x0)
    (hab : boltzmann beta H B a ≠ boltzmann beta H B b) :
    CanStay u.propose (kernelAcc beta dH dB u)
      (reached (transition u.propose (kernelAcc beta dH dB u)) x0) := by
  obtain ⟨herg, hleg⟩ := symmetric_ergodic hok u hu hb beta H B dH dB hex x0 hx0
  refine canStay_of_weights herg (fun x hx st hst hlt => ?_) a b ha hb' hab
  have hl := symmetric_legal hok u hu (hleg x hx) hst
  rw [symmetric_acc u hu, hex.dH x st (hleg x hx) hl, hex.dB x st (hleg x hx) hl]
  refine lt_of_le_of_lt (min_le_right _ _) ?_
  unfold boltzmann at hlt
  rw [Real.exp_lt_exp] at hlt
  refine exp_lt_one_of_neg ?_
  linarith

/-- C76. The ensemble average over the states that can be reached is left as it is by any number
of steps: a run started from the ensemble stays in it. -/
theorem C76_stationary (k : ℕ) (f : Occ → ℝ) :
    weightedMean (boltzmann beta H B)
        (reached (transition u.propose (kernelAcc beta dH dB u)) x0)
        (thinMean u.propose (kernelAcc beta dH dB u) k f) =
      weightedMean (boltzmann beta H B)
        (reached (transition u.propose (kernelAcc beta dH dB u)) x0) f :=
  (symmetric_ergodic hok u hu hb beta H B dH dB hex x0 hx0).1.stationary k f

/-- C76. The mean square error of the average over `n` samples is at most `C / n`, with the same
`C` for every number of samples and every start: averages over a run converge to averages in
the ensemble. -/
theorem C76_average (f : Occ → ℝ) :
    ∃ C : ℝ, ∀ (n : ℕ), 0 < n →
      ∀ x ∈ reached (transition u.propose (kernelAcc beta dH dB u)) x0,
      sampleMean u.propose (kernelAcc beta dH dB u) 1 n x (fun l => ((l.map f).sum / n -
        weightedMean (boltzmann beta H B)
          (reached (transition u.propose (kernelAcc beta dH dB u)) x0) f) ^ 2) ≤ C / n :=
  (symmetric_ergodic hok u hu hb beta H B dH dB hex x0 hx0).1.mean_square 1 one_pos (Or.inl rfl) f

open Classical in
/-- C76. The probability that the average over `n` samples is off by `ε` or more is at most
`C / (n ε²)`. -/
theorem C76_probability (f : Occ → ℝ) :
    ∃ C : ℝ, ∀ ε > 0, ∀ (n : ℕ), 0 < n →
      ∀ x ∈ reached (transition u.propose (kernelAcc beta dH dB u)) x0,
      sampleMean u.propose (kernelAcc beta dH dB u) 1 n x (fun l => if ε ≤ |(l.map f).sum / n -
        weightedMean (boltzmann beta H B)
          (reached (transition u.propose (kernelAcc beta dH dB u)) x0) f| then 1 else 0) ≤
        C / (n * ε ^ 2) :=
  (symmetric_ergodic hok u hu hb beta H B dH dB hex x0 hx0).1.probability 1 one_pos (Or.inl rfl) f

/-- C76, the part that holds with thinning: when two of the states have different weights, the
same is true of every `thin_by`. Missing: equal weights, where it fails. -/
theorem C76_thinned_partial (a b : Occ)
    (ha : a ∈ reached (transition u.propose (kernelAcc beta dH dB u)) x0)
    (hb' : b ∈ reached (transition u.propose (kernelAcc beta dH dB u)) x0)
    (hab : boltzmann beta H B a ≠ boltzmann beta H B b) (k : ℕ) (hk : 0 < k) (f : Occ → ℝ) :
    ∃ C : ℝ, ∀ (n : ℕ), 0 < n →
      ∀ x ∈ reached (transition u.propose (kernelAcc beta dH dB u)) x0,
      sampleMean u.propose (kernelAcc beta dH dB u) k n x (fun l => ((l.map f).sum / n -
        weightedMean (boltzmann beta H B)
          (reached (transition u.propose (kernelAcc beta dH dB u)) x0) f) ^ 2) ≤ C / n :=
  (symmetric_ergodic hok u hu hb beta H B dH dB hex x0 hx0).1.mean_square k hk
    (Or.inr (symmetric_canStay hok u hu hb beta H B dH dB hex x0 hx0 a b ha hb' hab)) f

/-- C76. When two of the states have different weights, the distribution after `n` steps
approaches the ensemble geometrically, from every start. -/
theorem C76_converges (a b : Occ)
    (ha : a ∈ reached (transition u.propose (kernelAcc beta dH dB u)) x0)
    (hb' : b ∈ reached (transition u.propose (kernelAcc beta dH dB u)) x0)
    (hab : boltzmann beta H B a ≠ boltzmann beta H B b) (f : Occ → ℝ) :
    ∃ C ρ : ℝ, 0 < ρ ∧ ρ < 1 ∧ ∀ (n : ℕ),
      ∀ x ∈ reached (transition u.propose (kernelAcc beta dH dB u)) x0,
      |thinMean u.propose (kernelAcc beta dH dB u) n f x -
        weightedMean (boltzmann beta H B)
          (reached (transition u.propose (kernelAcc beta dH dB u)) x0) f| ≤ C * ρ ^ n :=
  (symmetric_ergodic hok u hu hb beta H B dH dB hex x0 hx0).1.converges
    (symmetric_canStay hok u hu hb beta H B dH dB hex x0 hx0 a b ha hb' hab) f

end Symmetric

/-! ### Which states are reached -/

/-- C76. With the Flip usher and positive probabilities of the sublattices, all legal occupancies
are reached that agree with the start on the sites that are not active. -/
theorem C76_flip_states (act : List Sublattice) (hok : SitesOk act) (g : Rng) (probs : List ℚ)
    (hd : Drawable act) (hp : ProbList act.length probs) (hpos : ∀ a ∈ probs, 0 < a) (beta : ℝ)
    (dH dB : Occ → Step → ℝ) (x0 : Occ) (hx0 : LegalOcc act x0) :
    reached (transition (Usher.flip g act probs).propose
      (kernelAcc beta dH dB (Usher.flip g act probs))) x0 = legalStates act x0 := by
  have hu : (Usher.flip g act probs).Symmetric act := fun _ h => h
  apply Set.Subset.antisymm
  · exact reached_subset hok hx0 (LegalOcc act) hx0
      (fun _ _ hx hst => legalOcc_apply hok hx (symmetric_legal hok _ hu hx hst).flips)
      fun _ _ _ hx hst => (symmetric_legal hok _ hu hx hst).flips
  · refine flips_reach hx0 fun x hx sl hsl s hs c hc hne => ?_
    have hpr := proper_flip g act probs hd hp x
    have hacc : ∀ st, 0 < kernelAcc beta dH dB (Usher.flip g act probs) x st := fun st => by
      rw [symmetric_acc _ hu]; exact lt_min one_pos (Real.exp_pos _)
    have := transition_pos (usher := (Usher.flip g act probs).propose) hpr
      (fun st _ => (hacc st).le) [(s, c)] (flip_outcome hp.len hpos hsl hs hc hne) (hacc _)
    exact this

/-- C76. With the Swap usher and positive probabilities of the sublattices, all legal occupancies
of the same composition are reached. -/
theorem C76_swap_states (act : List Sublattice) (hok : SitesOk act) (g : Rng) (probs : List ℚ)
    (hd : ∀ sl ∈ act, sl.active ≠ []) (hp : ProbList act.length probs) (hpos : ∀ a ∈ probs, 0 < a)
    (beta : ℝ) (dH dB : Occ → Step → ℝ) (x0 : Occ) (hx0 : LegalOcc act x0) :
    reached (transition (Usher.swap g act probs).propose
      (kernelAcc beta dH dB (Usher.swap g act probs))) x0 =
      legalStates act x0 ∩ {y | SameComposition act x0 y} := by
  have hu : (Usher.swap g act probs).Symmetric act := fun _ h => h
  apply Set.Subset.antisymm
  · refine Set.subset_inter ?_ ?_
    · exact reached_subset hok hx0 (LegalOcc act) hx0
        (fun _ _ hx hst => legalOcc_apply hok hx (symmetric_legal hok _ hu hx hst).flips)
        fun _ _ _ hx hst => (symmetric_legal hok _ hu hx hst).flips
    · exact reached_same fun x st hst => outcome_swap_same hok (fun _ h => h) hst
  · refine swaps_reach hok (fun x hx sl hsl s hs t ht hne => ?_) hx0
    have hpr := proper_swap g act probs hd hp x
    have hacc : ∀ st, 0 < kernelAcc beta dH dB (Usher.swap g act probs) x st := fun st => by
      rw [symmetric_acc _ hu]; exact lt_min one_pos (Real.exp_pos _)
    exact transition_pos (usher := (Usher.swap g act probs).propose) hpr
      (fun st _ => (hacc st).le) _ (swap_outcome hp.len hpos hsl hs ht hne) (hacc _)

/-- C76. Semigrand runs with flips: the average over the samples converges to the average over all
legal occupancies. -/
theorem C76_flip_average (act : List Sublattice) (hok : SitesOk act) (g : Rng) (probs : List ℚ)
    (hd : Drawable act) (hp : ProbList act.length probs) (hpos : ∀ a ∈ probs, 0 < a) (beta : ℝ)
    (H B : Occ → ℝ) (dH dB : Occ → Step → ℝ) (hex : ExactChanges act H B dH dB) (x0 : Occ)
    (hx0 : LegalOcc act x0) (f : Occ → ℝ) :
    ∃ C : ℝ, ∀ (n : ℕ), 0 < n → ∀ x ∈ legalStates act x0,
      sampleMean (Usher.flip g act probs).propose
        (kernelAcc beta dH dB (Usher.flip g act probs)) 1 n x (fun l => ((l.map f).sum / n -
          weightedMean (boltzmann beta H B) (legalStates act x0) f) ^ 2) ≤ C / n := by
  have := C76_average hok (Usher.flip g act probs) (fun _ h => h) ⟨hd, hp⟩ beta H B dH dB hex x0 hx0 f
  rwa [C76_flip_states act hok g probs hd hp hpos beta dH dB x0 hx0] at this

/-- C76. Canonical runs with swaps: the average over the samples converges to the average over all
legal occupancies of the same composition. -/
theorem C76_swap_average (act : List Sublattice) (hok : SitesOk act) (g : Rng) (probs : List ℚ)
    (hd : ∀ sl ∈ act, sl.active ≠ []) (hp : ProbList act.length probs) (hpos : ∀ a ∈ probs, 0 < a)
    (beta : ℝ) (H B : Occ → ℝ) (dH dB : Occ → Step → ℝ) (hex : ExactChanges act H B dH dB)
    (x0 : Occ) (hx0 : LegalOcc act x0) (f : Occ → ℝ) :
    ∃ C : ℝ, ∀ (n : ℕ), 0 < n → ∀ x ∈ legalStates act x0 ∩ {y | SameComposition act x0 y},
      sampleMean (Usher.swap g act probs).propose
        (kernelAcc beta dH dB (Usher.swap g act probs)) 1 n x (fun l => ((l.map f).sum / n -
          weightedMean (boltzmann beta H B)
            (legalStates act x0 ∩ {y | SameComposition act x0 y}) f) ^ 2) ≤ C / n := by
  have := C76_average hok (Usher.swap g act probs) (fun _ h => h) ⟨hd, hp⟩ beta H B dH dB hex x0 hx0 f
  rwa [C76_swap_states act hok g probs hd hp hpos beta dH dB x0 hx0] at this

/-- C76. Runs with the TableFlip usher: the ensemble over the states that can be reached is
stationary and averages over samples converge to it; with thinning or for the distribution after
`n` steps, if a step can be rejected or change nothing somewhere. -/
theorem C76_table_average (t : TableFlipper) (n : ℕ) (h : TableOk t n)
    (hb : (Usher.table t n).Built) (beta : ℝ) (H B : Occ → ℝ) (dH dB : Occ → Step → ℝ)
    (hex : ExactChanges (activeSublattices t.sls) H B dH dB) (x0 : Occ) (hx0 : FullLegal t.sls x0)
    (Ω : Set Occ) (hΩ : Ω = reached (transition (Usher.table t n).propose
      (kernelAcc beta dH dB (Usher.table t n))) x0) (f : Occ → ℝ) :
    (∀ k, weightedMean (boltzmann beta H B) Ω (thinMean (Usher.table t n).propose
        (kernelAcc beta dH dB (Usher.table t n)) k f) = weightedMean (boltzmann beta H B) Ω f) ∧
    ∀ k, 0 < k → (k = 1 ∨ ∃ x ∈ Ω, ∃ st, ((Usher.table t n).propose x).Outcome st ∧
        (kernelAcc beta dH dB (Usher.table t n) x st < 1 ∨ applyStep x st = x)) →
      ∃ C : ℝ, ∀ (m : ℕ), 0 < m → ∀ x ∈ Ω,
        sampleMean (Usher.table t n).propose (kernelAcc beta dH dB (Usher.table t n)) k m x
          (fun l => ((l.map f).sum / m - weightedMean (boltzmann beta H B) Ω f) ^ 2) ≤ C / m := by
  subst hΩ
  obtain ⟨hr, hbal, h0, h1, hact⟩ := hb
  have hS : ∀ x st, FullLegal t.sls x → ((Usher.table t n).propose x).Outcome st →
      FullLegal t.sls (applyStep x st) := fun x st hx hst => hx.apply h (table_flips h hx hst)
  have hleg : ∀ x, FullLegal t.sls x → LegalOcc (activeSublattices t.sls) x := fun x hx =>
    fullLegal_legalOcc h.sls hx
  have hsub : reached (transition (Usher.table t n).propose
      (kernelAcc beta dH dB (Usher.table t n))) x0 ⊆ legalStates (activeSublattices t.sls) x0 :=
    reached_subset (activeSitesOk h.sitesOk) (hleg x0 hx0) (FullLegal t.sls) hx0 hS
      fun x st hx _ hst => (table_outcome h hx hst).1.flips
  have hnn : ∀ x st, FullLegal t.sls x → ((Usher.table t n).propose x).Outcome st →
      0 ≤ kernelAcc beta dH dB (Usher.table t n) x st := by
    intro x st hx hst
    have hq := table_prob_ne_zero hr h0 h1 hst
    have := (table_reversible h hr h1 hx (hS x st hx hst) hq).2
    rw [← ratio_eq h hr hx hst] at this
    exact le_min zero_le_one (mul_nonneg (Real.exp_pos _).le this)
  have herg := (ergodic_reached (usher := (Usher.table t n).propose)
    (acc := kernelAcc beta dH dB (Usher.table t n)) (FullLegal t.sls)
    (fun x hx => proper_table h hr hbal h0 h1 hact x hx) (fun x st hx hst _ => hS x st hx hst) hnn
    (fun x st => min_le_left _ _) (fun _ => Real.exp_pos _)
    (C10_table_detailed_balance t n h hr h1 beta H B dH dB hex) x0 hx0
    ((legalStates_finite _ x0).subset hsub)).1
  exact ⟨fun k => herg.stationary k f, fun k hk hl => herg.mean_square k hk hl f⟩

theorem fullLegal_pair_legal (x : Occ) (hx : FullLegal [pairSublattice] x) :
    LegalOcc [pairSublattice] x :=
  fun sl hsl s hs => hx sl hsl s (pair_ok.active sl hsl s hs)

/-! ### Equal weights -/

/-- a property kept by every block of `k` steps decides a functional of the samples -/
theorem sampleMean_invariant {usher : Occ → Prog Step} {acc : Occ → Step → ℝ} {k : ℕ}
    (I : Occ → Prop)
    (hI : ∀ (f : Occ → ℝ) (c : ℝ), (∀ y, I y → f y = c) → ∀ x, I x → thinMean usher acc k f x = c)
    (n : ℕ) (x : Occ) (hx : I x) (F : List Occ → ℝ) (c : ℝ)
    (hF : ∀ l : List Occ, l.length = n → (∀ y ∈ l, I y) → F l = c) :
    sampleMean usher acc k n x F = c := by
  induction n generalizing x F with
  | zero => exact hF [] rfl (by simp)
  | succ n ih =>
    rw [sampleMean]
    refine hI _ c (fun y hy => ih y hy _ fun l hl hall => hF (y :: l) (by simp [hl]) ?_) x hx
    intro z hz
    rcases List.mem_cons.1 hz with rfl | hz
    · exact hy
    · exact hall z hz

/-- flips on two sites with two species each -/
def pairFlip : Usher := .flip .shared [pairSublattice] [1]

theorem pairFlip_built : pairFlip.Built := by
  refine ⟨⟨by decide, by decide⟩, ⟨rfl, by simp, by norm_num⟩⟩

theorem pairFlip_step (b : ℕ) (hb : b < 2) (f : Occ → ℝ) (c : ℝ)
    (hf : ∀ y, LegalOcc [pairSublattice] y → (y 0 + y 1) % 2 = 1 - b → f y = c) (x : Occ)
    (hx : LegalOcc [pairSublattice] x) (hpar : (x 0 + x 1) % 2 = b) :
    stepMean pairFlip.propose (kernelAcc 1 (fun _ _ => 0) (fun _ _ => 0) pairFlip) f x = c := by
  have hu : pairFlip.Symmetric [pairSublattice] := fun _ h => h
  unfold stepMean
  rw [← (proper_symmetric pairFlip hu pairFlip_built x).total c]
  apply expect_congr
  intro st hst
  rw [symmetric_acc pairFlip hu]
  simp only [mul_zero, add_zero, Real.exp_zero, min_self, one_mul, sub_self, zero_mul]
  have hleg := legalOcc_apply (sitesOk_of pair_ok) hx
    (symmetric_legal (sitesOk_of pair_ok) pairFlip hu hx hst).flips
  refine hf _ hleg ?_
  obtain ⟨sl, hsl, s, hs, d, hd, hne, rfl⟩ := outcome_flip hst
  rw [List.mem_singleton] at hsl
  subst hsl
  have hs' : s ∈ [0, 1] := hs
  have hd' : d ∈ [0, 1] := hd
  have h0 : x 0 ∈ [0, 1] := hx pairSublattice (by simp) 0 (by decide)
  have h1 : x 1 ∈ [0, 1] := hx pairSublattice (by simp) 1 (by decide)
  simp only [List.mem_cons, List.not_mem_nil, or_false] at hs' hd' h0 h1
  simp only [applyStep]
  rcases hs' with rfl | rfl
  · rw [Function.update_self, Function.update_of_ne (by decide)]
    omega
  · rw [Function.update_self, Function.update_of_ne (by decide)]
    omega

/-- C76, thinning can fail: with two binary sites, flips and equal weights every step is accepted
and changes the parity, so with `thin_by = 2` only one half of the states is ever sampled. The
mean square error of some average stays above a bound for every number of samples. -/
theorem C76_thinned_fails :
    ∃ (act : List Sublattice) (u : Usher) (H B : Occ → ℝ) (dH dB : Occ → Step → ℝ) (x0 : Occ)
      (f : Occ → ℝ), SitesOk act ∧ u.Symmetric act ∧ u.Built ∧ ExactChanges act H B dH dB ∧
      LegalOcc act x0 ∧ ∃ ε > 0, ∀ n : ℕ, 0 < n →
        ε ≤ sampleMean u.propose (kernelAcc 1 dH dB u) 2 n x0 (fun l => ((l.map f).sum / n -
          weightedMean (boltzmann 1 H B)
            (reached (transition u.propose (kernelAcc 1 dH dB u)) x0) f) ^ 2) := by
  set f : Occ → ℝ := fun x => if (x 0 + x 1) % 2 = 1 then 1 else 0 with hf
  have hu : pairFlip.Symmetric [pairSublattice] := fun _ h => h
  have hx0 : LegalOcc [pairSublattice] allZero := by
    intro sl hsl s _
    rw [List.mem_singleton] at hsl
    subst hsl
    show 0 ∈ _
    decide
  refine ⟨[pairSublattice], pairFlip, fun _ => 0, fun _ => 0, fun _ _ => 0, fun _ _ => 0, allZero, f,
    sitesOk_of pair_ok, hu, pairFlip_built, flat_exact _, hx0, ?_⟩
  have hreach := C76_flip_states [pairSublattice] (sitesOk_of pair_ok) .shared [1]
    pairFlip_built.1 pairFlip_built.2 (by simp) 1 (fun _ _ => 0) (fun _ _ => 0) allZero hx0
  have hreach : reached (transition pairFlip.propose
    (kernelAcc 1 (fun _ _ => 0) (fun _ _ => 0) pairFlip)) allZero =
      legalStates [pairSublattice] allZero := hreach
  rw [hreach]
  set m := weightedMean (boltzmann 1 (fun _ : Occ => (0 : ℝ)) fun _ => 0)
    (legalStates [pairSublattice] allZero) f with hm
  have hmpos : 0 < m := by
    let _ : Fintype (legalStates [pairSublattice] allZero) := (legalStates_finite _ _).fintype
    rw [hm, weightedMean_eq]
    have hone : oneOne ∈ legalStates [pairSublattice] allZero := by
      refine ⟨?_, fun s hs => ?_⟩
      · intro sl hsl s hs
        rw [List.mem_singleton] at hsl
        subst hsl
        exact legal_pair oneOne (fun s _ => oneOne_lt s) pairSublattice (by simp) s
          (pair_ok.active pairSublattice (by simp) s hs)
      · have h1 : s ≠ 1 := by
          rintro rfl
          exact hs pairSublattice (by simp) (by decide)
        simp [oneOne, allZero, h1]
    have hterm : ∀ x : legalStates [pairSublattice] allZero,
        0 ≤ boltzmann 1 (fun _ : Occ => (0 : ℝ)) (fun _ => 0) x.1 * f x.1 := by
      intro x
      refine mul_nonneg (Real.exp_pos _).le ?_
      rw [hf]
      dsimp only
      split_ifs <;> norm_num
    refine div_pos (lt_of_lt_of_le ?_ (Finset.single_le_sum (fun x _ => hterm x)
      (Finset.mem_univ (⟨oneOne, hone⟩ : legalStates [pairSublattice] allZero))))
      (Finset.sum_pos (fun x _ => Real.exp_pos _) ⟨⟨oneOne, hone⟩, Finset.mem_univ _⟩)
    refine mul_pos (Real.exp_pos _) ?_
    rw [hf]
    simp [oneOne]
  refine ⟨m ^ 2, by positivity, fun n hn => le_of_eq ?_⟩
  refine (sampleMean_invariant (fun x => LegalOcc [pairSublattice] x ∧ (x 0 + x 1) % 2 = 0)
    ?_ n allZero ⟨hx0, rfl⟩ _ _ ?_).symm
  · rintro g c hg x ⟨hx, hpar⟩
    refine pairFlip_step 0 (by norm_num) _ c (fun y hy hpy => ?_) x hx hpar
    exact pairFlip_step 1 (by norm_num) _ c (fun z hz hpz => hg z ⟨hz, hpz⟩) y hy hpy
  · intro l _ hall
    have : (l.map f).sum = 0 := by
      apply List.sum_eq_zero
      intro r hr
      obtain ⟨y, hy, rfl⟩ := List.mem_map.1 hr
      rw [hf]
      simp [(hall y hy).2]
    rw [this, zero_div, zero_sub, neg_sq]

/-- an enthalpy that is not constant on two sites -/
noncomputable def pairH (x : Occ) : ℝ := (x 0 : ℝ) + 2 * x 1

theorem pairH_exact : ExactChanges [pairSublattice] pairH (fun _ => 0)
    (fun x st => pairH (applyStep x st) - pairH x) (fun _ _ => 0) :=
  ⟨fun _ _ _ _ => rfl, fun _ _ _ _ => by simp⟩

/-- the hypotheses of C76 hold for flips on two sites with an enthalpy that is not constant; two
reached states have different weights -/
example : SitesOk [pairSublattice] ∧ pairFlip.Symmetric [pairSublattice] ∧ pairFlip.Built ∧
    Drawable [pairSublattice] ∧ ProbList [pairSublattice].length [1] ∧
    ExactChanges [pairSublattice] pairH (fun _ => 0)
      (fun x st => pairH (applyStep x st) - pairH x) (fun _ _ => 0) ∧
    LegalOcc [pairSublattice] allZero ∧
    oneOne ∈ reached (transition pairFlip.propose (kernelAcc 1
      (fun x st => pairH (applyStep x st) - pairH x) (fun _ _ => 0) pairFlip)) allZero ∧
    boltzmann 1 pairH (fun _ => 0) allZero ≠ boltzmann 1 pairH (fun _ => 0) oneOne := by
  have hx0 : LegalOcc [pairSublattice] allZero := fullLegal_pair_legal _
    (legal_pair _ (by simp [allZero]))
  refine ⟨sitesOk_of pair_ok, fun _ h => h, pairFlip_built, pairFlip_built.1, pairFlip_built.2,
    pairH_exact, hx0, ?_, ?_⟩
  · have := C76_flip_states [pairSublattice] (sitesOk_of pair_ok) .shared [1]
      pairFlip_built.1 pairFlip_built.2 (by simp) 1
      (fun x st => pairH (applyStep x st) - pairH x) (fun _ _ => 0) allZero hx0
    show oneOne ∈ reached (transition (Usher.flip .shared [pairSublattice] [1]).propose _) _
    rw [pairFlip, this]
    refine ⟨fullLegal_pair_legal _ (legal_pair _ fun s _ => oneOne_lt s), fun s hs => ?_⟩
    have h1 : s ≠ 1 := by
      rintro rfl
      exact hs pairSublattice (by simp) (by decide)
    simp [oneOne, allZero, h1]
  · unfold boltzmann
    rw [Ne, Real.exp_eq_exp]
    simp [pairH, allZero, oneOne]

/-- swaps on the same sites reach the state with the two codes exchanged -/
example : (∀ sl ∈ [pairSublattice], sl.active ≠ []) ∧ LegalOcc [pairSublattice] oneOne ∧
    Function.update (Function.update oneOne 1 0) 0 1 ∈ legalStates [pairSublattice] oneOne ∩
      {y | SameComposition [pairSublattice] oneOne y} := by
  refine ⟨by decide, fullLegal_pair_legal _ (legal_pair _ fun s _ => oneOne_lt s), ⟨?_, ?_⟩, ?_⟩
  · refine fullLegal_pair_legal _ (legal_pair _ fun s _ => ?_)
    by_cases h0 : s = 0
    · subst h0; simp
    · by_cases h1 : s = 1
      · subst h1; simp
      · rw [Function.update_of_ne h0, Function.update_of_ne h1]; exact oneOne_lt s
  · intro s hs
    have h1 : s ≠ 1 := by
      rintro rfl
      exact hs pairSublattice (by simp) (by decide)
    have h0 : s ≠ 0 := by
      rintro rfl
      exact hs pairSublattice (by simp) (by decide)
    rw [Function.update_of_ne h0, Function.update_of_ne h1]
  · intro sl hsl c
    rw [List.mem_singleton] at hsl
    subst hsl
    have hact : pairSublattice.active = [0, 1] := by decide
    unfold holding
    rw [hact]
    by_cases hc0 : c = 0
    · subst hc0; decide
    · by_cases hc1 : c = 1
      · subst hc1; decide
      · have e0 : (0 == c) = false := by simpa using Ne.symm hc0
        have e1 : (1 == c) = false := by simpa using Ne.symm hc1
        simp [oneOne, e0, e1]

/-- a table-flip usher that is properly built -/
example : TableOk tripleTable 3 ∧ (Usher.table tripleTable 3).Built ∧
    FullLegal tripleTable.sls allZero := by
  refine ⟨tripleTable_ok.1, ⟨tripleTable_rows, ?_, by decide +kernel, by decide +kernel, ?_⟩, ?_⟩
  · unfold TableFlipper.RowsBalanced
    decide +kernel
  · rw [tripleTable_ok.2.1]; decide
  · rw [tripleTable_ok.2.1]
    exact legal_triple _ (by simp [allZero])

end Smol
