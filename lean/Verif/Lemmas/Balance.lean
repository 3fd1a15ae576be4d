import Verif.Model.Kernel
import Verif.Lemmas.Prog
import Verif.Lemmas.Occupancy
import Verif.Spec.Balance

/-! Metropolis-Hastings algebra and proposal probabilities. -/

namespace Smol
open Prog Spec

open Classical in
/-- probability that the usher proposes a step leading from `x` to `y` -/
noncomputable def propProb (usher : Occ → Prog Step) (x y : Occ) : ℝ :=
  (usher x).expect fun st => if applyStep x st = y then 1 else 0

theorem transition_eq (usher : Occ → Prog Step) (acc : Occ → Step → ℝ) (x y : Occ) (a : ℝ)
    (h : ∀ st, (usher x).Outcome st → applyStep x st = y → acc x st = a) :
    transition usher acc x y = propProb usher x y * a := by
  classical
  unfold transition propProb
  rw [← expect_mul_right]
  apply expect_congr
  intro st hst
  split_ifs with hy
  · rw [h st hst hy, one_mul]
  · rw [zero_mul]

theorem propProb_eq_zero (usher : Occ → Prog Step) (x y : Occ)
    (h : ∀ st, (usher x).Outcome st → applyStep x st ≠ y) : propProb usher x y = 0 := by
  classical
  exact expect_zero _ _ fun st hst => by simp [h st hst]

theorem mh_pair (w w' e q q' R R' : ℝ) (hw : 0 < w) (hw' : 0 < w') (he : e = w' / w)
    (hR : q ≠ 0 → q * R = q' ∧ 0 ≤ R) (hR' : q' ≠ 0 → q' * R' = q ∧ 0 ≤ R') :
    w * (q * min 1 (e * R)) = w' * (q' * min 1 (e⁻¹ * R')) := by
  subst he
  by_cases hq : q = 0
  · by_cases hq' : q' = 0
    · simp [hq, hq']
    · obtain ⟨h1, h2⟩ := hR' hq'
      rw [hq] at h1
      have : R' = 0 := by
        rcases mul_eq_zero.1 h1 with h | h
        · exact absurd h hq'
        · exact h
      simp [hq, this]
  · obtain ⟨h1, h2⟩ := hR hq
    by_cases hq' : q' = 0
    · have : R = 0 := by
        rw [hq'] at h1
        rcases mul_eq_zero.1 h1 with h | h
        · exact absurd h hq
        · exact h
      simp [hq', this]
    · obtain ⟨h1', h2'⟩ := hR' hq'
      have hRpos : 0 < R := by
        rcases h2.lt_or_eq with h | h
        · exact h
        · rw [← h, mul_zero] at h1; exact absurd h1.symm hq'
      have hRR : R' = R⁻¹ := by
        apply eq_inv_of_mul_eq_one_left
        have : q * (R' * R) = q * 1 := by rw [mul_one]; nth_rw 2 [← h1']; rw [← h1]; ring
        exact mul_left_cancel₀ hq this
      rw [hRR, ← h1]
      have h3 : w * (q * min 1 (w' / w * R)) = q * min w (w' * R) := by
        rw [show min w (w' * R) = w * min 1 (w' / w * R) from ?_]; · ring
        rw [mul_min_of_nonneg _ _ hw.le]; congr 1 <;> field_simp
      have h4 : w' * (q * R * min 1 ((w' / w)⁻¹ * R⁻¹)) = q * min w (w' * R) := by
        rw [show min w (w' * R) = w' * R * min 1 ((w' / w)⁻¹ * R⁻¹) from ?_]; · ring
        rw [mul_min_of_nonneg _ _ (mul_pos hw' hRpos).le, min_comm]; congr 1 <;> field_simp
      rw [h3, h4]

/-- Metropolis–Hastings: if the a-priori factor of every step leading from `x` to `y` is `R x y`
and `q(x,y) R(x,y) = q(y,x)`, the chain is in detailed balance. -/
theorem mh_balance (S : Occ → Prop) (usher : Occ → Prog Step) (beta : ℝ) (H B : Occ → ℝ)
    (dH dB factor : Occ → Step → ℝ) (R : Occ → Occ → ℝ)
    (hH : ∀ x st, S x → (usher x).Outcome st → dH x st = H (applyStep x st) - H x)
    (hB : ∀ x st, S x → (usher x).Outcome st → dB x st = B (applyStep x st) - B x)
    (hf : ∀ x y st, S x → S y → (usher x).Outcome st → applyStep x st = y → factor x st = R x y)
    (hR : ∀ x y, S x → S y → propProb usher x y ≠ 0 →
      propProb usher x y * R x y = propProb usher y x ∧ 0 ≤ R x y) :
    DetailedBalance S (boltzmann beta H B)
      (transition usher (metropolisAcc beta dH dB factor)) := by
  intro x y hx hy
  rw [transition_eq usher _ x y
      (min 1 (Real.exp (-beta * (H y - H x) + (B y - B x)) * R x y)) ?_,
    transition_eq usher _ y x
      (min 1 (Real.exp (-beta * (H x - H y) + (B x - B y)) * R y x)) ?_]
  · have hinv : Real.exp (-beta * (H x - H y) + (B x - B y)) =
        (Real.exp (-beta * (H y - H x) + (B y - B x)))⁻¹ := by
      rw [← Real.exp_neg]; congr 1; ring
    rw [hinv]
    apply mh_pair _ _ _ _ _ _ _ (Real.exp_pos _) (Real.exp_pos _) _ (hR x y hx hy) (hR y x hy hx)
    rw [← Real.exp_sub]; congr 1; ring
  · intro st hst hyx
    rw [metropolisAcc, hH y st hy hst, hB y st hy hst, hf y x st hy hx hst hyx, hyx]
  · intro st hst hyx
    rw [metropolisAcc, hH x st hx hst, hB x st hx hst, hf x y st hx hy hst hyx, hyx]

/-- Symmetric proposals need no factor. -/
theorem symmetric_balance (S : Occ → Prop) (usher : Occ → Prog Step) (beta : ℝ) (H B : Occ → ℝ)
    (dH dB : Occ → Step → ℝ)
    (hH : ∀ x st, S x → (usher x).Outcome st → dH x st = H (applyStep x st) - H x)
    (hB : ∀ x st, S x → (usher x).Outcome st → dB x st = B (applyStep x st) - B x)
    (hs : ∀ x y, S x → S y → propProb usher x y = propProb usher y x) :
    DetailedBalance S (boltzmann beta H B)
      (transition usher (metropolisAcc beta dH dB fun _ _ => 1)) :=
  mh_balance S usher beta H B dH dB _ (fun _ _ => 1) hH hB (fun _ _ _ _ _ _ _ => rfl)
    fun x y hx hy _ => ⟨by rw [mul_one]; exact hs x y hx hy, zero_le_one⟩

/-! ### Probability that a chain of proposals ends in `y` -/

open Classical in
/-- `k` more proposals from `z` with used sites `U` -/
noncomputable def chainProb (inner : Occ → Prog Step) (y : Occ) : ℕ → Occ → Finset ℕ → ℝ
  | 0, z, _ => if z = y then 1 else 0
  | k + 1, z, U => (inner z).expect fun st =>
      if ∀ f ∈ st, f.1 ∉ U then chainProb inner y k (applyStep z st) (U ∪ (st.map Prod.fst).toFinset)
      else chainProb inner y k z U

open Classical in
theorem expect_multiLoop (inner : Occ → Prog Step) (x y : Occ) (k : ℕ) (acc : Step) :
    (multiLoop inner k (applyStep x acc) acc).expect
        (fun st => if applyStep x st = y then (1 : ℝ) else 0) =
      chainProb inner y k (applyStep x acc) (acc.map Prod.fst).toFinset := by
  induction k generalizing acc with
  | zero => simp [multiLoop, chainProb]
  | succ k ih =>
    simp only [multiLoop, chainProb, expect_bind]
    apply expect_congr
    intro st _
    have : (∀ f ∈ st, f.1 ∉ List.map Prod.fst acc) ↔
        ∀ f ∈ st, f.1 ∉ (List.map Prod.fst acc).toFinset := by simp only [List.mem_toFinset]
    by_cases h : ∀ f ∈ st, f.1 ∉ List.map Prod.fst acc
    · rw [if_pos h, if_pos (this.1 h), ← applyStep_append, ih]
      simp
    · rw [if_neg h, if_neg (fun h' => h (this.2 h')), ih]

theorem propProb_multi (g : Rng) (lens : List ℕ) (p : List ℚ) (inner : Occ → Prog Step)
    (x y : Occ) :
    propProb (multiPropose g lens p inner) x y =
      (chooseW g lens p).expect fun len => chainProb inner y (len - 1 + 1) x ∅ := by
  classical
  unfold propProb multiPropose
  rw [expect_bind]
  apply expect_congr
  intro len _
  rw [expect_bind, chainProb]
  apply expect_congr
  intro st _
  have := expect_multiLoop inner x y (len - 1) st
  simp only [Finset.notMem_empty, not_false_eq_true, implies_true, if_true, Finset.empty_union]
  convert this

theorem propProb_eq_chain (inner : Occ → Prog Step) (x y : Occ) :
    propProb inner x y = chainProb inner y 1 x ∅ := by
  classical
  simp [propProb, chainProb]

theorem propProb_composite (g : Rng) (us : List (Occ → Prog Step)) (w : List ℚ) (x y : Occ) :
    propProb (compositePropose g us w) x y =
      (chooseW g us (compositeProbs w)).expect fun u => propProb u x y := by
  classical
  unfold propProb compositePropose
  rw [expect_bind]

theorem chainProb_support (inner : Occ → Prog Step) (y : Occ) (k : ℕ) (z : Occ) (U : Finset ℕ)
    (s : ℕ) (hs : s ∈ U) (hne : z s ≠ y s) : chainProb inner y k z U = 0 := by
  classical
  induction k generalizing z U with
  | zero =>
    rw [chainProb, if_neg]
    rintro rfl; exact hne rfl
  | succ k ih =>
    rw [chainProb]
    apply expect_zero
    intro st _
    split_ifs with h
    · apply ih _ _ (by simp [hs])
      rw [applyStep_of_not_mem]
      · exact hne
      · intro f hf hfs; exact h f hf (hfs ▸ hs)
    · exact ih _ _ hs hne

/-- `a` on `U`, `b` elsewhere -/
def mix (U : Finset ℕ) (a b : Occ) : Occ := fun s => if s ∈ U then a s else b s

/-- One proposal treats the pair `x, y` alike in both directions: with continuations `κ` (towards
`y`) and `κ'` (towards `x`) that vanish when a used site is wrong and agree on mixed states, the
two expectations agree. `C` is the condition on the pair and the used sites that is carried
along. -/
def Matches (C : Occ → Occ → Finset ℕ → Prop) (inner : Occ → Prog Step) : Prop :=
  ∀ (x y : Occ) (U : Finset ℕ) (κ κ' : Occ → Finset ℕ → ℝ), C x y U →
    (∀ z V s, s ∈ V → z s ≠ y s → κ z V = 0) →
    (∀ z V s, s ∈ V → z s ≠ x s → κ' z V = 0) →
    (∀ V, C x y V → κ (mix V y x) V = κ' (mix V x y) V) →
    ((inner (mix U y x)).expect fun st =>
      if ∀ f ∈ st, f.1 ∉ U then κ (applyStep (mix U y x) st) (U ∪ (st.map Prod.fst).toFinset)
      else κ (mix U y x) U) =
    ((inner (mix U x y)).expect fun st =>
      if ∀ f ∈ st, f.1 ∉ U then κ' (applyStep (mix U x y) st) (U ∪ (st.map Prod.fst).toFinset)
      else κ' (mix U x y) U)

theorem chain_symmetric (C : Occ → Occ → Finset ℕ → Prop) (inner : Occ → Prog Step)
    (h : Matches C inner) (x y : Occ) (k : ℕ) (U : Finset ℕ) (hC : C x y U) :
    chainProb inner y k (mix U y x) U = chainProb inner x k (mix U x y) U := by
  classical
  induction k generalizing U with
  | zero =>
    rw [chainProb, chainProb]
    have key : mix U y x = y ↔ mix U x y = x := by
      constructor
      · intro h; funext s; have := congrFun h s; simp only [mix] at this ⊢
        split_ifs with hs
        · rfl
        · rw [if_neg hs] at this; exact this.symm
      · intro h; funext s; have := congrFun h s; simp only [mix] at this ⊢
        split_ifs with hs
        · rfl
        · rw [if_neg hs] at this; exact this.symm
    simp only [key]
  | succ k ih =>
    rw [chainProb, chainProb]
    have := h x y U (chainProb inner y k) (chainProb inner x k) hC
      (fun z V s hs hne => chainProb_support inner y k z V s hs hne)
      (fun z V s hs hne => chainProb_support inner x k z V s hs hne)
      (fun V hV => ih V hV)
    convert this

theorem mix_empty (a b : Occ) : mix ∅ a b = b := by funext s; simp [mix]

theorem chain_symmetric' (C : Occ → Occ → Finset ℕ → Prop) (inner : Occ → Prog Step)
    (h : Matches C inner) (x y : Occ) (k : ℕ) (hC : C x y ∅) :
    chainProb inner y k x ∅ = chainProb inner x k y ∅ := by
  have := chain_symmetric C inner h x y k ∅ hC
  rwa [mix_empty, mix_empty] at this

theorem matches_composite (C : Occ → Occ → Finset ℕ → Prop) (g : Rng)
    (us : List (Occ → Prog Step)) (w : List ℚ) (h : ∀ u ∈ us, Matches C u) :
    Matches C (compositePropose g us w) := by
  intro x y U κ κ' hC h1 h2 h3
  unfold compositePropose
  rw [expect_bind, expect_bind]
  apply expect_congr
  intro u hu
  exact h u (outcome_chooseW _ _ _ _ hu) x y U κ κ' hC h1 h2 h3

end Smol
