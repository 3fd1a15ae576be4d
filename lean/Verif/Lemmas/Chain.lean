import Verif.Model.Chain
import Verif.Spec.Ergodic
import Verif.Lemmas.MarkovChain
import Verif.Lemmas.Proper
import Verif.Lemmas.Balance

/-! A Metropolis kernel restricted to a finite set of occupancies is a finite Markov chain. -/

namespace Smol
open Prog Spec Matrix

theorem Prog.Proper.expect_nonneg {α : Type} {p : Prog α} (hp : p.Proper) (f : α → ℝ)
    (hf : ∀ a, p.Outcome a → 0 ≤ f a) : 0 ≤ p.expect f := by
  induction p with
  | ret a => exact hf a rfl
  | pick g n w k ih =>
    refine Finset.sum_nonneg fun i _ => ?_
    by_cases h : w i = 0
    · rw [h]; simp
    · exact mul_nonneg (by exact_mod_cast hp.2.1 i)
        (ih i (hp.2.2 i h) fun a ha => hf a ⟨i, h, ha⟩)

theorem Prog.Proper.expect_pos {α : Type} {p : Prog α} (hp : p.Proper) (f : α → ℝ)
    (hf : ∀ a, p.Outcome a → 0 ≤ f a) (a : α) (ha : p.Outcome a) (hfa : 0 < f a) :
    0 < p.expect f := by
  induction p with
  | ret b => rw [Outcome] at ha; subst ha; exact hfa
  | pick g n w k ih =>
    obtain ⟨j, hj, hja⟩ := ha
    have hnn : ∀ i ∈ Finset.univ, 0 ≤ (w i : ℝ) * (k i).expect f := by
      intro i _
      by_cases h : w i = 0
      · rw [h]; simp
      · exact mul_nonneg (by exact_mod_cast hp.2.1 i)
          ((hp.2.2 i h).expect_nonneg f fun a ha => hf a ⟨i, h, ha⟩)
    have hpos : 0 < (w j : ℝ) * (k j).expect f :=
      mul_pos (by exact_mod_cast lt_of_le_of_ne (hp.2.1 j) (Ne.symm hj))
        (ih j (hp.2.2 j hj) (fun a ha => hf a ⟨j, hj, ha⟩) hja)
    exact lt_of_lt_of_le hpos (Finset.single_le_sum hnn (Finset.mem_univ j))

section
variable (usher : Occ → Prog Step) (acc : Occ → Step → ℝ)

/-- Everything needed of a kernel on the set `Ω` -/
structure ChainOk (Ω : Set Occ) : Prop where
  fin : Ω.Finite
  proper : ∀ x ∈ Ω, (usher x).Proper
  nonneg : ∀ x ∈ Ω, ∀ st, (usher x).Outcome st → 0 ≤ acc x st
  le_one : ∀ x ∈ Ω, ∀ st, (usher x).Outcome st → acc x st ≤ 1
  closed : ∀ x ∈ Ω, ∀ st, (usher x).Outcome st → acc x st ≠ 0 → applyStep x st ∈ Ω

open Classical in
/-- the transition matrix -/
noncomputable def chainMatrix (Ω : Set Occ) : Matrix Ω Ω ℝ := fun x y =>
  stepMean usher acc (fun z => if z = y.1 then 1 else 0) x.1

/-- probability of rejection -/
noncomputable def stay (x : Occ) : ℝ := (usher x).expect fun st => 1 - acc x st

variable {usher acc} {Ω : Set Occ} [Fintype Ω] [DecidableEq Ω]

omit [DecidableEq Ω] in
theorem ChainOk.stepMean_eq (h : ChainOk usher acc Ω) (f : Occ → ℝ) (x : Ω) :
    stepMean usher acc f x.1 = ∑ y : Ω, chainMatrix usher acc Ω x y * f y.1 := by
  classical
  unfold chainMatrix stepMean
  simp only [← expect_mul_right]
  rw [← expect_sum]
  apply expect_congr
  intro st hst
  have key : ∀ z ∈ Ω, ∑ y : Ω, (if z = y.1 then (1 : ℝ) else 0) * f y.1 = f z := by
    intro z hz
    rw [Finset.sum_eq_single (⟨z, hz⟩ : Ω)]
    · simp
    · intro y _ hy
      rw [if_neg (fun e => hy (Subtype.ext e.symm)), zero_mul]
    · intro hh; exact absurd (Finset.mem_univ _) hh
  simp only [add_mul, Finset.sum_add_distrib, mul_assoc, ← Finset.mul_sum]
  rw [key x.1 x.2]
  by_cases h0 : acc x.1 st = 0
  · simp [h0]
  · rw [key _ (h.closed x.1 x.2 st hst h0)]

omit [Fintype Ω] in
theorem chainMatrix_eq (x y : Ω) :
    chainMatrix usher acc Ω x y =
      transition usher acc x.1 y.1 + if x = y then stay usher acc x.1 else 0 := by
  unfold chainMatrix stepMean transition stay
  rw [expect_add]
  congr 1
  · apply expect_congr
    intro st _
    by_cases he : applyStep x.1 st = y.1 <;> simp [he]
  · by_cases hxy : x = y
    · subst hxy; simp
    · rw [if_neg hxy]
      apply expect_zero
      intro st _
      beta_reduce
      rw [if_neg (fun e => hxy (Subtype.ext e)), mul_zero]

omit [Fintype Ω] [DecidableEq Ω] in
theorem ChainOk.transition_nonneg (h : ChainOk usher acc Ω) (x : Ω) (y : Occ) :
    0 ≤ transition usher acc x.1 y := by
  classical
  refine (h.proper x.1 x.2).expect_nonneg _ fun st hst => ?_
  split_ifs
  · exact h.nonneg x.1 x.2 st hst
  · exact le_rfl

omit [Fintype Ω] [DecidableEq Ω] in
theorem ChainOk.stay_nonneg (h : ChainOk usher acc Ω) (x : Ω) : 0 ≤ stay usher acc x.1 :=
  (h.proper x.1 x.2).expect_nonneg _ fun st hst => sub_nonneg.2 (h.le_one x.1 x.2 st hst)

theorem ChainOk.stochastic (h : ChainOk usher acc Ω) :
    Markov.Stochastic (chainMatrix usher acc Ω) := by
  classical
  refine ⟨fun x y => ?_, fun x => ?_⟩
  · rw [chainMatrix_eq]
    have := h.transition_nonneg x y.1
    have := h.stay_nonneg x
    split_ifs <;> linarith
  · have := h.stepMean_eq (fun _ => 1) x
    simp only [mul_one] at this
    rw [← this]
    unfold stepMean
    simp only [mul_one, add_sub_cancel]
    exact (h.proper x.1 x.2).total 1

theorem ChainOk.stationary (h : ChainOk usher acc Ω) (w : Occ → ℝ)
    (hdb : DetailedBalance (· ∈ Ω) w (transition usher acc)) :
    Markov.Stationary (fun x : Ω => w x.1) (chainMatrix usher acc Ω) := by
  classical
  intro y
  have h1 : ∀ x : Ω, w x.1 * chainMatrix usher acc Ω x y = w y.1 * chainMatrix usher acc Ω y x := by
    intro x
    rw [chainMatrix_eq, chainMatrix_eq, mul_add, mul_add, hdb x.1 y.1 x.2 y.2]
    by_cases hxy : x = y
    · subst hxy; rfl
    · rw [if_neg hxy, if_neg (Ne.symm hxy), mul_zero, mul_zero]
  simp only [h1, ← Finset.mul_sum, h.stochastic.row, mul_one]

theorem ChainOk.connected (h : ChainOk usher acc Ω)
    (hc : ∀ x ∈ Ω, ∀ y ∈ Ω,
      Relation.ReflTransGen (fun a b => b ∈ Ω ∧ 0 < transition usher acc a b) x y) :
    Markov.Connected (chainMatrix usher acc Ω) := by
  classical
  intro x y
  have key : ∀ b, Relation.ReflTransGen (fun a b => b ∈ Ω ∧ 0 < transition usher acc a b) x.1 b →
      ∃ (hb : b ∈ Ω) (n : ℕ), 0 < (chainMatrix usher acc Ω ^ n) x ⟨b, hb⟩ := by
    intro b hb
    induction hb with
    | refl => exact ⟨x.2, 0, by simp⟩
    | @tail b c _ hbc ih =>
      obtain ⟨hb, n, hn⟩ := ih
      refine ⟨hbc.1, n + 1, lt_of_lt_of_le (mul_pos hn ?_)
        (Markov.pow_mul_le h.stochastic n 1 x ⟨b, hb⟩ ⟨c, hbc.1⟩)⟩
      rw [pow_one, chainMatrix_eq]
      have := h.stay_nonneg ⟨b, hb⟩
      have := hbc.2
      split_ifs <;> simp only at * <;> linarith
  obtain ⟨_, n, hn⟩ := key y.1 (hc x.1 x.2 y.1 y.2)
  exact ⟨n, hn⟩

omit [Fintype Ω] [DecidableEq Ω] in
theorem ChainOk.loop (h : ChainOk usher acc Ω) (x : Occ) (hx : x ∈ Ω) (st : Step)
    (hst : (usher x).Outcome st) (hl : acc x st < 1 ∨ applyStep x st = x) :
    0 < chainMatrix usher acc Ω ⟨x, hx⟩ ⟨x, hx⟩ := by
  classical
  unfold chainMatrix stepMean
  have hnn := fun st hst => h.nonneg x hx st hst
  have hle := fun st hst => h.le_one x hx st hst
  refine (h.proper x hx).expect_pos _ (fun s hs => ?_) st hst ?_
  · have := hnn s hs
    have := hle s hs
    simp only [if_true, mul_one]
    split_ifs <;> linarith
  · have := hnn st hst
    simp only [if_true, mul_one]
    rcases hl with hl | hl
    · split_ifs <;> linarith
    · rw [if_pos hl]; linarith

theorem ChainOk.thinMean_eq (h : ChainOk usher acc Ω) (k : ℕ) (f : Occ → ℝ) (x : Ω) :
    thinMean usher acc k f x.1 =
      ∑ y : Ω, (chainMatrix usher acc Ω ^ k) x y * f y.1 := by
  classical
  induction k generalizing x with
  | zero => simp [thinMean, Matrix.one_apply]
  | succ k ih =>
    rw [thinMean, h.stepMean_eq]
    simp only [ih, pow_succ', Matrix.mul_apply, Finset.sum_mul, Finset.mul_sum]
    rw [Finset.sum_comm]
    exact Finset.sum_congr rfl fun y _ => Finset.sum_congr rfl fun z _ => by ring

theorem ChainOk.sampleMean_eq (h : ChainOk usher acc Ω) (k n : ℕ) (F : List Occ → ℝ) (x : Ω) :
    sampleMean usher acc k n x.1 F =
      Markov.runE (chainMatrix usher acc Ω ^ k) n x fun l => F (l.map Subtype.val) := by
  induction n generalizing x F with
  | zero => rfl
  | succ n ih =>
    rw [sampleMean, h.thinMean_eq, Markov.runE]
    refine Finset.sum_congr rfl fun y _ => ?_
    rw [ih]
    simp

end

theorem weightedMean_eq (w f : Occ → ℝ) (Ω : Set Occ) [Fintype Ω] :
    weightedMean w Ω f = (∑ x : Ω, w x.1 * f x.1) / ∑ x : Ω, w x.1 := by
  unfold weightedMean
  rw [← finsum_set_coe_eq_finsum_mem, ← finsum_set_coe_eq_finsum_mem, finsum_eq_sum_of_fintype,
    finsum_eq_sum_of_fintype]

/-- A set of states on which the chain is in detailed balance and connected -/
structure Ergodic (usher : Occ → Prog Step) (acc : Occ → Step → ℝ) (w : Occ → ℝ) (Ω : Set Occ) :
    Prop extends ChainOk usher acc Ω where
  balance : DetailedBalance (· ∈ Ω) w (transition usher acc)
  pos : ∀ x ∈ Ω, 0 < w x
  joined : ∀ x ∈ Ω, ∀ y ∈ Ω,
    Relation.ReflTransGen (fun a b => b ∈ Ω ∧ 0 < transition usher acc a b) x y

/-- somewhere the chain can stay where it is -/
def CanStay (usher : Occ → Prog Step) (acc : Occ → Step → ℝ) (Ω : Set Occ) : Prop :=
  ∃ x ∈ Ω, ∃ st, (usher x).Outcome st ∧ (acc x st < 1 ∨ applyStep x st = x)

section
variable {usher : Occ → Prog Step} {acc : Occ → Step → ℝ} {w : Occ → ℝ} {Ω : Set Occ}

theorem Ergodic.mean_square (h : Ergodic usher acc w Ω) (k : ℕ) (hk : 0 < k)
    (hl : k = 1 ∨ CanStay usher acc Ω) (f : Occ → ℝ) :
    ∃ C : ℝ, ∀ (n : ℕ), 0 < n → ∀ x ∈ Ω,
      sampleMean usher acc k n x
        (fun l => ((l.map f).sum / n - weightedMean w Ω f) ^ 2) ≤ C / n := by
  classical
  let _ : Fintype Ω := h.fin.fintype
  have hconn := h.toChainOk.connected h.joined
  have hst := h.toChainOk.stochastic
  have hck : Markov.Connected (chainMatrix usher acc Ω ^ k) := by
    rcases hl with rfl | ⟨x, hx, st, h1, h2⟩
    · rwa [pow_one]
    · exact hconn.pow hst ⟨x, hx⟩ (h.toChainOk.loop x hx st h1 h2) k hk
  obtain ⟨C, hC⟩ := Markov.mean_square (hst.pow k) hck (w := fun x : Ω => w x.1)
    (fun x => h.pos x.1 x.2) ((h.toChainOk.stationary w h.balance).pow k) fun x => f x.1
  refine ⟨C, fun n hn x hx => ?_⟩
  have := hC n ⟨x, hx⟩ hn
  rw [h.toChainOk.sampleMean_eq k n _ ⟨x, hx⟩, weightedMean_eq]
  simpa only [List.map_map, Function.comp_def] using this

open Classical in
theorem Ergodic.probability (h : Ergodic usher acc w Ω) (k : ℕ) (hk : 0 < k)
    (hl : k = 1 ∨ CanStay usher acc Ω) (f : Occ → ℝ) :
    ∃ C : ℝ, ∀ ε > 0, ∀ (n : ℕ), 0 < n → ∀ x ∈ Ω,
      sampleMean usher acc k n x
        (fun l => if ε ≤ |(l.map f).sum / n - weightedMean w Ω f| then 1 else 0) ≤
          C / (n * ε ^ 2) := by
  obtain ⟨C, hC⟩ := h.mean_square k hk hl f
  refine ⟨C, fun ε hε n hn x hx => ?_⟩
  have h1 := hC n hn x hx
  let _ : Fintype Ω := h.fin.fintype
  rw [h.toChainOk.sampleMean_eq k n _ ⟨x, hx⟩] at h1 ⊢
  have hn' : (0 : ℝ) < n := Nat.cast_pos.2 hn
  have h2 : ∀ l : List Ω,
      (if ε ≤ |((l.map Subtype.val).map f).sum / n - weightedMean w Ω f| then (1 : ℝ) else 0) ≤
        (ε ^ 2)⁻¹ * (((l.map Subtype.val).map f).sum / n - weightedMean w Ω f) ^ 2 := by
    intro l
    rw [le_inv_mul_iff₀ (by positivity)]
    split_ifs with hle
    · rw [mul_one, ← sq_abs (_ - _)]
      exact pow_le_pow_left₀ hε.le hle 2
    · rw [mul_zero]; positivity
  refine (Markov.runE_mono (h.toChainOk.stochastic.pow k) n ⟨x, hx⟩ _ _ h2).trans ?_
  rw [Markov.runE_mul, inv_mul_le_iff₀ (by positivity)]
  refine h1.trans (le_of_eq ?_)
  field_simp

theorem Ergodic.converges (h : Ergodic usher acc w Ω) (hl : CanStay usher acc Ω) (f : Occ → ℝ) :
    ∃ C ρ : ℝ, 0 < ρ ∧ ρ < 1 ∧ ∀ (n : ℕ), ∀ x ∈ Ω,
      |thinMean usher acc n f x - weightedMean w Ω f| ≤ C * ρ ^ n := by
  classical
  let _ : Fintype Ω := h.fin.fintype
  obtain ⟨x0, hx0, st, h1, h2⟩ := hl
  obtain ⟨C, ρ, h0, hρ, hC⟩ := Markov.converges h.toChainOk.stochastic
    (h.toChainOk.connected h.joined) (w := fun x : Ω => w x.1)
    (fun x => h.pos x.1 x.2) (h.toChainOk.stationary w h.balance) ⟨x0, hx0⟩
    (h.toChainOk.loop x0 hx0 st h1 h2) fun x => f x.1
  refine ⟨C, ρ, h0, hρ, fun n x hx => ?_⟩
  have := hC n ⟨x, hx⟩
  rw [h.toChainOk.thinMean_eq n f ⟨x, hx⟩, weightedMean_eq]
  exact this

theorem Ergodic.stationary (h : Ergodic usher acc w Ω) (k : ℕ) (f : Occ → ℝ) :
    weightedMean w Ω (thinMean usher acc k f) = weightedMean w Ω f := by
  classical
  let _ : Fintype Ω := h.fin.fintype
  have := ((h.toChainOk.stationary w h.balance).pow k).mulVec fun x => f x.1
  rw [weightedMean_eq, weightedMean_eq, ← this]
  simp only [h.toChainOk.thinMean_eq]
  rfl

end

/-! ### The set of reached states -/

theorem transition_pos_outcome {usher : Occ → Prog Step} {acc : Occ → Step → ℝ} {a b : Occ}
    (h : 0 < transition usher acc a b) :
    ∃ st, (usher a).Outcome st ∧ applyStep a st = b ∧ acc a st ≠ 0 := by
  classical
  by_contra hcon
  push Not at hcon
  refine h.ne' (expect_zero _ _ fun st hst => ?_)
  split_ifs with he
  · exact hcon st hst he
  · rfl

theorem transition_pos {usher : Occ → Prog Step} {acc : Occ → Step → ℝ} {a : Occ}
    (hp : (usher a).Proper) (hn : ∀ st, (usher a).Outcome st → 0 ≤ acc a st) (st : Step)
    (hst : (usher a).Outcome st) (hpos : 0 < acc a st) :
    0 < transition usher acc a (applyStep a st) := by
  classical
  refine hp.expect_pos _ (fun s hs => ?_) st hst ?_
  · split_ifs
    · exact hn s hs
    · exact le_rfl
  · rwa [if_pos rfl]

/-- the reached states are a connected class -/
theorem ergodic_reached {usher : Occ → Prog Step} {acc : Occ → Step → ℝ} {w : Occ → ℝ}
    (S : Occ → Prop) (hp : ∀ x, S x → (usher x).Proper)
    (hS : ∀ x st, S x → (usher x).Outcome st → acc x st ≠ 0 → S (applyStep x st))
    (h0 : ∀ x st, S x → (usher x).Outcome st → 0 ≤ acc x st)
    (h1 : ∀ x st, acc x st ≤ 1) (hw : ∀ x, 0 < w x)
    (hdb : DetailedBalance S w (transition usher acc)) (x0 : Occ) (hx0 : S x0)
    (hfin : (reached (transition usher acc) x0).Finite) :
    Ergodic usher acc w (reached (transition usher acc) x0) ∧
      ∀ x ∈ reached (transition usher acc) x0, S x := by
  have hall : ∀ x ∈ reached (transition usher acc) x0, S x := by
    intro x hx
    have hx : Relation.ReflTransGen _ x0 x := hx
    induction hx with
    | refl => exact hx0
    | tail hb hbc ih =>
      obtain ⟨st, hst, rfl, hne⟩ := transition_pos_outcome hbc
      exact hS _ _ (ih hb) hst hne
  refine ⟨⟨⟨hfin, fun x hx => hp x (hall x hx), fun x hx st => h0 x st (hall x hx),
    fun x _ st _ => h1 x st, ?_⟩, fun x y hx hy => hdb x y (hall x hx) (hall y hy),
    fun x _ => hw x, ?_⟩, hall⟩
  · intro x hx st hst hne
    refine Relation.ReflTransGen.tail hx ?_
    exact transition_pos (hp x (hall x hx)) (fun s hs => h0 x s (hall x hx) hs) st hst
      (lt_of_le_of_ne (h0 x st (hall x hx) hst) (Ne.symm hne))
  · intro x hx y hy
    have hsym : ∀ a b, a ∈ reached (transition usher acc) x0 → 0 < transition usher acc a b →
        0 < transition usher acc b a := by
      intro a b ha hab
      have hb : b ∈ reached (transition usher acc) x0 := Relation.ReflTransGen.tail ha hab
      have := hdb a b (hall a ha) (hall b hb)
      have hl : 0 < w a * transition usher acc a b := mul_pos (hw a) hab
      rw [this] at hl
      exact pos_of_mul_pos_right hl (hw b).le
    have back : ∀ x ∈ reached (transition usher acc) x0, Relation.ReflTransGen
        (fun a b => b ∈ reached (transition usher acc) x0 ∧ 0 < transition usher acc a b) x x0 := by
      intro x hx
      have hx : Relation.ReflTransGen _ x0 x := hx
      induction hx with
      | refl => exact Relation.ReflTransGen.refl
      | @tail b c hb hbc ih => exact Relation.ReflTransGen.head ⟨hb, hsym b c hb hbc⟩ (ih hb)
    refine (back x hx).trans ?_
    have hy : Relation.ReflTransGen _ x0 y := hy
    induction hy with
    | refl => exact Relation.ReflTransGen.refl
    | @tail b c hb hbc ih =>
      exact Relation.ReflTransGen.tail (ih hb) ⟨Relation.ReflTransGen.tail hb hbc, hbc⟩

end Smol
