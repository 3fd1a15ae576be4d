import Verif.Lemmas.FlipTable
import Mathlib.Tactic.FinCases
import Mathlib.Tactic.LinearCombination

/-! # C68: optimised bases and ergodic flip tables -/

namespace Smol
open Spec

variable {d : ℕ}

/-- C68. `get_optimal_basis` returns integer combinations of the given basis. -/
theorem C68_optimal_in_lattice (vs ns : List (FVec d)) (loops : ℕ) (T : List (FVec d))
    (h : optimalBasis vs ns loops = some T) : ∀ u ∈ T, u ∈ Spec.Lattice vs := by
  refine optimizeLoop_induct (fun ws => ∀ u ∈ ws, u ∈ Spec.Lattice vs) vs.length ns ?_ loops vs T
    (fun u hu => mem_lattice hu) h
  intro ws V hws hV u hu
  have h1 := (sortFlips_spec ns _ V hV).1.subset (greedyFlips_mem _ _ u hu)
  exact lattice_le hws (flipCandidates_lattice h1)

/-- C68. Flips of the optimised basis keep every linear constraint the given basis keeps. -/
theorem C68_optimal_keeps_constraints (vs ns : List (FVec d)) (loops : ℕ) (T : List (FVec d))
    (h : optimalBasis vs ns loops = some T) (a : Fin d → ℤ) (ha : ∀ v ∈ vs, dotProduct a v = 0) :
    ∀ u ∈ T, dotProduct a u = 0 := by
  intro u hu
  have := C68_optimal_in_lattice vs ns loops T h u hu
  clear hu
  unfold Spec.Lattice at this
  induction this using Submodule.span_induction with
  | mem x hx => exact ha x hx
  | zero => simp
  | add x y _ _ hx hy => rw [dotProduct_add, hx, hy, add_zero]
  | smul c x _ hx => rw [dotProduct_smul, hx, smul_zero]

/-- C68. The optimised basis has as many rows as the given one, and they are independent. -/
theorem C68_optimal_independent (vs ns : List (FVec d)) (loops : ℕ) (T : List (FVec d))
    (hvs : Independent vs) (h : optimalBasis vs ns loops = some T) :
    T.length = vs.length ∧ Independent T := by
  refine optimizeLoop_induct (fun ws => ws.length = vs.length ∧ Independent ws) vs.length ns ?_
    loops vs T ⟨rfl, hvs⟩ h
  intro ws V hws hV
  refine ⟨greedyFlips_length _ V ws hws.2 hws.1 ?_, greedyFlips_independent _ _⟩
  intro v hv
  exact (sortFlips_spec ns _ V hV).1.symm.subset (by simp [flipCandidates, hv])

/-- C68. Optimisation makes flips no larger: for every size there are at least as many rows that
change no more sites. -/
theorem C68_optimal_smaller (vs ns : List (FVec d)) (loops : ℕ) (T : List (FVec d))
    (hvs : Independent vs) (h : optimalBasis vs ns loops = some T) (s : ℤ) :
    vs.countP (fun v => decide (sitesChanged v ≤ s)) ≤
      T.countP (fun v => decide (sitesChanged v ≤ s)) := by
  refine (optimizeLoop_induct (fun ws => (ws.length = vs.length ∧ Independent ws) ∧
      vs.countP (fun v => decide (sitesChanged v ≤ s)) ≤
        ws.countP (fun v => decide (sitesChanged v ≤ s))) vs.length ns ?_
    loops vs T ⟨⟨rfl, hvs⟩, le_rfl⟩ h).2
  rintro ws V ⟨hws, hle⟩ hV
  obtain ⟨hp, -, hs⟩ := sortFlips_spec ns _ V hV
  have hsub : ∀ v ∈ ws, v ∈ V := fun v hv => hp.symm.subset (by simp [flipCandidates, hv])
  refine ⟨⟨greedyFlips_length _ V ws hws.2 hws.1 hsub, greedyFlips_independent _ _⟩, hle.trans ?_⟩
  exact greedyFlips_small _ _ s V ws hs hws.2 hws.1.le hsub

/-- C68. `get_optimal_basis` raises exactly for a basis with a row that does not conserve the number
of sites. -/
theorem C68_optimal_error_iff (vs ns : List (FVec d)) (loops : ℕ) :
    optimalBasis vs ns loops = none ↔ 0 < loops ∧ ∃ v ∈ vs, ∑ k, v k ≠ 0 := by
  have sortSome : ∀ ws : List (FVec d), (∀ v ∈ ws, ∑ k, v k = 0) →
      ∃ V, sortFlips ns (flipCandidates ws) = some V := by
    intro ws hws
    unfold sortFlips
    rw [if_pos]
    · exact ⟨_, rfl⟩
    · rw [List.all_eq_true]
      intro u hu
      rw [flipSize_isSome]
      exact sum_eq_zero_of_lattice hws (flipCandidates_lattice hu)
  have hsome : ∀ (n k : ℕ) (ws : List (FVec d)), (∀ v ∈ ws, ∑ k, v k = 0) →
      optimizeLoop n ns k ws ≠ none := by
    intro n k
    induction k with
    | zero => intro ws _; simp [optimizeLoop]
    | succ k ih =>
      intro ws hws
      obtain ⟨V, hV⟩ := sortSome ws hws
      simp only [optimizeLoop, hV, Option.bind_eq_bind, Option.bind_some]
      split_ifs
      · simp
      · apply ih
        intro v hv
        have := (sortFlips_spec ns _ V hV).1.subset (greedyFlips_mem _ _ v hv)
        exact sum_eq_zero_of_lattice hws (flipCandidates_lattice this)
  constructor
  · intro h
    constructor
    · by_contra h0
      have : loops = 0 := by omega
      subst this
      simp [optimalBasis, optimizeLoop] at h
    · by_contra hc
      push Not at hc
      exact hsome _ _ vs hc h
  · rintro ⟨h0, v, hv, hne⟩
    obtain ⟨k, rfl⟩ : ∃ k, loops = k + 1 := ⟨loops - 1, by omega⟩
    unfold optimalBasis optimizeLoop
    have : sortFlips ns (flipCandidates vs) = none := by
      unfold sortFlips
      rw [if_neg]
      intro hall
      rw [List.all_eq_true] at hall
      have := hall v (by simp [flipCandidates, hv])
      rw [flipSize_isSome] at this
      exact hne this
    rw [this]; rfl

/-- C68. With at most two independent flips, the optimised basis still generates every flip that keeps
the constraints.
`_partial`: with three flips it need not, see `C68_optimal_loses_compositions`. -/
theorem C68_optimal_generates_partial (A : List (Fin d → ℤ)) (vs ns : List (FVec d)) (loops : ℕ)
    (T : List (FVec d)) (hvs : Independent vs) (hker : GeneratesKernel A vs) (h2 : vs.length ≤ 2)
    (h : optimalBasis vs ns loops = some T) : GeneratesKernel A T := by
  suffices hT : Spec.Lattice T = Spec.Lattice vs by
    intro w; rw [hT]; exact hker w
  refine (optimizeLoop_induct (fun ws => (ws.length = vs.length ∧ Independent ws) ∧
      Spec.Lattice ws = Spec.Lattice vs) vs.length ns ?_ loops vs T ⟨⟨rfl, hvs⟩, rfl⟩ h).2
  rintro ws V ⟨⟨hwl, hwi⟩, hwL⟩ hV
  obtain ⟨hp, hz, hs⟩ := sortFlips_spec ns _ V hV
  have hsub : ∀ v ∈ ws, v ∈ V := fun v hv => hp.symm.subset (by simp [flipCandidates, hv])
  have hlen := greedyFlips_length vs.length V ws hwi hwl hsub
  have hind := greedyFlips_independent vs.length V
  refine ⟨⟨hlen, hind⟩, ?_⟩
  rw [← hwL]
  have hmem : ∀ u ∈ greedyFlips vs.length V, u ∈ flipCandidates ws :=
    fun u hu => hp.subset (greedyFlips_mem _ _ u hu)
  have hdom := fun s => greedyFlips_small vs.length sitesChanged s V ws hs hwi hwl.le hsub
  refine le_antisymm (lattice_le fun u hu => flipCandidates_lattice (hmem u hu)) (lattice_le ?_)
  generalize greedyFlips vs.length V = R at *
  match ws, R, hwl.trans hlen.symm with
  | [], _, _ => simp
  | [a], [x], _ =>
    have hx := hmem x (by simp)
    simp [flipCandidates, rowPairs] at hx
    subst hx
    intro v hv; exact mem_lattice hv
  | [a, b], [x, y], _ =>
    have hx := hmem x (by simp)
    have hy := hmem y (by simp)
    have hxy : x ≠ y := by
      have := ((independent_iff _).1 hind).1
      simpa using this
    simp [flipCandidates, rowPairs] at hx hy
    have hza : ∑ k, a k = 0 := hz a (by simp [flipCandidates])
    have hzb : ∑ k, b k = 0 := hz b (by simp [flipCandidates])
    have hkerw : GeneratesKernel A [a, b] := by intro w; rw [hwL]; exact hker w
    have hsum : sitesChanged x + sitesChanged y ≤ sitesChanged a + sitesChanged b := by
      have d1 := hdom (sitesChanged a)
      have d2 := hdom (sitesChanged b)
      simp only [List.countP_cons, List.countP_nil, decide_eq_true_eq] at d1 d2
      split_ifs at d1 d2 <;> omega
    have key : ∀ p q r s : ℤ, a = p • x + q • y → b = r • x + s • y →
        ∀ v ∈ [a, b], v ∈ Spec.Lattice [x, y] := by
      intro p q r s e1 e2 v hv
      have hX : x ∈ Spec.Lattice [x, y] := mem_lattice (by simp)
      have hY : y ∈ Spec.Lattice [x, y] := mem_lattice (by simp)
      simp only [List.mem_cons, List.not_mem_nil, or_false] at hv
      rcases hv with rfl | rfl
      · rw [e1]; exact Submodule.add_mem _ (Submodule.smul_mem _ _ hX) (Submodule.smul_mem _ _ hY)
      · rw [e2]; exact Submodule.add_mem _ (Submodule.smul_mem _ _ hX) (Submodule.smul_mem _ _ hY)
    rcases hx with rfl | rfl | rfl | rfl <;> rcases hy with rfl | rfl | rfl | rfl
    · exact absurd rfl hxy
    · exact key 1 0 0 1 (by simp) (by simp)
    · exact key 1 0 (-1) 1 (by simp) (by simp)
    · exact key 1 0 1 (-1) (by simp) (by simp)
    · exact key 0 1 1 0 (by simp) (by simp)
    · exact absurd rfl hxy
    · exact key (-1) 1 1 0 (by simp) (by simp)
    · exact key 1 1 1 0 (by simp) (by simp)
    · exact key 0 1 1 (-1) (by simp) (by simp)
    · exact key 1 (-1) 0 1 (by simp) (by simp)
    · exact absurd rfl hxy
    · exact (not_abs_eq A a b hwi hkerw (abs_eq_of_small a b hza hzb hsum)).elim
    · exact key 0 1 (-1) 1 (by simp) (by simp)
    · exact key 1 1 0 1 (by simp) (by simp)
    · exact (not_abs_eq A a b hwi hkerw
        (abs_eq_of_small a b hza hzb (by rw [add_comm]; exact hsum))).elim
    · exact absurd rfl hxy
  | _ :: _ :: _ :: _, _, _ => simp at hwl; omega

/-- Six binary sublattices with one site per cell, and three further constraints. -/
def loseConstraints : List (Fin 12 → ℤ) :=
  [![1, 0, 0, 0, 0, 0, 1, 0, 0, 0, 0, 0], ![0, 1, 0, 0, 0, 0, 0, 1, 0, 0, 0, 0],
    ![0, 0, 1, 0, 0, 0, 0, 0, 1, 0, 0, 0], ![0, 0, 0, 1, 0, 0, 0, 0, 0, 1, 0, 0],
    ![0, 0, 0, 0, 1, 0, 0, 0, 0, 0, 1, 0], ![0, 0, 0, 0, 0, 1, 0, 0, 0, 0, 0, 1],
    ![0, 1, -2, 1, 0, 0, 0, 0, 0, 0, 0, 0], ![-1, 0, -1, 0, 1, 0, 0, 0, 0, 0, 0, 0],
    ![-2, 1, -2, 0, 0, 1, 0, 0, 0, 0, 0, 0]]

/-- A basis of the flips that keep them. -/
def loseBasis : List (FVec 12) :=
  [![0, 1, 1, 1, 1, 1, 0, -1, -1, -1, -1, -1], ![1, -1, -1, -1, 0, 1, -1, 1, 1, 1, 0, -1],
    ![-1, -1, 0, 1, -1, -1, 1, 1, 0, -1, 1, 1]]

/-- The two compositions of one cell. -/
def loseComps : List (FVec 12) :=
  [![0, 0, 0, 0, 0, 0, 1, 1, 1, 1, 1, 1], ![0, 1, 1, 1, 1, 1, 1, 0, 0, 0, 0, 0]]

theorem loseBasis_generates : GeneratesKernel loseConstraints loseBasis := by
  intro w
  constructor
  · intro hw
    unfold Spec.Lattice at hw
    induction hw using Submodule.span_induction with
    | mem x hx =>
      intro a ha
      have : ∀ x ∈ loseBasis, ∀ a ∈ loseConstraints, dotProduct a x = 0 := by decide +kernel
      exact this x hx a ha
    | zero => simp
    | add x y _ _ hx hy => intro a ha; rw [dotProduct_add, hx a ha, hy a ha, add_zero]
    | smul c x _ hx => intro a ha; rw [dotProduct_smul, hx a ha, smul_zero]
  · intro h
    simp only [loseConstraints, List.forall_mem_cons, List.not_mem_nil, false_imp_iff,
      implies_true, and_true] at h
    simp [dotProduct, Fin.sum_univ_succ, Matrix.cons_val_zero, Fin.succ] at h
    have e : w = (w 2 + (w 0 + (w 2 - w 1))) • loseBasis[0] + (w 0 + (w 2 - w 1)) • loseBasis[1] +
        (w 2 - w 1) • loseBasis[2] := by
      funext k
      fin_cases k <;> simp [loseBasis] <;> omega
    rw [e]
    refine Submodule.add_mem _ (Submodule.add_mem _ ?_ ?_) ?_ <;>
      exact Submodule.smul_mem _ _ (mem_lattice (List.getElem_mem _))

/-- C68. The optimised basis may generate too few flips: the given basis generates all flips that keep
the constraints, one of them leads from the first to the second composition, but it is no combination
of the rows that `get_optimal_basis` returns, so the second composition is lost. -/
theorem C68_optimal_loses_compositions :
    GeneratesKernel loseConstraints loseBasis ∧ Independent loseBasis ∧
    (∀ n ∈ loseComps, (∀ k, 0 ≤ n k) ∧ n - loseComps[0] ∈ Spec.Lattice loseBasis) ∧
    ∃ T, optimalBasis loseBasis loseComps 100 = some T ∧
      loseComps[1] - loseComps[0] ∉ Spec.Lattice T := by
  refine ⟨loseBasis_generates, ?_, ?_, _, (by decide +kernel : optimalBasis loseBasis loseComps 100 =
    some [![1, 0, 0, 0, 1, 2, -1, 0, 0, 0, -1, -2], ![-1, 0, 1, 2, 0, 0, 1, 0, -1, -2, 0, 0],
      ![0, -2, -1, 0, -1, 0, 0, 2, 1, 0, 1, 0]]), ?_⟩
  · rw [← fullRank_iff]; decide +kernel
  · intro n hn
    refine ⟨?_, ?_⟩
    · have : ∀ n ∈ loseComps, ∀ k, 0 ≤ n k := by decide +kernel
      exact this n hn
    · rw [loseBasis_generates]
      have : ∀ n ∈ loseComps, ∀ a ∈ loseConstraints, dotProduct a (n - loseComps[0]) = 0 := by
        decide +kernel
      exact this n hn
  · intro h
    have key : ∀ w ∈ Spec.Lattice ([![1, 0, 0, 0, 1, 2, -1, 0, 0, 0, -1, -2],
        ![-1, 0, 1, 2, 0, 0, 1, 0, -1, -2, 0, 0], ![0, -2, -1, 0, -1, 0, 0, 2, 1, 0, 1, 0]] :
          List (FVec 12)), w 1 % 2 = 0 := by
      intro w hw
      unfold Spec.Lattice at hw
      induction hw using Submodule.span_induction with
      | mem x hx =>
        have hx' : x ∈ ([![1, 0, 0, 0, 1, 2, -1, 0, 0, 0, -1, -2],
          ![-1, 0, 1, 2, 0, 0, 1, 0, -1, -2, 0, 0], ![0, -2, -1, 0, -1, 0, 0, 2, 1, 0, 1, 0]] :
          List (FVec 12)) := hx
        simp only [List.mem_cons, List.not_mem_nil, or_false] at hx'
        rcases hx' with rfl | rfl | rfl <;> decide +kernel
      | zero => rfl
      | add x y _ _ hx hy => simp only [Pi.add_apply]; omega
      | smul c x _ hx =>
        simp only [Pi.smul_apply, smul_eq_mul]
        rw [Int.mul_emod, hx]; simp
    have := key _ h
    revert this
    decide +kernel

/-- C68. `get_ergodic_vectors` keeps the given rows and adds integer combinations of them, so that
every constraint is still kept. -/
theorem C68_ergodic_in_lattice (near : FVec d → List (FVec d)) (k : ℕ) (vs ns : List (FVec d))
    (n0 : FVec d) (hns : ∀ n ∈ ns, n - n0 ∈ Spec.Lattice vs) (hnear : NearOthers k ns near)
    (T : List (FVec d)) (h : ergodicVectors near k vs ns = some T) :
    vs <+: T ∧ ∀ u ∈ T, u ∈ Spec.Lattice vs := by
  unfold ergodicVectors at h
  simp only at h
  split_ifs at h with h1 h2
  · simp only [Option.some.injEq] at h
    subst h
    exact ⟨List.prefix_rfl, fun u hu => mem_lattice hu⟩
  · simp only [Option.bind_eq_bind, Option.bind_eq_some_iff, Option.some.injEq] at h
    obtain ⟨c, hc, rfl⟩ := h
    obtain ⟨⟨t, e, ht⟩, -⟩ := addUntilConnected_spec ns c vs
      (ns.filter fun n => !flipConnected n vs ns)
    rw [e]
    refine ⟨List.prefix_append _ _, ?_⟩
    intro u hu
    rcases List.mem_append.1 hu with hu | hu
    · exact mem_lattice hu
    · have := ((sortBySize_spec _).1 c hc).subset (ht u hu)
      obtain ⟨n, hn, p, hp, rfl⟩ := (ergodicCandidates_spec near _).2 u this
      have hn' := (List.mem_filter.1 hn).1
      have := Submodule.sub_mem _ (hns p (hnear.mem n hn' p hp).1) (hns n hn')
      simpa using this

/-- C68, what the ergodic table does guarantee: no composition is isolated, each has another one a
single flip away.
`_partial`: it need not connect all compositions, see `C68_not_ergodic`. -/
theorem C68_no_isolated_composition_partial (near : FVec d → List (FVec d)) (k : ℕ) (hk : 2 ≤ k)
    (vs ns : List (FVec d)) (hvs : 0 ∉ vs) (hnear : NearOthers k ns near) (T : List (FVec d))
    (h : ergodicVectors near k vs ns = some T) :
    ∀ a ∈ ns, ∃ b, b ≠ a ∧ OneFlip T ns a b := by
  have h0 : 0 ∉ T := by
    unfold ergodicVectors at h
    simp only at h
    split_ifs at h with h1 h2
    · simp only [Option.some.injEq] at h; rwa [← h]
    · simp only [Option.bind_eq_bind, Option.bind_eq_some_iff, Option.some.injEq] at h
      obtain ⟨c, hc, rfl⟩ := h
      obtain ⟨⟨t, e, ht⟩, -⟩ := addUntilConnected_spec ns c vs
        (ns.filter fun n => !flipConnected n vs ns)
      rw [e]
      intro hu
      rcases List.mem_append.1 hu with hu | hu
      · exact hvs hu
      · have := ((sortBySize_spec _).1 c hc).subset (ht _ hu)
        obtain ⟨n, hn, p, hp, e0⟩ := (ergodicCandidates_spec near _).2 _ this
        exact (hnear.mem n (List.mem_filter.1 hn).1 p hp).2 (sub_eq_zero.1 e0.symm)
  have hconn : ∀ a ∈ ns, flipConnected a T ns = true := by
    intro a ha
    unfold ergodicVectors at h
    simp only at h
    split_ifs at h with h1 h2
    · simp only [Option.some.injEq] at h
      subst h
      rw [List.filter_eq_nil_iff] at h1
      simpa using h1 a ha
    · simp only [Option.bind_eq_bind, Option.bind_eq_some_iff, Option.some.injEq] at h
      obtain ⟨c, hc, rfl⟩ := h
      obtain ⟨⟨t, e, ht⟩, h4⟩ := addUntilConnected_spec ns c vs
        (ns.filter fun n => !flipConnected n vs ns)
      by_cases hc0 : flipConnected a vs ns = true
      · rw [flipConnected_iff] at hc0 ⊢
        obtain ⟨u, hu, h'⟩ := hc0
        exact ⟨u, by rw [e]; exact List.mem_append_left _ hu, h'⟩
      · have had : a ∈ ns.filter fun n => !flipConnected n vs ns :=
          List.mem_filter.2 ⟨ha, by simpa using hc0⟩
        rcases h4 with h4 | h4
        · have hlen := hnear.length a ha (by omega)
          obtain ⟨p, hp⟩ := List.exists_mem_of_length_pos (l := near a) (by omega)
          have hps := (hnear.mem a ha p hp).1
          have hperm := (sortBySize_spec _).1 c hc
          rw [flipConnected_iff]
          rcases (ergodicCandidates_spec near _).1 a had p hp with hu | hu
          · exact ⟨p - a, h4 _ (hperm.symm.subset hu), Or.inl (by simpa using hps)⟩
          · exact ⟨-(p - a), h4 _ (hperm.symm.subset hu), Or.inr (by simpa using hps)⟩
        · exact h4 a had
  intro a ha
  obtain ⟨b, hb⟩ := (flipConnected_oneFlip a T ns ha).1 (hconn a ha)
  refine ⟨b, ?_, hb⟩
  rintro rfl
  obtain ⟨-, -, u, hu, e | e⟩ := hb
  · exact h0 (by have : u = 0 := by simpa using e.symm
                 rwa [← this])
  · exact h0 (by have : u = 0 := by simpa using e.symm
                 rwa [← this])

/-- C68. For a basis that conserves the number of sites, asking for an ergodic table raises exactly if
there is an isolated composition and there are fewer than `k` compositions. -/
theorem C68_ergodic_error_iff (near : FVec d → List (FVec d)) (k : ℕ) (vs ns : List (FVec d))
    (n0 : FVec d) (hns : ∀ n ∈ ns, n - n0 ∈ Spec.Lattice vs) (hz : ∀ v ∈ vs, ∑ i, v i = 0)
    (hnear : NearOthers k ns near) :
    ergodicVectors near k vs ns = none ↔
      (∃ a ∈ ns, ∀ b, ¬ OneFlip vs ns a b) ∧ ns.length < k := by
  have hdisc : ns.filter (fun n => !flipConnected n vs ns) = [] ↔
      ¬ ∃ a ∈ ns, ∀ b, ¬ OneFlip vs ns a b := by
    rw [List.filter_eq_nil_iff]
    push Not
    constructor
    · intro h a ha
      exact (flipConnected_oneFlip a vs ns ha).1 (by simpa using h a ha)
    · intro h a ha
      simpa using (flipConnected_oneFlip a vs ns ha).2 (h a ha)
  unfold ergodicVectors
  simp only
  split_ifs with h1 h2
  · rw [hdisc] at h1
    simp only [false_iff]
    exact fun h => h1 h.1
  · rw [hdisc, not_not] at h1
    simp only [true_iff]
    exact ⟨h1, h2⟩
  · simp only [Option.bind_eq_bind]
    constructor
    · intro h
      exfalso
      cases hs : sortBySize (ergodicCandidates near (ns.filter fun n => !flipConnected n vs ns)) with
      | some c => rw [hs] at h; simp at h
      | none =>
        obtain ⟨v, hv, hne⟩ := (sortBySize_spec _).2.1 hs
        obtain ⟨n, hn, p, hp, rfl⟩ := (ergodicCandidates_spec near _).2 v hv
        have hn' := (List.mem_filter.1 hn).1
        have := Submodule.sub_mem _ (hns p (hnear.mem n hn' p hp).1) (hns n hn')
        apply hne
        refine sum_eq_zero_of_lattice hz ?_
        simpa using this
    · intro h; exact absurd h.2 h2

/-- Two binary sublattices, with one and with two sites. -/
def stuckBasis : List (FVec 4) := [![1, -1, 0, 0], ![-2, 2, 1, -1]]

/-- Their six compositions. -/
def stuckComps : List (FVec 4) :=
  [![0, 1, 0, 2], ![1, 0, 0, 2], ![0, 1, 1, 1], ![1, 0, 1, 1], ![0, 1, 2, 0], ![1, 0, 2, 0]]

/-- C68. An "ergodic" table need not be ergodic: here the basis generates all flips that conserve the
number of sites of both sublattices, the compositions are all there are, no row is added, and the
composition of the second sublattice never changes. -/
theorem C68_not_ergodic (near : FVec 4 → List (FVec 4)) (k : ℕ) :
    GeneratesKernel [![1, 1, 0, 0], ![0, 0, 1, 1]] stuckBasis ∧
    (∀ n : FVec 4, n ∈ stuckComps ↔ (∀ i, 0 ≤ n i) ∧ n 0 + n 1 = 1 ∧ n 2 + n 3 = 2) ∧
    ergodicVectors near k stuckBasis stuckComps = some stuckBasis ∧
    ¬ Ergodic stuckBasis stuckComps := by
  refine ⟨?_, ?_, ?_, ?_⟩
  · intro w
    have hset : {v : FVec 4 | v ∈ stuckBasis} = {![1, -1, 0, 0], ![-2, 2, 1, -1]} := by
      ext; simp [stuckBasis]
    unfold Spec.Lattice
    rw [hset, Submodule.mem_span_pair]
    simp only [List.forall_mem_cons, List.not_mem_nil, false_imp_iff, implies_true, and_true]
    simp [dotProduct, Fin.sum_univ_four]
    constructor
    · rintro ⟨a, b, rfl⟩; simp; ring
    · rintro ⟨h1, h2⟩
      refine ⟨w 0 + 2 * w 2, w 2, ?_⟩
      funext i
      fin_cases i <;> simp <;> omega
  · intro n
    constructor
    · intro hn
      have : ∀ n ∈ stuckComps, (∀ i, 0 ≤ n i) ∧ n 0 + n 1 = 1 ∧ n 2 + n 3 = 2 := by decide +kernel
      exact this n hn
    · rintro ⟨h0, h1, h2⟩
      have e : n = ![n 0, n 1, n 2, n 3] := by funext i; fin_cases i <;> rfl
      have a0 := h0 0
      have a1 := h0 1
      have a2 := h0 2
      have a3 := h0 3
      have c0 : (n 0 = 0 ∧ n 1 = 1) ∨ (n 0 = 1 ∧ n 1 = 0) := by omega
      have c2 : (n 2 = 0 ∧ n 3 = 2) ∨ (n 2 = 1 ∧ n 3 = 1) ∨ (n 2 = 2 ∧ n 3 = 0) := by omega
      rw [e]
      rcases c0 with ⟨x, y⟩ | ⟨x, y⟩ <;> rcases c2 with ⟨z, t⟩ | ⟨z, t⟩ | ⟨z, t⟩ <;>
        rw [x, y, z, t] <;> decide +kernel
  · unfold ergodicVectors
    rw [if_pos (by decide +kernel)]
  · intro h
    have inv : ∀ a b, OneFlip stuckBasis stuckComps a b → a 2 = b 2 := by
      have fin : ∀ a ∈ stuckComps, ∀ b ∈ stuckComps, ∀ u ∈ stuckBasis,
          (b = a + u ∨ a = b + u) → a 2 = b 2 := by decide +kernel
      rintro a b ⟨ha, hb, u, hu, e⟩
      exact fin a ha b hb u hu e
    have all : ∀ b, Relation.ReflTransGen (OneFlip stuckBasis stuckComps) ![0, 1, 0, 2] b →
        (![0, 1, 0, 2] : FVec 4) 2 = b 2 := by
      intro b hb
      induction hb with
      | refl => rfl
      | tail _ h2 ih => rw [ih]; exact inv _ _ h2
    have := all ![0, 1, 1, 1] (h _ (by decide +kernel) _ (by decide +kernel))
    revert this
    decide +kernel

/-- C68. A space with a single composition raises when an ergodic table is asked for (`k` is 3). -/
theorem C68_single_composition_raises (near : FVec d → List (FVec d)) (vs : List (FVec d)) (n : FVec d)
    (hvs : 0 ∉ vs) : ergodicVectors near 3 vs [n] = none := by
  have : ([n] : List (FVec d)).filter (fun m => !flipConnected m vs [n]) ≠ [] := by
    rw [Ne, List.filter_eq_nil_iff]
    intro h
    have := h n (by simp)
    simp only [Bool.not_eq_true', Bool.not_eq_false] at this
    rw [flipConnected_iff] at this
    obtain ⟨u, hu, h' | h'⟩ := this
    · simp at h'; exact hvs (h' ▸ hu)
    · simp at h'; exact hvs (h' ▸ hu)
  unfold ergodicVectors
  simp only [if_neg this]
  rfl

/-- Two flips whose sum is smaller than the second: the optimisation replaces it, and the hypotheses of
the theorems hold. -/
example :
    Independent ([![1, -1, 0], ![-2, 1, 1]] : List (FVec 3)) ∧
    GeneratesKernel [![1, 1, 1]] ([![1, -1, 0], ![-2, 1, 1]] : List (FVec 3)) ∧
    optimalBasis ([![1, -1, 0], ![-2, 1, 1]] : List (FVec 3)) [![1, 0, 0], ![0, 1, 0], ![0, 0, 1]] 100 =
      some [![1, -1, 0], ![-1, 0, 1]] := by
  refine ⟨by rw [← fullRank_iff]; decide +kernel, ?_, by decide +kernel⟩
  intro w
  have hset : {v : FVec 3 | v ∈ ([![1, -1, 0], ![-2, 1, 1]] : List (FVec 3))} =
      {![1, -1, 0], ![-2, 1, 1]} := by ext; simp
  unfold Spec.Lattice
  rw [hset, Submodule.mem_span_pair]
  simp only [List.forall_mem_cons, List.not_mem_nil, false_imp_iff, implies_true, and_true]
  simp [dotProduct, Fin.sum_univ_three]
  constructor
  · rintro ⟨a, b, rfl⟩; simp; ring
  · intro h1
    refine ⟨w 0 + 2 * w 2, w 2, ?_⟩
    funext i
    fin_cases i <;> simp <;> omega

/-- Three compositions two apart: the basis leaves all of them isolated, one flip is added. -/
example :
    let ns : List (FVec 2) := [![0, 4], ![2, 2], ![4, 0]]
    let near : FVec 2 → List (FVec 2) := fun n => ns.filter fun p => p ≠ n
    NearOthers 3 ns near ∧ (∀ n ∈ ns, n - ![0, 4] ∈ Spec.Lattice ([![1, -1]] : List (FVec 2))) ∧
    ergodicVectors near 3 [![1, -1]] ns = some [![1, -1], ![2, -2]] := by
  refine ⟨⟨by decide +kernel, by decide +kernel⟩, ?_, by decide +kernel⟩
  intro n hn
  have hset : {v : FVec 2 | v ∈ ([![1, -1]] : List (FVec 2))} = {![1, -1]} := by ext; simp
  unfold Spec.Lattice
  rw [hset, Submodule.mem_span_singleton]
  simp only [List.mem_cons, List.not_mem_nil, or_false] at hn
  rcases hn with rfl | rfl | rfl
  · exact ⟨0, by decide +kernel⟩
  · exact ⟨2, by decide +kernel⟩
  · exact ⟨4, by decide +kernel⟩

end Smol
