import Verif.Lemmas.Session
import Verif.Lemmas.Ergodic
import Verif.Props.ClassNames

/-!
# C84 A sampler follows later changes of its ensemble
-/

namespace Smol
open Spec Prog

section General
variable {K : Type*} [CommRing K] [DecidableEq K]

/-- **C84** (objects): with sublattices as objects the ensemble behaves like the one described by
values; no operation changes a sublattice behind its back. -/
theorem C84_objects (e : Ens K) (ops : List (EnsOp K)) : ((Session.new e).run ops).view = e.run ops := by
  obtain ⟨h1, h2⟩ := session_new_ok e
  rw [(session_run ops _ h1).2.1, h2]

omit [CommRing K] [DecidableEq K] in
/-- **C84** (made): the flips and swaps that kernels make hold exactly those sublattices of the
ensemble that have active sites at that moment. -/
theorem C84_made (s : Session K) (probs : Option (List ℚ)) (u : LiveUsher) :
    (s.makeFlip probs = some u → HoldsRefs s.refs u ∧ ∃ act p, u = .flip .shared act p ∧
      ∀ r, r ∈ act ↔ r ∈ s.refs ∧ (lookSl s.heap r).active ≠ []) ∧
    (s.makeSwap probs = some u → HoldsRefs s.refs u ∧ ∃ act p, u = .swap .shared act p ∧
      ∀ r, r ∈ act ↔ r ∈ s.refs ∧ (lookSl s.heap r).active ≠ []) := by
  constructor <;>
  · intro h
    obtain ⟨p, -, rfl⟩ := Option.map_eq_some_iff.1 h
    refine ⟨fun r hr => (List.mem_filter.1 hr).1, _, _, rfl, fun r => ?_⟩
    simp [Session.activeRefs, List.mem_filter, Sublattice.isActive]

theorem plays_inv (u : LiveUsher) (s s' : Session K) (x x' : Occ) (es : List (LiveEvent K))
    (hp : Plays u s x es s' x') (hs : s.Ok) (hsub : SublatticesOk s.view.subl)
    (hu : HoldsRefs s.refs u) (hx : FullLegal s.view.subl x) (hns : ∀ o ∈ opsOf es, NoSplit o) :
    s'.Ok ∧ s'.refs = s.refs ∧ SublatticesOk s'.view.subl ∧ FullLegal s'.view.subl x' ∧
      s' = s.run (opsOf es) := by
  induction hp with
  | done s x => exact ⟨hs, rfl, hsub, hx, rfl⟩
  | op s x o es s' x' _ ih =>
    obtain ⟨h1, h2, h3⟩ := session_step s hs o
    have hn : NoSplit o := hns o (by simp [opsOf])
    obtain ⟨k1, k2⟩ := step_sublattices s.view hsub o hn
    rw [← h2] at k1
    obtain ⟨a, b, c, d, e⟩ := ih h1 k1 (by rw [h3 hn]; exact hu)
      (by rw [h2]; exact (k2 x).1 hx) fun o' ho' => hns o' (by simp [opsOf, ho'])
    exact ⟨a, b.trans (h3 hn), c, d, e⟩
  | step s x st es s' x' hst _ ih =>
    have hl := session_legal s hsub u hu x hx st hst
    exact ih hs hsub hu (fullLegal_apply hsub hx hl.flips) hns

/-- **C84** (followed): a sampler may be made at any time.  Whatever is restricted, unrestricted or
repriced afterwards, as long as no sublattice is split, the steps it proposes change only sites that
are active in the ensemble at that moment, each once, to species allowed there. -/
theorem C84_steps_follow_partial (e : Ens K) (ops : List (EnsOp K)) (u : LiveUsher) (s' : Session K)
    (x x' : Occ) (es : List (LiveEvent K))
    (hsub : SublatticesOk (e.run ops).subl) (hu : HoldsRefs ((Session.new e).run ops).refs u)
    (hx : ∀ sl ∈ (e.run ops).subl, ∀ t ∈ sl.sites, x t ∈ sl.encoding)
    (hp : Plays u ((Session.new e).run ops) x es s' x') (hns : ∀ o ∈ opsOf es, NoSplit o)
    (st : Step) (hst : ((u.now s'.heap).propose x').Outcome st) :
    s'.view = e.run (ops ++ opsOf es) ∧
    (∀ f ∈ st, ∃ sl ∈ s'.view.subl, f.1 ∈ sl.active ∧ f.2 ∈ sl.encoding) ∧
    (st.map Prod.fst).Nodup ∧
    ∀ sl ∈ s'.view.subl, ∀ t ∈ sl.sites, applyStep x' st t ∈ sl.encoding := by
  obtain ⟨h1, h2⟩ := session_new_ok e
  obtain ⟨k1, k2, -⟩ := session_run ops _ h1
  rw [h2] at k2
  obtain ⟨a, b, c, d, q⟩ := plays_inv u _ s' x x' es hp k1 (by rw [k2]; exact hsub) hu
    (by rw [k2]; exact hx) hns
  have hl := session_legal s' c u (by rw [b]; exact hu) x' d st hst
  refine ⟨?_, hl.flips, hl.once, fullLegal_apply c d hl.flips⟩
  rw [q, (session_run _ _ k1).2.1, k2]
  simp [Ens.run, List.foldl_append]

/-- **C84** (restrictions): sites restricted at any time keep their species until the restrictions
are reset, also under a sampler made before. -/
theorem C84_restricted_keep (e : Ens K) (ops : List (EnsOp K)) (u : LiveUsher) (s' : Session K)
    (x x' : Occ) (es : List (LiveEvent K)) (xs : List ℕ)
    (hsub : SublatticesOk (e.run ops).subl) (hu : HoldsRefs ((Session.new e).run ops).refs u)
    (hx : ∀ sl ∈ (e.run ops).subl, ∀ t ∈ sl.sites, x t ∈ sl.encoding)
    (hp : Plays u ((Session.new e).run ops) x (.op (.restrict xs) :: es) s' x')
    (hns : ∀ o ∈ opsOf es, NoSplit o) (hnr : ∀ o ∈ opsOf es, NoReset o) :
    ∀ t ∈ xs, x' t = x t := by
  obtain ⟨h1, h2⟩ := session_new_ok e
  obtain ⟨k1, k2, -⟩ := session_run ops _ h1
  rw [h2] at k2
  have hp' : Plays u (((Session.new e).run ops).step (.restrict xs)) x es s' x' := by
    cases hp; assumption
  have hn : NoSplit (.restrict xs : EnsOp K) := trivial
  obtain ⟨m1, m2, m3⟩ := session_step _ k1 (.restrict xs)
  have hsub0 : SublatticesOk ((Session.new e).run ops).view.subl := by rw [k2]; exact hsub
  obtain ⟨n1, n2⟩ := step_sublattices _ hsub0 (.restrict xs) hn
  rw [← m2] at n1
  intro t ht
  have hina : ∀ sl ∈ (((Session.new e).run ops).step (.restrict xs)).view.subl, t ∉ sl.active := by
    rw [m2]
    simp only [Ens.step, List.forall_mem_map]
    intro sl _ h
    have := (List.mem_filter.1 h).2
    simp [ht] at this
  have hleg : FullLegal (((Session.new e).run ops).step (.restrict xs)).view.subl x := by
    rw [m2]
    exact (n2 x).1 (by rw [k2]; exact hx)
  have hu' : HoldsRefs (((Session.new e).run ops).step (.restrict xs)).refs u := by rw [m3 hn]; exact hu
  clear hp hsub hsub0 n2 m2 m3 hx hu
  generalize hs0 : (((Session.new e).run ops).step (.restrict xs)) = s0 at *
  clear hs0
  induction hp' with
  | done s x => rfl
  | op s x o es s' x' _ ih =>
    obtain ⟨a1, a2, a3⟩ := session_step s m1 o
    have ho : NoSplit o := hns o (by simp [opsOf])
    obtain ⟨b1, b2⟩ := step_sublattices s.view n1 o ho
    rw [← a2] at b1
    refine ih (fun o' ho' => hns o' (by simp [opsOf, ho'])) (fun o' ho' => hnr o' (by simp [opsOf, ho']))
      a1 b1 ?_ (by rw [a2]; exact (b2 x).1 hleg) (by rw [a3 ho]; exact hu')
    rw [a2]
    exact step_inactive _ _ ho (hnr o (by simp [opsOf])) t hina
  | step s x st es s' x' hst _ ih =>
    have hl := session_legal s n1 u hu' x hleg st hst
    rw [ih hns hnr m1 n1 hina (fullLegal_apply n1 hleg hl.flips) hu', applyStep_of_not_mem]
    intro f hf he
    obtain ⟨sl, p1, p2, -⟩ := hl.flips f hf
    exact hina sl p1 (he ▸ p2)

omit [CommRing K] [DecidableEq K] in
/-- **C84** (exceptions): when every sublattice the usher holds has at least two species, proposing a
flip can raise exactly if it holds no sublattice or may choose one all of whose sites are restricted
by now; likewise for swaps. -/
theorem C84_raises_iff (heap : List Sublattice) (g : Rng) (act : List ℕ) (probs : List ℚ) (x : Occ)
    (h2 : ∀ r ∈ act, ∃ a ∈ (lookSl heap r).encoding, ∃ b ∈ (lookSl heap r).encoding, a ≠ b) :
    (MayRaise (((LiveUsher.flip g act probs).now heap).propose x) ↔
      act = [] ∨ ∃ (i : ℕ) (r : ℕ), act[i]? = some r ∧ probs.getD i 0 ≠ 0 ∧ (lookSl heap r).active = []) ∧
    (MayRaise (((LiveUsher.swap g act probs).now heap).propose x) ↔
      act = [] ∨ ∃ (i : ℕ) (r : ℕ), act[i]? = some r ∧ probs.getD i 0 ≠ 0 ∧ (lookSl heap r).active = []) := by
  have hch : ∀ sl : Sublattice, (chooseW g (act.map (lookSl heap)) probs).Outcome sl ↔
      ∃ (i : ℕ) (r : ℕ), act[i]? = some r ∧ probs.getD i 0 ≠ 0 ∧ sl = lookSl heap r := by
    intro sl
    constructor
    · rintro ⟨i, hi, h⟩
      have hlt : i.1 < act.length := by simpa using i.2
      refine ⟨i.1, act[i.1], List.getElem?_eq_getElem hlt, hi, ?_⟩
      simpa [Outcome] using h
    · rintro ⟨i, r, h, hi, rfl⟩
      obtain ⟨hlt, rfl⟩ := List.getElem?_eq_some_iff.1 h
      exact ⟨⟨i, by simpa using hlt⟩, hi, by simp [Outcome]⟩
  constructor
  · show MayRaise (flipPropose g (act.map (lookSl heap)) probs x) ↔ _
    unfold flipPropose
    rw [mayRaise_bind, mayRaise_chooseW, List.map_eq_nil_iff]
    refine or_congr Iff.rfl ?_
    simp only [mayRaise_bind, mayRaise_choose, hch]
    constructor
    · rintro ⟨sl, ⟨i, r, h, hi, rfl⟩, h' | ⟨site, hs, h' | ⟨c, -, h'⟩⟩⟩
      · exact ⟨i, r, h, hi, h'⟩
      · exfalso
        obtain ⟨a, ha, b, hb, hab⟩ := h2 r (List.mem_of_getElem? h)
        rw [List.filter_eq_nil_iff] at h'
        have e1 := h' a (by simpa using ha)
        have e2 := h' b (by simpa using hb)
        simp only [decide_eq_true_eq, not_not] at e1 e2
        exact hab (e1.trans e2.symm)
      · exact h'.elim
    · rintro ⟨i, r, h, hi, h'⟩
      exact ⟨_, ⟨i, r, h, hi, rfl⟩, Or.inl h'⟩
  · show MayRaise (swapPropose g (act.map (lookSl heap)) probs x) ↔ _
    unfold swapPropose
    rw [mayRaise_bind, mayRaise_chooseW, List.map_eq_nil_iff]
    refine or_congr Iff.rfl ?_
    simp only [mayRaise_bind, mayRaise_choose, hch]
    constructor
    · rintro ⟨sl, ⟨i, r, h, hi, rfl⟩, h' | ⟨site, hs, h'⟩⟩
      · exact ⟨i, r, h, hi, h'⟩
      · exfalso
        split_ifs at h' with hne
        · rw [mayRaise_bind, mayRaise_choose] at h'
          rcases h' with h' | ⟨s2, -, h'⟩
          · exact hne h'
          · exact h'.elim
        · exact h'.elim
    · rintro ⟨i, r, h, hi, h'⟩
      exact ⟨_, ⟨i, r, h, hi, rfl⟩, Or.inl h'⟩

/-- **C84** (chemical potentials): a sampler keeps a copy of the natural parameters.  After any history
its enthalpies and their changes raise when chemical potentials were added or removed since it was
made, and otherwise are those of the ensemble as it is now. -/
theorem C84_potentials_follow (coefs : List K) (subl : List Sublattice) (e : Ens K)
    (he : Ens.init coefs subl = some e) (ops later : List (EnsOp K)) (u : LiveUsher)
    (proc : PartProc K) (n : ℕ) (occ : Occ) (step : Step)
    (hf : (proc.feature occ).length = coefs.length)
    (hc : (proc.change occ step).length = coefs.length) :
    let s := (Session.new e).run ops
    let s' := s.run later
    let l := s.sampler u
    (s'.view.mu.isSome = s.view.mu.isSome →
      l.enthalpy s' proc n occ = some (dot s'.view.params (s'.view.feature proc n occ)) ∧
      l.enthalpyChange s' proc occ step = some (dot s'.view.params (s'.view.change proc occ step))) ∧
    (s'.view.mu.isSome ≠ s.view.mu.isSome →
      l.enthalpy s' proc n occ = none ∧ l.enthalpyChange s' proc occ step = none) := by
  intro s s' l
  have he' : ParamsOk e ∧ e.coefs = coefs := by
    have hp0 : ParamsOk (⟨coefs, coefs, none, none, subl⟩ : Ens K) := ⟨by simp, rfl⟩
    unfold Ens.init at he
    rw [delMu_spec _ hp0] at he
    cases he
    exact ⟨⟨by simp, rfl⟩, rfl⟩
  obtain ⟨h1, h2⟩ := session_new_ok e
  have hv : s.view = e.run ops := by
    show ((Session.new e).run ops).view = _
    rw [(session_run ops _ h1).2.1, h2]
  have hv' : s'.view = (e.run ops).run later := by
    show (s.run later).view = _
    rw [(session_run later _ (session_run ops _ h1).1).2.1, hv]
  obtain ⟨p1, q1⟩ := run_paramsOk ops e he'.1
  obtain ⟨p2, q2⟩ := run_paramsOk later _ p1
  have e1 : l.params = coefs ++ (if s.view.mu.isSome then [-1] else []) := by
    show s.view.params = _
    rw [hv, p1.1, q1, he'.2]
  have e2 : s'.view.params = coefs ++ (if s'.view.mu.isSome then [-1] else []) := by
    rw [hv', p2.1, q2, q1, he'.2]
  have lf : (s'.view.feature proc n occ).length =
      coefs.length + (if s'.view.mu.isSome then 1 else 0) := by
    unfold Ens.feature
    cases s'.view.mu <;> simp [hf]
  have lc : (s'.view.change proc occ step).length =
      coefs.length + (if s'.view.mu.isSome then 1 else 0) := by
    unfold Ens.change
    cases s'.view.mu <;> simp [hc]
  unfold LiveSampler.enthalpy LiveSampler.enthalpyChange liveDot
  rw [lf, lc, e1]
  constructor
  · intro hm
    have hlen : (coefs ++ if s.view.mu.isSome = true then [(-1 : K)] else []).length =
        coefs.length + if s'.view.mu.isSome = true then 1 else 0 := by
      rw [hm]
      split <;> simp
    rw [if_pos hlen, if_pos hlen, e2, hm]
    exact ⟨rfl, rfl⟩
  · intro hm
    have hlen : ¬ (coefs ++ if s.view.mu.isSome = true then [(-1 : K)] else []).length =
        coefs.length + if s'.view.mu.isSome = true then 1 else 0 := by
      cases ha : s.view.mu.isSome <;> cases hb : s'.view.mu.isSome <;> simp_all
    rw [if_neg hlen, if_neg hlen]
    exact ⟨rfl, rfl⟩

omit [CommRing K] [DecidableEq K] in
/-- **C84** (setup): `from_ensemble` makes one kernel for each walker, with its own seed in the order
given, and raises when the numbers differ or there is no walker; without a step type the steps are
flips if there are chemical potentials and swaps, which conserve the composition, if not. -/
theorem C84_setup (e : Ens K) (stepType kernelType : Option (List Char)) (seeds : Option (List ℕ))
    (n : ℕ) :
    ((∃ ks, samplerKernels e stepType kernelType seeds n = some ks) ↔
      n ≠ 0 ∧ ∀ l, seeds = some l → l.length = n) ∧
    (∀ ks, samplerKernels e stepType kernelType seeds n = some ks →
      ks.length = n ∧ ∀ i < n, ∃ k, ks[i]? = some k ∧ k.2.2 = seeds.bind (fun l => l[i]?) ∧
        (kernelType = none → k.1 = "Metropolis".toList) ∧
        (∀ t, kernelType = some t → k.1 = classNameFromStr t) ∧
        (stepType = none → k.2.1 = if e.mu.isSome then "Flip".toList else "Swap".toList) ∧
        ∀ t, stepType = some t → k.2.1 = kernelUsherName t) := by
  have hname : stepType = none → kernelUsherName (stepTypeOf e stepType) =
      if e.mu.isSome then "Flip".toList else "Swap".toList := by
    rintro rfl
    unfold stepTypeOf
    dsimp only
    split_ifs
    · show kernelUsherName "flip".toList = "Flip".toList
      decide +kernel
    · show kernelUsherName "swap".toList = "Swap".toList
      decide +kernel
  have hname' : ∀ t, stepType = some t → kernelUsherName (stepTypeOf e stepType) = kernelUsherName t := by
    rintro t rfl; rfl
  have hk : kernelType = none →
      classNameFromStr (kernelType.getD "Metropolis".toList) = "Metropolis".toList := by
    rintro rfl
    show classNameFromStr "Metropolis".toList = "Metropolis".toList
    decide +kernel
  have hk' : ∀ t, kernelType = some t →
      classNameFromStr (kernelType.getD "Metropolis".toList) = classNameFromStr t := by
    rintro t rfl; rfl
  unfold samplerKernels
  dsimp only
  generalize classNameFromStr (kernelType.getD "Metropolis".toList) = kn at *
  generalize kernelUsherName (stepTypeOf e stepType) = sn at *
  cases seeds with
  | none =>
    simp only [Option.bind_some, List.replicate_eq_nil_iff, reduceCtorEq, false_imp_iff, implies_true,
      and_true, Option.bind_none]
    constructor
    · by_cases h : n = 0 <;> simp [h]
    · intro ks h
      split at h
      · cases h
      · cases h
        refine ⟨by simp, fun i hi => ⟨(kn, sn, none), ?_, rfl, hk, hk', hname, hname'⟩⟩
        simp [hi]
  | some l =>
    simp only [Option.some.injEq, forall_eq', Option.bind_some]
    by_cases hl : l.length = n
    · rw [if_neg (by simpa using hl)]
      simp only [Option.bind_some, List.map_eq_nil_iff]
      constructor
      · by_cases h : l = []
        · simp [h, ← hl]
        · simp only [h, if_false, Option.some.injEq, exists_eq', true_iff]
          exact ⟨fun hn => h (List.length_eq_zero_iff.1 (hl.trans hn)), hl⟩
      · intro ks h
        split at h
        · cases h
        · cases h
          refine ⟨by simpa using hl, fun i hi => ⟨(kn, sn, l[i]?), ?_, rfl, hk, hk', hname, hname'⟩⟩
          rw [← hl] at hi
          simp [List.getElem?_eq_getElem hi]
    · rw [if_pos (by simpa using hl), Option.bind_none]
      refine ⟨⟨fun h => ?_, fun h => absurd h.2 hl⟩, fun _ h => by cases h⟩
      obtain ⟨_, h⟩ := h
      cases h

end General

/-! ### Findings -/

/-- Two sublattices of two species on two sites each. -/
def twoSublattices : Ens ℚ := ⟨[1], [1], none, none, [Sublattice.new [7, 8] [0, 1], Sublattice.new [5, 6] [2, 3]]⟩

/-- **C84** (finding): a sublattice that was frozen when the sampler was made stays frozen for it
after `reset_restricted_sites`. -/
theorem C84_reset_not_followed :
    ∃ (e : Ens ℚ) (u : LiveUsher),
      let s := (Session.new e).run [.restrict [2, 3]]
      let s' := s.run [.reset]
      s.makeFlip none = some u ∧ (∃ sl ∈ s'.view.subl, 2 ∈ sl.active) ∧
      ∀ (x : Occ) (st : Step), ((u.now s'.heap).propose x).Outcome st → ∀ f ∈ st, f.1 ≠ 2 := by
  refine ⟨twoSublattices, .flip .shared [0] [1], Option.map_eq_some_iff.2 ⟨[1], by decide +kernel, ?_⟩,
    by decide +kernel, ?_⟩
  · rw [show Session.activeRefs _ = [0] from by decide +kernel]
  intro x st hst f hf
  obtain ⟨sl, hsl, t, ht, c, -, -, rfl⟩ := outcome_flip hst
  have : ∀ sl ∈ [0].map (lookSl (((Session.new twoSublattices).run [.restrict [2, 3]]).run [.reset]).heap),
      ∀ t ∈ sl.active, t ≠ 2 := by decide +kernel
  simp only [List.mem_singleton] at hf
  subst hf
  exact this sl hsl t ht

/-- One sublattice of three species on four sites. -/
def oneSublattice : Ens ℚ := ⟨[1], [1], none, none, [Sublattice.new [7, 8, 9] [0, 1, 2, 3]]⟩

/-- **C84** (finding): a sampler made before `split_sublattice_by_species` keeps the old sublattice.
Then it changes sites that are restricted, and puts species on sites whose sublattice does not have
them. -/
theorem C84_split_not_followed :
    ∃ (e : Ens ℚ) (u : LiveUsher) (x : Occ) (st : Step),
      let s := Session.new e
      let s' := s.run [.split 0 x [[0], [1, 2]], .restrict [2]]
      s.makeFlip none = some u ∧ ((u.now s'.heap).propose x).Outcome st ∧
      (∀ sl ∈ s'.view.subl, ∀ t ∈ sl.sites, x t ∈ sl.encoding) ∧
      (∀ sl ∈ s'.view.subl, 2 ∉ sl.active) ∧ applyStep x st 2 ≠ x 2 ∧
      ∃ sl ∈ s'.view.subl, 2 ∈ sl.sites ∧ applyStep x st 2 ∉ sl.encoding := by
  refine ⟨oneSublattice, .flip .shared [0] [1], fun t => if t < 2 then 0 else 1, [(2, 0)],
    Option.map_eq_some_iff.2 ⟨[1], by decide +kernel, ?_⟩, ?_, by decide +kernel, by decide +kernel,
    by decide +kernel, by decide +kernel⟩
  · rw [show Session.activeRefs _ = [0] from by decide +kernel]
  · exact flip_outcome (sl := Sublattice.new [7, 8, 9] [0, 1, 2, 3]) (by decide +kernel)
      (by decide +kernel) (by decide +kernel) (by decide +kernel) (by decide +kernel) (by decide +kernel)

/-- **C84** (finding): the metadata stored with the samples keep the chemical potentials of the moment
when the sampler was made, though the samples follow the new ones. -/
theorem C84_metadata_stale :
    ∃ (e : Ens ℚ) (v w : List (ℕ × ℚ)) (u : LiveUsher) (proc : PartProc ℚ) (x : Occ) (st : Step),
      let s := (Session.new e).run [.setMu v]
      let s' := s.run [.setMu w]
      let l := s.sampler u
      l.boundary = some v ∧ s'.view.boundary = some w ∧ v ≠ w ∧
      l.enthalpyChange s proc x st = some (-1) ∧ l.enthalpyChange s' proc x st = some (-2) := by
  refine ⟨twoSublattices, [(7, 0), (8, 1), (5, 0), (6, 0)], [(7, 0), (8, 2), (5, 0), (6, 0)],
    .flip .shared [0] [1], ⟨false, [1], fun _ => [0], fun _ _ => [0]⟩, fun _ => 0, [(0, 1)], ?_⟩
  decide +kernel

/-! ### Examples -/

example : SublatticesOk (twoSublattices.run []).subl ∧
    (Session.new twoSublattices).makeSwap none = some (.swap .shared [0, 1] [1 / 2, 1 / 2]) ∧
    HoldsRefs ((Session.new twoSublattices).run []).refs (.swap .shared [0, 1] [1 / 2, 1 / 2]) := by
  refine ⟨?_, Option.map_eq_some_iff.2 ⟨[1 / 2, 1 / 2], by decide +kernel, ?_⟩, ?_⟩
  · constructor <;> decide +kernel
  · rw [show Session.activeRefs _ = [0, 1] from by decide +kernel]
  · show ∀ r ∈ [0, 1], r ∈ ((Session.new twoSublattices).run []).refs
    decide

/-- A session: a flip, a restriction of site 0, a flip of site 1. -/
example : Plays (.flip .shared [0, 1] [1 / 2, 1 / 2]) ((Session.new twoSublattices).run []) (fun _ => 0)
    [.step [(0, 1)], .op (.restrict [0]), .step [(1, 1)]]
    ((Session.new twoSublattices).run [.restrict [0]])
    (applyStep (applyStep (fun _ => 0) [(0, 1)]) [(1, 1)]) := by
  refine .step _ _ _ _ _ _ ?_ (.op _ _ _ _ _ _ (.step _ _ _ _ _ _ ?_ (.done _ _)))
  · exact flip_outcome (sl := Sublattice.new [7, 8] [0, 1]) (by decide +kernel)
      (by decide +kernel) (by decide +kernel) (by decide +kernel) (by decide +kernel) (by decide +kernel)
  · exact flip_outcome (sl := (Sublattice.new [7, 8] [0, 1]).restrict [0]) (by decide +kernel)
      (by decide +kernel) (by decide +kernel) (by decide +kernel) (by decide +kernel) (by decide +kernel)

/-- All sites of a sublattice the sampler may choose are restricted: it can raise. -/
example : MayRaise (((LiveUsher.flip .shared [0, 1] [1 / 2, 1 / 2]).now
    ((Session.new twoSublattices).run [.restrict [0, 1]]).heap).propose fun _ => 0) := by
  refine ((C84_raises_iff _ .shared [0, 1] [1 / 2, 1 / 2] _ ?_).1).2 (Or.inr ⟨0, 0, by decide +kernel⟩)
  decide +kernel

example : samplerKernels twoSublattices none none (some [11, 12]) 2 =
    some [("Metropolis".toList, "Swap".toList, some 11), ("Metropolis".toList, "Swap".toList, some 12)] ∧
    samplerKernels twoSublattices none none (some [11]) 2 = none := by decide +kernel

end Smol
