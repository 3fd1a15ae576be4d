import Verif.Lemmas.UsherConfig
import Verif.Props.OccuUtils
import Verif.Model.Seed

/-!
# C91 Ushers propose with the probabilities they were configured with
-/

namespace Smol
open Prog Spec

theorem subsOk_of {sls : List Sublattice} (h : SublatticesOk sls) : SubsOk sls :=
  ⟨h.disjoint, h.nodup, h.active, fun sl hs => (h.encoding sl hs).1⟩

theorem activeIdx_length (sls : List Sublattice) :
    (activeIdx sls).length = sls.countP fun sl => decide (sl.active ≠ []) := by
  induction sls using List.reverseRecOn with
  | nil => rfl
  | append_singleton l a ih =>
    rw [List.countP_append, ← ih]
    unfold activeIdx
    rw [List.length_append, List.length_singleton, List.range_succ, List.filter_append,
      List.length_append]
    congr 1
    · congr 1
      refine List.filter_congr fun i hi => ?_
      rw [List.getElem?_append_left (List.mem_range.1 hi)]
    · by_cases h : a.active = [] <;> simp [Sublattice.isActive, h]

/-- What the constructors accept, and what is in force afterwards (spec): equal probabilities by
default, otherwise those given. -/
def startingProbs (n : ℕ) : Option (List ℚ) → Option (List ℚ)
  | none => if n = 0 then none else some (List.replicate n (1 / (n : ℚ)))
  | some p => if Usable n p then some p else none

theorem usherProbs_eq (n : ℕ) (pr : Option (List ℚ)) : usherProbs n pr = startingProbs n pr := by
  cases pr with
  | none => rfl
  | some p => exact setProbs_eq n p

theorem startingProbs_usable {n : ℕ} {pr : Option (List ℚ)} {p : List ℚ}
    (h : startingProbs n pr = some p) : Usable n p := by
  cases pr with
  | none =>
    simp only [startingProbs] at h
    split_ifs at h with h0
    cases h
    refine ⟨by simp, ?_⟩
    have : (n : ℚ) ≠ 0 := by exact_mod_cast h0
    rw [List.sum_replicate, nsmul_eq_mul]
    field_simp
  | some q =>
    simp only [startingProbs] at h
    split_ifs at h with h0
    cases h
    exact h0

theorem inForce_usable {n : ℕ} {init : List ℚ} (h : Usable n init) (vs : List (List ℚ)) :
    Usable n (inForce n init vs) := by
  induction vs using List.reverseRecOn with
  | nil => exact h
  | append_singleton vs v ih =>
    rw [inForce_snoc]
    split_ifs with hv
    · exact hv
    · exact ih

/-- C91. Constructing a Flip or a Swap raises exactly if there is no active sublattice and no
probabilities are given, or those given have the wrong length or do not sum to one; otherwise the
usher has the probabilities given (equal ones by default), one for each active sublattice, and its
metadata record them. -/
theorem C91_constructed (sls : List Sublattice) (pr : Option (List ℚ)) :
    let n := sls.countP fun sl => decide (sl.active ≠ [])
    (UsherObj.newFlip sls pr).map (fun u => (u.nAct, u.probs, u.specProbs)) =
        (startingProbs n pr).map (fun p => (n, p, p)) ∧
      (UsherObj.newSwap sls pr).map (fun u => (u.nAct, u.probs, u.specProbs)) =
        (startingProbs n pr).map (fun p => (n, p, p)) := by
  intro n
  have hn : (activeIdx sls).length = n := activeIdx_length sls
  unfold UsherObj.newFlip UsherObj.newSwap UsherCfg.new
  rw [usherProbs_eq, hn]
  cases startingProbs n pr with
  | none => exact ⟨rfl, rfl⟩
  | some p => simp [UsherObj.nAct, UsherObj.probs, UsherObj.specProbs, hn]

/-- C91. For every kind of usher and after any history of setting probabilities, adding ushers and
restricting or resetting sublattices, the probabilities in force are the last ones set that have the
right length and sum (a rejected request changes nothing); a request raises exactly if it cannot be
used.  The metadata keep the probabilities of the constructor. -/
theorem C91_probabilities_in_force (s : UsherSys) (ops : List UsherOp) :
    (s.run ops).u.probs = inForce s.u.nAct s.u.probs (ops.filterMap UsherOp.request) ∧
      (∀ v, ((s.run ops).u.set v).2 = false ↔ Usable s.u.nAct v) ∧
      (s.run ops).u.specProbs = s.u.specProbs := by
  obtain ⟨h1, h2, h3⟩ := UsherSys.run_spec s ops
  refine ⟨h3, fun v => ?_, h2⟩
  rw [(UsherObj.set_spec _ v).2.2.2, h1]

/-- C91. Hence an usher that was constructed always has usable probabilities. -/
theorem C91_always_usable (sls : List Sublattice) (pr : Option (List ℚ)) (u : UsherObj)
    (hu : UsherObj.newFlip sls pr = some u ∨ UsherObj.newSwap sls pr = some u)
    (ops : List UsherOp) :
    Usable (sls.countP fun sl => decide (sl.active ≠ []))
      ((⟨sls, u⟩ : UsherSys).run ops).u.probs := by
  rw [(C91_probabilities_in_force _ ops).1]
  obtain ⟨c1, c2⟩ := C91_constructed sls pr
  rcases hu with hu | hu
  · rw [hu] at c1
    cases hs : startingProbs (sls.countP fun sl => decide (sl.active ≠ [])) pr with
    | none => rw [hs] at c1; simp at c1
    | some p =>
      simp only [hs, Option.map_some, Option.some.injEq, Prod.mk.injEq] at c1
      rw [c1.1, c1.2.1]
      exact inForce_usable (startingProbs_usable hs) _
  · rw [hu] at c2
    cases hs : startingProbs (sls.countP fun sl => decide (sl.active ≠ [])) pr with
    | none => rw [hs] at c2; simp at c2
    | some p =>
      simp only [hs, Option.map_some, Option.some.injEq, Prod.mk.injEq] at c2
      rw [c2.1, c2.2.1]
      exact inForce_usable (startingProbs_usable hs) _

theorem flip_state {sls : List Sublattice} {pr : Option (List ℚ)} {u : UsherObj}
    (hu : UsherObj.newFlip sls pr = some u) (hok : SublatticesOk sls) (ops : List UsherOp) :
    ∃ c, ((⟨sls, u⟩ : UsherSys).run ops).u = .flip c ∧ c.act = activeIdx sls ∧
      c.probs.length = c.act.length ∧ c.probs.sum = 1 ∧
      SubsOk ((⟨sls, u⟩ : UsherSys).run ops).sls ∧
      ∀ i ∈ c.act, i < ((⟨sls, u⟩ : UsherSys).run ops).sls.length := by
  have hU := C91_always_usable sls pr u (Or.inl hu) ops
  obtain ⟨h1, h2, _⟩ := UsherSys.run_sls ⟨sls, u⟩ (subsOk_of hok) ops
  unfold UsherObj.newFlip UsherCfg.new at hu
  rw [Option.map_map] at hu
  obtain ⟨p, _, rfl⟩ := Option.map_eq_some_iff.1 hu
  obtain ⟨c, hc, ha⟩ := UsherSys.run_flip sls ⟨activeIdx sls, p, p⟩ ops
  refine ⟨c, hc, ha, ?_, ?_, h1, ?_⟩
  · have := hU.1
    rw [ha]
    rw [show (activeIdx sls).length = _ from activeIdx_length sls, ← this]
    exact congrArg List.length (congrArg UsherObj.probs hc).symm
  · have := hU.2
    rw [show ((⟨sls, (UsherObj.flip ∘ fun p => ⟨activeIdx sls, p, p⟩) p⟩ : UsherSys).run ops).u.probs
      = c.probs from congrArg UsherObj.probs hc] at this
    exact this
  · rw [ha, h2]; exact activeIdx_lt sls

theorem swap_state {sls : List Sublattice} {pr : Option (List ℚ)} {u : UsherObj}
    (hu : UsherObj.newSwap sls pr = some u) (hok : SublatticesOk sls) (ops : List UsherOp) :
    ∃ c, ((⟨sls, u⟩ : UsherSys).run ops).u = .swap c ∧ c.act = activeIdx sls ∧
      c.probs.length = c.act.length ∧ c.probs.sum = 1 ∧
      SubsOk ((⟨sls, u⟩ : UsherSys).run ops).sls ∧
      ∀ i ∈ c.act, i < ((⟨sls, u⟩ : UsherSys).run ops).sls.length := by
  have hU := C91_always_usable sls pr u (Or.inr hu) ops
  obtain ⟨h1, h2, _⟩ := UsherSys.run_sls ⟨sls, u⟩ (subsOk_of hok) ops
  unfold UsherObj.newSwap UsherCfg.new at hu
  rw [Option.map_map] at hu
  obtain ⟨p, _, rfl⟩ := Option.map_eq_some_iff.1 hu
  obtain ⟨c, hc, ha⟩ := UsherSys.run_swap sls ⟨activeIdx sls, p, p⟩ ops
  refine ⟨c, hc, ha, ?_, ?_, h1, ?_⟩
  · have := hU.1
    rw [ha]
    rw [show (activeIdx sls).length = _ from activeIdx_length sls, ← this]
    exact congrArg List.length (congrArg UsherObj.probs hc).symm
  · have := hU.2
    rw [show ((⟨sls, (UsherObj.swap ∘ fun p => ⟨activeIdx sls, p, p⟩) p⟩ : UsherSys).run ops).u.probs
      = c.probs from congrArg UsherObj.probs hc] at this
    exact this
  · rw [ha, h2]; exact activeIdx_lt sls

/-- C91. After any history a Flip proposes to put a given allowed species on a given unrestricted
site of its `k`-th active sublattice with probability exactly
`p_k / (number of unrestricted sites * (number of species - 1))`. -/
theorem C91_flip_probability (sls : List Sublattice) (hok : SublatticesOk sls)
    (pr : Option (List ℚ)) (u : UsherObj) (hu : UsherObj.newFlip sls pr = some u)
    (ops : List UsherOp) (t : UsherSys) (ht : (⟨sls, u⟩ : UsherSys).run ops = t)
    (hnn : ∀ a ∈ t.u.probs, 0 ≤ a) (k i : ℕ) (hk : (activeIdx sls)[k]? = some i)
    (sl : Sublattice) (hsl : t.sls[i]? = some sl) (x : Occ) (s e : ℕ) (hs : s ∈ sl.active)
    (hx : x s ∈ sl.encoding) (he : e ∈ sl.encoding) (hne : e ≠ x s) :
    probOf (t.u.propose t.sls x) [(s, e)] =
      t.u.probs.getD k 0 / ((sl.active.length : ℚ) * ((sl.encoding.length : ℚ) - 1)) := by
  obtain ⟨c, h1, h2, h3, h4, h5, h6⟩ := flip_state hu hok ops
  rw [ht] at h1 h5 h6
  rw [h1] at hnn ⊢
  exact flip_core c t.sls h5 (h2 ▸ activeIdx_pairwise sls) h6 h3 hnn h4 k i sl (h2 ▸ hk) hsl x s e
    hs hx he hne

/-- C91. After any history a Swap proposes to exchange the species of two given unrestricted sites
of its `k`-th active sublattice, naming `s` first, with probability exactly
`p_k / (number of unrestricted sites * number of those with another species than s)`. -/
theorem C91_swap_probability (sls : List Sublattice) (hok : SublatticesOk sls)
    (pr : Option (List ℚ)) (u : UsherObj) (hu : UsherObj.newSwap sls pr = some u)
    (ops : List UsherOp) (t : UsherSys) (ht : (⟨sls, u⟩ : UsherSys).run ops = t)
    (hnn : ∀ a ∈ t.u.probs, 0 ≤ a) (k i : ℕ) (hk : (activeIdx sls)[k]? = some i)
    (sl : Sublattice) (hsl : t.sls[i]? = some sl) (x : Occ) (s r : ℕ) (hs : s ∈ sl.active)
    (hr : r ∈ sl.active) (hne : x s ≠ x r) :
    probOf (t.u.propose t.sls x) [(s, x r), (r, x s)] =
      t.u.probs.getD k 0 / ((sl.active.length : ℚ) *
        ((sl.active.countP fun q => decide (x q ≠ x s) : ℕ) : ℚ)) := by
  obtain ⟨c, h1, h2, h3, h4, h5, h6⟩ := swap_state hu hok ops
  rw [ht] at h1 h5 h6
  rw [h1] at hnn ⊢
  exact swap_core c t.sls h5 (h2 ▸ activeIdx_pairwise sls) h6 h3 hnn h4 k i sl (h2 ▸ hk) hsl x s r
    hs hr hne

open Classical in
/-- C91. A Swap proposes nothing with the probability of picking a sublattice whose unrestricted
sites all hold the same species. -/
theorem C91_swap_nothing (sls : List Sublattice) (hok : SublatticesOk sls)
    (pr : Option (List ℚ)) (u : UsherObj) (hu : UsherObj.newSwap sls pr = some u)
    (ops : List UsherOp) (t : UsherSys) (ht : (⟨sls, u⟩ : UsherSys).run ops = t)
    (hnn : ∀ a ∈ t.u.probs, 0 ≤ a) (x : Occ) :
    probOf (t.u.propose t.sls x) [] =
      (((activeIdx sls).zip t.u.probs).map fun q =>
        if ∃ sl, t.sls[q.1]? = some sl ∧ sl.active ≠ [] ∧
          ∀ s ∈ sl.active, ∀ r ∈ sl.active, x s = x r then q.2 else 0).sum := by
  obtain ⟨c, h1, h2, h3, h4, h5, h6⟩ := swap_state hu hok ops
  rw [ht] at h1 h5 h6
  rw [h1] at hnn ⊢
  rw [swap_empty_core c t.sls h6 h3 hnn h4 x, h2]
  refine congrArg List.sum (List.map_congr_left fun q _ => ?_)
  split_ifs <;> rfl

/-- C91 (violation: the active sublattices are those of the construction). A Flip or Swap returns a
step with the probability of picking a sublattice that still has unrestricted sites; if all sites of
a sublattice were restricted after the construction, the usher still picks it with its probability,
and raises. -/
theorem C91_restricted_later_raises (sls : List Sublattice) (hok : SublatticesOk sls)
    (pr : Option (List ℚ)) (u : UsherObj)
    (ops : List UsherOp) (t : UsherSys) (ht : (⟨sls, u⟩ : UsherSys).run ops = t)
    (hnn : ∀ a ∈ t.u.probs, 0 ≤ a) (x : Occ)
    (hu : UsherObj.newSwap sls pr = some u ∨ (UsherObj.newFlip sls pr = some u ∧
      ∀ sl ∈ t.sls, ∀ s ∈ sl.active, ∃ e ∈ sl.encoding, e ≠ x s)) :
    returns (t.u.propose t.sls x) =
      (((activeIdx sls).zip t.u.probs).map fun q =>
        if t.sls[q.1]?.map Sublattice.active = some [] then 0 else q.2).sum := by
  rcases hu with hu | ⟨hu, hc⟩
  · obtain ⟨c, h1, h2, h3, h4, h5, h6⟩ := swap_state hu hok ops
    rw [ht] at h1 h5 h6
    rw [h1] at hnn ⊢
    rw [returns_swap_core c t.sls h6 h3 hnn h4 x, h2]
    rfl
  · obtain ⟨c, h1, h2, h3, h4, h5, h6⟩ := flip_state hu hok ops
    rw [ht] at h1 h5 h6
    rw [h1] at hnn ⊢
    rw [returns_flip_core c t.sls h6 h3 hnn h4 x hc, h2]
    rfl

/-- C91 (violation: the active sublattices are those of the construction). A sublattice without
unrestricted sites at the construction is never touched, even after its restrictions are reset. -/
theorem C91_reset_later_ignored (sls : List Sublattice) (hok : SublatticesOk sls)
    (pr : Option (List ℚ)) (u : UsherObj)
    (hu : UsherObj.newFlip sls pr = some u ∨ UsherObj.newSwap sls pr = some u)
    (ops : List UsherOp) (t : UsherSys) (ht : (⟨sls, u⟩ : UsherSys).run ops = t)
    (i : ℕ) (sl : Sublattice) (hi : sls[i]? = some sl) (ha : sl.active = []) (x : Occ) (st : Step)
    (h : (t.u.propose t.sls x).Outcome st) : ∀ f ∈ st, f.1 ∉ sl.sites := by
  have key : ∃ j ∈ activeIdx sls, ∃ sl', t.sls[j]? = some sl' ∧ ∀ f ∈ st, f.1 ∈ sl'.active := by
    rcases hu with hu | hu
    · obtain ⟨c, h1, h2, _⟩ := flip_state hu hok ops
      rw [ht] at h1
      rw [h1] at h
      rw [← h2]
      exact flip_sites c t.sls x st h
    · obtain ⟨c, h1, h2, _⟩ := swap_state hu hok ops
      rw [ht] at h1
      rw [h1] at h
      rw [← h2]
      exact swap_sites c t.sls x st h
  obtain ⟨j, hj, sl', hj', hf⟩ := key
  obtain ⟨g1, g2, g3⟩ := UsherSys.run_sls ⟨sls, u⟩ (subsOk_of hok) ops
  rw [ht] at g1 g2 g3
  obtain ⟨slj, e1, e2⟩ := (mem_activeIdx sls j).1 hj
  have hne : j ≠ i := by
    rintro rfl
    rw [hi] at e1
    cases e1
    exact e2 ha
  intro f hfm hfs
  have hsite : f.1 ∈ sl'.sites := g1.active sl' (List.mem_of_getElem? hj') _ (hf f hfm)
  have hs : sl'.sites = slj.sites := by
    have := g3 j
    rw [hj'] at this
    simpa [e1] using this
  rw [hs] at hsite
  obtain ⟨hil, ei⟩ := List.getElem?_eq_some_iff.1 hi
  obtain ⟨hjl, ej⟩ := List.getElem?_eq_some_iff.1 e1
  have hd := List.pairwise_iff_getElem.1 hok.disjoint
  rcases Nat.lt_or_gt_of_ne hne with h' | h'
  · have := hd j i hjl hil h'
    rw [ei, ej] at this
    exact this _ hsite hfs
  · have := hd i j hil hjl h'
    rw [ei, ej] at this
    exact this _ hfs hsite

/-- C91. A MultiStep uses every one of its step lengths with the same probability: it proposes a
given step with the average of the probabilities for the single lengths. Given step probabilities it
cannot be constructed. -/
theorem C91_multi_uniform (sls : List Sublattice) (lens : List ℕ) (hl : lens ≠ [])
    (inner : UsherObj) :
    (∀ q, UsherObj.newMulti sls lens (some q) inner = none) ∧
    ∀ u, UsherObj.newMulti sls lens none inner = some u →
      ∀ (now : List Sublattice) (x : Occ) (st : Step), probOf (u.propose now x) st =
        (lens.map fun n => probOf ((UsherObj.multi [] [n] [1] inner).propose now x) st).sum /
          lens.length := by
  constructor
  · intro q
    unfold UsherObj.newMulti
    cases UsherCfg.new sls none <;> rfl
  · intro u hu now x st
    unfold UsherObj.newMulti at hu
    cases hc : UsherCfg.new sls none with
    | none => simp [hc] at hu
    | some c =>
      simp only [hc, Option.some.injEq] at hu
      subst hu
      have hpos : 0 < lens.length := List.length_pos_iff.2 hl
      have hne : (lens.length : ℚ) ≠ 0 := by positivity
      have hone : ∀ n, probOf ((UsherObj.multi [] [n] [1] inner).propose now x) st =
          ((inner.propose now x).bind fun st' => multiLoop (inner.propose now) (n - 1)
            (applyStep x st') st').expect fun b => if b = st then (1 : ℚ) else 0 := by
        intro n
        unfold probOf
        rw [UsherObj.propose]
        unfold checkedW
        rw [if_pos (by simp), Prog.expect_bind, Prog.expect_chooseW]
        simp
      simp only [hone]
      unfold probOf
      rw [UsherObj.propose]
      unfold checkedW
      rw [if_pos]
      · rw [Prog.expect_bind, Prog.expect_chooseW]
        simp only [Rat.cast_id]
        rw [sum_fin_zip lens (lens.map fun _ => 1 / (lens.length : ℚ)) (by simp)
          (fun n => ((inner.propose now x).bind fun st' => multiLoop (inner.propose now) (n - 1)
            (applyStep x st') st').expect fun b => if b = st then (1 : ℚ) else 0)]
        generalize (lens.length : ℚ) = L
        clear hl hpos hne
        induction lens with
        | nil => simp
        | cons n lens ih =>
          simp only [List.map_cons, List.zip_cons_cons, List.sum_cons, ih, add_div]
          ring
      · refine ⟨by simp, ?_, ?_⟩
        · intro a ha
          obtain ⟨_, _, rfl⟩ := List.mem_map.1 ha
          positivity
        · rw [List.map_const', List.sum_replicate, nsmul_eq_mul]
          field_simp

/-- C91. The same of the MultiStep a kernel builds: the average over the given lengths. -/
theorem C91_kernel_multi_uniform (sls : List Sublattice) (lens : List ℕ) (arg : UsherArg)
    (u : Usher) (hu : buildMulti sls lens arg = some u) :
    ∃ inner, arg.build sls = some inner ∧ ∀ (x : Occ) (st : Step), probOf (u.propose x) st =
      (lens.map fun n => probOf (multiPropose .shared [n] [1] inner.propose x) st).sum /
        lens.length := by
  unfold buildMulti at hu
  obtain ⟨inner, hi, rfl⟩ := Option.map_eq_some_iff.1 hu
  refine ⟨inner, hi, fun x st => ?_⟩
  have hone : ∀ n, probOf (multiPropose .shared [n] [1] inner.propose x) st =
      ((inner.propose x).bind fun st' => multiLoop inner.propose (n - 1)
        (applyStep x st') st').expect fun b => if b = st then (1 : ℚ) else 0 := by
    intro n
    unfold probOf multiPropose
    rw [Prog.expect_bind, Prog.expect_chooseW]
    simp
  simp only [hone]
  unfold probOf
  rw [Usher.propose]
  unfold multiPropose
  rw [Prog.expect_bind, Prog.expect_chooseW]
  simp only [Rat.cast_id]
  rw [sum_fin_zip lens (List.replicate lens.length (1 / (lens.length : ℚ))) (by simp)
    (fun n => ((inner.propose x).bind fun st' => multiLoop inner.propose (n - 1)
      (applyStep x st') st').expect fun b => if b = st then (1 : ℚ) else 0)]
  rw [show List.replicate lens.length (1 / (lens.length : ℚ)) =
    lens.map fun _ => 1 / (lens.length : ℚ) from List.map_const'.symm]
  generalize (lens.length : ℚ) = L
  clear hu
  induction lens with
  | nil => simp
  | cons n lens ih =>
    simp only [List.map_cons, List.zip_cons_cons, List.sum_cons, ih, add_div]
    ring

/-- C91. Setting the sublattice probabilities through a MultiStep has the effect of setting them on
its inner usher: with step length one the same steps are proposed with the same probabilities as by
the inner usher after the same request. -/
theorem C91_multi_delegates (sp : List ℚ) (inner : UsherObj) (v : List ℚ) (sls : List Sublattice)
    (x : Occ) (st : Step) :
    probOf (((UsherObj.multi sp [1] [1] inner).set v).1.propose sls x) st =
        probOf ((inner.set v).1.propose sls x) st ∧
      ((UsherObj.multi sp [1] [1] inner).set v).2 = (inner.set v).2 := by
  refine ⟨?_, rfl⟩
  unfold probOf
  rw [UsherObj.set, UsherObj.propose]
  unfold checkedW
  rw [if_pos (by simp), Prog.expect_bind, Prog.expect_chooseW]
  simp [Prog.expect_bind, multiLoop]

/-- C91. After any history of a Composite, in which ushers with weights not negative and not all
zero were given and added, it proposes a given step with the weighted mean of the probabilities of
its ushers. The ushers are those for which a weight was given: the others are dropped. -/
theorem C91_composite_mixture (sls : List Sublattice) (us : List UsherObj)
    (weights : Option (List ℚ)) (u : UsherObj)
    (hu : UsherObj.newComposite sls us weights = some u) (ops : List UsherOp) (t : UsherSys)
    (ht : (⟨sls, u⟩ : UsherSys).run ops = t) (parts : List (ℚ × UsherObj))
    (hp : parts = (weights.getD (List.replicate us.length 1)).zip us ++
      ops.filterMap UsherOp.added)
    (hnn : ∀ q ∈ parts, 0 ≤ q.1) (hpos : ∃ q ∈ parts, q.1 ≠ 0) (x : Occ) (st : Step) :
    probOf (t.u.propose t.sls x) st =
      (parts.map fun q => q.1 * probOf (q.2.propose t.sls x) st).sum /
        (parts.map Prod.fst).sum := by
  have hm := isMix_run (s := ⟨sls, u⟩) (isMix_new hu) ops
  rw [ht, ← hp] at hm
  refine mix_expect hm hnn ?_ t.sls x _
  obtain ⟨q, hq, hne⟩ := hpos
  have h0 : 0 < q.1 := lt_of_le_of_ne (hnn q hq) (Ne.symm hne)
  have := List.single_le_sum (l := parts.map Prod.fst)
    (fun a ha => by obtain ⟨r, hr, rfl⟩ := List.mem_map.1 ha; exact hnn r hr) q.1
    (List.mem_map.2 ⟨q, hq, rfl⟩)
  exact (lt_of_lt_of_le h0 this).ne'

/-- C91. Constructing a Composite raises exactly if no sublattice is active or the first so many
weights sum to zero (a total of zero is divided by while the ushers are added one by one); otherwise
its metadata list every usher twice. -/
theorem C91_composite_constructed (sls : List Sublattice) (us : List UsherObj)
    (weights : Option (List ℚ)) (parts : List (ℚ × UsherObj))
    (hp : parts = (weights.getD (List.replicate us.length 1)).zip us) :
    (UsherObj.newComposite sls us weights = none ↔ (∀ sl ∈ sls, sl.active = []) ∨
      ∃ n, 0 < n ∧ n ≤ parts.length ∧ ((parts.take n).map Prod.fst).sum = 0) ∧
    ∀ u, UsherObj.newComposite sls us weights = some u → ∃ c w p, u =
      .composite c (parts.map Prod.snd) w p (parts.flatMap fun q => [q.2.kind, q.2.kind]) := by
  have hc : UsherCfg.new sls none = none ↔ ∀ sl ∈ sls, sl.active = [] := by
    unfold UsherCfg.new
    rw [usherProbs_eq, activeIdx_length, startingProbs]
    rw [Option.map_eq_none_iff]
    split_ifs with h
    · rw [List.countP_eq_zero] at h
      simpa using h
    · refine ⟨fun h' => by simp at h', fun h' => absurd ?_ h⟩
      rw [List.countP_eq_zero]
      simpa using h'
  unfold UsherObj.newComposite
  cases hcc : UsherCfg.new sls none with
  | none =>
    simp only [true_iff]
    exact ⟨Or.inl (hc.1 hcc), fun u h => by simp at h⟩
  | some c =>
    have hna : ¬ ∀ sl ∈ sls, sl.active = [] := fun h => by
      rw [hc.2 h] at hcc; simp at hcc
    simp only
    rw [← hp, addLoop_mix]
    simp only [List.nil_append, hna, false_or]
    constructor
    · split_ifs with h
      · exact iff_of_true rfl h
      · exact iff_of_false (by simp) h
    · intro u h
      split_ifs at h
      · cases h; exact ⟨_, _, _, rfl⟩
      · cases h; exact ⟨_, _, _, rfl⟩

/-- C91 (violation). Setting the sublattice probabilities of a Composite is accepted and changes
what the getter returns, but not what is proposed. -/
theorem C91_composite_set_without_effect (c : UsherCfg) (us : List UsherObj) (w p : List ℚ)
    (ks : List UsherKind) (v : List ℚ) (hv : Usable c.act.length v) :
    let u := UsherObj.composite c us w p ks
    (u.set v).2 = false ∧ (u.set v).1.probs = v ∧
      ∀ sls x, (u.set v).1.propose sls x = u.propose sls x := by
  simp only [UsherObj.set, setProbs_eq, if_pos hv]
  refine ⟨trivial, rfl, fun sls x => ?_⟩
  rw [UsherObj.propose, UsherObj.propose]

/-! Examples -/

/-- Two active sublattices and one inactive. -/
def cfgSublattices : List Sublattice :=
  [Sublattice.new [1, 2] [0, 1], Sublattice.new [6] [4], Sublattice.new [3, 4, 5] [2, 3]]

theorem cfgSublattices_ok : SublatticesOk cfgSublattices := by constructor <;> decide +kernel

/-- C91 (violation). Probabilities that are not probabilities are accepted, by the constructor and
by the setter, since only their number and sum are looked at; every proposal then raises. -/
theorem C91_negative_accepted_witness :
    ∃ u, UsherObj.newFlip cfgSublattices (some [2, -1]) = some u ∧
      ∀ x, returns (u.propose cfgSublattices x) = 0 := by
  refine ⟨.flip ⟨[0, 2], [2, -1], [2, -1]⟩, ?_, ?_⟩
  · have h : activeIdx cfgSublattices = [0, 2] := by decide +kernel
    simp only [UsherObj.newFlip, UsherCfg.new, h, usherProbs]
    norm_num
  · intro x
    unfold returns
    rw [UsherObj.propose, Prog.expect_bind]
    have : (UsherCfg.pickSub ⟨[0, 2], [2, -1], [2, -1]⟩ cfgSublattices) = fail := by
      unfold UsherCfg.pickSub checkedW
      rw [if_neg]
      rintro ⟨_, h, _⟩
      have := h (-1) (by simp)
      norm_num at this
    rw [this, expect_fail]

/-- A Flip with unequal probabilities, one rejected and one accepted request, and a restriction. -/
example :
    ∃ u, UsherObj.newFlip cfgSublattices (some [1/4, 3/4]) = some u ∧
      ((⟨cfgSublattices, u⟩ : UsherSys).run
        [.set [1], .restrict 2 [3], .set [1/3, 2/3], .set [1, 1]]).u.probs = [1/3, 2/3] ∧
      (((⟨cfgSublattices, u⟩ : UsherSys).run
        [.set [1], .restrict 2 [3], .set [1/3, 2/3], .set [1, 1]]).sls.map Sublattice.active) =
          [[0, 1], [], [2]] ∧
      (activeIdx cfgSublattices)[1]? = some 2 := by
  refine ⟨.flip ⟨[0, 2], [1/4, 3/4], [1/4, 3/4]⟩, ?_, by decide +kernel, by decide +kernel,
    by decide +kernel⟩
  have h : activeIdx cfgSublattices = [0, 2] := by decide +kernel
  simp only [UsherObj.newFlip, UsherCfg.new, h, usherProbs]
  norm_num

/-- With these the flip of site 2 to code 1 has probability `(2/3) / (1 * 2)`. -/
example :
    probOf ((UsherObj.flip ⟨[0, 2], [1/3, 2/3], [1/3, 2/3]⟩).propose
      (cfgSublattices.modify 2 fun sl => sl.restrict [3]) (fun _ => 0)) [(2, 1)] = 1/3 := by
  decide +kernel

/-- A swap usher on the first sublattice: sites 0 and 1 hold different species. -/
example :
    probOf ((UsherObj.swap ⟨[0, 2], [1/3, 2/3], [1/3, 2/3]⟩).propose cfgSublattices
      (fun s => if s = 0 then 1 else 0)) [(0, 0), (1, 1)] = 1/6 ∧
    probOf ((UsherObj.swap ⟨[0, 2], [1/3, 2/3], [1/3, 2/3]⟩).propose cfgSublattices
      (fun s => if s = 0 then 1 else 0)) [] = 2/3 := by
  decide +kernel

/-- Everything on the last sublattice restricted after construction: two thirds of the proposals
raise. -/
example :
    returns ((UsherObj.flip ⟨[0, 2], [1/3, 2/3], [1/3, 2/3]⟩).propose
      (cfgSublattices.modify 2 fun sl => sl.restrict [2, 3]) (fun _ => 0)) = 1/3 := by
  decide +kernel

/-- A Composite given a weight for only one of its two ushers keeps one; weights beginning with zero
raise, the same weights in another order do not. -/
example :
    let a := UsherObj.flip ⟨[0, 2], [1/2, 1/2], [1/2, 1/2]⟩
    let b := UsherObj.swap ⟨[0, 2], [1/2, 1/2], [1/2, 1/2]⟩
    (∃ c, UsherObj.newComposite cfgSublattices [a, b] (some [3]) =
      some (.composite c [a] [3] [1] [.flip, .flip])) ∧
    UsherObj.newComposite cfgSublattices [a, b] (some [0, 1]) = none ∧
    UsherObj.newComposite cfgSublattices [a, b] (some [1, 0]) ≠ none := by
  intro a b
  refine ⟨⟨⟨[0, 2], [1/2, 1/2], [1/2, 1/2]⟩, ?_⟩, ?_, ?_⟩
  · have h : activeIdx cfgSublattices = [0, 2] := by decide +kernel
    simp [UsherObj.newComposite, UsherCfg.new, h, usherProbs, UsherObj.addLoop, UsherObj.add,
      List.replicate, UsherObj.kind, a]
  · rw [(C91_composite_constructed _ _ _ _ rfl).1]
    exact Or.inr ⟨1, by simp, by simp, by simp⟩
  · have h : activeIdx cfgSublattices = [0, 2] := by decide +kernel
    simp [UsherObj.newComposite, UsherCfg.new, h, usherProbs, UsherObj.addLoop, UsherObj.add]

/-- A mixture of a flip usher (weight 1) and a swap usher (weight 3) added later. -/
example :
    let a := UsherObj.flip ⟨[0, 2], [1/2, 1/2], [1/2, 1/2]⟩
    let b := UsherObj.swap ⟨[0, 2], [1/2, 1/2], [1/2, 1/2]⟩
    ∃ u, UsherObj.newComposite cfgSublattices [a] none = some u ∧
      ([(1, a)] ++ [UsherOp.add b 3].filterMap UsherOp.added : List (ℚ × UsherObj)) =
        [(1, a), (3, b)] := by
  intro a b
  refine ⟨.composite ⟨[0, 2], [1/2, 1/2], [1/2, 1/2]⟩ [a] [1] [1] [.flip, .flip], ?_, rfl⟩
  have h : activeIdx cfgSublattices = [0, 2] := by decide +kernel
  simp [UsherObj.newComposite, UsherCfg.new, h, usherProbs, UsherObj.addLoop, UsherObj.add,
    List.replicate, UsherObj.kind, a]

/-- A MultiStep of lengths 1 and 2. -/
example : ∃ u, UsherObj.newMulti cfgSublattices [1, 2] none
    (.flip ⟨[0, 2], [1/2, 1/2], [1/2, 1/2]⟩) = some u := by
  have h : activeIdx cfgSublattices = [0, 2] := by decide +kernel
  simp [UsherObj.newMulti, UsherCfg.new, h, usherProbs]

example : (buildMulti cfgSublattices [1, 3] .flipName).isSome = true := by decide +kernel

end Smol
