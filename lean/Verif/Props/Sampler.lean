import Verif.Lemmas.Sampler
import Verif.Props.Ensemble
import Verif.Props.Usher

/-!
# Runs of any length: recorded traces (C01) and conserved quantities (C13, C14, C15)
-/

namespace Smol
open Prog Spec

section C01
variable {K : Type*} [CommRing K]

/-- C01. If the changes are differences for the steps that are proposed, then every recorded row
holds the features, the enthalpy and the bias of its own occupancy: for all kernels, all decisions,
any number of steps, any thinning, any number of walkers.  `I` are the occupancies that can be
reached. -/
theorem C01_trace_matches (ks : List (Kern K)) (dec : Decisions) (I : ℕ → Occ → Prop)
    (hI : ∀ r i x, I i x → I i (applyStep x (dec r i x).1))
    (hlen : ∀ k ∈ ks, ∀ x y, (k.feature x).length = (k.feature y).length)
    (hchange : ∀ r i k x, ks[i]? = some k → I i x → k.change x (dec r i x).1 =
      List.zipWith (· - ·) (k.feature (applyStep x (dec r i x).1)) (k.feature x))
    (hbias : ∀ r i k b x, ks[i]? = some k → k.bias = some b → I i x →
      k.biasChange x (dec r i x).1 = b (applyStep x (dec r i x).1) - b x)
    (nsteps thin : ℕ) (init : List Occ) (hinit : ∀ i o, init[i]? = some o → I i o)
    (out : List (List (Row K))) (hout : sample ks dec nsteps thin init = some out) :
    out.length = nsteps / thin ∧
    ∀ rows ∈ out, ∀ (i : ℕ) (row : Row K) (k : Kern K), rows[i]? = some row → ks[i]? = some k →
      row.features = k.feature row.occ ∧
      row.enthalpy = (List.zipWith (· * ·) k.params (k.feature row.occ)).sum ∧
      row.bias = k.bias.map fun b => b row.occ := by
  refine ⟨sample_length ks dec nsteps thin init out hout, ?_⟩
  intro rows hrows i row k hrow hk
  let J : ℕ → Walker K → Prop := fun i w => I i w.1 ∧ w.2.occ = w.1 ∧ ∀ k, ks[i]? = some k →
    w.2.features = k.feature w.1 ∧ w.2.enthalpy = dot k.params (k.feature w.1) ∧
      w.2.bias = k.bias.map fun b => b w.1
  have key := sample_inv ks dec J ?_ nsteps thin init out ?_ hout rows hrows i row hrow
  · obtain ⟨o, _, h2, h3⟩ := key
    simp only at h2 h3
    rw [h2]
    exact h3 k hk
  · rintro r i k w hk ⟨h1, h2, h3⟩
    obtain ⟨hf, he, hb⟩ := h3 k hk
    cases hd : (dec r i w.1).2 with
    | false =>
      have hw : (w.advance k (dec r i w.1)).1 = w.1 ∧
          (w.advance k (dec r i w.1)).2 = { w.2 with accepted := false } := by
        obtain ⟨w1, w2⟩ := w
        simp only at h2
        subst h2
        simp [Walker.advance, Kern.singleStep, Row.update, hd]
      refine ⟨?_, ?_, ?_⟩
      · rw [hw.1]; exact h1
      · rw [hw.1, hw.2]; exact h2
      · rw [hw.1, hw.2]; exact h3
    | true =>
      have hadv : w.advance k (dec r i w.1) = (applyStep w.1 (dec r i w.1).1,
          { occ := applyStep w.1 (dec r i w.1).1
            features := List.zipWith (· + ·) w.2.features (k.change w.1 (dec r i w.1).1)
            enthalpy := w.2.enthalpy + dot k.params (k.change w.1 (dec r i w.1).1)
            bias := w.2.bias.bind fun b =>
              (k.bias.map fun _ => k.biasChange w.1 (dec r i w.1).1).map fun d => b + d
            accepted := true }) := by
        simp [Walker.advance, Kern.singleStep, Row.update, hd]
      rw [hadv]
      refine ⟨hI r i w.1 h1, rfl, ?_⟩
      intro k' hk'
      rw [hk, Option.some.injEq] at hk'
      subst hk'
      have hl := hlen k (List.mem_of_getElem? hk)
      have hc := hchange r i k w.1 hk h1
      have hfull : List.zipWith (· + ·) (k.feature w.1) (k.change w.1 (dec r i w.1).1) =
          k.feature (applyStep w.1 (dec r i w.1).1) := by
        rw [hc]; exact zip_add_sub _ _ (hl _ _)
      refine ⟨?_, ?_, ?_⟩
      · simp only
        rw [hf, hfull]
      · simp only
        rw [he, ← dot_add, hfull]
        rw [hc, List.length_zipWith, hl (applyStep w.1 (dec r i w.1).1) w.1, min_self]
      · simp only
        rw [hb]
        cases hkb : k.bias with
        | none => rfl
        | some b =>
          simp only [Option.map_some, Option.bind_some]
          rw [hbias r i k b w.1 hk hkb h1]
          simp
  · intro i k o hk ho
    refine ⟨hinit i o ho, rfl, ?_⟩
    intro k' hk'
    rw [hk, Option.some.injEq] at hk'
    subst hk'
    exact ⟨rfl, rfl, rfl⟩

/-- C01 for ensembles: with chemical potentials or not, on any processor whose changes are exact,
with any usher tree and a bias whose change is exact, every recorded row is the full evaluation of
its occupancy. -/
theorem C01_ensemble_trace_matches (e : Ens K) (p : PartProc K) (n : ℕ) (A : ℕ → Prop)
    (hp : p.Exact A) (bias : Option (Occ → K)) (biasChange : Occ → Step → K)
    (hbias : ∀ b x st, bias = some b → biasChange x st = b (applyStep x st) - b x)
    (sls : List Sublattice) (h : SublatticesOk sls)
    (hn : ∀ sl ∈ sls, ∀ s ∈ sl.active, A s ∧ s < n)
    (us : ℕ → Usher) (hu : ∀ i, (us i).Over sls) (dec : Decisions)
    (hdec : ∀ r i x, FullLegal sls x → ((us i).propose x).Outcome (dec r i x).1)
    (walkers nsteps thin : ℕ) (init : List Occ) (hinit : ∀ o ∈ init, FullLegal sls o)
    (out : List (List (Row K)))
    (hout : sample (List.replicate walkers (Kern.ofEnsemble e p n bias biasChange)) dec nsteps thin
      init = some out) :
    ∀ rows ∈ out, ∀ row ∈ rows,
      row.features = e.feature p n row.occ ∧
      row.enthalpy = (List.zipWith (· * ·) e.params (e.feature p n row.occ)).sum ∧
      row.bias = bias.map fun b => b row.occ := by
  have hl : ∀ x y, (e.feature p n x).length = (e.feature p n y).length := by
    intro x y
    unfold Ens.feature
    cases e.mu with
    | none => exact hp.1 x y
    | some m => simp [hp.1 x y]
  have hleg : ∀ r i x, FullLegal sls x → LegalStep (activeSublattices sls) (dec r i x).1 :=
    fun r i x hx => tree_legal h (us i) (hu i) x hx _ (hdec r i x hx)
  have key := C01_trace_matches (List.replicate walkers (Kern.ofEnsemble e p n bias biasChange)) dec
    (fun _ => FullLegal sls) ?_ ?_ ?_ ?_ nsteps thin init
    (fun i o ho => hinit o (List.mem_of_getElem? ho)) out hout
  · intro rows hrows row hrow
    obtain ⟨i, hi, rfl⟩ := List.mem_iff_getElem.1 hrow
    have hlt : i < walkers := by
      unfold sample at hout
      split_ifs at hout
      cases hout
      obtain ⟨ws, hws, rfl⟩ := List.mem_map.1 hrows
      rw [List.length_map] at hi
      by_contra hge
      have hnone : AllWalkers (fun i _ => i < walkers) ws := by
        refine yields_inv _ dec _ (fun r j k w hk _ => ?_) thin _ 0 _ ?_ ws hws
        · have := (List.getElem?_eq_some_iff.1 hk).1
          simpa using this
        · intro j w hw
          have := (List.getElem?_eq_some_iff.1 hw).1
          rw [List.length_zipWith, List.length_replicate] at this
          omega
      exact hge (hnone i ws[i] (List.getElem?_eq_getElem hi))
    exact key.2 rows hrows i rows[i] _ (List.getElem?_eq_getElem hi)
      (by rw [List.getElem?_replicate, if_pos hlt])
  · intro r i x hx
    apply fullLegal_apply h hx
    intro f hf
    obtain ⟨sl, a, b⟩ := (hleg r i x hx).flips f hf
    exact ⟨sl, activeSublattices_mem a, b⟩
  · intro k hk x y
    rw [List.eq_of_mem_replicate hk]
    exact hl x y
  · intro r i k x hk hx
    have hk := List.eq_of_mem_replicate (List.mem_of_getElem? hk)
    subst hk
    refine C06_change_is_difference e p n A hp x _ _ (fun f hf => ?_) (hleg r i x hx).once
      ((reachedBy_iff _ _ _).2 rfl)
    obtain ⟨sl, a, b, _⟩ := (hleg r i x hx).flips f hf
    exact hn sl (activeSublattices_mem a) f.1 b
  · intro r i k b x hk hb hx
    have hk := List.eq_of_mem_replicate (List.mem_of_getElem? hk)
    subst hk
    exact hbias b x _ hb

/-- C01 does not hold for a caller who keeps what `Sampler.sample` yields: all entries are the
same object, so the first shows the last occupancy. -/
theorem C01_kept_traces_fail :
    ∃ (k : Kern ℚ) (dec : Decisions) (out kept : List (List (Row ℚ))),
      sample [k] dec 2 1 [fun _ => 0] = some out ∧ sampleKept [k] dec 2 1 [fun _ => 0] = some kept ∧
      (out.map fun rows => rows.map fun r => r.occ 0) = [[1], [2]] ∧
      (kept.map fun rows => rows.map fun r => r.occ 0) = [[2], [2]] := by
  refine ⟨⟨[], fun _ => [], fun _ _ => [], none, fun _ _ => 0⟩,
    fun r _ _ => ([(0, r + 1)], true), _, _, rfl, rfl, ?_, ?_⟩ <;> rfl

end C01

/-! ### C13, C14, C15 -/

section Runs
variable {K : Type*} [CommRing K]

theorem legal_after {sls : List Sublattice} (h : SublatticesOk sls) {u : Usher} (hu : u.Over sls)
    {x : Occ} (hx : FullLegal sls x) {st : Step} (hst : (u.propose x).Outcome st) :
    FullLegal sls (applyStep x st) := by
  apply fullLegal_apply h hx
  intro f hf
  obtain ⟨sl, a, b⟩ := (tree_legal h u hu x hx st hst).flips f hf
  exact ⟨sl, activeSublattices_mem a, b⟩

/-- C13. In a run of any length with any ushers, kernels (acceptance rules), restarts of the
generator and numbers of walkers, a site that is not among the active sites of any sublattice keeps
its initial code, and every site keeps a code of its sublattice. -/
theorem C13_inactive_sites_fixed (sls : List Sublattice) (h : SublatticesOk sls)
    (ks : List (Kern K)) (us : ℕ → Usher) (hu : ∀ i, (us i).Over sls) (dec : Decisions)
    (hdec : ∀ r i x, FullLegal sls x → ((us i).propose x).Outcome (dec r i x).1)
    (nsteps thin : ℕ) (init : List Occ) (hinit : ∀ o ∈ init, FullLegal sls o)
    (out : List (List (Row K))) (hout : sample ks dec nsteps thin init = some out) :
    ∀ rows ∈ out, ∀ (i : ℕ) (row : Row K) (o : Occ), rows[i]? = some row → init[i]? = some o →
      (∀ s, (∀ sl ∈ sls, s ∉ sl.active) → row.occ s = o s) ∧
      ∀ sl ∈ sls, ∀ s ∈ sl.sites, row.occ s ∈ sl.encoding := by
  intro rows hrows i row o hrow ho
  have := sample_occ_inv ks dec (fun i x => FullLegal sls x ∧ ∀ o, init[i]? = some o →
    ∀ s, (∀ sl ∈ sls, s ∉ sl.active) → x s = o s) ?_ nsteps thin init out ?_ hout rows hrows i row hrow
  · exact ⟨this.2 o ho, this.1⟩
  · rintro r i x ⟨h1, h2⟩ _
    have hst := hdec r i x h1
    refine ⟨legal_after h (hu i) h1 hst, fun o ho s hs => ?_⟩
    rw [applyStep_of_not_mem, h2 o ho s hs]
    intro f hf he
    obtain ⟨sl, a, b, _⟩ := (tree_legal h (us i) (hu i) x h1 _ hst).flips f hf
    exact hs sl (activeSublattices_mem a) (he ▸ b)
  · intro i o ho
    refine ⟨hinit o (List.mem_of_getElem? ho), fun o' ho' s _ => ?_⟩
    rw [ho, Option.some.injEq] at ho'
    rw [ho']

/-- C13. Sites passed to `restrict_sites` before the ushers are built keep their codes. -/
theorem C13_restricted_sites_fixed (base : List Sublattice) (xs : List ℕ)
    (h : SublatticesOk (base.map fun sl => sl.restrict xs))
    (ks : List (Kern K)) (us : ℕ → Usher) (hu : ∀ i, (us i).Over (base.map fun sl => sl.restrict xs))
    (dec : Decisions)
    (hdec : ∀ r i x, FullLegal (base.map fun sl => sl.restrict xs) x →
      ((us i).propose x).Outcome (dec r i x).1)
    (nsteps thin : ℕ) (init : List Occ)
    (hinit : ∀ o ∈ init, FullLegal (base.map fun sl => sl.restrict xs) o)
    (out : List (List (Row K))) (hout : sample ks dec nsteps thin init = some out) :
    ∀ rows ∈ out, ∀ (i : ℕ) (row : Row K) (o : Occ), rows[i]? = some row → init[i]? = some o →
      ∀ s ∈ xs, row.occ s = o s := by
  intro rows hrows i row o hrow ho s hs
  refine (C13_inactive_sites_fixed _ h ks us hu dec hdec nsteps thin init hinit out hout rows hrows
    i row o hrow ho).1 s fun sl hsl hact => ?_
  obtain ⟨b, _, rfl⟩ := List.mem_map.1 hsl
  simp only [Sublattice.restrict, List.mem_filter, decide_eq_true_eq] at hact
  exact hact.2 hs

/-- C13, the claim fails for sites restricted after a TableFlip usher was built: its tables are
not rebuilt, and it proposes to change a restricted site. -/
theorem C13_restrict_after_table_fails :
    ∃ (t t' : TableFlipper) (s : ℕ) (x : Occ) (st : Step),
      TableFlipper.new [tripleSublattice] [[-1, 1]] none 0 [] [] = some t ∧
      t' = { t with sls := t.sls.map fun sl => sl.restrict [s] } ∧
      (∀ sl ∈ t'.sls, s ∉ sl.active) ∧ (t'.propose 3 x).Outcome st ∧ applyStep x st s ≠ x s := by
  refine ⟨tripleTable, _, 0, allZero, [(0, 1)], rfl, rfl, ?_, ?_, by decide⟩
  · have : tripleTable.sls = [tripleSublattice] := tripleTable_ok.2.1
    simp only [this]
    decide
  · exact outcome_of_results (by decide +kernel)

/-- C14. In a run with only swaps (also in MultiStep and Composite ushers) the number of sites
holding each code never changes, on every sublattice. -/
theorem C14_swaps_conserve (sls : List Sublattice) (h : SublatticesOk sls)
    (ks : List (Kern K)) (us : ℕ → Usher) (hu : ∀ i, (us i).SwapsOnly (activeSublattices sls))
    (dec : Decisions)
    (hdec : ∀ r i x, ((us i).propose x).Outcome (dec r i x).1)
    (nsteps thin : ℕ) (init : List Occ)
    (out : List (List (Row K))) (hout : sample ks dec nsteps thin init = some out) :
    ∀ rows ∈ out, ∀ (i : ℕ) (row : Row K) (o : Occ), rows[i]? = some row → init[i]? = some o →
      ∀ sl ∈ sls, ∀ c, (sl.active.filter fun s => row.occ s == c).length =
        (sl.active.filter fun s => o s == c).length := by
  intro rows hrows i row o hrow ho
  have := sample_occ_inv ks dec (fun i x => ∀ o, init[i]? = some o →
    SameComposition (activeSublattices sls) o x) ?_ nsteps thin init out ?_ hout rows hrows i row hrow
  · intro sl hsl c
    by_cases hact : sl.isActive = true
    · exact (this o ho sl (List.mem_filter.2 ⟨hsl, hact⟩) c).symm
    · have : sl.active = [] := by
        cases hh : sl.active with
        | nil => rfl
        | cons a l => exfalso; apply hact; unfold Sublattice.isActive; rw [hh]; rfl
      rw [this]; rfl
  · intro r i x hx _ o ho
    exact Smol.SameComposition.trans (hx o ho)
      (swaps_same (activeSitesOk (sitesOk_of h)) (us i) (hu i) x _ (hdec r i x))
  · intro i o ho o' ho'
    rw [ho, Option.some.injEq] at ho'
    subst ho'
    intro sl _ c; rfl

/-- Numbers of sites holding each code, sublattice after sublattice. -/
def siteCounts (sls : List Sublattice) (x : Occ) : List ℕ :=
  sls.flatMap fun sl => sl.encoding.map fun c => (sl.sites.filter fun s => x s == c).length

theorem siteCounts_eq (sls : List Sublattice) (x : Occ) : siteCounts sls x = countVec false sls x := by
  unfold siteCounts countVec countDimensions
  rw [List.map_flatMap]
  congr 1
  funext sl
  rw [List.map_map]
  rfl

/-- C15. In a run with TableFlip whose rows keep the linear forms `A` (`A u = 0`), `A n` never
changes, where `n` counts the sites (restricted ones too) holding each code. -/
theorem C15_constraints_kept (t : TableFlipper) (n : ℕ) (h : TableOk t n) (hr : TableRows t)
    (ks : List (Kern K)) (dec : Decisions)
    (hdec : ∀ r i x, FullLegal t.sls x → (t.propose n x).Outcome (dec r i x).1)
    (nsteps thin : ℕ) (init : List Occ) (hinit : ∀ o ∈ init, FullLegal t.sls o)
    (out : List (List (Row K))) (hout : sample ks dec nsteps thin init = some out) :
    ∀ rows ∈ out, ∀ (i : ℕ) (row : Row K) (o : Occ), rows[i]? = some row → init[i]? = some o →
      ∀ a ∈ t.A,
        (List.zipWith (fun (a : ℤ) (z : ℕ) => a * z) a (siteCounts t.sls row.occ)).sum =
        (List.zipWith (fun (a : ℤ) (z : ℕ) => a * z) a (siteCounts t.sls o)).sum := by
  simp only [siteCounts_eq]
  intro rows hrows i row o hrow ho
  have hdot : ∀ x st, FullLegal t.sls x → (t.propose n x).Outcome st → ∀ a ∈ t.A,
      (List.zipWith (fun (a : ℤ) (z : ℕ) => a * z) a (countVec false t.sls (applyStep x st))).sum =
      (List.zipWith (fun (a : ℤ) (z : ℕ) => a * z) a (countVec false t.sls x)).sum := by
    intro x st hx hst a ha
    rcases (table_outcome h hx hst).2 with hs | ⟨⟨idx, hg⟩, _⟩
    · rw [dot_shift a (countVec false t.sls x) _ (by rw [countVec_length h, countVec_length h])]
      have hoff : ∀ s, (∀ sl ∈ t.sls, s ∉ sl.active) → x s = applyStep x st s := by
        intro s hs'
        exact (swap_off_active hs s fun sl hsl => hs' sl (activeSublattices_mem hsl)).symm
      rw [full_minus_active h.sls hoff, ← countVec_eq_of_same h
        (outcome_swap_same (activeSitesOk h.sitesOk) (fun _ h => h) hs)]
      have hzero : ∀ (l : List ℕ) (a : List ℤ), (List.zipWith (· * ·) a
          (List.zipWith (fun (a b : ℕ) => (b : ℤ) - a) l l)).sum = 0 := by
        intro l
        induction l with
        | nil => simp
        | cons z l ih =>
          intro a
          cases a with
          | nil => simp
          | cons b a => simp only [List.zipWith_cons_cons, List.sum_cons, ih]; simp
      rw [hzero, add_zero]
    · have := constraints_along h hr hg.lt hg.feas hg.leads
      rw [List.map_inj_left] at this
      exact this a ha
  have := sample_occ_inv ks dec (fun i x => FullLegal t.sls x ∧ ∀ o, init[i]? = some o → ∀ a ∈ t.A,
    (List.zipWith (fun (a : ℤ) (z : ℕ) => a * z) a (countVec false t.sls x)).sum =
        (List.zipWith (fun (a : ℤ) (z : ℕ) => a * z) a (countVec false t.sls o)).sum)
    ?_ nsteps thin init out ?_ hout rows hrows i row hrow
  · exact this.2 o ho
  · rintro r i x ⟨h1, h2⟩ _
    have hst := hdec r i x h1
    refine ⟨h1.apply h (table_flips h h1 hst), fun o ho a ha => ?_⟩
    rw [hdot x _ h1 hst a ha, h2 o ho a ha]
  · intro i o ho
    refine ⟨hinit o (List.mem_of_getElem? ho), fun o' ho' a _ => ?_⟩
    rw [ho, Option.some.injEq] at ho'
    rw [ho']

end Runs

/-! ### The hypotheses can be met -/

/-- Decisions of a properly built usher: some step that can be proposed, accepted in even
rounds. -/
theorem decisions_exist (sls : List Sublattice) (h : SublatticesOk sls) (us : ℕ → Usher)
    (hu : ∀ i, (us i).Over sls) (hb : ∀ i, (us i).Built) :
    ∃ dec : Decisions, (∀ r i x, FullLegal sls x → ((us i).propose x).Outcome (dec r i x).1) ∧
      ∀ r i x, (dec r i x).2 = decide (r % 2 = 0) := by
  classical
  refine ⟨fun r i x => (if hx : FullLegal sls x then
    ((proper_tree h (us i) (hu i) (hb i) x hx).exists).choose else [], decide (r % 2 = 0)), ?_,
    fun _ _ _ => rfl⟩
  intro r i x hx
  simp only [dif_pos hx]
  exact ((proper_tree h (us i) (hu i) (hb i) x hx).exists).choose_spec

/-- C01, C13: an ensemble with a chemical potential on a three-site processor, run with a compound
usher with two walkers -/
example : ∃ dec : Decisions, (∀ r i x, FullLegal [tripleSublattice] x →
      (exampleUsher.propose x).Outcome (dec r i x).1) ∧
    SublatticesOk [tripleSublattice] ∧ exampleUsher.Over [tripleSublattice] ∧
    FullLegal [tripleSublattice] oneOne ∧
    (⟨false, [2], fun o => [(o 0 : ℚ) * o 1 + o 2],
      fun o f => [((applyStep o f 0 : ℚ) * applyStep o f 1 + applyStep o f 2) -
        ((o 0 : ℚ) * o 1 + o 2)]⟩ : PartProc ℚ).Exact (· < 3) ∧
    ∃ out : List (List (Row ℚ)), sample (List.replicate 2 (Kern.ofEnsemble
      ⟨[2], [2, -1], some ⟨[(7, 1), (8, 3)], fun _ c => if c = 0 then 1 else 3⟩, none,
        [tripleSublattice]⟩
      ⟨false, [2], fun o => [(o 0 : ℚ) * o 1 + o 2],
        fun o f => [((applyStep o f 0 : ℚ) * applyStep o f 1 + applyStep o f 2) -
          ((o 0 : ℚ) * o 1 + o 2)]⟩ 3 none fun _ _ => 0)) dec 10 3 [allZero, oneOne] = some out := by
  obtain ⟨dec, h1, _⟩ := decisions_exist [tripleSublattice] triple_ok (fun _ => exampleUsher)
    (fun _ => exampleUsher_over) fun _ => exampleUsher_built
  refine ⟨dec, h1, triple_ok, exampleUsher_over, legal_triple _ fun s _ => oneOne_lt s,
    ⟨fun _ _ => rfl, ?_⟩, _, rfl⟩
  intro occ flips occ' _ h
  rw [(reachedBy_iff _ _ _).1 h]; rfl

/-- C14: a swap inside a MultiStep -/
example : (Usher.multi .shared [2] [1] (.swap .shared [pairSublattice] [1])).SwapsOnly
    (activeSublattices [pairSublattice]) := by
  show ∀ sl ∈ _, _; decide

/-- C15: a table with a nonempty constraint, over two sublattices, and a legal occupancy -/
def chargeTable : TableFlipper :=
  (TableFlipper.new [Sublattice.new [1, 2] [0, 1], Sublattice.new [3, 4] [2, 3]]
    [[-1, 1, -1, 1]] none (1 / 10) [[1, 3, -1, -3]] [0]).getD
    ⟨[], [], [], 0, ⟨0, 0, fun _ _ => 0⟩, ⟨0, 0, fun _ _ => 0⟩, [], [], []⟩

example : TableOk chargeTable 4 ∧ TableRows chargeTable ∧ chargeTable.A = [[1, 3, -1, -3]] ∧
    FullLegal chargeTable.sls (fun _ => 0) ∧
    (chargeTable.propose 4 fun _ => 0).Outcome [(1, 1), (2, 1)] := by
  have hn : TableFlipper.new [Sublattice.new [1, 2] [0, 1], Sublattice.new [3, 4] [2, 3]]
    [[-1, 1, -1, 1]] none (1 / 10) [[1, 3, -1, -3]] [0] = some chargeTable := rfl
  have hok : SublatticesOk [Sublattice.new [1, 2] [0, 1], Sublattice.new [3, 4] [2, 3]] := by
    constructor <;> decide
  obtain ⟨h1, h2, _, h3, _, h5⟩ := tableOk_new hok (by decide) (by decide) hn
  refine ⟨h5, ?_, h3, ?_, outcome_of_results (by decide +kernel)⟩
  · constructor
    · rw [h2]; decide
    · rw [h2]
      intro i j u v hi hj _
      have hi' := (List.getElem?_eq_some_iff.1 hi).1
      have hj' := (List.getElem?_eq_some_iff.1 hj).1
      simp at hi' hj'
      omega
    · rw [h3, h2]; decide
    · decide +kernel
  · rw [h1]
    unfold FullLegal
    decide

end Smol
