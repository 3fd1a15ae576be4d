import Verif.Lemmas.Thermo

/-!
# C85 Sampled averages are the thermodynamic averages of the fitted energy
-/

namespace Smol
open Spec Prog

section Made
variable (E : Expansion ℝ) (hR : E.space.Reachable) (hlen : E.coefs.length = E.numTerms)
  (geom : ℕ → OrbitGeom ℝ) (hg : E.space.FitsGeom geom) (size : ℕ) (hs : size ≠ 0)
  (ext : List (EwaldData ℝ)) (hext : ext.length = E.nExt) (hE : ∀ t ∈ ext, t.WellFormed)
  (h1 : E.nExt ≤ 1) (ty : ProcType) (hty : ty ≠ .other) (p : Proc ℝ)
  (hp : fromExpansion E geom size ext ty = some p) (n : ℕ) (hn : ∀ t ∈ ext, t.numSites = n)

include hR hlen hg hext hE h1 hty hp hn in
theorem made_exact : (∀ occ, (p.toPart.feature occ).length = p.coefs.length) ∧
    (p.toPart.Exact fun s => E.space.Covers geom s ∧ s < n) ∧
    ∀ occ, E.space.Legal geom occ → p.toPart.property occ = E.energy geom size ext occ := by
  obtain ⟨q, hq, hf⟩ := fromExpansion_fits E hR hlen geom hg size ext hext hE h1 ty hty
  obtain rfl : p = q := by rw [hp] at hq; exact Option.some.inj hq
  have hfeat : ∀ occ, (p.toPart.feature occ).length = p.coefs.length := by
    intro occ
    obtain ⟨F, hF, hFl, -⟩ := hf.feature occ
    simp [Proc.toPart, hF, hFl]
  refine ⟨hfeat, ⟨fun x y => by rw [hfeat, hfeat], fun occ flips occ' hA hr => ?_⟩, fun occ ho => ?_⟩
  · obtain ⟨F, hF, -⟩ := hf.feature occ
    obtain ⟨F', hF', -⟩ := hf.feature occ'
    cases hd : p.change occ flips with
    | none =>
      obtain ⟨f, hf1, hf2⟩ := (hf.raises occ flips).1.1 hd
      exact absurd (hA f hf1).1 hf2
    | some d =>
      simp only [Proc.toPart, hd, hF, hF', Option.getD_some]
      exact (hf.change occ flips occ' d F F' hr (fun f hf1 t ht => by
        rw [hn t ht]; exact (hA f hf1).2) hd hF hF').1
  · obtain ⟨F, hF, hFl, hFv⟩ := hf.feature occ
    rw [← hFv ho]
    simp [PartProc.property, Proc.toPart, hF]

/-- The change of enthalpy that the kernel of a sampler computes; 0 where it raises. -/
noncomputable def kernelDelta (s : Session ℝ) (u : LiveUsher) (p : Proc ℝ) (x : Occ) (st : Step) : ℝ :=
  ((s.sampler u).enthalpyChange s p.toPart x st).getD 0

variable (subl : List Sublattice) (e₀ : Ens ℝ) (he₀ : Ens.init p.coefs subl = some e₀)
  (ops : List (EnsOp ℝ)) (s : Session ℝ) (hses : s = (Session.new e₀).run ops)
  (hok : SublatticesOk s.view.subl)
  (hact : ∀ sl ∈ s.view.subl, ∀ t ∈ sl.active, E.space.Covers geom t ∧ t < n)
  (hleg : ∀ x, (∀ sl ∈ s.view.subl, ∀ t ∈ sl.sites, x t ∈ sl.encoding) → E.space.Legal geom x)

include he₀ hses in
theorem session_params : ParamsOk s.view ∧ s.view.coefs = p.coefs := by
  obtain ⟨k1, k2⟩ := session_new_ok e₀
  have hv : s.view = e₀.run ops := by rw [hses, (session_run ops _ k1).2.1, k2]
  rw [hv]
  obtain ⟨e₁, he₁, hc, hm0, hm1, hb⟩ := C17_parameters_in_step p.coefs subl ops
  obtain rfl : e₀ = e₁ := by rw [he₀] at he₁; exact Option.some.inj he₁
  refine ⟨⟨?_, hb⟩, hc⟩
  rw [hc]
  cases hm : (e₀.run ops).mu with
  | none => simpa using hm0 hm
  | some m => simpa using hm1 m hm

include hR hlen hg hext hE h1 hty hp hn he₀ hses hact in
theorem kernelDelta_exact (u : LiveUsher) (x : Occ) (st : Step)
    (hl : LegalStep (activeSublattices s.view.subl) st) :
    (s.sampler u).enthalpyChange s p.toPart x st =
      some (dot s.view.params (s.view.feature p.toPart n (applyStep x st)) -
        dot s.view.params (s.view.feature p.toPart n x)) := by
  obtain ⟨hfeat, hex, -⟩ := made_exact E hR hlen geom hg size ext hext hE h1 ty hty p hp n hn
  obtain ⟨hpar, hco⟩ := session_params p subl e₀ he₀ ops s hses
  have hst : ∀ f ∈ st, (E.space.Covers geom f.1 ∧ f.1 < n) ∧ f.1 < n := by
    intro f hf
    obtain ⟨sl, hsl, ha, -⟩ := hl.flips f hf
    have := hact sl (activeSublattices_mem hsl) f.1 ha
    exact ⟨this, this.2⟩
  have hd := C06_change_is_difference s.view p.toPart n _ hex x (applyStep x st) st hst hl.once
    ((reachedBy_iff _ _ _).2 rfl)
  have hfl : ∀ y, (s.view.feature p.toPart n y).length = s.view.params.length := by
    intro y
    rw [hpar.1, hco]
    unfold Ens.feature
    cases s.view.mu <;> simp [hfeat]
  have hcl : (s.view.change p.toPart x st).length = s.view.params.length := by
    rw [hd]; simp [hfl]
  unfold LiveSampler.enthalpyChange liveDot
  rw [if_pos (show (s.sampler u).params.length = _ from hcl.symm)]
  show some (dot s.view.params (s.view.change p.toPart x st)) = _
  rw [hd, dot_diff _ _ _ (by rw [hfl, hfl])]

include hR hlen hg hext hE h1 hty hp hn he₀ hses hact in
theorem kernelDelta_changes (u : LiveUsher) :
    ExactChanges (activeSublattices s.view.subl)
      (fun x => dot s.view.params (s.view.feature p.toPart n x)) (fun _ => 0) (kernelDelta s u p)
      fun _ _ => 0 where
  dH x st _ hst := by
    unfold kernelDelta
    rw [kernelDelta_exact E hR hlen geom hg size ext hext hE h1 ty hty p hp n hn subl e₀ he₀ ops s hses
      hact u x st hst]
    rfl
  dB x st _ _ := by simp

include hR hlen hg hs hext hE h1 hty hp hn he₀ hses hleg in
theorem enthalpy_value (y : Occ) (hy : FullLegal s.view.subl y) :
    dot s.view.params (s.view.feature p.toPart n y) =
      (E.predictOccu geom size ext false y).getD 0 - match s.view.mu with
        | none => 0
        | some m => chemicalWork m.table n y := by
  obtain ⟨hfeat, -, hval⟩ := made_exact E hR hlen geom hg size ext hext hE h1 ty hty p hp n hn
  obtain ⟨hpar, hco⟩ := session_params p subl e₀ he₀ ops s hses
  rw [C17_enthalpy s.view hpar p.toPart hco.symm hfeat n y, hval y (hleg y hy),
    (C69_prediction E hR hlen geom hg size hs ext hext hE y (hleg y hy)).1]
  cases s.view.mu with
  | none => rfl
  | some m => simp [chemicalWork, list_range_sum]

include he₀ hses in
theorem set_last (ops' : List (EnsOp ℝ)) (v : List (ℕ × ℝ)) (hlast : ops = ops' ++ [.setMu v])
    (hset : ((e₀.run ops').setMu v).isSome) :
    (e₀.run ops').setMu v = some s.view ∧ ParamsOk (e₀.run ops') := by
  obtain ⟨k1, k2⟩ := session_new_ok e₀
  refine ⟨?_, ?_⟩
  · have hv : s.view = e₀.run ops := by rw [hses, (session_run ops _ k1).2.1, k2]
    obtain ⟨e', he'⟩ := Option.isSome_iff_exists.1 hset
    have : e₀.run (ops' ++ [.setMu v]) = (e₀.run ops').step (.setMu v) := by simp [Ens.run]
    rw [hv, hlast, this]
    simp [Ens.step, he']
  · have hk := (session_params p subl e₀ he₀ ops' ((Session.new e₀).run ops') rfl).1
    rwa [(session_run ops' _ k1).2.1, k2] at hk

include hR hlen hg hs hext hE h1 hty hp hn he₀ hses hok hact hleg

/-- **C85**: every step that a sampler made now may propose has its change of enthalpy computed
without an exception; it is the change of the energy that the expansion predicts, minus the change of
`Σ μ N` if chemical potentials are set. -/
theorem C85_change (v : List (ℕ × ℝ))
    (hv : s.view.mu = none ∧ v = [] ∨
      ∃ ops', ops = ops' ++ [.setMu v] ∧ ((e₀.run ops').setMu v).isSome)
    (hsites : ∀ sl ∈ s.view.subl, ∀ t ∈ sl.sites, t < n)
    (hsp : ∀ sl ∈ s.view.subl, sl.encoding.length = sl.species.length)
    (u : LiveUsher) (hu : s.makeFlip none = some u ∨ s.makeSwap none = some u)
    (x : Occ) (hx : ∀ sl ∈ s.view.subl, ∀ t ∈ sl.sites, x t ∈ sl.encoding) (st : Step)
    (hst : ((u.now s.heap).propose x).Outcome st) :
    let act := s.view.subl.filter Sublattice.isActive
    ∃ E0 E1 : ℝ, E.predictOccu geom size ext false x = some E0 ∧
      E.predictOccu geom size ext false (applyStep x st) = some E1 ∧
      (∀ sl ∈ s.view.subl, ∀ t ∈ sl.sites, applyStep x st t ∈ sl.encoding) ∧
      (s.sampler u).enthalpyChange s p.toPart x st =
        some (E1 - E0 - (reservoir v act (applyStep x st) - reservoir v act x)) := by
  intro act
  have hl : LegalStep (activeSublattices s.view.subl) st ∧
      FullLegal s.view.subl (applyStep x st) := by
    have hover : (u.now s.heap).Over s.view.subl := by
      rcases hu with hu | hu
      · rw [((made_now s u).1 hu).1]; intro sl hsl; exact hsl
      · rw [((made_now s u).2 hu).1]; intro sl hsl; exact hsl
    have h1 := tree_legal hok _ hover x hx st hst
    exact ⟨h1, fullLegal_apply hok hx fun f hf => by
      obtain ⟨sl, a, b⟩ := h1.flips f hf
      exact ⟨sl, activeSublattices_mem a, b⟩⟩
  have hw : ∀ y, FullLegal s.view.subl y → (match s.view.mu with
        | none => 0
        | some m => chemicalWork m.table n y) = reservoir v act y := by
    intro y hy
    rcases hv with ⟨hm, rfl⟩ | ⟨ops', hlast, hset⟩
    · rw [hm]; simp [reservoir]
    · obtain ⟨hset, hp₁⟩ := set_last p subl e₀ he₀ ops s hses ops' v hlast hset
      obtain ⟨-, -, hsub, hmu, hnd, hall⟩ := setMu_spec _ s.view v hset hp₁
      rw [hmu]
      dsimp only
      show _ = reservoir v (activeSublattices s.view.subl) y
      rw [hsub] at hok hsp hsites hy ⊢
      exact work_reservoir _ hok hsp v hnd hall n hsites y hy
  have hval := fun y hy => enthalpy_value E hR hlen geom hg size hs ext hext hE h1 ty hty p hp n hn subl
    e₀ he₀ ops s hses hleg y hy
  have hpr := fun y hy => (C69_prediction E hR hlen geom hg size hs ext hext hE y (hleg y hy)).1
  refine ⟨_, _, hpr x hx, hpr _ hl.2, hl.2, ?_⟩
  rw [kernelDelta_exact E hR hlen geom hg size ext hext hE h1 ty hty p hp n hn subl e₀ he₀ ops s hses
      hact u x st hl.1, hval x hx, hval _ hl.2, hpr x hx, hpr _ hl.2, hw x hx, hw _ hl.2]
  simp only [Option.getD_some]
  congr 1
  ring

/-- **C85** (canonical): take an expansion, make a processor and an ensemble from it, restrict or split
its sublattices at will, and make a sampler with the default step type (there are no chemical
potentials, so it swaps).  With one-step thinning, the mean over the samples of any quantity converges
in mean square, with rate `1 / n` from any state, to its average over all configurations of the same
composition, weighted by `exp(-β E)` with the energy that the expansion predicts. -/
theorem C85_canonical (hmu : s.view.mu = none) (u : LiveUsher) (hu : s.makeSwap none = some u)
    (beta : ℝ) (x0 : Occ) (hx0 : ∀ sl ∈ s.view.subl, ∀ t ∈ sl.sites, x0 t ∈ sl.encoding)
    (f : Occ → ℝ) :
    let act := s.view.subl.filter Sublattice.isActive
    let Ω := legalStates act x0 ∩ {y | SameComposition act x0 y}
    ∃ C : ℝ, ∀ k : ℕ, 0 < k → ∀ x ∈ Ω,
      sampleMean (u.now s.heap).propose (kernelAcc beta (kernelDelta s u p) (fun _ _ => 0) (u.now s.heap))
        1 k x (fun l => ((l.map f).sum / k -
          weightedMean (fun y => Real.exp (-beta * (E.predictOccu geom size ext false y).getD 0)) Ω f) ^ 2)
        ≤ C / k := by
  intro act Ω
  obtain ⟨hnow, hne⟩ := (made_now s u).2 hu
  have hl0 : (activeSublattices s.view.subl).length ≠ 0 := fun h => hne (List.length_eq_zero_iff.1 h)
  obtain ⟨hpl, hpos⟩ := even_probs _ hl0
  have hex := kernelDelta_changes E hR hlen geom hg size ext hext hE h1 ty hty p hp n hn subl e₀ he₀
    ops s hses hact u
  have hx0' : LegalOcc (activeSublattices s.view.subl) x0 := fullLegal_legalOcc hok hx0
  have hav := C76_swap_average (activeSublattices s.view.subl) (activeSitesOk (sitesOk_of hok)) .shared _
    (fun sl hsl => by
      have := (List.mem_filter.1 hsl).2
      simpa [Sublattice.isActive] using this)
    hpl hpos beta _ _ _ _ hex x0 hx0' f
  rw [hnow]
  have hw : weightedMean (boltzmann beta (fun x => dot s.view.params (s.view.feature p.toPart n x))
      fun _ => 0) Ω f =
      weightedMean (fun y => Real.exp (-beta * (E.predictOccu geom size ext false y).getD 0)) Ω f := by
    refine weightedMean_congr (fun y hy => ?_) f
    have hy' := legalStates_full hok hx0 hy.1
    unfold boltzmann
    dsimp only
    rw [enthalpy_value E hR hlen geom hg size hs ext hext hE h1 ty hty p hp n hn subl e₀ he₀ ops s hses
      hleg y hy', hmu]
    simp
  rw [← hw]
  exact hav

/-- **C85** (semigrand): the same with chemical potentials and flips, the default step type then.  The
average is over all configurations, weighted by `exp(-β (E - Σ μ N))`; `N` counts the species on the
sublattices that have active sites. -/
theorem C85_semigrand (ops' : List (EnsOp ℝ)) (v : List (ℕ × ℝ)) (hlast : ops = ops' ++ [.setMu v])
    (hset : ((e₀.run ops').setMu v).isSome)
    (hsites : ∀ sl ∈ s.view.subl, ∀ t ∈ sl.sites, t < n)
    (hsp : ∀ sl ∈ s.view.subl, sl.encoding.length = sl.species.length)
    (h2 : ∀ sl ∈ s.view.subl, sl.active ≠ [] → 2 ≤ sl.encoding.length)
    (u : LiveUsher) (hu : s.makeFlip none = some u)
    (beta : ℝ) (x0 : Occ) (hx0 : ∀ sl ∈ s.view.subl, ∀ t ∈ sl.sites, x0 t ∈ sl.encoding)
    (f : Occ → ℝ) :
    let act := s.view.subl.filter Sublattice.isActive
    let Ω := legalStates act x0
    ∃ C : ℝ, ∀ k : ℕ, 0 < k → ∀ x ∈ Ω,
      sampleMean (u.now s.heap).propose (kernelAcc beta (kernelDelta s u p) (fun _ _ => 0) (u.now s.heap))
        1 k x (fun l => ((l.map f).sum / k -
          weightedMean (fun y => Real.exp (-beta * ((E.predictOccu geom size ext false y).getD 0 -
            reservoir v act y))) Ω f) ^ 2)
        ≤ C / k := by
  intro act Ω
  obtain ⟨hnow, hne⟩ := (made_now s u).1 hu
  have hl0 : (activeSublattices s.view.subl).length ≠ 0 := fun h => hne (List.length_eq_zero_iff.1 h)
  obtain ⟨hpl, hpos⟩ := even_probs _ hl0
  have hex := kernelDelta_changes E hR hlen geom hg size ext hext hE h1 ty hty p hp n hn subl e₀ he₀
    ops s hses hact u
  have hx0' : LegalOcc (activeSublattices s.view.subl) x0 := fullLegal_legalOcc hok hx0
  have hne' : ∀ sl ∈ activeSublattices s.view.subl, sl.active ≠ [] := fun sl hsl => by
    have := (List.mem_filter.1 hsl).2
    simpa [Sublattice.isActive] using this
  have hdraw : Drawable (activeSublattices s.view.subl) :=
    ⟨hne', fun sl hsl => ⟨(hok.encoding sl (activeSublattices_mem hsl)).1,
      h2 sl (activeSublattices_mem hsl) (hne' sl hsl)⟩⟩
  have hav := C76_flip_average (activeSublattices s.view.subl) (activeSitesOk (sitesOk_of hok)) .shared _
    hdraw hpl hpos beta _ _ _ _ hex x0 hx0' f
  rw [hnow]
  obtain ⟨hset, hp₁⟩ := set_last p subl e₀ he₀ ops s hses ops' v hlast hset
  obtain ⟨-, -, hsub, hmu, hnd, hall⟩ := setMu_spec _ s.view v hset hp₁
  have hw : weightedMean (boltzmann beta (fun x => dot s.view.params (s.view.feature p.toPart n x))
      fun _ => 0) Ω f =
      weightedMean (fun y => Real.exp (-beta * ((E.predictOccu geom size ext false y).getD 0 -
            reservoir v act y))) Ω f := by
    refine weightedMean_congr (fun y hy => ?_) f
    have hy' := legalStates_full hok hx0 hy
    unfold boltzmann
    dsimp only
    rw [enthalpy_value E hR hlen geom hg size hs ext hext hE h1 ty hty p hp n hn subl e₀ he₀ ops s hses
      hleg y hy', hmu]
    dsimp only
    rw [hsub] at hok hsp hsites hy'
    rw [work_reservoir _ hok hsp v hnd hall n hsites y hy', ← hsub]
    simp only [add_zero]
    rfl
  rw [← hw]
  exact hav

end Made

/-! ### Examples -/

/-- The ring of `ringExpansion` with real numbers. -/
noncomputable def ringGeomR (t : ℕ) : OrbitGeom ℝ :=
  ⟨fun _ b c => if c = b then 1 else 0, (ringGeom t).shape, (ringGeom t).classes, (ringGeom t).rows⟩

noncomputable def ringExpansionR : Expansion ℝ := ⟨ringSpace, 1, [5, 1, 2, 3, 4, 6, 7]⟩

noncomputable def ringEwaldR : EwaldData ℝ :=
  { numSites := 4
    numEwald := (ewaldStructureInds 0 (List.replicate 4 [false, false, true])).2
    matrix := fun i j => (i + 1) * (j + 1)
    inds := ewaldIndex (ewaldStructureInds 0 (List.replicate 4 [false, false, true])).1 }

theorem ringR_ok : ringExpansionR.space.Reachable ∧
    ringExpansionR.coefs.length = ringExpansionR.numTerms ∧
    ringExpansionR.space.FitsGeom ringGeomR ∧ ∀ t ∈ [ringEwaldR], t.WellFormed := by
  refine ⟨ring_fits.1, by
    show 7 = ringSpace.numCorr + 1; decide +kernel, ?_, ?_⟩
  · exact ⟨ring_fits.2.2.1, ring_fits.2.2.2, ring_fits.2.2.3⟩
  · intro t ht
    simp only [List.mem_singleton] at ht
    subst ht
    exact C04_index_array_well_formed (List.replicate 4 [false, false, true]) _ fun i j => by ring

theorem ringR_sites {sl : Sublattice} (h1 : sl.sites = [0, 1, 2, 3]) (h2 : sl.encoding = [0, 1, 2])
    (h3 : ∀ t ∈ sl.active, t ∈ sl.sites) :
    (∀ sl' ∈ [sl], ∀ t ∈ sl'.active, ringExpansionR.space.Covers ringGeomR t ∧ t < 4) ∧
    ∀ x : Occ, (∀ sl' ∈ [sl], ∀ t ∈ sl'.sites, x t ∈ sl'.encoding) →
      ringExpansionR.space.Legal ringGeomR x := by
  refine ⟨?_, ?_⟩
  · have : ∀ s ∈ [0, 1, 2, 3], (∃ o ∈ ringSpace.orbits, ∃ row ∈ (ringGeom o.tag).rows, s ∈ row) ∧
        s < 4 := by decide +kernel
    intro sl' hsl s hs
    simp only [List.mem_singleton] at hsl
    subst hsl
    exact this s (h1 ▸ h3 s hs)
  · intro x hx
    have hlt : ∀ s ∈ [0, 1, 2, 3], x s < 3 := by
      intro s hs
      have := hx sl (by simp) s (h1 ▸ hs)
      rw [h2] at this
      simp only [List.mem_cons, List.not_mem_nil, or_false] at this
      omega
    have hrows : ∀ o ∈ ringSpace.orbits, ∀ row ∈ (ringGeom o.tag).rows,
        row.length = (ringGeom o.tag).shape.length ∧ (∀ d ∈ (ringGeom o.tag).shape, d = 3) ∧
        ∀ s ∈ row, s ∈ [0, 1, 2, 3] := by decide +kernel
    intro o ho row hrow
    obtain ⟨k1, k2, k3⟩ := hrows o ho row hrow
    show List.Forall₂ _ row (ringGeom o.tag).shape
    rw [List.forall₂_iff_get]
    refine ⟨k1, fun i hi hj => ?_⟩
    rw [k2 _ (List.get_mem _ _)]
    exact hlt _ (k3 _ (List.get_mem _ _))

/-- C85: the ring with an electrostatic term and one frozen site.  Everything that `C85_semigrand`
assumes holds with chemical potentials set last, and what `C85_canonical` assumes holds without. -/
example : ∃ (p : Proc ℝ) (e₀ : Ens ℝ) (s s' : Session ℝ) (u u' : LiveUsher),
    fromExpansion ringExpansionR ringGeomR 4 [ringEwaldR] .decomposition = some p ∧
    Ens.init p.coefs [ringSublattice] = some e₀ ∧
    s = (Session.new e₀).run [.restrict [0]] ∧
    s' = (Session.new e₀).run ([.restrict [0]] ++ [.setMu [(1, 1), (2, 3), (100, 0)]]) ∧
    ((e₀.run [.restrict [0]]).setMu [(1, 1), (2, 3), (100, 0)]).isSome ∧
    s.view.mu = none ∧ s.makeSwap none = some u ∧ s'.makeFlip none = some u' ∧
    s.view.subl = [ringSublattice.restrict [0]] ∧ s'.view.subl = [ringSublattice.restrict [0]] ∧
    SublatticesOk s.view.subl ∧
    (∀ sl ∈ s.view.subl, ∀ t ∈ sl.active, ringExpansionR.space.Covers ringGeomR t ∧ t < 4) ∧
    (∀ x : Occ, (∀ sl ∈ s.view.subl, ∀ t ∈ sl.sites, x t ∈ sl.encoding) →
      ringExpansionR.space.Legal ringGeomR x) ∧
    (∀ sl ∈ s.view.subl, ∀ t ∈ sl.sites, t < 4) ∧
    (∀ sl ∈ s.view.subl, sl.encoding.length = sl.species.length) ∧
    (∀ sl ∈ s.view.subl, sl.active ≠ [] → 2 ≤ sl.encoding.length) ∧
    (∀ sl ∈ s.view.subl, ∀ t ∈ sl.sites, (fun i => [0, 1, 1, 2].getD i 0) t ∈ sl.encoding) := by
  obtain ⟨p, hp, -⟩ := fromExpansion_fits ringExpansionR ringR_ok.1 ringR_ok.2.1 ringGeomR
    ringR_ok.2.2.1 4 [ringEwaldR] rfl ringR_ok.2.2.2 (by show 1 ≤ 1; rfl) .decomposition (by decide)
  have he : Ens.init p.coefs [ringSublattice] = some ⟨p.coefs, p.coefs, none, none, [ringSublattice]⟩ := by
    simp [Ens.init, Ens.delMu]
  generalize hdef : (⟨p.coefs, p.coefs, none, none, [ringSublattice]⟩ : Ens ℝ) = e₀ at he
  obtain ⟨k1, k2⟩ := session_new_ok e₀
  have hr : e₀.run [.restrict [0]] =
      ⟨p.coefs, p.coefs, none, none, [ringSublattice.restrict [0]]⟩ := by
    subst hdef; rfl
  have hset : ((e₀.run [.restrict [0]]).setMu [(1, 1), (2, 3), (100, 0)]).isSome := by
    rw [hr]
    obtain ⟨e', h⟩ := (C17_set_succeeds_iff
      (⟨p.coefs, p.coefs, none, none, [ringSublattice.restrict [0]]⟩ : Ens ℝ)
      ⟨by simp, rfl⟩ [(1, 1), (2, 3), (100, 0)]).1.2 ⟨by decide, by
        intro sl hsl _ sp hsp
        simp only [List.mem_singleton] at hsl
        subst hsl
        have : sp ∈ [1, 2, 100] := hsp
        simp only [List.mem_cons, List.not_mem_nil, or_false] at this
        rcases this with rfl | rfl | rfl
        · exact ⟨1, by simp⟩
        · exact ⟨3, by simp⟩
        · exact ⟨0, by simp⟩⟩
    rw [h]; rfl
  have hv : ((Session.new e₀).run [.restrict [0]]).view = e₀.run [.restrict [0]] := by
    rw [(session_run _ _ k1).2.1, k2]
  obtain ⟨hs1, hp1⟩ := set_last p [ringSublattice] e₀ he _ _ rfl [.restrict [0]]
    [(1, 1), (2, 3), (100, 0)] rfl hset
  have hsub := (setMu_spec _ _ _ hs1 hp1).2.2.1
  have hone : activeSublattices [ringSublattice.restrict [0]] = [ringSublattice.restrict [0]] := by
    decide +kernel
  have hview : ((Session.new e₀).run [.restrict [0]]).view.subl = [ringSublattice.restrict [0]] := by
    rw [hv, hr]
  have hview' := hsub
  rw [hr] at hview'
  have hmake : ∀ s : Session ℝ, s.view.subl = [ringSublattice.restrict [0]] →
      (∃ u, s.makeFlip none = some u) ∧ ∃ u, s.makeSwap none = some u := by
    intro s hs
    have hl : s.activeRefs.length = 1 := by
      have : s.activeRefs.map (lookSl s.heap) = activeSublattices s.view.subl := by
        unfold Session.activeRefs activeSublattices Session.view
        rw [List.filter_map]
        rfl
      rw [hs, hone] at this
      simpa using congrArg List.length this
    unfold Session.makeFlip Session.makeSwap
    rw [hl]
    exact ⟨⟨_, rfl⟩, ⟨_, rfl⟩⟩
  obtain ⟨u', hu'⟩ := (hmake _ hview').1
  obtain ⟨u, hu⟩ := (hmake _ hview).2
  obtain ⟨g1, g2⟩ := ringR_sites (sl := ringSublattice.restrict [0]) rfl rfl (by decide +kernel)
  refine ⟨p, e₀, _, _, u, u', hp, he, rfl, rfl, hset, by rw [hv, hr], hu, hu', hview, hview', ?_, ?_, ?_,
    ?_, ?_, ?_, ?_⟩ <;> rw [hview]
  · constructor <;> decide +kernel
  · exact g1
  · exact g2
  all_goals decide +kernel

end Smol
