import Verif.Lemmas.Ensemble
import Verif.Props.Processor
import Verif.Props.Energy
import Verif.Props.OccuUtils
import Verif.Props.Sublattice

/-!
# C06 Ensemble feature changes, C17 chemical potentials
-/

namespace Smol
open Spec

set_option linter.unusedSectionVars false

/-! ### C06 -/

section C06
variable {K : Type*} [CommRing K]

/-- A processor whose reported change is the difference of its feature vectors, for all
occupancies and all flips of sites in `A`. -/
def PartProc.Exact (p : PartProc K) (A : ℕ → Prop) : Prop :=
  (∀ occ occ', (p.feature occ).length = (p.feature occ').length) ∧
  ∀ occ flips occ', (∀ f ∈ flips, A f.1) → ReachedBy occ flips occ' →
    p.change occ flips = List.zipWith (· - ·) (p.feature occ') (p.feature occ)

/-- C06. With or without chemical potentials, the ensemble's feature change is the difference of
its feature vectors, for every step with distinct sites. -/
theorem C06_change_is_difference (e : Ens K) (p : PartProc K) (n : ℕ) (A : ℕ → Prop)
    (hp : p.Exact A) (occ occ' : Occ) (step : Step) (hs : ∀ f ∈ step, A f.1 ∧ f.1 < n) (hd : (step.map Prod.fst).Nodup)
    (hr : ReachedBy occ step occ') :
    e.change p occ step = List.zipWith (· - ·) (e.feature p n occ') (e.feature p n occ) := by
  unfold Ens.change Ens.feature
  cases e.mu with
  | none => exact hp.2 occ step occ' (fun f hf => (hs f hf).1) hr
  | some m =>
    simp only
    rw [List.zipWith_append (hp.1 occ' occ), hp.2 occ step occ' (fun f hf => (hs f hf).1) hr]
    congr 1
    rw [(reachedBy_iff _ _ _).1 hr, chemicalWork_step m.table n occ step (fun f hf => (hs f hf).2) hd]
    simp

/-- C06. The last entry is the chemical work: with chemical potentials set, the feature vector is
the processor's followed by the sum over sites of the table entry of the species held. -/
theorem C06_last_entry_is_work (e : Ens K) (p : PartProc K) (n : ℕ) (occ : Occ) (m : ChemPots K)
    (hm : e.mu = some m) :
    e.feature p n occ = p.feature occ ++ [∑ s ∈ Finset.range n, m.table s (occ s)] := by
  simp only [Ens.feature, hm, chemicalWork]
  rw [← list_range_sum]

/-- C06, the claim is false for steps naming a site twice (such a step is not refused): site 0 goes
from species 0 to 1 and back; the features do not change, the reported work change is `μ₁ - μ₀`. -/
theorem C06_repeated_site_fails :
    ∃ (e : Ens ℚ) (p : PartProc ℚ) (occ occ' : Occ) (step : Step), p.Exact (· < 1) ∧
      (∀ f ∈ step, f.1 < 1) ∧ ReachedBy occ step occ' ∧
      e.change p occ step ≠ List.zipWith (· - ·) (e.feature p 1 occ') (e.feature p 1 occ) := by
  refine ⟨⟨[1], [1, -1], some ⟨[(0, 2), (1, 5)], fun _ c => if c = 0 then 2 else 5⟩, none, []⟩,
    ⟨false, [1], fun o => [(o 0 : ℚ)], fun o f => [(applyStep o f 0 : ℚ) - o 0]⟩,
    fun _ => 0, fun _ => 0, [(0, 1), (0, 0)], ⟨fun _ _ => rfl, ?_⟩, by simp, ?_, ?_⟩
  · intro occ flips occ' _ h
    rw [(reachedBy_iff _ _ _).1 h]; rfl
  · rw [reachedBy_iff]; funext s; simp only [applyStep, Function.update_apply]; split <;> rfl
  · norm_num [Ens.change, Ens.feature, chemicalWorkChange, chemicalWork, applyStep]

end C06

section Parts
variable {K : Type*} [Field K]

/-- The expansion processor as a part. -/
def CEProcessor.toPart (P : CEProcessor K) (coefs : List K) : PartProc K where
  scalar := false
  coefs := coefs
  feature occ := (List.range P.numCorr).map (P.featureVector occ)
  change occ flips := (List.range P.numCorr).map ((P.featureVectorChange occ flips).getD fun _ => 0)

/-- The decomposition processor as a part. -/
def CDProcessor.toPart (P : CDProcessor K) (coefs : List K) : PartProc K where
  scalar := false
  coefs := coefs
  feature occ := (List.range P.numOrbits).map (P.featureVector occ)
  change occ flips :=
    (List.range P.numOrbits).map ((P.featureVectorChange occ flips).getD fun _ => 0)

/-- The Ewald processor as a part. -/
def EwaldData.toPart (E : EwaldData K) (coef : K) : PartProc K where
  scalar := true
  coefs := [coef]
  feature occ := [E.featureVector occ]
  change occ flips := [E.featureVectorChange occ flips]

/-- C06. The hypothesis of `C06_change_is_difference` holds for all three kinds of processors of
C02–C04, for the sites that are in some cluster. -/
theorem C06_processors_exact [CharZero K] :
    (∀ (P : CEProcessor K) (coefs : List K) (A : ℕ → Prop), P.WellFormed →
      (∀ s, A s → ∃ p ∈ P.orbits, ∃ cl ∈ p.2, s ∈ cl) → (P.toPart coefs).Exact A) ∧
    (∀ (P : CDProcessor K) (coefs : List K) (A : ℕ → Prop), P.WellFormed →
      (∀ s, A s → ∃ p ∈ P.orbits, ∃ cl ∈ p.2, s ∈ cl) → (P.toPart coefs).Exact A) ∧
    (∀ (E : EwaldData K) (coef : K), E.WellFormed → (E.toPart coef).Exact (· < E.numSites)) := by
  have hz : ∀ (f g : ℕ → K) (l : List ℕ),
      List.zipWith (· - ·) (l.map f) (l.map g) = l.map fun i => f i - g i := by
    intro f g l; rw [List.zipWith_map, List.zipWith_self]
  refine ⟨?_, ?_, ?_⟩
  · intro P coefs A hP hcov
    refine ⟨fun _ _ => by simp [CEProcessor.toPart], ?_⟩
    intro occ flips occ' hs hr
    cases hc : P.featureVectorChange occ flips with
    | none =>
      obtain ⟨f, hf, hno⟩ := (C02_change_error_iff P occ flips).1 hc
      obtain ⟨p, hp, cl, hcl, hm⟩ := hcov f.1 (hs f hf)
      exact absurd hm (hno p hp cl hcl)
    | some d =>
      simp only [CEProcessor.toPart, hc, Option.getD_some, hz]
      exact List.map_congr_left fun i _ => C02_change_is_difference P hP occ occ' flips hr d hc i
  · intro P coefs A hP hcov
    refine ⟨fun _ _ => by simp [CDProcessor.toPart], ?_⟩
    intro occ flips occ' hs hr
    cases hc : P.featureVectorChange occ flips with
    | none =>
      obtain ⟨f, hf, hno⟩ := (C03_change_error_iff P occ flips).1 hc
      obtain ⟨p, hp, cl, hcl, hm⟩ := hcov f.1 (hs f hf)
      exact absurd hm (hno p hp cl hcl)
    | some d =>
      simp only [CDProcessor.toPart, hc, Option.getD_some, hz]
      exact List.map_congr_left fun i _ => C03_change_is_difference P hP occ occ' flips hr d hc i
  · intro E coef hE
    refine ⟨fun _ _ => rfl, ?_⟩
    intro occ flips occ' hs hr
    simp [EwaldData.toPart, C04_change_is_difference E hE occ occ' flips hs hr]

end Parts

/-- hypotheses met: the ring expansion of C02, three sites, a two-site step -/
example : (exampleCE.toPart [1, 2, 3]).Exact (· < 3) ∧
    (([(0, 1), (2, 1)] : Step).map Prod.fst).Nodup := by
  refine ⟨C06_processors_exact.1 _ _ _ ?_ ?_, by decide⟩
  · constructor
    · decide
    · intro p hp; simp [exampleCE] at hp; rcases hp with rfl | rfl <;> simp
  · intro s hs
    refine ⟨exampleCE.orbits[0], by simp [exampleCE], ?_⟩
    have : s = 0 ∨ s = 1 ∨ s = 2 := by omega
    rcases this with rfl | rfl | rfl <;> simp [exampleCE]

/-! ### C17 -/

section C17
variable {K : Type*} [CommRing K] [DecidableEq K]

/-- C17. Whatever is done to an ensemble after its construction (setting, re-setting, deleting
chemical potentials, restricting, resetting, splitting, including operations that raise), the
energy coefficients are unchanged, the natural parameters are these coefficients followed by one
`-1` exactly when chemical potentials are set, and the thermodynamic boundary records the values
in use. -/
theorem C17_parameters_in_step (coefs : List K) (subl : List Sublattice) (ops : List (EnsOp K)) :
    ∃ e₀, Ens.init coefs subl = some e₀ ∧
      let e := e₀.run ops
      e.coefs = coefs ∧ (e.mu = none → e.params = coefs) ∧
      (∀ m, e.mu = some m → e.params = coefs ++ [-1]) ∧
      e.boundary = e.mu.map ChemPots.value := by
  have hp : ParamsOk (⟨coefs, coefs, none, none, subl⟩ : Ens K) := ⟨by simp, rfl⟩
  refine ⟨⟨coefs, coefs, none, none, subl⟩, ?_, ?_⟩
  · simp only [Ens.init]
    rw [delMu_spec _ hp]
  · obtain ⟨⟨h1, h2⟩, h3⟩ := run_paramsOk ops _ hp
    simp only
    rw [h3] at h1
    refine ⟨h3, ?_, ?_, h2⟩
    · intro hm; simpa [hm] using h1
    · intro m hm; simpa [hm] using h1

/-- C17. Setting succeeds exactly when no species is given twice and every species of an active
sublattice is given; species not on active sublattices are ignored; a failed attempt changes
nothing. -/
theorem C17_set_succeeds_iff (e : Ens K) (hp : ParamsOk e) (v : List (ℕ × K)) :
    ((∃ e', e.setMu v = some e') ↔
      (v.map Prod.fst).Nodup ∧ ∀ sl ∈ e.subl, sl.active ≠ [] → ∀ sp ∈ sl.species,
        ∃ x, (sp, x) ∈ v) ∧
    (e.setMu v = none → e.step (.setMu v) = e) := by
  have hsp : (∀ sp ∈ e.species, sp ∈ v.map Prod.fst) ↔
      ∀ sl ∈ e.subl, sl.active ≠ [] → ∀ sp ∈ sl.species, ∃ x, (sp, x) ∈ v := by
    simp only [Ens.species, Ens.activeSubl, List.mem_flatMap, List.mem_filter,
      Sublattice.isActive, List.mem_map, Prod.exists, Bool.not_eq_true', List.isEmpty_eq_false_iff]
    constructor
    · intro h sl hsl ha sp hm
      obtain ⟨a, b, hab, rfl⟩ := h sp ⟨sl, ⟨hsl, ha⟩, hm⟩
      exact ⟨b, hab⟩
    · rintro h sp ⟨sl, ⟨hsl, ha⟩, hm⟩
      obtain ⟨x, hx⟩ := h sl hsl ha sp hm
      exact ⟨sp, x, hx, rfl⟩
  constructor
  · rw [← hsp]
    constructor
    · rintro ⟨e', he⟩
      obtain ⟨_, _, _, _, h1, h2⟩ := setMu_spec e e' v he hp
      exact ⟨h1, h2⟩
    · rintro ⟨h1, h2⟩
      exact setMu_none e v hp h1 h2
  · intro h; simp [Ens.step, h]

/-- `x` is the chemical potential given for `sp` in the dictionary `v`. -/
def Given (v : List (ℕ × K)) (sp : ℕ) (x : K) : Prop := (sp, x) ∈ v

omit [DecidableEq K] in
theorem potOf_given (v : List (ℕ × K)) (hnd : (v.map Prod.fst).Nodup) (sp : ℕ) (x : K)
    (h : Given v sp x) : potOf v sp = x := by
  unfold potOf
  unfold Given at h
  induction v with
  | nil => cases h
  | cons p v ih =>
    rw [List.map_cons, List.nodup_cons] at hnd
    obtain ⟨a, b⟩ := p
    rw [List.lookup_cons]
    rcases List.mem_cons.1 h with h1 | h1
    · simp only [Prod.mk.injEq] at h1
      obtain ⟨rfl, rfl⟩ := h1
      simp
    · have : sp ≠ a := by
        rintro rfl
        exact hnd.1 (List.mem_map.2 ⟨_, h1, rfl⟩)
      have hb : (sp == a) = false := by simpa using this
      rw [hb]
      exact ih hnd.2 h1

/-- The table prices site `s` with code `c` as the dictionary `v` says for the species that has
this code on the sublattice `sl`. -/
def PricesSublattice (v : List (ℕ × K)) (table : ℕ → ℕ → K) (sl : Sublattice) : Prop :=
  ∀ s ∈ sl.sites, ∀ (i c sp : ℕ) (x : K), sl.encoding[i]? = some c → sl.species[i]? = some sp →
    Given v sp x → table s c = x

/-- C17. After setting chemical potentials the table prices every sublattice that is active with
the values given, and keeps doing so through any further sequence of restrictions and resets. -/
theorem C17_table_prices_active (e e' : Ens K) (hp : ParamsOk e) (hok : SublatticesOk e.subl)
    (v : List (ℕ × K)) (h : e.setMu v = some e') (ops : List SubOp) :
    let e'' := e'.run (ops.map fun
      | .restrict xs => .restrict xs
      | .reset => .reset)
    ∃ m, e''.mu = some m ∧ List.Forall₂ (fun sl₀ sl =>
        sl₀.sites = sl.sites ∧ (sl₀.active ≠ [] → PricesSublattice v m.table sl)) e.subl e''.subl := by
  obtain ⟨_, _, hsub, hmu, hnd, hall⟩ := setMu_spec e e' v h hp
  have run_eq : ∀ (ops : List SubOp) (e' : Ens K), let e'' := e'.run (ops.map fun
      | .restrict xs => .restrict xs
      | .reset => .reset)
      e''.mu = e'.mu ∧ e''.subl = e'.subl.map fun sl => sl.run ops := by
    intro ops
    induction ops with
    | nil => intro e'; simp [Ens.run, Sublattice.run]
    | cons op ops ih =>
      intro e'
      simp only [List.map_cons, Ens.run, List.foldl_cons] at ih ⊢
      have := ih (e'.step (match op with
        | .restrict xs => .restrict xs
        | .reset => .reset))
      refine ⟨this.1.trans ?_, this.2.trans ?_⟩
      · cases op <;> rfl
      · cases op <;> simp [Ens.step, Sublattice.run, Sublattice.step, Function.comp_def]
  obtain ⟨r1, r2⟩ := run_eq ops e'
  simp only at r1 r2 ⊢
  refine ⟨_, r1.trans hmu, ?_⟩
  rw [r2, hsub, List.forall₂_map_right_iff, List.forall₂_same]
  intro sl hsl
  obtain ⟨f1, f2, f3⟩ := run_fixed sl ops
  refine ⟨f1.symm, fun hact => ?_⟩
  intro s hs i c sp x hi hspi hx
  rw [f1] at hs
  rw [f3] at hi
  rw [f2] at hspi
  have hmemA : sl ∈ e.activeSubl := by
    simp only [Ens.activeSubl, List.mem_filter, Sublattice.isActive, Bool.not_eq_true',
      List.isEmpty_eq_false_iff]
    exact ⟨hsl, hact⟩
  have hdisj : e.activeSubl.Pairwise fun x y => ∀ s ∈ x.sites, s ∉ y.sites :=
    hok.disjoint.sublist List.filter_sublist
  simp only [buildTable]
  rw [buildTable_fold _ _ _ hdisj sl hmemA s c hs (List.mem_of_getElem? hi)]
  have hidx : sl.encoding.idxOf c = i := by
    have hlt := (List.getElem?_eq_some_iff.1 hi).1
    have := (List.getElem?_eq_some_iff.1 hi).2
    rw [← this]
    exact (hok.encoding sl hsl).1.idxOf_getElem i hlt
  rw [hidx, List.getD_eq_getElem?_getD, hspi, Option.getD_some]
  have hspm : sp ∈ e.species :=
    List.mem_flatMap.2 ⟨sl, hmemA, List.mem_of_getElem? hspi⟩
  have hx' : Given (v.filter fun p => decide (p.1 ∈ e.species)) sp x :=
    List.mem_filter.2 ⟨hx, by simpa using hspm⟩
  refine potOf_given _ ?_ sp x hx'
  exact hnd.sublist (List.filter_sublist.map _)

theorem sublattices_perm_ok {a b : List Sublattice} (hok : SublatticesOk a)
    (hp : (b.flatMap Sublattice.sites).Perm (a.flatMap Sublattice.sites)) (hb : b ≠ [])
    (hact : ∀ sl ∈ b, sl.active.Nodup ∧ ∀ s ∈ sl.active, s ∈ sl.sites)
    (henc : ∀ sl ∈ b, sl.encoding.Nodup ∧ sl.encoding ≠ []) : SublatticesOk b := by
  have hn : (a.flatMap Sublattice.sites).Nodup := by
    rw [List.nodup_flatMap]
    exact ⟨fun sl h => (hok.nodup sl h).1, hok.disjoint.imp fun {x y} h s h1 h2 => h s h1 h2⟩
  have hnb := hp.nodup_iff.2 hn
  rw [List.nodup_flatMap] at hnb
  have hsum : ∀ l : List Sublattice, (l.map fun sl => sl.sites.length).sum =
      (l.flatMap Sublattice.sites).length := fun l => by
    rw [List.length_flatMap]
  refine ⟨hb, fun sl hsl s hs => ?_, hnb.2.imp fun {x y} h s h1 h2 => h h1 h2,
    fun sl hsl => ⟨hnb.1 sl hsl, (hact sl hsl).1⟩, fun sl hsl => (hact sl hsl).2, henc⟩
  rw [hsum, hp.length_eq, ← hsum]
  have : s ∈ a.flatMap Sublattice.sites := hp.mem_iff.1 (List.mem_flatMap.2 ⟨sl, hsl, hs⟩)
  obtain ⟨sl', h1, h2⟩ := List.mem_flatMap.1 this
  exact hok.range sl' h1 s h2

/-- C17. A successful split replaces the sublattice by its parts and nothing else: the sublattices
still partition the sites, the parameters stay as they were, and if chemical potentials are set the
new table prices every active sublattice with the same values. -/
theorem C17_split_replaces (e e' : Ens K) (hp : ParamsOk e) (hok : SublatticesOk e.subl)
    (hlen : ∀ sl ∈ e.subl, sl.encoding.length = sl.species.length)
    (id : ℕ) (occ : Occ) (parts : List (List ℕ)) (h : e.split id occ parts = (e', true))
    (hocc : ∀ sl ∈ e.subl, ∀ s ∈ sl.sites, occ s ∈ sl.encoding)
    (hparts : ∀ sl, e.subl[id]? = some sl → parts.flatten.Perm sl.encoding)
    (hne : ∀ p ∈ parts, p ≠ []) :
    (∃ sl splits, e.subl[id]? = some sl ∧ List.Forall₂ (IsSplitPart sl occ) parts splits ∧
      e'.subl = e.subl.take id ++ splits ++ e.subl.drop (id + 1)) ∧
    (e'.subl.flatMap Sublattice.sites).Perm (e.subl.flatMap Sublattice.sites) ∧
    SublatticesOk e'.subl ∧ e'.coefs = e.coefs ∧ e'.params = e.params ∧
    (e.mu = none → e'.mu = none) ∧
    ∀ m, e.mu = some m → (m.value.map Prod.fst).Nodup → ∃ m', e'.mu = some m' ∧
      ∀ sl ∈ e'.subl, sl.active ≠ [] → PricesSublattice m.value m'.table sl := by
  unfold Ens.split at h
  cases hsl : e.subl[id]? with
  | none => simp [hsl] at h
  | some sl =>
    have hmem : sl ∈ e.subl := List.mem_of_getElem? hsl
    simp only [hsl] at h
    cases hsp : sl.split occ parts with
    | none => simp [hsp] at h
    | some splits =>
      simp only [hsp] at h
      set e1 : Ens K := { e with subl := e.subl.take id ++ splits ++ e.subl.drop (id + 1) } with he1
      have hF := C16_split_parts sl (hlen sl hmem) (hok.active sl hmem) occ parts splits hsp
      have hpp := hparts sl hsl
      obtain ⟨q1, q2⟩ := C16_split_partitions_sites sl (hlen sl hmem) (hok.active sl hmem)
        (hok.nodup sl hmem).1 occ parts splits hsp (hocc sl hmem) hpp (hok.encoding sl hmem).1
      have hlt : id < e.subl.length := (List.getElem?_eq_some_iff.1 hsl).1
      have hdec : e.subl = e.subl.take id ++ sl :: e.subl.drop (id + 1) := by
        have h1 := (List.getElem?_eq_some_iff.1 hsl).2
        rw [← h1, ← List.drop_eq_getElem_cons hlt, List.take_append_drop]
      have hperm : (e1.subl.flatMap Sublattice.sites).Perm (e.subl.flatMap Sublattice.sites) := by
        conv_rhs => rw [hdec]
        simp only [he1, List.flatMap_append, List.flatMap_cons]
        rw [List.append_assoc]
        exact List.Perm.append_left _ (List.Perm.append_right _ q1)
      have hpart : ∀ p ∈ splits, ∃ codes ∈ parts, IsSplitPart sl occ codes p := by
        clear hsp h he1 e1 hperm q1 q2 hpp hparts hne
        induction hF with
        | nil => simp
        | cons h1 _ ih =>
          intro p hp
          rcases List.mem_cons.1 hp with rfl | hp
          · exact ⟨_, List.mem_cons_self .., h1⟩
          · obtain ⟨c, hc, h2⟩ := ih p hp
            exact ⟨c, List.mem_cons_of_mem _ hc, h2⟩
      have hcn : ∀ codes ∈ parts, codes.Nodup := by
        intro codes hc
        exact (List.nodup_flatten.1 (hpp.nodup_iff.2 (hok.encoding sl hmem).1)).1 codes hc
      have hcase : ∀ p ∈ e1.subl, p ∈ e.subl ∨ p ∈ splits := by
        intro p hp
        simp only [he1, List.mem_append] at hp
        rcases hp with (hp | hp) | hp
        · exact Or.inl (List.mem_of_mem_take hp)
        · exact Or.inr hp
        · exact Or.inl (List.mem_of_mem_drop hp)
      have hok1 : SublatticesOk e1.subl := by
        refine sublattices_perm_ok hok hperm ?_ (fun p hp => ?_) fun p hp => ?_
        · have hs : splits ≠ [] := by
            rintro rfl
            exact (hok.encoding sl hmem).2 (by simpa using q2)
          simp [he1, hs]
        · rcases hcase p hp with hp | hp
          · exact ⟨(hok.nodup p hp).2, hok.active p hp⟩
          · obtain ⟨codes, hc, hi⟩ := hpart p hp
            refine ⟨hi.activeNodup (hok.nodup sl hmem).2 (hcn codes hc), fun s hs => ?_⟩
            have := (hi.active s).1 hs
            exact (hi.sites s).2 ⟨hok.active sl hmem s this.1, this.2.1⟩
        · rcases hcase p hp with hp | hp
          · exact hok.encoding p hp
          · obtain ⟨codes, hc, hi⟩ := hpart p hp
            refine ⟨hi.encoding.nodup_iff.2 (hcn codes hc), fun h0 => ?_⟩
            have := hi.encoding
            rw [h0] at this
            exact hne codes hc this.symm.eq_nil
      have hp1 : ParamsOk e1 := hp
      cases hm : e.mu with
      | none =>
        have hm1 : e1.mu = none := hm
        simp only [hm, Prod.mk.injEq, and_true] at h
        subst h
        exact ⟨⟨sl, splits, rfl, hF, rfl⟩, hperm, hok1, rfl, rfl, fun _ => hm1,
          fun m h => absurd h (by simp)⟩
      | some m =>
        have hm1 : e1.mu = some m := hm
        simp only [hm] at h
        split_ifs at h with hbad
        · simp at h
        cases hset : e1.setMu (e1.species.dedup.map fun sp => (sp, potOf m.value sp)) with
        | none => simp [hset] at h
        | some e2 =>
          simp only [hset, Prod.mk.injEq, and_true] at h
          subst h
          obtain ⟨s1, s2, s3, s4, -⟩ := setMu_spec e1 e2 _ hset hp1
          refine ⟨⟨sl, splits, rfl, hF, s3⟩, by rw [s3]; exact hperm, by rw [s3]; exact hok1, s2, ?_,
            fun h => absurd h (by simp), ?_⟩
          · rw [s1.1, s4, hp.1, hm, s2]
            rfl
          · intro m0 hm0 hnd
            simp only [Option.some.injEq] at hm0
            subst hm0
            obtain ⟨m', t1, t2⟩ := C17_table_prices_active e1 e2 hp1 hok1 _ hset []
            simp only [List.map_nil] at t1 t2
            refine ⟨m', t1, ?_⟩
            rw [s3]
            change List.Forall₂ _ e1.subl e2.subl at t2
            rw [s3, List.forall₂_same] at t2
            intro p hp ha s hs i c sp x hi hspi hx
            refine (t2 p hp).2 ha s hs i c sp x hi hspi ?_
            refine List.mem_map.2 ⟨sp, ?_, by rw [potOf_given _ hnd sp x hx]⟩
            rw [List.mem_dedup]
            refine List.mem_flatMap.2 ⟨p, ?_, List.mem_of_getElem? hspi⟩
            simp only [Ens.activeSubl, List.mem_filter, Sublattice.isActive, Bool.not_eq_true',
              List.isEmpty_eq_false_iff]
            exact ⟨hp, ha⟩

/-- C17. Enthalpy = energy minus the chemical work: the scalar product of natural parameters and
features is the processor's property minus the sum over sites of the table entries. -/
theorem C17_enthalpy (e : Ens K) (hp : ParamsOk e) (p : PartProc K) (hco : p.coefs = e.coefs)
    (hlen : ∀ occ, (p.feature occ).length = p.coefs.length) (n : ℕ) (occ : Occ) :
    dot e.params (e.feature p n occ) = p.property occ -
      match e.mu with
      | none => 0
      | some m => ∑ s ∈ Finset.range n, m.table s (occ s) := by
  unfold PartProc.property
  cases hm : e.mu with
  | none =>
    have : e.params = e.coefs := by simpa [ParamsOk, hm] using hp.1
    simp [Ens.feature, hm, this, hco]
  | some m =>
    have : e.params = e.coefs ++ [-1] := by simpa [ParamsOk, hm] using hp.1
    simp only
    rw [C06_last_entry_is_work e p n occ m hm, this, ← hco, dot_append _ _ _ _ (hlen occ).symm]
    simp [dot, sub_eq_add_neg]

/-- C17, what the code does not do: the table is not rebuilt when sites are unfrozen.  Sublattice
`B` is frozen when the potentials are set; after the reset its sites are active but priced 0,
although the ensemble now reports its species among those needing a chemical potential. -/
theorem C17_reset_leaves_unpriced :
    ∃ (e : Ens ℚ) (v : List (ℕ × ℚ)) (sl : Sublattice),
      let e' := e.run [.restrict [2, 3], .setMu v, .reset]
      SublatticesOk e.subl ∧ ParamsOk e ∧ e'.mu ≠ none ∧ sl ∈ e'.subl ∧ sl.active ≠ [] ∧
      (∀ sp ∈ e'.species, ∃ x, Given v sp x) ∧
      ∀ m, e'.mu = some m → ¬ PricesSublattice v m.table sl := by
  refine ⟨⟨[1], [1], none, none, [Sublattice.new [7, 8] [0, 1], Sublattice.new [5, 6] [2, 3]]⟩,
    [(7, 1), (8, 2), (5, 3), (6, 4)], Sublattice.new [5, 6] [2, 3], ?_, ⟨by simp, rfl⟩, ?_, ?_, ?_,
    ?_, ?_⟩
  · constructor <;> decide +kernel
  · decide +kernel
  · decide +kernel
  · decide +kernel
  · intro sp hsp
    have : sp ∈ [7, 8, 5, 6] := hsp
    simp only [List.mem_cons, List.not_mem_nil, or_false] at this
    rcases this with rfl | rfl | rfl | rfl
    · exact ⟨1, by simp [Given]⟩
    · exact ⟨2, by simp [Given]⟩
    · exact ⟨3, by simp [Given]⟩
    · exact ⟨4, by simp [Given]⟩
  · intro m hm hpr
    have h1 := hpr 2 (by decide +kernel) 0 0 5 3 (by decide +kernel) (by decide +kernel)
      (by simp [Given])
    have h2 : m.table 2 0 = 0 := by
      have : ((Ens.run (⟨[1], [1], none, none,
        [Sublattice.new [7, 8] [0, 1], Sublattice.new [5, 6] [2, 3]]⟩ : Ens ℚ)
        [.restrict [2, 3], .setMu [(7, 1), (8, 2), (5, 3), (6, 4)], .reset]).mu.map
          fun m => m.table 2 0) = some 0 := by decide +kernel
      rw [hm] at this
      simpa using this
    rw [h2] at h1
    norm_num at h1

end C17

/-- A split with chemical potentials set: one of three species is separated from the others. -/
def splitExample : Ens ℚ :=
  Ens.run ⟨[1], [1], none, none, [Sublattice.new [7, 8, 9] [0, 1, 2, 3]]⟩ [.setMu [(7, 1), (8, 2), (9, 5)]]

example : (splitExample.split 0 (fun s => s % 3) [[0, 1], [2]]).2 = true ∧
    ((splitExample.split 0 (fun s => s % 3) [[0, 1], [2]]).1.subl.map fun sl => (sl.sites, sl.encoding)) =
      [([0, 1, 3], [0, 1]), ([2], [2])] ∧
    (splitExample.subl.all fun sl => sl.sites.all fun s => (s % 3) ∈ sl.encoding) = true := by
  decide +kernel

example : SublatticesOk splitExample.subl := by constructor <;> decide +kernel

/-- a history with a failing set (species 8 missing), a good one, a delete and another set -/
example : (Ens.run (⟨[1, 2], [1, 2], none, none, [Sublattice.new [7, 8] [0, 1]]⟩ : Ens ℚ)
    [.setMu [(7, 1)], .setMu [(7, 1), (8, 5), (9, 0)], .delMu, .restrict [0],
      .setMu [(7, 3), (8, 4)]]).params = [1, 2, -1] := by decide +kernel

end Smol
