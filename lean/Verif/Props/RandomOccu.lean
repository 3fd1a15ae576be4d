import Verif.Lemmas.RandomCount
import Verif.Props.Seed

/-!
# C53 Random occupancies
-/

namespace Smol
open Spec

/-- C53. Without composition: the results are exactly the occupancies with allowed codes. -/
theorem C53_unconstrained (g : Rng) (subls : List Sublattice) (h : RandomOk subls) (occ : Occ) :
    (genUnconstrained g subls).Outcome occ ↔
      AllowedCodes subls occ ∧ ∀ s, (∀ sl ∈ subls, s ∉ sl.sites) → occ s = 0 := by
  unfold genUnconstrained
  rw [fillSublattices_outcome g subls h.disjoint]
  exact And.comm

/-- C53. With `charge_neutral` a result has allowed codes and zero charge, whatever the acceptance
probability, the number of attempts and the draws (vacancies and species without oxidation state
have no charge). -/
theorem C53_neutral (d : ChargeData) (accept : ℚ → ℚ) (attempts : ℕ) (subls : List Sublattice)
    (h : RandomOk subls) (occ : Occ)
    (ho : (genNeutral d accept attempts subls).Outcome occ) :
    AllowedCodes subls occ ∧ chargeOf (fun sp => if d.plain sp then 0 else d.oxi sp) subls occ = 0 := by
  unfold genNeutral at ho
  rw [Prog.outcome_bind] at ho
  obtain ⟨o, h1, h2⟩ := ho
  have h3 := ((C53_unconstrained .own subls h o).1 h1).1
  obtain ⟨h4, h5⟩ := neutralLoop_outcome d accept subls h.disjoint attempts h3 h2
  have h6 : chargeOf d.charge subls occ = 0 := by rw [chargeOf_eq d subls h.length h4, h5]
  have h7 : d.charge = fun sp => if d.plain sp then 0 else d.oxi sp := rfl
  rw [h7] at h6
  exact ⟨h4, h6⟩

/-- C53. When no sublattice is active nothing is returned, even if the only possible occupancy is
neutral. -/
theorem C53_neutral_inactive_raises (d : ChargeData) (accept : ℚ → ℚ) (attempts : ℕ)
    (subls : List Sublattice) (h : ∀ sl ∈ subls, sl.active = []) (occ : Occ) :
    ¬ (genNeutral d accept attempts subls).Outcome occ := by
  intro ho
  unfold genNeutral at ho
  rw [Prog.outcome_bind] at ho
  obtain ⟨o, -, h2⟩ := ho
  cases attempts with
  | zero => exact not_outcome_raise _ h2
  | succ n =>
    rw [neutralLoop, Prog.outcome_bind] at h2
    obtain ⟨r, hr, -⟩ := h2
    unfold neutralFlip at hr
    rw [Prog.outcome_bind] at hr
    obtain ⟨sl, hsl, -⟩ := hr
    rw [Prog.outcome_choose, List.mem_filter] at hsl
    have := h sl hsl.1
    simp [Sublattice.isActive, this] at hsl

theorem map_snd_zip_take {α β : Type*} (a : List α) (b : List β) :
    (a.zip b).map Prod.snd = b.take a.length := by
  induction a generalizing b with
  | nil => simp
  | cons x a ih =>
    cases b with
    | nil => simp
    | cons y b => simp [ih]

theorem compat_some {subls : List Sublattice} {comps : List SiteComp} {tol : ℚ}
    {pairs : List (SiteComp × Sublattice)} (h : compositionCompat subls comps tol = some pairs) :
    pairs = (comps.zip subls).map (fun q => (q.1.normalised, q.2)) ∧
    (∀ q ∈ comps.zip subls, ∀ p ∈ q.1, p.1 ∈ q.2.species) ∧
    ∀ q ∈ pairs, ∀ p ∈ q.1,
      |(pyRound (q.2.sites.length * p.2) : ℚ) - q.2.sites.length * p.2| ≤ tol := by
  unfold compositionCompat at h
  split at h
  · cases h
  · rename_i h1
    simp only at h
    split at h
    · cases h
    · rename_i h2
      rw [Option.some.injEq] at h
      push Not at h1 h2
      subst h
      exact ⟨rfl, h1, fun q hq => (h2 q hq).1⟩

/-- Everything known about a result made from a composition. -/
theorem composition_outcome {k : VacKind} {subls : List Sublattice} (h : RandomOk subls)
    {comps : List SiteComp} {tol : ℚ} {occ : Occ}
    (ho : (genComposition k subls comps tol).Outcome occ) :
    (∀ s, (∀ q ∈ comps.zip subls, s ∉ q.2.sites) → occ s = 0) ∧
    ∀ q ∈ comps.zip subls, (∀ p ∈ q.1, p.1 ∈ q.2.species) ∧
      (∀ p ∈ q.1.normalised,
        |(pyRound (q.2.sites.length * p.2) : ℚ) - q.2.sites.length * p.2| ≤ tol) ∧
      ∃ space, SiteSpace.make k q.1.normalised = some space ∧
      ∃ rest : List ℕ, (∀ s ∈ rest, s ∈ q.2.sites) ∧ rest.Nodup ∧ (∀ s ∈ rest, occ s = 0) ∧
        (∀ s ∈ q.2.sites, s ∉ rest → occ s ∈ q.2.encoding) ∧
        ∀ p ∈ q.2.species.zip q.2.encoding, ∃ x, space.data.lookup p.1 = some x ∧
          (q.2.sites.filter fun s => s ∉ rest ∧ occ s = p.2).length =
            (pyRound (x * q.2.sites.length)).toNat := by
  unfold genComposition at ho
  cases hp : compositionCompat subls comps tol with
  | none => rw [hp] at ho; exact (not_outcome_raise _ ho).elim
  | some pairs =>
    rw [hp] at ho
    obtain ⟨hpairs, h1, h2⟩ := compat_some hp
    have hmem : ∀ q ∈ comps.zip subls, q.2 ∈ subls := fun q hq => (List.of_mem_zip hq).2
    have hq2 : ∀ q ∈ pairs, q.2 ∈ subls := by
      rw [hpairs]
      intro q hq
      obtain ⟨r, hr, rfl⟩ := List.mem_map.1 hq
      exact hmem r hr
    have hd : pairs.Pairwise fun a b => ∀ s ∈ a.2.sites, s ∉ b.2.sites := by
      rw [hpairs, List.pairwise_map]
      have hz : ((comps.zip subls).map Prod.snd).Pairwise fun a b => ∀ s ∈ a.sites, s ∉ b.sites := by
        refine List.Pairwise.sublist ?_ h.disjoint
        rw [map_snd_zip_take]
        exact List.take_sublist _ _
      exact List.pairwise_map.1 hz
    obtain ⟨h3, h4⟩ := placeSublattices_outcome k pairs hd (fun q hq => h.sites _ (hq2 q hq))
      (fun q hq => h.encoding _ (hq2 q hq)) (fun q hq => h.length _ (hq2 q hq)) _ _ ho
    refine ⟨fun s hs => h3 s ?_, fun q hq => ?_⟩
    · rw [hpairs]
      intro r hr
      obtain ⟨q, hq, rfl⟩ := List.mem_map.1 hr
      exact hs q hq
    · have hq' : (q.1.normalised, q.2) ∈ pairs := by
        rw [hpairs]; exact List.mem_map.2 ⟨q, hq, rfl⟩
      have h2' := h2 _ hq'
      have h4' := h4 _ hq'
      dsimp only at h2' h4'
      exact ⟨h1 q hq, h2', h4'⟩

/-- The composition fills the sublattice: its amounts add up to one (or more, then it is
normalised), or what is missing is left to a vacancy the sublattice has; and the tolerance is too
small to hide a site. -/
def Spec.FillsSublattice (k : VacKind) (tol : ℚ) (c : SiteComp) (sl : Sublattice) : Prop :=
  CompOk c ∧ (1 ≤ c.numAtoms ∨ k.vac ∈ sl.species) ∧ c.length * tol < 1 / 2

theorem full_counts {k : VacKind} {subls : List Sublattice} (h : RandomOk subls)
    {comps : List SiteComp} {tol : ℚ} {occ : Occ}
    (ho : (genComposition k subls comps tol).Outcome occ) {q : SiteComp × Sublattice}
    (hq : q ∈ comps.zip subls) (hf : FillsSublattice k tol q.1 q.2) :
    (∀ s ∈ q.2.sites, occ s ∈ q.2.encoding) ∧
    ∃ space, SiteSpace.make k q.1.normalised = some space ∧
      ∀ p ∈ q.2.species.zip q.2.encoding, ∃ x, space.data.lookup p.1 = some x ∧
        (q.2.sites.filter fun s => occ s = p.2).length = (pyRound (x * q.2.sites.length)).toNat ∧
        |((pyRound (x * q.2.sites.length)).toNat : ℚ) - x * q.2.sites.length| ≤
          q.1.length * tol := by
  obtain ⟨hc, hfull, hsmall⟩ := hf
  have hsl := (List.of_mem_zip hq).2
  obtain ⟨h1, h2, space, hm, rest, h3, h4, h5, h6, h7⟩ := (composition_outcome h ho).2 q hq
  have hzs : (q.2.species.zip q.2.encoding).map Prod.fst = q.2.species :=
    List.map_fst_zip (by rw [h.length _ hsl])
  have hze : (q.2.species.zip q.2.encoding).map Prod.snd = q.2.encoding :=
    List.map_snd_zip (by rw [h.length _ hsl])
  have hall : ∀ sp ∈ q.2.species, ∃ x, space.data.lookup sp = some x := by
    intro sp hsp
    rw [← hzs] at hsp
    obtain ⟨p, hp, rfl⟩ := List.mem_map.1 hsp
    obtain ⟨x, hx, -⟩ := h7 p hp
    exact ⟨x, hx⟩
  have hin : ∀ p ∈ q.1.normalised, p.1 ∈ q.2.species := by
    intro p hp
    have : p.1 ∈ q.1.normalised.map Prod.fst := List.mem_map.2 ⟨p, hp, rfl⟩
    rw [normalised_keys] at this
    obtain ⟨r, hr, e⟩ := List.mem_map.1 this
    rw [← e]; exact h1 r hr
  have htot : q.1.normalised.numAtoms = 1 ∨ k.vac ∈ q.2.species := by
    refine hfull.imp (fun h => ?_) id
    rw [normalised_numAtoms, max_eq_right h, div_self (by linarith)]
  obtain ⟨hsum, hnear⟩ := space_counts (normalised_ok hc) hm (h.species _ hsl) hin hall h2
    (by rw [normalised_length]; exact hsmall) htot
  rw [normalised_length] at hnear
  -- nothing is left over
  have hrest : rest = [] := by
    have hcount := sum_filter_length q.2.encoding (h.encoding _ hsl) q.2.sites (fun s => s ∉ rest)
      occ h6
    have e1 : (q.2.encoding.map fun c =>
        (q.2.sites.filter fun s => s ∉ rest ∧ occ s = c).length).sum = q.2.sites.length := by
      rw [← hsum, ← hzs]
      nth_rewrite 1 [← hze]
      rw [List.map_map, List.map_map]
      congr 1
      apply List.map_congr_left
      intro p hp
      obtain ⟨x, hx, hl⟩ := h7 p hp
      simp only [Function.comp_apply]
      rw [hx, Option.getD_some, hl]
    rw [e1] at hcount
    cases hr : rest with
    | nil => rfl
    | cons a r =>
      exfalso
      have ha : a ∈ rest := by rw [hr]; simp
      have : (q.2.sites.filter fun s => decide (s ∉ rest)) = q.2.sites :=
        List.filter_sublist.eq_of_length hcount.symm
      rw [List.filter_eq_self] at this
      have := this a (h3 a ha)
      simp [ha] at this
  subst hrest
  refine ⟨fun s hs => h6 s hs (by simp), space, hm, fun p hp => ?_⟩
  obtain ⟨x, hx, hl⟩ := h7 p hp
  refine ⟨x, hx, ?_, hnear p.1 (List.of_mem_zip hp).1 x hx⟩
  rw [← hl]
  congr 1
  apply List.filter_congr
  intro s _
  simp

/-- C53. With compositions that fill their sublattices, a result has allowed codes there and holds
each species as often as requested, to within the tolerance of the check (so exactly, when the
requested numbers of sites are whole). -/
theorem C53_composition_partial (k : VacKind) (subls : List Sublattice) (h : RandomOk subls)
    (comps : List SiteComp) (tol : ℚ) (occ : Occ)
    (ho : (genComposition k subls comps tol).Outcome occ) (i : ℕ) (c : SiteComp) (sl : Sublattice)
    (hc : comps[i]? = some c) (hsl : subls[i]? = some sl) (hf : FillsSublattice k tol c sl) :
    (∀ s ∈ sl.sites, occ s ∈ sl.encoding) ∧ ∀ sp ∈ sl.species,
      |(heldCount sl occ sp : ℚ) - requested k.vac c sp * sl.sites.length| ≤ c.length * tol := by
  have hq : (c, sl) ∈ comps.zip subls := by
    apply List.mem_of_getElem? (i := i)
    rw [List.getElem?_zip_eq_some]; exact ⟨hc, hsl⟩
  have hm := (List.of_mem_zip hq).2
  obtain ⟨h1, space, hmk, h2⟩ := full_counts h ho hq hf
  refine ⟨h1, fun sp hsp => ?_⟩
  have hzs : (sl.species.zip sl.encoding).map Prod.fst = sl.species :=
    List.map_fst_zip (by rw [h.length _ hm])
  rw [← hzs] at hsp
  obtain ⟨p, hp, rfl⟩ := List.mem_map.1 hsp
  obtain ⟨x, hx, hl, hn⟩ := h2 p hp
  have hcount : heldCount sl occ p.1 = (pyRound (x * sl.sites.length)).toNat := by
    rw [← hl]
    unfold heldCount
    congr 1
    apply List.filter_congr
    intro s _
    exact decide_eq_decide.2 (held_iff (h.length _ hm) (h.encoding _ hm) (h.species _ hm) hp occ s)
  have hreq : requested k.vac c p.1 = x := by
    have hkn : (space.data.map Prod.fst).Nodup := make_keys_nodup (normalised_ok hf.1) hmk
    obtain ⟨-, hle, hv, -, hd⟩ := make_some hmk
    have hx' := (lookup_mem hkn).1 hx
    have hcase : (p.1, x) ∈ c.normalised ∨
        (c.normalised.numAtoms < 99 / 100 ∧ p.1 = k.vac ∧ x = 1 - c.normalised.numAtoms) := by
      rw [hd] at hx'
      split at hx'
      · rename_i hlt
        rcases List.mem_append.1 hx' with hx' | hx'
        · exact Or.inl ((List.perm_insertionSort _ _).mem_iff.1 hx')
        · rw [List.mem_singleton, Prod.mk.injEq] at hx'
          exact Or.inr ⟨hlt, hx'⟩
      · exact Or.inl ((List.perm_insertionSort _ _).mem_iff.1 hx')
    unfold requested
    rcases hcase with hcase | ⟨hlt, hpv, rfl⟩
    · have := (lookup_mem (normalised_ok hf.1).1).2 hcase
      rw [lookup_normalised hf.1] at this
      cases hlk : c.lookup p.1 with
      | none => rw [hlk] at this; cases this
      | some y =>
        rw [hlk, Option.map_some, Option.some.injEq] at this
        exact this
    · have hnot : c.lookup p.1 = none := by
        rw [lookup_none, ← normalised_keys]
        intro hin
        obtain ⟨r, hr, e⟩ := List.mem_map.1 hin
        have := (hv ⟨r, hr, by rw [e, hpv]; exact k.isVac_vac⟩).1
        rw [this] at hlt; norm_num at hlt
      rw [hnot]
      simp only
      have hlt1 : c.numAtoms < 1 := by
        by_contra hge
        rw [not_lt] at hge
        rw [normalised_numAtoms, max_eq_right hge, div_self (by linarith)] at hlt
        norm_num at hlt
      have e : c.normalised.numAtoms = c.numAtoms := by
        rw [normalised_numAtoms, max_eq_left hlt1.le, div_one]
      rw [if_pos hpv, e, max_eq_right (by linarith)]
  rw [hcount, hreq]
  exact hn

/-- C53. All arrangements can occur: if some result holds given numbers of species, so can every
occupancy with the same numbers (and code 0 outside). -/
theorem C53_all_arrangements (k : VacKind) (subls : List Sublattice) (h : RandomOk subls)
    (comps : List SiteComp) (tol : ℚ) (occ occ' : Occ)
    (hf : ∀ q ∈ comps.zip subls, FillsSublattice k tol q.1 q.2)
    (ho : (genComposition k subls comps tol).Outcome occ)
    (hout : ∀ s, (∀ q ∈ comps.zip subls, s ∉ q.2.sites) → occ' s = 0)
    (hcodes : ∀ q ∈ comps.zip subls, ∀ s ∈ q.2.sites, occ' s ∈ q.2.encoding)
    (hcount : ∀ q ∈ comps.zip subls, ∀ sp ∈ q.2.species,
      heldCount q.2 occ' sp = heldCount q.2 occ sp) :
    (genComposition k subls comps tol).Outcome occ' := by
  have hfull := fun q hq => full_counts h ho (q := q) hq (hf q hq)
  unfold genComposition at ho ⊢
  cases hp : compositionCompat subls comps tol with
  | none => rw [hp] at ho; exact (not_outcome_raise _ ho).elim
  | some pairs =>
    obtain ⟨hpairs, -, -⟩ := compat_some hp
    have hmem : ∀ q ∈ comps.zip subls, q.2 ∈ subls := fun q hq => (List.of_mem_zip hq).2
    have hq2 : ∀ q ∈ pairs, ∃ r ∈ comps.zip subls, q = (r.1.normalised, r.2) := by
      rw [hpairs]
      intro q hq
      obtain ⟨r, hr, rfl⟩ := List.mem_map.1 hq
      exact ⟨r, hr, rfl⟩
    have hq3 : ∀ q ∈ pairs, q.2 ∈ subls := by
      intro q hq
      obtain ⟨r, hr, rfl⟩ := hq2 q hq
      exact hmem r hr
    have hd : pairs.Pairwise fun a b => ∀ s ∈ a.2.sites, s ∉ b.2.sites := by
      rw [hpairs, List.pairwise_map]
      have hz : ((comps.zip subls).map Prod.snd).Pairwise fun a b => ∀ s ∈ a.sites, s ∉ b.sites := by
        refine List.Pairwise.sublist ?_ h.disjoint
        rw [map_snd_zip_take]
        exact List.take_sublist _ _
      exact List.pairwise_map.1 hz
    apply placeSublattices_complete k pairs hd (fun q hq => h.sites _ (hq3 q hq))
      (fun q hq => h.encoding _ (hq3 q hq)) (fun q hq => h.length _ (hq3 q hq))
    · intro s hs
      apply hout
      intro r hr
      refine hs (r.1.normalised, r.2) ?_
      rw [hpairs]; exact List.mem_map.2 ⟨r, hr, rfl⟩
    · intro q hq
      obtain ⟨r, hr, rfl⟩ := hq2 q hq
      obtain ⟨-, space, hm, h2⟩ := hfull r hr
      refine ⟨space, hm, hcodes r hr, fun p hp => ?_⟩
      obtain ⟨x, hx, hl, -⟩ := h2 p hp
      refine ⟨x, hx, ?_⟩
      have hs := hmem r hr
      have e := hcount r hr p.1 (List.of_mem_zip hp).1
      rw [← hl]
      unfold heldCount at e
      have hiff := held_iff (h.length _ hs) (h.encoding _ hs) (h.species _ hs) hp
      simp only [hiff] at e
      exact e

/-- C53, what the code does not do: sublattices without composition are not drawn, their sites keep
code 0; a single composition leaves all sublattices but the first that way. -/
theorem C53_remaining_sublattices_zero (k : VacKind) (subls : List Sublattice)
    (h : RandomOk subls) (comps : List SiteComp) (tol : ℚ) (occ : Occ)
    (ho : (genComposition k subls comps tol).Outcome occ) :
    ∀ sl ∈ subls.drop comps.length, ∀ s ∈ sl.sites, occ s = 0 := by
  intro sl hsl s hs
  apply (composition_outcome h ho).1
  intro q hq hqs
  have hq2 : q.2 ∈ subls.take comps.length := by
    have : q.2 ∈ (comps.zip subls).map Prod.snd := List.mem_map.2 ⟨q, hq, rfl⟩
    rw [map_snd_zip_take] at this
    exact this
  have hd := h.disjoint
  rw [← List.take_append_drop comps.length subls, List.pairwise_append] at hd
  exact hd.2.2 _ hq2 _ hsl s hqs hs

/-- C53. An allowed species that the composition does not name makes the call fail (`KeyError`),
unless it is the vacancy and at least a hundredth is left for it. -/
theorem C53_missing_species_raises (k : VacKind) (subls : List Sublattice) (h : RandomOk subls)
    (comps : List SiteComp) (tol : ℚ) (i : ℕ) (c : SiteComp) (sl : Sublattice)
    (hc : comps[i]? = some c) (hsl : subls[i]? = some sl) (sp : ℕ) (hsp : sp ∈ sl.species)
    (hn : sp ∉ c.map Prod.fst) (hv : sp = k.vac → 99 / 100 ≤ c.numAtoms) (occ : Occ) :
    ¬ (genComposition k subls comps tol).Outcome occ := by
  intro ho
  have hq : (c, sl) ∈ comps.zip subls := by
    apply List.mem_of_getElem? (i := i)
    rw [List.getElem?_zip_eq_some]; exact ⟨hc, hsl⟩
  have hm := (List.of_mem_zip hq).2
  obtain ⟨-, -, space, hmk, rest, -, -, -, -, h7⟩ := (composition_outcome h ho).2 _ hq
  have hzs : (sl.species.zip sl.encoding).map Prod.fst = sl.species :=
    List.map_fst_zip (by rw [h.length _ hm])
  rw [← hzs] at hsp
  obtain ⟨p, hp, rfl⟩ := List.mem_map.1 hsp
  obtain ⟨x, hx, -⟩ := h7 p hp
  have hin : p.1 ∈ space.data.map Prod.fst := by
    by_contra hne
    rw [lookup_none.2 hne] at hx
    cases hx
  have hkeys : space.data.map Prod.fst = _ := make_keys hmk
  rw [hkeys, normalised_keys, List.mem_append, (List.perm_insertionSort _ _).mem_iff] at hin
  rcases hin with hin | hin
  · exact hn hin
  · split at hin
    · rename_i hlt
      have h99 := hv (List.mem_singleton.1 hin)
      by_cases h1 : 1 ≤ c.numAtoms
      · rw [normalised_numAtoms, max_eq_right h1, div_self (by linarith)] at hlt
        norm_num at hlt
      · rw [normalised_numAtoms, max_eq_left (not_le.1 h1).le, div_one] at hlt
        linarith
    · simp at hin

/-- C53, what the code does not do: a composition that does not add up to one, on a sublattice
without vacancies, is accepted and the species with code 0 takes the sites left over: two atoms of
each species requested, four of the first held. -/
theorem C53_leftover_gets_code_zero :
    ∃ (k : VacKind) (sl : Sublattice) (c : SiteComp) (occ : Occ), RandomOk [sl] ∧ CompOk c ∧
      (genComposition k [sl] [c] (1 / 1000000)).Outcome occ ∧
      requested k.vac c 1 * sl.sites.length = 2 ∧ heldCount sl occ 1 = 4 := by
  refine ⟨⟨fun n => n == 9, 9, rfl⟩, Sublattice.new [1, 2] [0, 1, 2, 3, 4, 5],
    [(1, 1 / 3), (2, 1 / 3)], fun s => [0, 0, 1, 1, 0, 0].getD s 0, ?_, ?_, ?_, ?_, ?_⟩
  · constructor <;> simp <;> decide
  · refine ⟨by decide, by decide +kernel⟩
  · have hcompat : compositionCompat [Sublattice.new [1, 2] [0, 1, 2, 3, 4, 5]]
        [[(1, 1 / 3), (2, 1 / 3)]] (1 / 1000000) =
        some [([(1, 1 / 3), (2, 1 / 3)], Sublattice.new [1, 2] [0, 1, 2, 3, 4, 5])] := by
      decide +kernel
    have hmk : SiteSpace.make ⟨fun n => n == 9, 9, rfl⟩ [(1, 1 / 3), (2, 1 / 3)] =
        some ⟨[(1, 1 / 3), (2, 1 / 3)], [(1, 1 / 3), (2, 1 / 3), (9, 1 / 3)]⟩ := by decide +kernel
    unfold genComposition
    rw [hcompat]
    simp only [placeSublattices]
    rw [hmk]
    simp only [Prog.outcome_bind]
    have hs : (Sublattice.new [1, 2] [0, 1, 2, 3, 4, 5]).sites = [0, 1, 2, 3, 4, 5] := by decide
    have hz : (Sublattice.new [1, 2] [0, 1, 2, 3, 4, 5]).species.zip
        (Sublattice.new [1, 2] [0, 1, 2, 3, 4, 5]).encoding = [(1, 0), (2, 1)] := by decide
    rw [hs, hz]
    have hr : (pyRound ((1 / 3 : ℚ) * (([0, 1, 2, 3, 4, 5] : List ℕ).length : ℕ))).toNat = 2 := by
      decide +kernel
    refine ⟨_, ?_, rfl⟩
    simp only [placeSpecies, List.lookup, Nat.reduceBEq, BEq.rfl, Prog.outcome_bind,
      outcome_chooseSub_iff, hr]
    refine ⟨[0, 1], ⟨by decide, rfl⟩, [2, 3], ⟨by decide, rfl⟩, ?_⟩
    show _ = _
    funext s
    unfold writeCode
    rcases s with _ | _ | _ | _ | _ | _ | s <;> simp
  · decide +kernel
  · decide

theorem sharedOnly_raise {α : Type} : (Prog.raise : Prog α).SharedOnly := ⟨rfl, fun i => i.elim0⟩

theorem sharedOnly_fill (l : List Sublattice) : ∀ occ, (fillSublattices .shared l occ).SharedOnly := by
  have hs : ∀ (enc l : List ℕ) (occ : Occ), (fillSites .shared enc l occ).SharedOnly := by
    intro enc l
    induction l with
    | nil => intro occ; trivial
    | cons s l ih =>
      intro occ
      exact SharedOnly.bind _ _ (sharedOnly_choose _) fun c => ih _
  induction l with
  | nil => intro occ; trivial
  | cons sl l ih => intro occ; exact SharedOnly.bind _ _ (hs _ _ _) fun o => ih o

theorem sharedOnly_place (k : VacKind) (l : List (SiteComp × Sublattice)) :
    ∀ occ, (placeSublattices k l occ).SharedOnly := by
  have hs : ∀ (space : SiteSpace) (n : ℕ) (l : List (ℕ × ℕ)) (avail : List ℕ) (occ : Occ),
      (placeSpecies space n l avail occ).SharedOnly := by
    intro space n l
    induction l with
    | nil => intro avail occ; trivial
    | cons p l ih =>
      intro avail occ
      rw [placeSpecies]
      split
      · exact sharedOnly_raise
      · exact SharedOnly.bind _ _ (sharedOnly_choose _) fun o => ih _ _
  induction l with
  | nil => intro occ; trivial
  | cons q l ih =>
    intro occ
    rw [placeSublattices]
    split
    · exact sharedOnly_raise
    · exact SharedOnly.bind _ _ (hs _ _ _ _ _) fun o => ih o

/-- C53. Without `charge_neutral` the result depends on the given generator only. -/
theorem C53_seeded {G : Type} (gen : Prog.Gen G) (k : VacKind) (d : ChargeData) (accept : ℚ → ℚ)
    (attempts : ℕ) (subls : List Sublattice) (composition : Option (List SiteComp)) (neutral : Bool)
    (tol : ℚ) (h : composition ≠ none ∨ neutral = false) (g o o' : G) :
    ((generateRandom k d accept attempts subls composition neutral tol).runWith gen (g, o)).map
        Prod.fst =
      ((generateRandom k d accept attempts subls composition neutral tol).runWith gen (g, o')).map
        Prod.fst := by
  have hs : (generateRandom k d accept attempts subls composition neutral tol).SharedOnly := by
    unfold generateRandom
    cases composition with
    | none =>
      rcases h with h | h
      · exact (h rfl).elim
      · subst h
        exact sharedOnly_fill _ _
    | some comps =>
      show (genComposition k subls comps tol).SharedOnly
      unfold genComposition
      split
      · exact sharedOnly_raise
      · exact sharedOnly_place _ _ _
  have := congrArg (Option.map Prod.fst) (runWith_shared gen _ hs g o o')
  rw [Option.map_map, Option.map_map] at this
  exact this

/-- C53, what the code does not do: with `charge_neutral` the result does not depend on the given
generator only, since the first occupancy is drawn from another one. -/
theorem C53_neutral_not_seeded (n : ℕ) :
    ∃ (d : ChargeData) (accept : ℚ → ℚ) (subls : List Sublattice) (gen : Prog.Gen ℕ) (g o o' : ℕ)
      (r r' : Occ × (ℕ × ℕ)), RandomOk subls ∧
      (genNeutral d accept (n + 1) subls).runWith gen (g, o) = some r ∧
      (genNeutral d accept (n + 1) subls).runWith gen (g, o') = some r' ∧ r.1 0 ≠ r'.1 0 := by
  refine ⟨⟨fun _ => true, fun _ => 0⟩, fun _ => 1, [Sublattice.new [1, 2] [0]],
    ⟨fun g n _ => if h : 0 < n then some (⟨g % n, Nat.mod_lt _ h⟩, g) else none⟩, 0, 0, 1, ?_⟩
  have e : Sublattice.new [1, 2] [0] = ⟨[1, 2], [0], [0], false, [0, 1]⟩ := by decide
  have run : ∀ o : ℕ, (h : o < 2) → ∃ r, (genNeutral ⟨fun _ => true, fun _ => 0⟩ (fun _ => 1) (n + 1)
      [Sublattice.new [1, 2] [0]]).runWith
      ⟨fun g n _ => if h : 0 < n then some (⟨g % n, Nat.mod_lt _ h⟩, g) else none⟩ (0, o) = some r ∧
      r.1 0 = o := by
    rw [e]
    intro o h
    have hc : ∀ occ : Occ, totalCharge ⟨fun _ => true, fun _ => 0⟩
        [(⟨[1, 2], [0], [0], false, [0, 1]⟩ : Sublattice)] occ = 0 := by
      intro occ; simp [totalCharge, ChargeData.charge]
    interval_cases o
    · refine ⟨(Function.update (fun _ => 0) 0 0, (0, 0)), ?_, rfl⟩
      simp [genNeutral, genUnconstrained, fillSublattices, fillSites, Prog.choose, Prog.bind,
        Prog.runWith, neutralLoop, neutralFlip, Sublattice.isActive, Prog.coin, hc]
    · refine ⟨(Function.update (fun _ => 0) 0 1, (0, 1)), ?_, rfl⟩
      simp [genNeutral, genUnconstrained, fillSublattices, fillSites, Prog.choose, Prog.bind,
        Prog.runWith, neutralLoop, neutralFlip, Sublattice.isActive, Prog.coin, hc]
  obtain ⟨r, h1, h2⟩ := run 0 (by omega)
  obtain ⟨r', h3, h4⟩ := run 1 (by omega)
  refine ⟨r, r', ?_, h1, h3, by omega⟩
  constructor <;> simp <;> decide

/-! ## examples -/

/-- Li⁺, Mn³⁺, Mn⁴⁺ and vacancies (9) on four sites, O²⁻ and F⁻ on two. -/
def exRandomSubls : List Sublattice :=
  [Sublattice.new [1, 2, 3, 9] [0, 2, 3, 5], Sublattice.new [4, 5] [1, 4]]

theorem exRandomSubls_ok : RandomOk exRandomSubls := by
  constructor <;> simp [exRandomSubls] <;> decide

def exVacKind : VacKind := ⟨fun n => n == 9, 9, rfl⟩

def exCharges : ChargeData :=
  ⟨fun n => n == 9, fun n => if n = 1 then 1 else if n = 2 then 3 else if n = 3 then 4 else
    if n = 4 then -2 else -1⟩

/-- One neutral occupancy: Li⁺ Mn³⁺ and two vacancies with two O²⁻. -/
example : AllowedCodes exRandomSubls (fun s => [0, 0, 1, 3, 0, 3].getD s 0) ∧
    chargeOf exCharges.charge exRandomSubls (fun s => [0, 0, 1, 3, 0, 3].getD s 0) = 0 := by
  refine ⟨?_, by decide +kernel⟩
  show ∀ sl ∈ exRandomSubls, ∀ s ∈ sl.sites, _ ∈ _
  decide

/-- It can be the result: drawn at once and kept by the first attempt. -/
example : ∃ occ, (genNeutral exCharges (fun _ => 1 / 2) 1 exRandomSubls).Outcome occ := by
  refine ⟨fun s => [0, 0, 1, 3, 0, 3].getD s 0, ?_⟩
  unfold genNeutral
  rw [Prog.outcome_bind]
  refine ⟨fun s => [0, 0, 1, 3, 0, 3].getD s 0, ?_, ?_⟩
  · rw [C53_unconstrained _ _ exRandomSubls_ok]
    constructor
    · show ∀ sl ∈ exRandomSubls, ∀ s ∈ sl.sites, _ ∈ _
      decide
    · intro s hs
      have h1 := hs (Sublattice.new [1, 2, 3, 9] [0, 2, 3, 5]) (by simp [exRandomSubls])
      have h2 := hs (Sublattice.new [4, 5] [1, 4]) (by simp [exRandomSubls])
      have e1 : (Sublattice.new [1, 2, 3, 9] [0, 2, 3, 5]).sites = [0, 2, 3, 5] := by decide
      have e2 : (Sublattice.new [4, 5] [1, 4]).sites = [1, 4] := by decide
      rw [e1] at h1
      rw [e2] at h2
      rcases s with _ | _ | _ | _ | _ | _ | s <;> simp_all
  · have hz : totalCharge exCharges exRandomSubls (fun s => [0, 0, 1, 3, 0, 3].getD s 0) = 0 := by
      decide +kernel
    rw [neutralLoop, Prog.outcome_bind]
    refine ⟨(fun s => [0, 0, 1, 3, 0, 3].getD s 0, 0), ?_, ?_⟩
    · unfold neutralFlip
      simp only [Prog.outcome_bind, Prog.outcome_choose]
      refine ⟨Sublattice.new [1, 2, 3, 9] [0, 2, 3, 5], by decide, 0, by decide, 1, by decide, true,
        ⟨0, by norm_num, rfl⟩, ?_⟩
      rw [hz]
      simp [Prog.Outcome]
    · simp [Prog.Outcome]

/-- A composition leaving a quarter to vacancies, and one of the anions. -/
example : FillsSublattice exVacKind (1 / 1000000) [(1, 1 / 4), (2, 1 / 4), (3, 1 / 4)]
      (Sublattice.new [1, 2, 3, 9] [0, 2, 3, 5]) ∧
    FillsSublattice exVacKind (1 / 1000000) [(4, 3), (5, 3)] (Sublattice.new [4, 5] [1, 4]) ∧
    compositionCompat exRandomSubls [[(1, 1 / 4), (2, 1 / 4), (3, 1 / 4)], [(4, 3), (5, 3)]]
        (1 / 1000000) =
      some [([(1, 1 / 4), (2, 1 / 4), (3, 1 / 4)], Sublattice.new [1, 2, 3, 9] [0, 2, 3, 5]),
        ([(4, 1 / 2), (5, 1 / 2)], Sublattice.new [4, 5] [1, 4])] := by
  refine ⟨⟨⟨by decide, by decide +kernel⟩, Or.inr (by decide), by norm_num⟩,
    ⟨⟨by decide, by decide +kernel⟩, Or.inl (by decide +kernel), by norm_num⟩, by decide +kernel⟩

/-- It has a result. -/
example : ∃ occ, (genComposition exVacKind exRandomSubls
    [[(1, 1 / 4), (2, 1 / 4), (3, 1 / 4)], [(4, 3), (5, 3)]] (1 / 1000000)).Outcome occ := by
  have hc : compositionCompat exRandomSubls [[(1, 1 / 4), (2, 1 / 4), (3, 1 / 4)], [(4, 3), (5, 3)]]
        (1 / 1000000) =
      some [([(1, 1 / 4), (2, 1 / 4), (3, 1 / 4)], Sublattice.new [1, 2, 3, 9] [0, 2, 3, 5]),
        ([(4, 1 / 2), (5, 1 / 2)], Sublattice.new [4, 5] [1, 4])] := by decide +kernel
  refine ⟨fun s => [0, 0, 1, 2, 1, 3].getD s 0, ?_⟩
  unfold genComposition
  rw [hc]
  apply placeSublattices_complete
  · decide
  · decide
  · decide
  · decide
  · intro s hs
    have h1 := hs ([(1, 1 / 4), (2, 1 / 4), (3, 1 / 4)], Sublattice.new [1, 2, 3, 9] [0, 2, 3, 5])
      (by simp)
    have h2 := hs ([(4, 1 / 2), (5, 1 / 2)], Sublattice.new [4, 5] [1, 4]) (by simp)
    have e1 : (Sublattice.new [1, 2, 3, 9] [0, 2, 3, 5]).sites = [0, 2, 3, 5] := by decide
    have e2 : (Sublattice.new [4, 5] [1, 4]).sites = [1, 4] := by decide
    rw [e1] at h1
    rw [e2] at h2
    rcases s with _ | _ | _ | _ | _ | _ | s <;> simp_all
  · intro q hq
    simp only [List.mem_cons, List.not_mem_nil, or_false] at hq
    rcases hq with rfl | rfl
    · refine ⟨⟨[(1, 1 / 4), (2, 1 / 4), (3, 1 / 4)],
        [(1, 1 / 4), (2, 1 / 4), (3, 1 / 4), (9, 1 / 4)]⟩, by decide +kernel, by decide, ?_⟩
      intro p hp
      have : p ∈ [(1, 0), (2, 1), (3, 2), (9, 3)] := hp
      simp only [List.mem_cons, List.not_mem_nil, or_false] at this
      rcases this with rfl | rfl | rfl | rfl <;> exact ⟨1 / 4, by rfl, by decide +kernel⟩
    · refine ⟨⟨[(4, 1 / 2), (5, 1 / 2)], [(4, 1 / 2), (5, 1 / 2)]⟩, by decide +kernel, by decide, ?_⟩
      intro p hp
      have : p ∈ [(4, 0), (5, 1)] := hp
      simp only [List.mem_cons, List.not_mem_nil, or_false] at this
      rcases this with rfl | rfl <;> exact ⟨1 / 2, by rfl, by decide +kernel⟩

end Smol
