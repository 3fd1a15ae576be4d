import Verif.Lemmas.TableDetailed

/-! Trees of ushers. -/

namespace Smol
open Prog Spec

/-- The usher works on the sublattices `sls`: flips and swaps on some of the active ones, tables on
all of them. -/
def Usher.Over (sls : List Sublattice) : Usher → Prop
  | .flip _ act _ => ∀ sl ∈ act, sl ∈ activeSublattices sls
  | .swap _ act _ => ∀ sl ∈ act, sl ∈ activeSublattices sls
  | .multi _ _ _ inner => inner.Over sls
  | .composite _ _ us _ => ∀ i, (us i).Over sls
  | .table t n => TableOk t n ∧ t.sls = sls

theorem sitesOk_of {sls : List Sublattice} (h : SublatticesOk sls) : SitesOk sls where
  nodup := fun sl hsl => (h.nodup sl hsl).2
  disjoint := fun a ha b hb hab s hs hs' =>
    pairwise_disjoint_forall h.disjoint a ha b hb hab s (h.active a ha s hs) (h.active b hb s hs')

theorem fullLegal_apply {sls : List Sublattice} (h : SublatticesOk sls) {x : Occ}
    (hx : FullLegal sls x) {st : Step}
    (hst : ∀ f ∈ st, ∃ sl ∈ sls, f.1 ∈ sl.active ∧ f.2 ∈ sl.encoding) :
    FullLegal sls (applyStep x st) := by
  have hdis := pairwise_disjoint_forall h.disjoint
  induction st generalizing x with
  | nil => exact hx
  | cons f st ih =>
    apply ih _ fun g hg => hst g (by simp [hg])
    intro sl hsl s hs
    by_cases hsf : s = f.1
    · subst hsf
      rw [Function.update_self]
      obtain ⟨sl', hsl', h1, h2⟩ := hst f (by simp)
      by_cases he : sl = sl'
      · rw [he]; exact h2
      · exact absurd (h.active sl' hsl' _ h1) (hdis sl hsl sl' hsl' he _ hs)
    · rw [Function.update_of_ne hsf]; exact hx sl hsl s hs

theorem fullLegal_legalOcc {sls : List Sublattice} (h : SublatticesOk sls) {x : Occ}
    (hx : FullLegal sls x) : LegalOcc (activeSublattices sls) x :=
  fun sl hsl s hs => hx sl (activeSublattices_mem hsl) s
    (h.active sl (activeSublattices_mem hsl) s hs)

theorem flip_legal {g : Rng} {act : List Sublattice} {probs : List ℚ} {x : Occ} {st : Step}
    (h : (flipPropose g act probs x).Outcome st) : LegalStep act st := by
  obtain ⟨sl, hsl, s, hs, c, hc, _, rfl⟩ := outcome_flip h
  refine ⟨?_, by simp⟩
  intro f hf
  simp only [List.mem_cons, List.not_mem_nil, or_false] at hf
  subst hf
  exact ⟨sl, hsl, hs, hc⟩

theorem LegalStep.mono {act act' : List Sublattice} (h : ∀ sl ∈ act', sl ∈ act) {st : Step}
    (hs : LegalStep act' st) : LegalStep act st :=
  ⟨fun f hf => by obtain ⟨sl, a, b⟩ := hs.flips f hf; exact ⟨sl, h sl a, b⟩, hs.once⟩

theorem tree_legal {sls : List Sublattice} (h : SublatticesOk sls) (u : Usher) (hu : u.Over sls)
    (x : Occ) (hx : FullLegal sls x) (st : Step) (hst : (u.propose x).Outcome st) :
    LegalStep (activeSublattices sls) st := by
  have hI : ∀ (x : Occ) (st : Step), FullLegal sls x → LegalStep (activeSublattices sls) st →
      FullLegal sls (applyStep x st) := fun x st hx hst => fullLegal_apply h hx fun f hf => by
    obtain ⟨sl, a, b⟩ := hst.flips f hf
    exact ⟨sl, activeSublattices_mem a, b⟩
  induction u generalizing x st with
  | flip g act probs => exact LegalStep.mono hu (flip_legal hst)
  | swap g act probs =>
    exact LegalStep.mono hu (swap_flips (fun sl hsl => fullLegal_legalOcc h hx sl (hu sl hsl)) hst)
  | multi g lens p inner ih =>
    exact outcome_multi g lens p inner.propose (FullLegal sls)
      (fun _ st => LegalStep (activeSublattices sls) st) (fun x st hx hst => ih hu x hx st hst)
      hI (fun x a b _ ha hb hd => legalStep_append ha hb hd) x st hx hst
  | composite g n us w ih =>
    obtain ⟨v, hv, hst⟩ := outcome_composite g _ w x st hst
    obtain ⟨i, rfl⟩ := (List.mem_ofFn' _ _).1 hv
    exact ih i (hu i) x hx st hst
  | table t n =>
    obtain ⟨h1, h2⟩ := hu
    subst h2
    exact (table_outcome h1 hx hst).1

/-- Trees of swaps only. -/
def Usher.SwapsOnly (act : List Sublattice) : Usher → Prop
  | .flip _ _ _ => False
  | .swap _ act' _ => ∀ sl ∈ act', sl ∈ act
  | .multi _ _ _ inner => inner.SwapsOnly act
  | .composite _ _ us _ => ∀ i, (us i).SwapsOnly act
  | .table _ _ => False

theorem swaps_same {act : List Sublattice} (hok : SitesOk act) (u : Usher) (hu : u.SwapsOnly act)
    (x : Occ) (st : Step) (hst : (u.propose x).Outcome st) :
    SameComposition act x (applyStep x st) := by
  induction u generalizing x st with
  | flip g act probs => exact hu.elim
  | swap g act' probs => exact outcome_swap_same hok hu hst
  | multi g lens p inner ih =>
    refine outcome_multi g lens p inner.propose (fun _ => True)
      (fun x st => SameComposition act x (applyStep x st)) (fun x st _ hst => ih hu x st hst)
      (fun _ _ _ _ => trivial) (fun x a b _ ha hb _ => ?_) x st trivial hst
    rw [applyStep_append]
    exact Smol.SameComposition.trans ha hb
  | composite g n us w ih =>
    obtain ⟨v, hv, hst⟩ := outcome_composite g _ w x st hst
    obtain ⟨i, rfl⟩ := (List.mem_ofFn' _ _).1 hv
    exact ih i (hu i) x st hst
  | table t n => exact hu.elim

/-- Flips, and composites of flips. -/
def Usher.FlipLike (act : List Sublattice) : Usher → Prop
  | .flip _ act' _ => ∀ sl ∈ act', sl ∈ act
  | .composite _ _ us _ => ∀ i, (us i).FlipLike act
  | _ => False

/-- Swaps, and composites of swaps. -/
def Usher.SwapLike (act : List Sublattice) : Usher → Prop
  | .swap _ act' _ => ∀ sl ∈ act', sl ∈ act
  | .composite _ _ us _ => ∀ i, (us i).SwapLike act
  | _ => False

theorem flipLike_matches {act : List Sublattice} (u : Usher) (hu : u.FlipLike act) :
    Matches (fun x y _ => LegalOcc act x ∧ LegalOcc act y) u.propose := by
  induction u with
  | flip g act' probs => exact matches_flip act act' hu g probs
  | composite g n us w ih =>
    apply matches_composite
    intro v hv
    obtain ⟨i, rfl⟩ := (List.mem_ofFn' _ _).1 hv
    exact ih i (hu i)
  | _ => exact hu.elim

theorem swapLike_matches {act : List Sublattice} (hok : SitesOk act) (u : Usher)
    (hu : u.SwapLike act) : Matches (SwapC act) u.propose := by
  induction u with
  | swap g act' probs => exact matches_swap act act' hu hok g probs
  | composite g n us w ih =>
    apply matches_composite
    intro v hv
    obtain ⟨i, rfl⟩ := (List.mem_ofFn' _ _).1 hv
    exact ih i (hu i)
  | _ => exact hu.elim

theorem swapLike_swapsOnly {act : List Sublattice} (u : Usher) (hu : u.SwapLike act) :
    u.SwapsOnly act := by
  induction u with
  | swap g act' probs => exact hu
  | composite g n us w ih => exact fun i => ih i (hu i)
  | _ => exact hu.elim

theorem sameComposition_swapC {act : List Sublattice} (hok : SitesOk act) {x y : Occ}
    (hs : SameComposition act x y) : SwapC act x y ∅ := by
  intro sl hsl c
  have hcard : ∀ z : Occ, (sl.active.toFinset.filter fun s => z s = c).card = holding sl z c := by
    intro z
    rw [holding, ← List.toFinset_card_of_nodup ((hok.nodup sl hsl).filter _)]
    congr 1
    ext s; simp
  refine ⟨by rw [hcard, hcard]; exact hs sl hsl c, ?_⟩
  simp only [Finset.notMem_empty, not_false_eq_true, true_and]
  rw [hcard, hcard]; exact hs sl hsl c

/-- Ushers whose proposals are symmetric: built by `Composite` from flips, swaps, and `MultiStep`s
of ushers that only flip or only swap. -/
def Usher.Symmetric (act : List Sublattice) : Usher → Prop
  | .flip _ act' _ => ∀ sl ∈ act', sl ∈ act
  | .swap _ act' _ => ∀ sl ∈ act', sl ∈ act
  | .multi _ _ _ inner => inner.FlipLike act ∨ inner.SwapLike act
  | .composite _ _ us _ => ∀ i, (us i).Symmetric act
  | .table _ _ => False

theorem swapsOnly_symm {act : List Sublattice} (hok : SitesOk act) (u : Usher)
    (hu : u.SwapsOnly act) {x y : Occ}
    (h : SameComposition act x y → propProb u.propose x y = propProb u.propose y x) :
    propProb u.propose x y = propProb u.propose y x := by
  by_cases hs : SameComposition act x y
  · exact h hs
  · rw [propProb_eq_zero, propProb_eq_zero]
    · intro st hst he
      apply hs
      intro sl hsl c
      rw [← he]
      exact (swaps_same hok u hu _ _ hst sl hsl c).symm
    · intro st hst he
      apply hs
      rw [← he]
      exact swaps_same hok u hu _ _ hst

theorem symmetric_propProb {act : List Sublattice} (hok : SitesOk act) (u : Usher)
    (hu : u.Symmetric act) {x y : Occ} (hx : LegalOcc act x) (hy : LegalOcc act y) :
    propProb u.propose x y = propProb u.propose y x := by
  induction u with
  | flip g act' probs =>
    rw [propProb_eq_chain, propProb_eq_chain]
    exact chain_symmetric' _ _ (flipLike_matches (.flip g act' probs) hu) x y 1 ⟨hx, hy⟩
  | swap g act' probs => exact swap_symmetric act act' hu hok g probs x y
  | multi g lens p inner ih =>
    rcases hu with hu | hu
    · show propProb (multiPropose g lens p inner.propose) x y = propProb (multiPropose g lens p inner.propose) y x
      rw [propProb_multi, propProb_multi]
      apply expect_congr
      intro len _
      exact chain_symmetric' _ _ (flipLike_matches inner hu) x y _ ⟨hx, hy⟩
    · apply swapsOnly_symm hok (.multi g lens p inner) (swapLike_swapsOnly inner hu)
      intro hs
      show propProb (multiPropose g lens p inner.propose) x y = propProb (multiPropose g lens p inner.propose) y x
      rw [propProb_multi, propProb_multi]
      apply expect_congr
      intro len _
      exact chain_symmetric' _ _ (swapLike_matches hok inner hu) x y _ (sameComposition_swapC hok hs)
  | composite g n us w ih =>
    show propProb (compositePropose g _ w) x y = propProb (compositePropose g _ w) y x
    rw [propProb_composite, propProb_composite]
    apply expect_congr
    intro v hv
    obtain ⟨i, rfl⟩ := (List.mem_ofFn' _ _).1 (outcome_chooseW _ _ _ _ hv)
    exact ih i (hu i)
  | table t n => exact hu.elim

theorem symmetric_legal {act : List Sublattice} (hok : SitesOk act) (u : Usher)
    (hu : u.Symmetric act) {x : Occ} (hx : LegalOcc act x) {st : Step}
    (hst : (u.propose x).Outcome st) : LegalStep act st := by
  have hlike : ∀ v : Usher, v.FlipLike act ∨ v.SwapLike act → ∀ (x : Occ) (st : Step),
      LegalOcc act x → (v.propose x).Outcome st → LegalStep act st := by
    intro v
    induction v with
    | flip g act' probs =>
      intro hv x st _ hst
      exact LegalStep.mono (hv.resolve_right id) (flip_legal hst)
    | swap g act' probs =>
      intro hv x st hx hst
      have hv := hv.resolve_left id
      exact LegalStep.mono hv (swap_flips (fun sl hsl => hx sl (hv sl hsl)) hst)
    | composite g n us w ih =>
      intro hv x st hx hst
      obtain ⟨v, hv', hst⟩ := outcome_composite g _ w x st hst
      obtain ⟨i, rfl⟩ := (List.mem_ofFn' _ _).1 hv'
      exact ih i (hv.imp (fun h => h i) fun h => h i) x st hx hst
    | multi g lens p inner ih => intro hv; rcases hv with hv | hv <;> exact hv.elim
    | table t n => intro hv; rcases hv with hv | hv <;> exact hv.elim
  induction u generalizing x st with
  | flip g act' probs => exact hlike (.flip g act' probs) (Or.inl hu) x st hx hst
  | swap g act' probs => exact hlike (.swap g act' probs) (Or.inr hu) x st hx hst
  | multi g lens p inner ih =>
    exact outcome_multi g lens p inner.propose (LegalOcc act)
      (fun _ st => LegalStep act st) (fun x st hx hst => hlike inner hu x st hx hst)
      (fun x st hx hst => legalOcc_apply hok hx hst.flips)
      (fun x a b _ ha hb hd => legalStep_append ha hb hd) x st hx hst
  | composite g n us w ih =>
    obtain ⟨v, hv, hst⟩ := outcome_composite g _ w x st hst
    obtain ⟨i, rfl⟩ := (List.mem_ofFn' _ _).1 hv
    exact ih i (hu i) hx hst
  | table t n => exact hu.elim

end Smol
