import Verif.Lemmas.Chain
import Verif.Lemmas.UsherTree
import Mathlib.Data.Set.Finite.Lattice

/-! Which states flips, swaps and other ushers reach. -/

namespace Smol
open Prog Spec

theorem outcome_chooseW_pos {α : Type} (g : Rng) (l : List α) (w : List ℚ)
    (hlen : w.length = l.length) (hpos : ∀ a ∈ w, 0 < a) (a : α) (ha : a ∈ l) :
    (chooseW g l w).Outcome a := by
  obtain ⟨i, hi, rfl⟩ := List.mem_iff_getElem.1 ha
  refine ⟨⟨i, hi⟩, ?_, rfl⟩
  beta_reduce
  rw [List.getD_eq_getElem?_getD, List.getElem?_eq_getElem (by omega), Option.getD_some]
  exact (hpos _ (List.getElem_mem _)).ne'

theorem flip_outcome {g : Rng} {act : List Sublattice} {probs : List ℚ}
    (hlen : probs.length = act.length) (hpos : ∀ a ∈ probs, 0 < a) {x : Occ} {sl : Sublattice}
    (hsl : sl ∈ act) {s c : ℕ} (hs : s ∈ sl.active) (hc : c ∈ sl.encoding) (hne : c ≠ x s) :
    (flipPropose g act probs x).Outcome [(s, c)] := by
  simp only [flipPropose, outcome_bind, outcome_choose]
  refine ⟨sl, outcome_chooseW_pos _ _ _ hlen hpos _ hsl, s, hs, c, ?_, rfl⟩
  rw [List.mem_filter, List.mem_dedup]
  exact ⟨hc, by simpa using hne⟩

theorem swap_outcome {g : Rng} {act : List Sublattice} {probs : List ℚ}
    (hlen : probs.length = act.length) (hpos : ∀ a ∈ probs, 0 < a) {x : Occ} {sl : Sublattice}
    (hsl : sl ∈ act) {s t : ℕ} (hs : s ∈ sl.active) (ht : t ∈ sl.active) (hne : x t ≠ x s) :
    (swapPropose g act probs x).Outcome [(s, x t), (t, x s)] := by
  simp only [swapPropose, outcome_bind, outcome_choose]
  refine ⟨sl, outcome_chooseW_pos _ _ _ hlen hpos _ hsl, s, hs, ?_⟩
  have hm : t ∈ sl.active.filter fun u => decide (x u ≠ x s) := by
    rw [List.mem_filter]; exact ⟨ht, by simpa using hne⟩
  rw [if_pos (List.ne_nil_of_mem hm), outcome_bind]
  exact ⟨t, (outcome_choose _ _ _).2 hm, rfl⟩

theorem legalStates_finite (act : List Sublattice) (x : Occ) : (legalStates act x).Finite := by
  set A : Finset ℕ := (act.flatMap fun sl => sl.active).toFinset with hA
  set E : Finset ℕ := (act.flatMap fun sl => sl.encoding).toFinset with hE
  have hpi : (Set.pi Set.univ fun _ : A => (E : Set ℕ)).Finite :=
    Set.Finite.pi fun _ => E.finite_toSet
  refine Set.Finite.of_injOn (f := fun (y : Occ) (s : A) => y s.1) ?_ ?_ hpi
  · intro y hy s _
    obtain ⟨s, hs⟩ := s
    rw [hA, List.mem_toFinset, List.mem_flatMap] at hs
    obtain ⟨sl, hsl, hs⟩ := hs
    show y s ∈ (E : Set ℕ)
    rw [hE, Finset.mem_coe, List.mem_toFinset, List.mem_flatMap]
    exact ⟨sl, hsl, hy.1 sl hsl s hs⟩
  · intro y hy z hz hyz
    funext s
    by_cases hs : s ∈ A
    · exact congrFun hyz ⟨s, hs⟩
    · have : ∀ sl ∈ act, s ∉ sl.active := by
        intro sl hsl hm
        apply hs
        rw [hA, List.mem_toFinset, List.mem_flatMap]
        exact ⟨sl, hsl, hm⟩
      rw [hy.2 s this, hz.2 s this]

theorem legalStates_apply {act : List Sublattice} (hok : SitesOk act) {x0 x : Occ} {st : Step}
    (hx : x ∈ legalStates act x0)
    (hst : ∀ f ∈ st, ∃ sl ∈ act, f.1 ∈ sl.active ∧ f.2 ∈ sl.encoding) :
    applyStep x st ∈ legalStates act x0 := by
  refine ⟨legalOcc_apply hok hx.1 hst, fun s hs => ?_⟩
  rw [applyStep_of_not_mem, hx.2 s hs]
  intro f hf he
  obtain ⟨sl, hsl, h1, _⟩ := hst f hf
  exact hs sl hsl (he ▸ h1)

/-- states reached by legal steps are legal and agree off the active sites -/
theorem reached_subset {act : List Sublattice} (hok : SitesOk act) {usher : Occ → Prog Step}
    {acc : Occ → Step → ℝ} {x0 : Occ} (hx0 : LegalOcc act x0) (S : Occ → Prop) (hS0 : S x0)
    (hS : ∀ x st, S x → (usher x).Outcome st → S (applyStep x st))
    (hst : ∀ x st, S x → LegalOcc act x → (usher x).Outcome st →
      ∀ f ∈ st, ∃ sl ∈ act, f.1 ∈ sl.active ∧ f.2 ∈ sl.encoding) :
    reached (transition usher acc) x0 ⊆ legalStates act x0 := by
  intro y hy
  have hy : Relation.ReflTransGen _ x0 y := hy
  have : S y ∧ y ∈ legalStates act x0 := by
    induction hy with
    | refl => exact ⟨hS0, hx0, fun _ _ => rfl⟩
    | tail hb hbc ih =>
      obtain ⟨st, ho, rfl, _⟩ := transition_pos_outcome hbc
      obtain ⟨i1, i2⟩ := ih hb
      exact ⟨hS _ _ i1 ho, legalStates_apply hok i2 (hst _ st i1 i2.1 ho)⟩
  exact this.2

/-- flips reach every legal state -/
theorem flips_reach {act : List Sublattice} {usher : Occ → Prog Step}
    {acc : Occ → Step → ℝ} {x0 : Occ} (hx0 : LegalOcc act x0)
    (hflip : ∀ x, LegalOcc act x → ∀ sl ∈ act, ∀ s ∈ sl.active, ∀ c ∈ sl.encoding, c ≠ x s →
      0 < transition usher acc x (Function.update x s c)) :
    legalStates act x0 ⊆ reached (transition usher acc) x0 := by
  intro y hy
  have key : ∀ l : List ℕ, (∀ s ∈ l, ∃ sl ∈ act, s ∈ sl.active) →
      mix l.toFinset y x0 ∈ reached (transition usher acc) x0 ∧ LegalOcc act (mix l.toFinset y x0) := by
    intro l
    induction l with
    | nil =>
      intro _
      have : mix (([] : List ℕ).toFinset) y x0 = x0 := by funext s; simp [mix]
      rw [this]
      exact ⟨Relation.ReflTransGen.refl, hx0⟩
    | cons s l ih =>
      intro hl
      obtain ⟨h1, h2⟩ := ih fun t ht => hl t (by simp [ht])
      obtain ⟨sl, hsl, hs⟩ := hl s (by simp)
      have hup : mix (s :: l).toFinset y x0 = Function.update (mix l.toFinset y x0) s (y s) := by
        funext t
        by_cases ht : t = s
        · subst ht; simp [mix]
        · rw [Function.update_of_ne ht]; simp [mix, ht]
      have hleg : LegalOcc act (mix (s :: l).toFinset y x0) := by
        intro sl' hsl' t ht
        unfold mix
        split_ifs
        · exact hy.1 sl' hsl' t ht
        · exact hx0 sl' hsl' t ht
      refine ⟨?_, hleg⟩
      by_cases he : y s = mix l.toFinset y x0 s
      · rw [hup, he, Function.update_eq_self]; exact h1
      · rw [hup]
        exact Relation.ReflTransGen.tail h1 (hflip _ h2 sl hsl s hs (y s) (hy.1 sl hsl s hs) he)
  have h := (key (act.flatMap fun sl => sl.active) fun s hs => by
    obtain ⟨sl, h1, h2⟩ := List.mem_flatMap.1 hs
    exact ⟨sl, h1, h2⟩).1
  have : mix (act.flatMap fun sl => sl.active).toFinset y x0 = y := by
    funext s
    unfold mix
    split_ifs with hs
    · rfl
    · refine (hy.2 s fun sl hsl hm => hs ?_).symm
      rw [List.mem_toFinset, List.mem_flatMap]
      exact ⟨sl, hsl, hm⟩
  rwa [this] at h

/-- a site to swap with -/
theorem exists_partner {sl : Sublattice} {x y : Occ} {s : ℕ} (hnd : sl.active.Nodup)
    (hs : s ∈ sl.active) (hne : x s ≠ y s) (hc : holding sl x (y s) = holding sl y (y s)) :
    ∃ t ∈ sl.active, x t = y s ∧ y t ≠ y s := by
  by_contra hcon
  push Not at hcon
  have hsub : (sl.active.filter fun t => x t == y s) ⊆ (sl.active.filter fun t => y t == y s).erase s := by
    intro t ht
    rw [List.mem_filter] at ht
    have hx : x t = y s := by simpa using ht.2
    have hts : t ≠ s := by rintro rfl; exact hne hx
    rw [List.mem_erase_of_ne hts, List.mem_filter]
    exact ⟨ht.1, by simpa using hcon t ht.1 hx⟩
  have h1 := (List.subperm_of_subset (hnd.filter _) hsub).length_le
  have hm : s ∈ sl.active.filter fun t => y t == y s := by
    rw [List.mem_filter]; exact ⟨hs, by simp⟩
  rw [List.length_erase_of_mem hm] at h1
  have h2 := List.length_pos_of_mem hm
  unfold holding at hc
  omega

/-- swaps reach every legal state of the same composition -/
theorem swaps_reach {act : List Sublattice} (hok : SitesOk act) {usher : Occ → Prog Step}
    {acc : Occ → Step → ℝ}
    (hswap : ∀ x, LegalOcc act x → ∀ sl ∈ act, ∀ s ∈ sl.active, ∀ t ∈ sl.active, x t ≠ x s →
      0 < transition usher acc x (applyStep x [(s, x t), (t, x s)])) {x0 : Occ}
    (hx0 : LegalOcc act x0) :
    legalStates act x0 ∩ {y | SameComposition act x0 y} ⊆ reached (transition usher acc) x0 := by
  set A := (act.flatMap fun sl => sl.active).toFinset with hA
  have key : ∀ (n : ℕ) (x y : Occ), LegalOcc act x → y ∈ legalStates act x →
      SameComposition act x y → (A.filter fun s => x s ≠ y s).card = n →
      y ∈ reached (transition usher acc) x := by
    intro n
    induction n using Nat.strong_induction_on with
    | _ n ih =>
      intro x y hx hy hc hn
      by_cases hxy : ∀ sl ∈ act, ∀ s ∈ sl.active, x s = y s
      · have : x = y := by
          funext s
          by_cases h : ∀ sl ∈ act, s ∉ sl.active
          · exact (hy.2 s h).symm
          · push Not at h
            obtain ⟨sl, hsl, hs⟩ := h
            exact hxy sl hsl s hs
        subst this
        exact Relation.ReflTransGen.refl
      · push Not at hxy
        obtain ⟨sl, hsl, s, hs, hne⟩ := hxy
        obtain ⟨t, ht, hxt, hyt⟩ := exists_partner (hok.nodup sl hsl) hs hne (hc sl hsl (y s))
        have hts : x t ≠ x s := by rw [hxt]; exact hne.symm
        have hst : s ≠ t := by rintro rfl; exact hts rfl
        set x' := applyStep x [(s, x t), (t, x s)] with hx'
        have hlegal : ∀ f ∈ [(s, x t), (t, x s)], ∃ sl ∈ act, f.1 ∈ sl.active ∧ f.2 ∈ sl.encoding := by
          intro f hf
          simp only [List.mem_cons, List.not_mem_nil, or_false] at hf
          rcases hf with rfl | rfl
          · exact ⟨sl, hsl, hs, hx sl hsl t ht⟩
          · exact ⟨sl, hsl, ht, hx sl hsl s hs⟩
        have hxs' : x' ∈ legalStates act x := legalStates_apply hok ⟨hx, fun _ _ => rfl⟩ hlegal
        have hval : ∀ u, x' u = if u = t then x s else if u = s then x t else x u := by
          intro u
          rw [hx']
          simp only [applyStep]
          by_cases h1 : u = t
          · subst h1; simp
          · rw [Function.update_of_ne h1, if_neg h1]
            by_cases h2 : u = s
            · subst h2; simp
            · rw [Function.update_of_ne h2, if_neg h2]
        have hc' : SameComposition act x' y := by
          intro sl' hsl' c
          rw [← hc sl' hsl' c]
          exact (swap_holding hok x sl hsl s t hs ht hts.symm sl' hsl' c).symm
        have hy' : y ∈ legalStates act x' :=
          ⟨hy.1, fun u hu => by rw [hy.2 u hu, hxs'.2 u hu]⟩
        have hlt : (A.filter fun u => x' u ≠ y u).card < n := by
          rw [← hn]
          apply Finset.card_lt_card
          rw [Finset.ssubset_iff_of_subset]
          · refine ⟨s, ?_, ?_⟩
            · rw [Finset.mem_filter, hA, List.mem_toFinset, List.mem_flatMap]
              exact ⟨⟨sl, hsl, hs⟩, hne⟩
            · rw [Finset.mem_filter, hval s, if_neg hst, if_pos rfl, hxt]
              simp
          · intro u hu
            rw [Finset.mem_filter] at hu ⊢
            refine ⟨hu.1, ?_⟩
            by_cases h1 : u = t
            · subst h1; rw [hxt]; exact hyt.symm
            · by_cases h2 : u = s
              · subst h2; exact hne
              · have := hu.2
                rwa [hval u, if_neg h1, if_neg h2] at this
        exact Relation.ReflTransGen.head (hswap x hx sl hsl s hs t ht hts)
          (ih _ hlt x' y hxs'.1 hy' hc' rfl)
  rintro y ⟨h1, h2⟩
  exact key _ x0 y hx0 h1 h2 rfl

/-- states reached by swaps have the same composition -/
theorem reached_same {act : List Sublattice} {usher : Occ → Prog Step}
    {acc : Occ → Step → ℝ} {x0 : Occ}
    (h : ∀ x st, (usher x).Outcome st → SameComposition act x (applyStep x st)) :
    ∀ y ∈ reached (transition usher acc) x0, SameComposition act x0 y := by
  intro y hy
  have hy : Relation.ReflTransGen _ x0 y := hy
  induction hy with
  | refl => exact SameComposition.refl _ _
  | tail hb hbc ih =>
    obtain ⟨st, ho, rfl, _⟩ := transition_pos_outcome hbc
    exact SameComposition.trans (ih hb) (h _ st ho)

/-- if weights differ somewhere, a step can be rejected -/
theorem canStay_of_weights {usher : Occ → Prog Step} {acc : Occ → Step → ℝ} {w : Occ → ℝ}
    {Ω : Set Occ} (h : Ergodic usher acc w Ω)
    (hacc : ∀ x ∈ Ω, ∀ st, (usher x).Outcome st → w (applyStep x st) < w x → acc x st < 1)
    (a b : Occ) (ha : a ∈ Ω) (hb : b ∈ Ω) (hab : w a ≠ w b) : CanStay usher acc Ω := by
  by_contra hcon
  have hle : ∀ x ∈ Ω, ∀ y, 0 < transition usher acc x y → w x ≤ w y := by
    intro x hx y hxy
    obtain ⟨st, ho, rfl, _⟩ := transition_pos_outcome hxy
    by_contra hlt
    exact hcon ⟨x, hx, st, ho, Or.inl (hacc x hx st ho (not_le.1 hlt))⟩
  have hpath : ∀ x ∈ Ω, ∀ y ∈ Ω, w x ≤ w y := by
    intro x hx y hy
    have : y ∈ Ω ∧ w x ≤ w y := by
      have := h.joined x hx y hy
      clear hy
      induction this with
      | refl => exact ⟨hx, le_rfl⟩
      | tail _ hbc ih => exact ⟨hbc.1, ih.2.trans (hle _ ih.1 _ hbc.2)⟩
    exact this.2
  exact hab (le_antisymm (hpath a ha b hb) (hpath b hb a ha))

end Smol
