import Verif.Spec.Thermo
import Verif.Props.Session
import Verif.Props.FromExpansion
import Verif.Props.Ergodic
import Verif.Lemmas.OrbitRotation

/-!
# Chemical work as a sum over species, and the sampler's enthalpy
-/

namespace Smol
open Spec Prog

theorem zip_lookup (enc sp : List ℕ) (hl : enc.length = sp.length) (c : ℕ) (hc : c ∈ enc) :
    (enc.zip sp).lookup c = some (sp.getD (enc.idxOf c) 0) := by
  induction enc generalizing sp with
  | nil => cases hc
  | cons a enc ih =>
    cases sp with
    | nil => simp at hl
    | cons b sp =>
      rw [List.zip_cons_cons, List.lookup_cons]
      by_cases h : c = a
      · subst h; simp
      · have hb : (c == a) = false := by simpa using h
        rw [hb, List.idxOf_cons_ne _ (Ne.symm h)]
        simp only [List.getD_cons_succ]
        exact ih sp (by simpa using hl) (by simpa [h] using hc)

theorem price_site (v : List (ℕ × ℝ)) (hnd : (v.map Prod.fst).Nodup) (sp : ℕ) (hsp : sp ∈ v.map Prod.fst)
    (S : List ℕ) (hS : sp ∈ S) :
    potOf (v.filter fun p => decide (p.1 ∈ S)) sp =
      (v.map fun p => if sp = p.1 then p.2 else 0).sum := by
  obtain ⟨⟨a, x⟩, hm, rfl⟩ := List.mem_map.1 hsp
  have h1 : potOf (v.filter fun p => decide (p.1 ∈ S)) a = x :=
    potOf_given _ (hnd.sublist (List.Sublist.map _ List.filter_sublist)) _ _
      (List.mem_filter.2 ⟨hm, by simpa using hS⟩)
  dsimp only
  rw [h1]
  clear h1 hS hsp
  induction v with
  | nil => cases hm
  | cons q v ih =>
    rw [List.map_cons, List.nodup_cons] at hnd
    rw [List.map_cons, List.sum_cons]
    rcases List.mem_cons.1 hm with rfl | h
    · have : (v.map fun p : ℕ × ℝ => if a = p.1 then p.2 else 0) = v.map fun _ => 0 := by
        apply List.map_congr_left
        intro p hp
        rw [if_neg]
        rintro rfl
        exact hnd.1 (List.mem_map.2 ⟨p, hp, rfl⟩)
      rw [this]
      simp
    · rw [if_neg, zero_add]
      · exact ih hnd.2 h
      · rintro rfl
        exact hnd.1 (List.mem_map.2 ⟨_, h, rfl⟩)

theorem sum_over_sites (n : ℕ) (f : ℕ → ℝ) (L : List ℕ) (hL : L.Nodup) (hlt : ∀ s ∈ L, s < n)
    (h0 : ∀ s, s ∉ L → f s = 0) : ((List.range n).map f).sum = (L.map f).sum := by
  rw [list_range_sum, ← List.sum_toFinset f hL]
  refine (Finset.sum_subset ?_ ?_).symm
  · intro s hs
    exact Finset.mem_range.2 (hlt s (List.mem_toFinset.1 hs))
  · intro s _ hs
    exact h0 s fun h => hs (List.mem_toFinset.2 h)

/-- chemical work is `Σ μ N` over the active sublattices -/
theorem work_reservoir (e : Ens ℝ) (hok : SublatticesOk e.subl)
    (hlen : ∀ sl ∈ e.subl, sl.encoding.length = sl.species.length) (v : List (ℕ × ℝ))
    (hnd : (v.map Prod.fst).Nodup) (hall : ∀ sp ∈ e.species, sp ∈ v.map Prod.fst) (n : ℕ)
    (hn : ∀ sl ∈ e.subl, ∀ s ∈ sl.sites, s < n) (y : Occ) (hy : FullLegal e.subl y) :
    chemicalWork (buildTable e (v.filter fun p => decide (p.1 ∈ e.species))) n y =
      reservoir v (activeSublattices e.subl) y := by
  have hact : ∀ sl ∈ activeSublattices e.subl, sl ∈ e.subl := fun sl h => activeSublattices_mem h
  have hdis : (activeSublattices e.subl).Pairwise fun x y => ∀ s ∈ x.sites, s ∉ y.sites :=
    hok.disjoint.sublist List.filter_sublist
  have hnodup := flatMap_sites_nodup (fun sl h => (hok.nodup sl (hact sl h)).1) hdis
  unfold chemicalWork
  rw [sum_over_sites n _ _ hnodup]
  · rw [List.map_flatMap, List.flatMap_def, List.sum_flatten, List.map_map]
    unfold reservoir particles
    have step : ∀ sl ∈ activeSublattices e.subl,
        (List.sum ∘ fun sl : Sublattice => sl.sites.map fun s =>
          buildTable e (v.filter fun p => decide (p.1 ∈ e.species)) s (y s)) sl =
        (v.map fun p => p.2 * ((sl.sites.filter fun s => codeSpecies sl (y s) == some p.1).length : ℝ)).sum := by
      intro sl hsl
      dsimp only [Function.comp]
      have hs : ∀ s ∈ sl.sites, buildTable e (v.filter fun p => decide (p.1 ∈ e.species)) s (y s) =
          (v.map fun p => if codeSpecies sl (y s) = some p.1 then p.2 else 0).sum := by
        intro s hs
        have hc := hy sl (hact sl hsl) s hs
        unfold buildTable
        rw [buildTable_fold _ e.activeSubl _ hdis sl hsl s (y s) hs hc]
        have hz := zip_lookup sl.encoding sl.species (hlen sl (hact sl hsl)) (y s) hc
        have hi : sl.encoding.idxOf (y s) < sl.species.length := by
          rw [← hlen sl (hact sl hsl)]; exact List.idxOf_lt_length_of_mem hc
        have hm : sl.species.getD (sl.encoding.idxOf (y s)) 0 ∈ e.species := by
          unfold Ens.species
          refine List.mem_flatMap.2 ⟨sl, hsl, ?_⟩
          rw [List.getD_eq_getElem?_getD, List.getElem?_eq_getElem hi]
          exact List.getElem_mem _
        rw [price_site v hnd _ (hall _ hm) _ hm]
        unfold codeSpecies
        rw [hz]
        simp only [Option.some.injEq]
      rw [List.map_congr_left hs, sum_commR]
      congr 1
      apply List.map_congr_left
      intro p _
      induction sl.sites with
      | nil => simp
      | cons s l ih =>
        rw [List.map_cons, List.sum_cons, ih, List.filter_cons]
        by_cases h : codeSpecies sl (y s) = some p.1
        · simp [h]; ring
        · simp [h]
    rw [List.map_congr_left step, sum_commR]
    congr 1
    apply List.map_congr_left
    intro p _
    induction activeSublattices e.subl with
    | nil => simp
    | cons sl l ih =>
      simp only [List.map_cons, List.sum_cons, ih]
      push_cast
      ring
  · intro s hs
    obtain ⟨sl, h1, h2⟩ := List.mem_flatMap.1 hs
    exact hn sl (hact sl h1) s h2
  · intro s hs
    unfold buildTable
    rw [buildTable_fold_not _ _ _ s]
    intro sl hsl h
    exact hs (List.mem_flatMap.2 ⟨sl, hsl, h⟩)

theorem weightedMean_congr {w w' : Occ → ℝ} {Ω : Set Occ} (h : ∀ x ∈ Ω, w x = w' x) (f : Occ → ℝ) :
    weightedMean w Ω f = weightedMean w' Ω f := by
  unfold weightedMean
  rw [finsum_mem_congr rfl h, finsum_mem_congr rfl fun x hx => by rw [h x hx]]

/-- states in reach of steps on active sites are legal everywhere -/
theorem legalStates_full {sls : List Sublattice} (h : SublatticesOk sls) {x0 y : Occ}
    (hx0 : FullLegal sls x0) (hy : y ∈ legalStates (activeSublattices sls) x0) : FullLegal sls y := by
  intro sl hsl s hs
  by_cases ha : s ∈ sl.active
  · refine hy.1 sl ?_ s ha
    refine List.mem_filter.2 ⟨hsl, ?_⟩
    simp only [Sublattice.isActive, Bool.not_eq_true', List.isEmpty_eq_false_iff]
    exact List.ne_nil_of_mem ha
  · rw [hy.2 s]
    · exact hx0 sl hsl s hs
    · intro sl' hsl' hs'
      have hm := activeSublattices_mem hsl'
      by_cases he : sl = sl'
      · exact ha (he ▸ hs')
      · exact pairwise_disjoint_forall h.disjoint sl hsl sl' hm he s hs (h.active sl' hm s hs')

theorem dot_diff {K : Type*} [CommRing K] (p a b : List K) (h : a.length = b.length) :
    dot p (List.zipWith (· - ·) a b) = dot p a - dot p b := by
  unfold dot
  induction p generalizing a b with
  | nil => simp
  | cons x p ih =>
    cases a with
    | nil => cases b with
      | nil => simp
      | cons _ _ => simp at h
    | cons y a => cases b with
      | nil => simp at h
      | cons z b =>
        simp only [List.zipWith_cons_cons, List.sum_cons]
        rw [ih a b (by simpa using h)]
        ring

/-- the usher a kernel makes by default chooses among the active sublattices evenly -/
theorem made_now {K : Type*} (s : Session K) (u : LiveUsher) :
    (s.makeFlip none = some u → u.now s.heap = .flip .shared (activeSublattices s.view.subl)
      (List.replicate (activeSublattices s.view.subl).length
        (1 / ((activeSublattices s.view.subl).length : ℚ))) ∧ activeSublattices s.view.subl ≠ []) ∧
    (s.makeSwap none = some u → u.now s.heap = .swap .shared (activeSublattices s.view.subl)
      (List.replicate (activeSublattices s.view.subl).length
        (1 / ((activeSublattices s.view.subl).length : ℚ))) ∧ activeSublattices s.view.subl ≠ []) := by
  have hmap : s.activeRefs.map (lookSl s.heap) = activeSublattices s.view.subl := by
    unfold Session.activeRefs activeSublattices Session.view
    rw [List.filter_map]
    rfl
  have hl : s.activeRefs.length = (activeSublattices s.view.subl).length := by
    rw [← hmap, List.length_map]
  constructor <;>
  · intro h
    obtain ⟨p, hp, rfl⟩ := Option.map_eq_some_iff.1 h
    unfold usherProbs at hp
    dsimp only at hp
    split_ifs at hp with h0
    cases hp
    simp only [LiveUsher.now, hmap, hl]
    refine ⟨trivial, fun hn => h0 ?_⟩
    rw [hl, hn]
    rfl

theorem even_probs (n : ℕ) (hn : n ≠ 0) : ProbList n (List.replicate n (1 / (n : ℚ))) ∧
    ∀ a ∈ List.replicate n (1 / (n : ℚ)), 0 < a := by
  have hpos : ∀ a ∈ List.replicate n (1 / (n : ℚ)), 0 < a := by
    intro a ha
    rw [List.eq_of_mem_replicate ha]
    have : (0 : ℚ) < n := by exact_mod_cast Nat.pos_of_ne_zero hn
    positivity
  refine ⟨⟨by simp, fun a ha => (hpos a ha).le, ?_⟩, hpos⟩
  have : (n : ℚ) ≠ 0 := Nat.cast_ne_zero.2 hn
  simp [this]

end Smol
