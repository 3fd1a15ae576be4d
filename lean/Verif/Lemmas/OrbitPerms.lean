import Verif.Lemmas.OrbitGen
import Verif.Spec.Orbit
import Verif.Lemmas.Orbit

/-!
# The permutations of a cluster form a group
-/

set_option linter.unusedSectionVars false

namespace Smol
open Spec

/-! ## Permutations of a list made by a map -/

section generic
variable {α : Type*} [DecidableEq α]

/-- Positions of the entries among their images. -/
def mapPerm (base : List α) (f : α → α) : List ℕ := base.map fun x => (base.map f).idxOf x

theorem mapPerm_length (base : List α) (f : α → α) : (mapPerm base f).length = base.length := by
  simp [mapPerm]

theorem mapPerm_get {base : List α} {f : α → α} (h : base.Perm (base.map f)) {i : ℕ}
    (hi : i < base.length) :
    ∃ j, (mapPerm base f)[i]? = some j ∧ ∃ hj : j < base.length, f base[j] = base[i] := by
  have hmem : base[i] ∈ base.map f := h.mem_iff.1 (List.getElem_mem hi)
  have hlt := List.idxOf_lt_length_iff.2 hmem
  refine ⟨(base.map f).idxOf base[i], ?_, by simpa using hlt, ?_⟩
  · simp [mapPerm, hi]
  · have := List.getElem_idxOf hlt
    rwa [List.getElem_map] at this

theorem mapPerm_unique {base : List α} (hnd : base.Nodup) {f : α → α}
    (hf : ∀ x y, f x = f y → x = y) (h : base.Perm (base.map f)) {i j : ℕ} (hi : i < base.length)
    (hj : j < base.length) (he : f base[j] = base[i]) : (mapPerm base f)[i]? = some j := by
  obtain ⟨k, hk, hkl, hke⟩ := mapPerm_get h hi
  rw [hk, ← (hnd.getElem_inj_iff.1 (hf _ _ (hke.trans he.symm)))]

theorem mapPerm_perm {base : List α} (hnd : base.Nodup) {f : α → α}
    (hf : ∀ x y, f x = f y → x = y) (h : base.Perm (base.map f)) :
    (mapPerm base f).Perm (List.range base.length) := by
  have hnd' : (mapPerm base f).Nodup := by
    unfold mapPerm
    apply List.Nodup.map_on _ hnd
    intro x hx y hy hxy
    have hx' := h.mem_iff.1 hx
    have hy' := h.mem_iff.1 hy
    have := List.getElem_idxOf (List.idxOf_lt_length_iff.2 hx')
    rw [← this]
    have hy2 := List.getElem_idxOf (List.idxOf_lt_length_iff.2 hy')
    rw [← hy2]
    congr 1
  rw [List.perm_ext_iff_of_nodup hnd' List.nodup_range]
  intro j
  rw [List.mem_range]
  constructor
  · intro hj
    obtain ⟨x, hx, rfl⟩ := List.mem_map.1 hj
    simpa using List.idxOf_lt_length_iff.2 (h.mem_iff.1 hx)
  · intro hj
    have : f base[j] ∈ base := h.mem_iff.2 (List.mem_map_of_mem (List.getElem_mem hj))
    obtain ⟨i, hi, he⟩ := List.getElem_of_mem this
    exact List.mem_of_getElem? (mapPerm_unique hnd hf h hi hj he.symm)

theorem mapPerm_ext {base : List α} {l : List ℕ} {f : α → α} (hl : l.length = base.length)
    (h : ∀ i, i < base.length → l[i]? = (mapPerm base f)[i]?) : l = mapPerm base f := by
  apply List.ext_getElem?
  intro i
  by_cases hi : i < base.length
  · exact h i hi
  · rw [List.getElem?_eq_none (by omega), List.getElem?_eq_none (by rw [mapPerm_length]; omega)]

theorem mapPerm_id {base : List α} (hnd : base.Nodup) {f : α → α} (hf : ∀ x ∈ base, f x = x)
    (hinj : ∀ x y, f x = f y → x = y) (h : base.Perm (base.map f)) :
    mapPerm base f = List.range base.length := by
  symm
  apply mapPerm_ext (by simp)
  intro i hi
  rw [mapPerm_unique hnd hinj h hi hi (hf _ (List.getElem_mem hi)), List.getElem?_range hi]

theorem mapPerm_comp {base : List α} (hnd : base.Nodup) {f g : α → α}
    (hf : ∀ x y, f x = f y → x = y) (hg : ∀ x y, g x = g y → x = y)
    (h : base.Perm (base.map f)) (h' : base.Perm (base.map g)) :
    ((mapPerm base g).map fun i => (mapPerm base f).getD i 0) = mapPerm base (g ∘ f) := by
  apply mapPerm_ext (by simp [mapPerm_length])
  intro i hi
  obtain ⟨j, hj, hjl, hje⟩ := mapPerm_get h' hi
  obtain ⟨k, hk, hkl, hke⟩ := mapPerm_get h hjl
  rw [List.getElem?_map, hj, Option.map_some, List.getD_eq_getElem?_getD, hk]
  symm
  have hperm : base.Perm (base.map (g ∘ f)) := by
    rw [← List.map_map]
    exact h'.trans (h.map g)
  exact mapPerm_unique hnd (fun x y e => hf _ _ (hg _ _ e)) hperm hi hkl (by simp [hke, hje])

end generic

variable {d : ℕ} {K : Type*} [Field K] [LinearOrder K] [IsStrictOrderedRing K] [FloorRing K]
variable {ops : List (SymmOp d K)}

/-- The permutation of an operation that maps a cluster to itself. -/
theorem clusterPermutation_eq {base : List (Fin d → K)} (hne : base ≠ []) (g : SymmOp d K)
    {T : Fin d → ℤ} (h : base.Perm (base.map (shift T ∘ g.operate))) :
    clusterPermutation base g = mapPerm base (shift T ∘ g.operate) := by
  have hm := mkCluster_eq (base.map g.operate)
  have hp : base.Perm ((mkCluster (base.map g.operate)).map
      (shift fun i => ⌊centroid (base.map g.operate) i⌋ + T i)) := by
    rw [hm, map_shift_shift]
    simp only [neg_add_cancel_left]
    rw [List.map_map]
    exact h
  unfold clusterPermutation mapPerm
  rw [recentered_of_perm hne hp, hm, map_shift_shift, List.map_map]
  simp only [neg_add_cancel_left]

theorem exists_shift_of_translated {base : List (Fin d → K)} {g : SymmOp d K}
    (h : Translated (base.map g.operate) base) :
    ∃ T : Fin d → ℤ, base.Perm (base.map (shift T ∘ g.operate)) := by
  obtain ⟨T, hT⟩ := h.symm
  refine ⟨T, ?_⟩
  rwa [List.map_map] at hT

theorem shift_comp_inj (G : SpaceGroup ops) {g : SymmOp d K} (hg : g ∈ ops) (T : Fin d → ℤ) :
    ∀ x y : Fin d → K, (shift T ∘ g.operate) x = (shift T ∘ g.operate) y → x = y :=
  fun _ _ h => G.injective hg (shift_inj T h)

theorem mem_clusterPermutations (G : SpaceGroup ops) {base : List (Fin d → K)} (hne : base ≠ [])
    (hnd : base.Nodup) (p : List ℕ) :
    p ∈ clusterPermutations ops base ↔ ∃ g ∈ ops, ∃ T : Fin d → ℤ,
      base.Perm (base.map (shift T ∘ g.operate)) ∧ p = mapPerm base (shift T ∘ g.operate) := by
  unfold clusterPermutations
  rw [mem_uniqueRows, List.mem_map]
  constructor
  · rintro ⟨g, hg, rfl⟩
    obtain ⟨hg, ht⟩ := (clusterSymops_iff G hne hnd g).1 hg
    obtain ⟨T, hT⟩ := exists_shift_of_translated ht
    exact ⟨g, hg, T, hT, clusterPermutation_eq hne g hT⟩
  · rintro ⟨g, hg, T, hT, rfl⟩
    refine ⟨g, (clusterSymops_iff G hne hnd g).2 ⟨hg, ?_⟩, clusterPermutation_eq hne g hT⟩
    refine Translated.symm ⟨T, ?_⟩
    rwa [List.map_map]

/-- A lattice vector that maps a finite cluster to itself is zero. -/
theorem shift_eq_zero {base : List (Fin d → K)} (hne : base ≠ []) {T : Fin d → ℤ}
    (h : base.Perm (base.map (shift T))) : ∀ x : Fin d → K, shift T x = x := by
  intro x
  funext i
  have := shift_unique hne h i
  have h0 : (T i : K) = 0 := by linarith
  simp [shift, h0]

/-- The site permutations of a cluster form a group. -/
theorem clusterPermutations_group (G : SpaceGroup ops) {base : List (Fin d → K)} (hne : base ≠ [])
    (hnd : base.Nodup) : PermGroup base.length (clusterPermutations ops base) := by
  constructor
  · intro p hp
    obtain ⟨g, hg, T, hT, rfl⟩ := (mem_clusterPermutations G hne hnd p).1 hp
    exact mapPerm_perm hnd (shift_comp_inj G hg T) hT
  · rw [mem_clusterPermutations G hne hnd]
    obtain ⟨e, he, T, H⟩ := G.one
    have hid : ∀ x, (shift (fun i => - T i) ∘ e.operate) x = x := by
      intro x
      simp only [Function.comp, H, shift_neg]
    have hp : base.Perm (base.map (shift (fun i => - T i) ∘ e.operate)) := by
      apply List.Perm.of_eq
      conv_lhs => rw [← List.map_id base]
      exact List.map_congr_left fun x _ => (hid x).symm
    exact ⟨e, he, _, hp, (mapPerm_id hnd (fun x _ => hid x) (shift_comp_inj G he _) hp).symm⟩
  · intro p hp q hq
    obtain ⟨g, hg, T, hT, rfl⟩ := (mem_clusterPermutations G hne hnd p).1 hp
    obtain ⟨h, hh, S, hS, rfl⟩ := (mem_clusterPermutations G hne hnd q).1 hq
    rw [mapPerm_comp hnd (shift_comp_inj G hg T) (shift_comp_inj G hh S) hT hS,
      mem_clusterPermutations G hne hnd]
    obtain ⟨k, hk, R, H⟩ := G.mul h hh g hg
    obtain ⟨T', hT'⟩ := operate_shift h (G.int h hh) T
    have e : (shift S ∘ h.operate) ∘ (shift T ∘ g.operate)
        = shift (fun i => R i + (T' i + S i)) ∘ k.operate := by
      funext x
      simp only [Function.comp, hT', H]
      rw [shift_shift, shift_shift]
    refine ⟨k, hk, _, ?_, by rw [e]⟩
    rw [← e, ← List.map_map]
    exact hS.trans (hT.map _)
  · intro p hp
    obtain ⟨g, hg, T, hT, rfl⟩ := (mem_clusterPermutations G hne hnd p).1 hp
    obtain ⟨h, hh, R, H⟩ := G.inv g hg
    obtain ⟨T', hT'⟩ := operate_shift h (G.int h hh) T
    have hS : base.Perm (base.map (shift (fun i => - (R i + T' i)) ∘ h.operate)) := by
      have h1 := hT.map (shift (fun i => - (R i + T' i)) ∘ h.operate)
      rw [List.map_map] at h1
      have e : (shift (fun i => - (R i + T' i)) ∘ h.operate) ∘ (shift T ∘ g.operate) = id := by
        funext x
        simp only [Function.comp, hT', H]
        funext i
        simp only [shift, id]
        push_cast
        ring
      rw [e, List.map_id] at h1
      exact h1.symm
    refine ⟨_, (mem_clusterPermutations G hne hnd _).2 ⟨h, hh, _, hS, rfl⟩, ?_⟩
    rw [mapPerm_comp hnd (shift_comp_inj G hg T) (shift_comp_inj G hh _) hT hS]
    have e : (shift (fun i => - (R i + T' i)) ∘ h.operate) ∘ (shift T ∘ g.operate) = id := by
      funext x
      simp only [Function.comp, hT', H]
      funext i
      simp only [shift, id]
      push_cast
      ring
    rw [e]
    exact mapPerm_id hnd (fun _ _ => rfl) (fun _ _ h => h) (by rw [List.map_id])

/-- Permuted sites are equivalent. -/
theorem clusterPermutations_sites (G : SpaceGroup ops) {base : List (Fin d → K)} (hne : base ≠ [])
    (hnd : base.Nodup) (p : List ℕ) (hp : p ∈ clusterPermutations ops base) :
    ∃ g ∈ ops, ∃ T : Fin d → ℤ, ∀ (i j : ℕ), p[i]? = some j →
      ∃ x y, base[i]? = some x ∧ base[j]? = some y ∧ x = shift T (g.operate y) := by
  obtain ⟨g, hg, T, hT, rfl⟩ := (mem_clusterPermutations G hne hnd p).1 hp
  refine ⟨g, hg, T, ?_⟩
  intro i j hij
  have hi : i < base.length := by
    have := (List.getElem?_eq_some_iff.1 hij).1
    rwa [mapPerm_length] at this
  obtain ⟨k, hk, hkl, hke⟩ := mapPerm_get hT hi
  rw [hij, Option.some.injEq] at hk
  subst hk
  exact ⟨_, _, List.getElem?_eq_getElem hi, List.getElem?_eq_getElem hkl, hke.symm⟩

end Smol
