import Verif.Model.Ewald
import Verif.Spec.Ewald
import Verif.Lemmas.Occupancy

namespace Smol
open Spec Finset

variable {K : Type*} [CommRing K]

/-- Index array is usable: entries are `-1` or valid rows, and no row is used twice. -/
structure EwaldData.WellFormed (E : EwaldData K) : Prop where
  range : ∀ k c, E.inds k c = -1 ∨ 0 ≤ E.inds k c ∧ E.inds k c < E.numEwald
  inj : ∀ k c k' c', E.inds k c = E.inds k' c' → E.inds k c ≠ -1 → k = k' ∧ c = c'
  symm : ∀ i j, E.matrix i j = E.matrix j i

/-- row of the matrix occupied by a site -/
def EwaldData.row (E : EwaldData K) (occ : Occ) (k : ℕ) : Option ℕ :=
  if E.inds k (occ k) = -1 then none else some (E.inds k (occ k)).toNat

theorem foldl_setTrue_length (l : List ℤ) (b : List Bool) :
    (l.foldl setTrue b).length = b.length := by
  induction l generalizing b with
  | nil => rfl
  | cons i l ih =>
    rw [List.foldl_cons, ih]; unfold setTrue; split <;> simp

theorem foldl_setTrue_getD (m : ℕ) (l : List ℤ) (b : List Bool) (hb : b.length = m + 1)
    (hl : ∀ i ∈ l, i = -1 ∨ 0 ≤ i ∧ i < m) (j : ℕ) (hj : j < m) :
    ((l.foldl setTrue b).getD j false = true) ↔ (b.getD j false = true ∨ (j : ℤ) ∈ l) := by
  induction l generalizing b with
  | nil => simp
  | cons i l ih =>
    rw [List.foldl_cons, ih]
    · have hjb : j < b.length := by omega
      rcases hl i (by simp) with hi | ⟨h0, h1⟩
      · subst hi
        simp only [setTrue, if_true, List.mem_cons]
        have hne : b.length - 1 ≠ j := by omega
        have h2 : ¬ ((j : ℤ) = -1) := by omega
        simp [List.getD_eq_getElem?_getD, hne, h2]
      · have hne : i ≠ -1 := by omega
        simp only [setTrue, hne, if_false, List.mem_cons]
        by_cases hij : i.toNat = j
        · have : (j : ℤ) = i := by omega
          simp [List.getD_eq_getElem?_getD, hij, this, hjb]
        · have : ¬ (j : ℤ) = i := by omega
          simp [List.getD_eq_getElem?_getD, hij, this]
    · unfold setTrue; split <;> simp [hb]
    · intro k hk; exact hl k (by simp [hk])

omit [CommRing K] in
theorem ewaldOccu_getD (E : EwaldData K) (hE : E.WellFormed) (occ : Occ) (j : ℕ)
    (hj : j < E.numEwald) :
    ((E.ewaldOccu occ).getD j false = true) ↔ ∃ k < E.numSites, E.inds k (occ k) = j := by
  unfold EwaldData.ewaldOccu
  simp only
  set l := (List.range E.numSites).map fun k => E.inds k (occ k) with hl
  have hlen := foldl_setTrue_length l (List.replicate (E.numEwald + 1) false)
  have h1 : ((l.foldl setTrue (List.replicate (E.numEwald + 1) false)).dropLast).getD j false
      = (l.foldl setTrue (List.replicate (E.numEwald + 1) false)).getD j false := by
    rw [List.getD_eq_getElem?_getD, List.getD_eq_getElem?_getD, List.getElem?_dropLast, if_pos]
    rw [hlen]; simp; omega
  rw [h1, foldl_setTrue_getD E.numEwald l _ (by simp) _ j hj]
  · simp [hl, List.getD_eq_getElem?_getD, List.getElem?_replicate]
    intro h; split at h <;> simp at h
  · intro i hi
    obtain ⟨k, _, rfl⟩ := List.mem_map.1 hi
    exact hE.range _ _

theorem list_filter_sum (n : ℕ) (p : ℕ → Bool) (f : ℕ → K) :
    (((List.range n).filter p).map f).sum = ∑ j ∈ (range n).filter (fun j => p j = true), f j := by
  rw [Finset.sum_filter]
  induction n with
  | zero => simp
  | succ n ih =>
    rw [List.range_succ, List.filter_append, List.map_append, List.sum_append, ih,
      Finset.sum_range_succ]
    congr 1
    by_cases h : p n = true <;> simp [h]

/-- sum over occupied rows = sum over sites holding something -/
theorem occupied_sum (E : EwaldData K) (hE : E.WellFormed) (occ : Occ) (f : ℕ → K) :
    (((List.range E.numEwald).filter fun j => (E.ewaldOccu occ).getD j false).map f).sum
      = ∑ k ∈ range E.numSites, match E.row occ k with | some j => f j | none => 0 := by
  rw [list_filter_sum]
  have hset : (range E.numEwald).filter (fun j => (E.ewaldOccu occ).getD j false = true)
      = ((range E.numSites).filter fun k => E.inds k (occ k) ≠ -1).image
          fun k => (E.inds k (occ k)).toNat := by
    ext j
    simp only [mem_filter, mem_range, mem_image]
    constructor
    · rintro ⟨hj, h⟩
      obtain ⟨k, hk, hkj⟩ := (ewaldOccu_getD E hE occ j hj).1 h
      exact ⟨k, ⟨hk, by omega⟩, by omega⟩
    · rintro ⟨k, ⟨hk, hne⟩, rfl⟩
      have hr := (hE.range k (occ k)).resolve_left hne
      have hj : (E.inds k (occ k)).toNat < E.numEwald := by omega
      refine ⟨hj, (ewaldOccu_getD E hE occ _ hj).2 ⟨k, hk, by omega⟩⟩
  rw [hset, Finset.sum_image, Finset.sum_filter]
  · apply Finset.sum_congr rfl
    intro k _
    unfold EwaldData.row
    by_cases h : E.inds k (occ k) = -1 <;> simp [h]
  · intro k hk k' hk' h
    simp only [coe_filter, mem_range, Set.mem_ofPred_eq] at hk hk'
    have h1 := (hE.range k (occ k)).resolve_left hk.2
    have h2 := (hE.range k' (occ k')).resolve_left hk'.2
    simp only at h
    exact (hE.inj k (occ k) k' (occ k') (by omega) hk.2).1

theorem featureVector_eq_pairEnergy (E : EwaldData K) (hE : E.WellFormed) (occ : Occ) :
    E.featureVector occ = pairEnergy E.numSites E.matrix (E.row occ) := by
  unfold EwaldData.featureVector pairEnergy
  simp only
  rw [occupied_sum E hE]
  apply Finset.sum_congr rfl
  intro k _
  cases h : E.row occ k with
  | none => simp [pairTerm]
  | some i =>
    simp only
    rw [occupied_sum E hE]
    apply Finset.sum_congr rfl
    intro l _
    cases E.row occ l <;> rfl

/-- expansion of the pair energy around one site -/
theorem pairEnergy_split (n : ℕ) (M : ℕ → ℕ → K) (hM : ∀ i j, M i j = M j i)
    (row : ℕ → Option ℕ) (s : ℕ) (hs : s < n) :
    pairEnergy n M row =
      (pairTerm M (row s) (row s))
      + 2 * (∑ k ∈ (range n).erase s, pairTerm M (row k) (row s))
      + ∑ k ∈ (range n).erase s, ∑ l ∈ (range n).erase s,
          pairTerm M (row k) (row l) := by
  unfold pairEnergy
  have hmem : s ∈ range n := mem_range.2 hs
  have key : ∀ k, (∑ l ∈ range n, pairTerm M (row k) (row l))
      = pairTerm M (row k) (row s) + ∑ l ∈ (range n).erase s, pairTerm M (row k) (row l) :=
    fun k => (Finset.add_sum_erase _ _ hmem).symm
  have hsym : ∀ l, pairTerm M (row s) (row l) = pairTerm M (row l) (row s) := by
    intro l
    cases row s <;> cases row l <;> simp [pairTerm, hM]
  rw [← Finset.add_sum_erase _ _ hmem]
  simp only [key, Finset.sum_add_distrib]
  simp only [hsym]
  ring

theorem deltaHalf_sum (E : EwaldData K) (hE : E.WellFormed) (occ : Occ) (s : ℕ)
    (hs : s < E.numSites) :
    (∑ k ∈ range E.numSites,
      (if E.inds k (occ k) ≠ -1 ∧ E.inds s (occ s) ≠ -1 then
        if E.inds k (occ k) ≠ E.inds s (occ s) then
          2 * E.matrix (E.inds k (occ k)).toNat (E.inds s (occ s)).toNat
        else E.matrix (E.inds k (occ k)).toNat (E.inds s (occ s)).toNat
       else 0))
    = (pairTerm E.matrix (E.row occ s) (E.row occ s))
      + 2 * (∑ k ∈ (range E.numSites).erase s,
          pairTerm E.matrix (E.row occ k) (E.row occ s)) := by
  have hmem : s ∈ range E.numSites := mem_range.2 hs
  rw [← Finset.add_sum_erase _ _ hmem, Finset.mul_sum]
  congr 1
  · unfold EwaldData.row
    by_cases h : E.inds s (occ s) = -1 <;> simp [h, pairTerm]
  · apply Finset.sum_congr rfl
    intro k hk
    have hks : k ≠ s := (Finset.mem_erase.1 hk).1
    unfold EwaldData.row
    by_cases h : E.inds s (occ s) = -1
    · by_cases h2 : E.inds k (occ k) = -1 <;> simp [h, h2, pairTerm]
    · by_cases h2 : E.inds k (occ k) = -1
      · simp [h2, pairTerm]
      · have hne : E.inds k (occ k) ≠ E.inds s (occ s) := fun he =>
          hks (hE.inj k (occ k) s (occ s) he h2).1
        simp [h, h2, hne, pairTerm]

theorem list_range_sum (n : ℕ) (f : ℕ → K) :
    ((List.range n).map f).sum = ∑ k ∈ range n, f k := by
  induction n with
  | zero => simp
  | succ n ih => rw [List.range_succ, List.map_append, List.sum_append, ih, sum_range_succ]; simp

theorem deltaSingleFlip_eq (E : EwaldData K) (hE : E.WellFormed) (occ : Occ) (s c : ℕ)
    (hs : s < E.numSites) :
    E.deltaSingleFlip (Function.update occ s c) occ s
      = E.featureVector (Function.update occ s c) - E.featureVector occ := by
  rw [featureVector_eq_pairEnergy E hE, featureVector_eq_pairEnergy E hE,
    pairEnergy_split _ _ hE.symm _ s hs, pairEnergy_split _ _ hE.symm _ s hs]
  have hrow : ∀ k ∈ (range E.numSites).erase s,
      E.row (Function.update occ s c) k = E.row occ k := by
    intro k hk
    have hks : k ≠ s := (Finset.mem_erase.1 hk).1
    simp [EwaldData.row, Function.update_of_ne hks]
  have hrest : (∑ k ∈ (range E.numSites).erase s, ∑ l ∈ (range E.numSites).erase s,
          pairTerm E.matrix (E.row (Function.update occ s c) k) (E.row (Function.update occ s c) l))
      = ∑ k ∈ (range E.numSites).erase s, ∑ l ∈ (range E.numSites).erase s,
          pairTerm E.matrix (E.row occ k) (E.row occ l) := by
    apply Finset.sum_congr rfl
    intro k hk
    apply Finset.sum_congr rfl
    intro l hl
    rw [hrow k hk, hrow l hl]
  rw [hrest, ← deltaHalf_sum E hE _ s hs, ← deltaHalf_sum E hE _ s hs]
  unfold EwaldData.deltaSingleFlip
  simp only [list_range_sum]
  unfold EwaldData.deltaTerm
  rw [Finset.sum_sub_distrib]
  ring

/-! index arrays built by `get_ewald_structure` -/

theorem ewaldSiteInds_le (next : ℕ) (l : List Bool) : next ≤ (ewaldSiteInds next l).2 := by
  induction l generalizing next with
  | nil => simp [ewaldSiteInds]
  | cons b l ih =>
    cases b
    · have := ih (next + 1); simp [ewaldSiteInds]; omega
    · simpa [ewaldSiteInds] using ih next

theorem ewaldSiteInds_range (next : ℕ) (l : List Bool) (c : ℕ) :
    (ewaldSiteInds next l).1.getD c (-1) = -1 ∨
      (next : ℤ) ≤ (ewaldSiteInds next l).1.getD c (-1) ∧
      (ewaldSiteInds next l).1.getD c (-1) < (ewaldSiteInds next l).2 := by
  induction l generalizing next c with
  | nil => simp [ewaldSiteInds]
  | cons b l ih =>
    cases b
    · cases c with
      | zero =>
        have := ewaldSiteInds_le (next + 1) l
        right; simp [ewaldSiteInds]; omega
      | succ c =>
        have := ih (next + 1) c
        simp only [ewaldSiteInds, Bool.false_eq_true, if_false, List.getD_cons_succ]
        push_cast at this
        rcases this with h | h
        · exact Or.inl h
        · right; omega
    · cases c with
      | zero => left; simp [ewaldSiteInds]
      | succ c => simpa [ewaldSiteInds] using ih next c

theorem ewaldSiteInds_inj (next : ℕ) (l : List Bool) (c c' : ℕ)
    (h : (ewaldSiteInds next l).1.getD c (-1) = (ewaldSiteInds next l).1.getD c' (-1))
    (hne : (ewaldSiteInds next l).1.getD c (-1) ≠ -1) : c = c' := by
  induction l generalizing next c c' with
  | nil => simp [ewaldSiteInds] at hne
  | cons b l ih =>
    cases b
    · simp only [ewaldSiteInds, Bool.false_eq_true, if_false] at h hne
      cases c with
      | zero =>
        cases c' with
        | zero => rfl
        | succ c' =>
          simp only [List.getD_cons_zero, List.getD_cons_succ] at h
          rcases ewaldSiteInds_range (next + 1) l c' with h1 | h1
          · rw [h1] at h; omega
          · push_cast at h1; omega
      | succ c =>
        cases c' with
        | zero =>
          simp only [List.getD_cons_zero, List.getD_cons_succ] at h hne
          rcases ewaldSiteInds_range (next + 1) l c with h1 | h1
          · exact absurd h1 hne
          · push_cast at h1; omega
        | succ c' =>
          simp only [List.getD_cons_succ] at h hne
          rw [ih _ _ _ h hne]
    · simp only [ewaldSiteInds, if_true] at h hne
      cases c with
      | zero => simp at hne
      | succ c =>
        cases c' with
        | zero => simp only [List.getD_cons_zero, List.getD_cons_succ] at h hne; exact absurd h hne
        | succ c' =>
          simp only [List.getD_cons_succ] at h hne
          rw [ih _ _ _ h hne]

theorem ewaldStructureInds_le (next : ℕ) (ls : List (List Bool)) :
    next ≤ (ewaldStructureInds next ls).2 := by
  induction ls generalizing next with
  | nil => simp [ewaldStructureInds]
  | cons l ls ih =>
    have h1 := ewaldSiteInds_le next l
    have h2 := ih (ewaldSiteInds next l).2
    simp only [ewaldStructureInds]; omega

theorem ewaldStructureInds_range (next : ℕ) (ls : List (List Bool)) (k c : ℕ) :
    ewaldIndex (ewaldStructureInds next ls).1 k c = -1 ∨
      (next : ℤ) ≤ ewaldIndex (ewaldStructureInds next ls).1 k c ∧
      ewaldIndex (ewaldStructureInds next ls).1 k c < (ewaldStructureInds next ls).2 := by
  induction ls generalizing next k with
  | nil => simp [ewaldStructureInds, ewaldIndex]
  | cons l ls ih =>
    have h1 := ewaldSiteInds_le next l
    have h2 := ewaldStructureInds_le (ewaldSiteInds next l).2 ls
    cases k with
    | zero =>
      simp only [ewaldStructureInds, ewaldIndex, List.getD_cons_zero]
      rcases ewaldSiteInds_range next l c with h | h
      · exact Or.inl h
      · right; omega
    | succ k =>
      have := ih (ewaldSiteInds next l).2 k
      simp only [ewaldStructureInds, ewaldIndex, List.getD_cons_succ] at this ⊢
      rcases this with h | h
      · exact Or.inl h
      · right; omega

theorem ewaldStructureInds_inj (next : ℕ) (ls : List (List Bool)) (k c k' c' : ℕ)
    (h : ewaldIndex (ewaldStructureInds next ls).1 k c
      = ewaldIndex (ewaldStructureInds next ls).1 k' c')
    (hne : ewaldIndex (ewaldStructureInds next ls).1 k c ≠ -1) : k = k' ∧ c = c' := by
  induction ls generalizing next k k' with
  | nil => simp [ewaldStructureInds, ewaldIndex] at hne
  | cons l ls ih =>
    simp only [ewaldStructureInds] at h hne
    cases k with
    | zero =>
      cases k' with
      | zero =>
        simp only [ewaldIndex, List.getD_cons_zero] at h hne
        exact ⟨rfl, ewaldSiteInds_inj next l c c' h hne⟩
      | succ k' =>
        exfalso
        have h1 := ewaldSiteInds_range next l c
        have h2 := ewaldStructureInds_range (ewaldSiteInds next l).2 ls k' c'
        simp only [ewaldIndex, List.getD_cons_zero, List.getD_cons_succ] at h hne h2
        omega
    | succ k =>
      cases k' with
      | zero =>
        exfalso
        have h1 := ewaldSiteInds_range next l c'
        have h2 := ewaldStructureInds_range (ewaldSiteInds next l).2 ls k c
        simp only [ewaldIndex, List.getD_cons_zero, List.getD_cons_succ] at h hne h2
        omega
      | succ k' =>
        have h' : ewaldIndex (ewaldStructureInds (ewaldSiteInds next l).2 ls).1 k c
            = ewaldIndex (ewaldStructureInds (ewaldSiteInds next l).2 ls).1 k' c' := by
          simpa only [ewaldIndex, List.getD_cons_succ] using h
        have hne' : ewaldIndex (ewaldStructureInds (ewaldSiteInds next l).2 ls).1 k c ≠ -1 := by
          simpa only [ewaldIndex, List.getD_cons_succ] using hne
        have := ih (ewaldSiteInds next l).2 k k' h' hne'
        exact ⟨by omega, this.2⟩

end Smol
