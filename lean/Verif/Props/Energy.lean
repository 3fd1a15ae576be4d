import Verif.Lemmas.Ewald
import Verif.Lemmas.Composite

/-!
# C04 Ewald energies, C05 composite processors
-/

namespace Smol

set_option linter.unusedSectionVars false
open Spec

variable {K : Type*} [CommRing K]

/-- C04. The energy change of any list of flips is the difference of the full energies. -/
theorem C04_change_is_difference (E : EwaldData K) (hE : E.WellFormed) (occ occ' : Occ)
    (flips : Step) (hs : ∀ f ∈ flips, f.1 < E.numSites) (h : ReachedBy occ flips occ') :
    E.featureVectorChange occ flips = E.featureVector occ' - E.featureVector occ := by
  rw [(reachedBy_iff _ _ _).1 h]
  clear h occ'
  induction flips generalizing occ with
  | nil => simp [EwaldData.featureVectorChange, applyStep]
  | cons f fs ih =>
    simp only [EwaldData.featureVectorChange, applyStep]
    rw [deltaSingleFlip_eq E hE occ f.1 f.2 (hs f (by simp)), ih _ fun g hg => hs g (by simp [hg])]
    ring

/-- C04. The full energy is the sum over all pairs of sites of the matrix entry of the species
they hold, vacancies (`-1`) contributing nothing. -/
theorem C04_energy_value (E : EwaldData K) (hE : E.WellFormed) (occ : Occ) :
    E.featureVector occ =
      pairEnergy E.numSites E.matrix
        (fun k => if E.inds k (occ k) = -1 then none else some (E.inds k (occ k)).toNat) :=
  featureVector_eq_pairEnergy E hE occ

/-- C04. The index arrays built from any list of site spaces are usable, so the two theorems above
apply to every structure whose Ewald matrix is symmetric. -/
theorem C04_index_array_well_formed (spaces : List (List Bool)) (M : ℕ → ℕ → K)
    (hM : ∀ i j, M i j = M j i) :
    EwaldData.WellFormed
      { numSites := spaces.length
        numEwald := (ewaldStructureInds 0 spaces).2
        matrix := M
        inds := ewaldIndex (ewaldStructureInds 0 spaces).1 } where
  range k c := by
    have := ewaldStructureInds_range 0 spaces k c
    simpa using this
  inj k c k' c' h hne := ewaldStructureInds_inj 0 spaces k c k' c' h hne
  symm := hM

/-- C04. Exactly the vacancies and the codes outside the site space have no row: the entry for an
allowed species that is not a vacancy is a row number. -/
theorem C04_index_array_species (spaces : List (List Bool)) (k c : ℕ) (sp : List Bool)
    (hk : spaces[k]? = some sp) (isVac : Bool) (hc : sp[c]? = some isVac) :
    ewaldIndex (ewaldStructureInds 0 spaces).1 k c = -1 ↔ isVac = true := by
  have site : ∀ (l : List Bool) (next c : ℕ) (b : Bool), l[c]? = some b →
      ((ewaldSiteInds next l).1.getD c (-1) = -1 ↔ b = true) := by
    intro l
    induction l with
    | nil => intro next c b h; simp at h
    | cons b' l ih =>
      intro next c b h
      cases c with
      | zero =>
        simp only [List.getElem?_cons_zero, Option.some.injEq] at h
        subst h
        cases b'
        · simp [ewaldSiteInds]
        · simp [ewaldSiteInds]
      | succ c =>
        simp only [List.getElem?_cons_succ] at h
        cases b'
        · simpa [ewaldSiteInds] using ih (next + 1) c b h
        · simpa [ewaldSiteInds] using ih next c b h
  have : ∀ (ls : List (List Bool)) (next k : ℕ), ls[k]? = some sp →
      (ewaldIndex (ewaldStructureInds next ls).1 k c = -1 ↔ isVac = true) := by
    intro ls
    induction ls with
    | nil => intro next k h; simp at h
    | cons l ls ih =>
      intro next k h
      cases k with
      | zero =>
        simp only [List.getElem?_cons_zero, Option.some.injEq] at h
        subst h
        simpa [ewaldStructureInds, ewaldIndex] using site l next c isVac hc
      | succ k =>
        simp only [List.getElem?_cons_succ] at h
        simpa [ewaldStructureInds, ewaldIndex] using ih (ewaldSiteInds next l).2 k h
  exact this spaces 0 k hk

/-- two sites, each Li / Na / vacancy; nontrivial symmetric matrix -/
def exampleEwald : EwaldData ℚ :=
  { numSites := 2
    numEwald := (ewaldStructureInds 0 [[false, false, true], [false, false, true]]).2
    matrix := fun i j => (i + 1) * (j + 1)
    inds := ewaldIndex (ewaldStructureInds 0 [[false, false, true], [false, false, true]]).1 }

example : exampleEwald.WellFormed :=
  C04_index_array_well_formed [[false, false, true], [false, false, true]] _ fun i j => by ring

example : exampleEwald.featureVectorChange (fun _ => 0) [(0, 2), (1, 1), (0, 1)] = 20 := by
  decide +kernel

/-! ### C05 -/

/-- Coefficients match the feature vectors in length (checked by the constructors of the single
processors). -/
def PartProc.WellFormed (p : PartProc K) : Prop :=
  (∀ occ, (p.feature occ).length = p.coefs.length) ∧
    ∀ occ flips, (p.change occ flips).length = p.coefs.length

/-- C05 (partial). When the composite feature vector can be formed, the scalar product of the
composite's coefficients with it is the sum of the parts' properties, which is what
`compute_property` returns; same for changes.  Not covered because the code raises: composites
whose second, third, ... parts differ in shape, see `C05_mixed_shapes_fail`. -/
theorem C05_property_is_sum_partial (ps : List (PartProc K)) (hps : ∀ p ∈ ps, p.WellFormed)
    (occ : Occ) (flips : Step) :
    compositeProperty ps occ = (ps.map fun p => dot p.coefs (p.feature occ)).sum ∧
    compositePropertyChange ps occ flips = (ps.map fun p => dot p.coefs (p.change occ flips)).sum ∧
    (∀ F, compositeFeature ps occ = some F →
      dot (compositeCoefs ps) F = compositeProperty ps occ) ∧
    (∀ F, compositeChange ps occ flips = some F →
      dot (compositeCoefs ps) F = compositePropertyChange ps occ flips) := by
  refine ⟨rfl, rfl, ?_, ?_⟩
  · intro F hF
    rw [npAppendAll_eq _ _ hF, compositeCoefs_eq, List.flatMap_map]
    exact dot_flatMap ps _ _ fun p hp => ((hps p hp).1 occ).symm
  · intro F hF
    rw [npAppendAll_eq _ _ hF, compositeCoefs_eq, List.flatMap_map]
    exact dot_flatMap ps _ _ fun p hp => ((hps p hp).2 occ flips).symm

/-- C05 (partial). If every part's change is its difference, so is the composite's, entry by
entry. -/
theorem C05_change_is_difference_partial (ps : List (PartProc K)) (hps : ∀ p ∈ ps, p.WellFormed)
    (occ occ' : Occ) (flips : Step)
    (hd : ∀ p ∈ ps, p.change occ flips
      = List.zipWith (· - ·) (p.feature occ') (p.feature occ))
    (F F' D : List K) (hF : compositeFeature ps occ = some F)
    (hF' : compositeFeature ps occ' = some F') (hD : compositeChange ps occ flips = some D) :
    D = List.zipWith (· - ·) F' F := by
  rw [npAppendAll_eq _ _ hF, npAppendAll_eq _ _ hF', npAppendAll_eq _ _ hD]
  clear hF hF' hD
  simp only [List.flatMap_map]
  induction ps with
  | nil => simp
  | cons p ps ih =>
    simp only [List.flatMap_cons]
    rw [List.zipWith_append, hd p (by simp),
      ih (fun q hq => hps q (by simp [hq])) fun q hq => hd q (by simp [hq])]
    rw [(hps p (by simp)).1, (hps p (by simp)).1]

/-- C05: exactly when the composite feature vector cannot be formed. -/
theorem C05_feature_error_iff (ps : List (PartProc K)) (occ : Occ) :
    compositeFeature ps occ = none ↔
      ps = [] ∨ ∃ first second rest, ps = first :: second :: rest ∧ ∃ p ∈ rest,
        p.scalar ≠ second.scalar ∨ (p.feature occ).length ≠ (second.feature occ).length := by
  unfold compositeFeature
  match ps with
  | [] => simp [npAppendAll]
  | [p] => simp [npAppendAll]
  | first :: second :: rest =>
    simp only [List.map_cons, npAppendAll]
    constructor
    · intro h
      right
      refine ⟨first, second, rest, rfl, ?_⟩
      split at h
      · simp at h
      · rename_i hall
        simp only [List.all_map, List.all_eq_true, Function.comp_apply, Bool.and_eq_true,
          beq_iff_eq, not_forall] at hall
        obtain ⟨p, hp, hne⟩ := hall
        exact ⟨p, hp, by tauto⟩
    · rintro (h | ⟨a, b, r, h, p, hp, hne⟩)
      · simp at h
      · simp only [List.cons.injEq] at h
        obtain ⟨rfl, rfl, rfl⟩ := h
        split
        · rename_i hall
          simp only [List.all_map, List.all_eq_true, Function.comp_apply, Bool.and_eq_true,
            beq_iff_eq] at hall
          have := hall p hp
          tauto
        · rfl

/-- three well-formed parts: an Ewald-like scalar, a two-function expansion, another scalar -/
def exampleParts : List (PartProc ℚ) :=
  [⟨true, [1], fun o => [o 0], fun o f => [(applyStep o f 0 : ℚ) - o 0]⟩,
   ⟨false, [2, 3], fun o => [1, o 1], fun o f => [0, (applyStep o f 1 : ℚ) - o 1]⟩]

example : (∀ p ∈ exampleParts, p.WellFormed) ∧
    compositeFeature exampleParts (fun k => k + 4) = some [4, 1, 5] ∧
    compositeProperty exampleParts (fun k => k + 4) = 21 := by
  refine ⟨?_, by decide +kernel, by decide +kernel⟩
  intro p hp
  simp [exampleParts] at hp
  rcases hp with rfl | rfl <;> exact ⟨fun _ => rfl, fun _ _ => rfl⟩

/-- C05 negation: a composite of three valid processors whose feature vector cannot be formed. -/
theorem C05_mixed_shapes_fail :
    ∃ ps : List (PartProc ℚ), (∀ p ∈ ps, p.WellFormed) ∧ ps ≠ [] ∧
      ∀ occ, compositeFeature ps occ = none := by
  refine ⟨exampleParts ++ [⟨true, [1], fun o => [o 0], fun o f => [(applyStep o f 0 : ℚ) - o 0]⟩],
    ?_, by simp [exampleParts], fun occ => by simp [exampleParts, compositeFeature, npAppendAll]⟩
  intro p hp
  simp [exampleParts] at hp
  rcases hp with rfl | rfl | rfl <;> exact ⟨fun _ => rfl, fun _ _ => rfl⟩

end Smol
