import Verif.Lemmas.Evaluator
import Verif.Lemmas.Occupancy
import Verif.Spec.Processor

/-!
# C02, C03: feature vectors of the cluster processors and their changes
-/

namespace Smol
open Spec

variable {K : Type*} [Field K]

/-- Function slots of the orbits are pairwise distinct and none is slot 0 (shown to hold for every
subspace after any removals in C43). -/
def CEProcessor.WellFormed (P : CEProcessor K) : Prop :=
  (P.orbits.flatMap fun p => (List.range p.1.numCombos).map fun k => p.1.bitId + k).Nodup ∧
    ∀ p ∈ P.orbits, 0 < p.1.bitId

/-- Orbit ids are pairwise distinct and positive (C43). -/
def CDProcessor.WellFormed (P : CDProcessor K) : Prop :=
  (P.orbits.map fun p => p.1.1.id).Nodup ∧ ∀ p ∈ P.orbits, 0 < p.1.1.id

/-- C02. The change reported for a list of flips is the difference of the full feature vectors
after and before the flips, for every occupancy and every list of flips (sites may repeat). -/
theorem C02_change_is_difference [CharZero K] (P : CEProcessor K) (hP : P.WellFormed)
    (occ occ' : Occ) (flips : Step) (h : ReachedBy occ flips occ') (d : ℕ → K)
    (hd : P.featureVectorChange occ flips = some d) (i : ℕ) :
    d i = P.featureVector occ' i - P.featureVector occ i := by
  rw [(reachedBy_iff _ _ _).1 h]
  unfold CEProcessor.featureVectorChange at hd
  cases he : P.deltaLoop occ flips (fun _ => 0) with
  | none => simp [he] at hd
  | some e =>
    simp only [he, Option.map_some, Option.some.injEq] at hd
    rw [← hd]
    simp only [CEProcessor.featureVector]
    rw [P.deltaLoop_eq hP.1 flips occ _ e he i]
    ring

/-- C02, error branch: the computation fails (`KeyError`) exactly when some flipped site belongs to
no cluster of any orbit. -/
theorem C02_change_error_iff (P : CEProcessor K) (occ : Occ) (flips : Step) :
    P.featureVectorChange occ flips = none ↔
      ∃ f ∈ flips, ∀ p ∈ P.orbits, ∀ cluster ∈ p.2, f.1 ∉ cluster := by
  unfold CEProcessor.featureVectorChange
  rw [Option.map_eq_none_iff, P.deltaLoop_none]

/-- C02. What the full feature vector is: slot 0 holds the number of prim cells, the slot of the
`k`-th function of an orbit the number of prim cells times the average over the clusters of the
function's table at the codes of the cluster. -/
theorem C02_feature_vector_value (P : CEProcessor K) (hP : P.WellFormed) (occ : Occ) :
    P.featureVector occ 0 = P.size ∧
    ∀ p ∈ P.orbits, ∀ k < p.1.numCombos,
      P.featureVector occ (p.1.bitId + k) =
        clusterAverage (fun cluster =>
          tableAt (fun j => p.1.corrData (k * p.1.tensorSize + j)) p.1.tensorIndices
            (cluster.map occ)) p.2 * P.size := by
  have keys : ((P.orbits.flatMap fun p => corrWrites occ p.1 p.2).map Prod.fst)
      = (P.orbits.flatMap fun p => (List.range p.1.numCombos).map fun k => p.1.bitId + k) := by
    simp [List.map_flatMap, corrWrites, Function.comp_def]
  constructor
  · simp only [CEProcessor.featureVector, correlationsFromOccupancy]
    rw [applyWrites_not_mem]
    · simp
    · rw [keys]
      intro h0
      obtain ⟨p, hp, h1⟩ := List.mem_flatMap.1 h0
      obtain ⟨k, _, h2⟩ := List.mem_map.1 h1
      have := hP.2 p hp
      omega
  · intro p hp k hk
    simp only [CEProcessor.featureVector, correlationsFromOccupancy]
    congr 1
    refine applyWrites_mem _ _ _ _ (by rw [keys]; exact hP.1) ?_
    refine List.mem_flatMap.2 ⟨p, hp, List.mem_map.2 ⟨k, List.mem_range.2 hk, ?_⟩⟩
    simp only [clusterAverage, tableAt, flatIndex_eq_zip]

/-- C03. Same as C02 for the decomposition processor. -/
theorem C03_change_is_difference [CharZero K] (P : CDProcessor K) (hP : P.WellFormed)
    (occ occ' : Occ) (flips : Step) (h : ReachedBy occ flips occ') (d : ℕ → K)
    (hd : P.featureVectorChange occ flips = some d) (i : ℕ) :
    d i = P.featureVector occ' i - P.featureVector occ i := by
  rw [(reachedBy_iff _ _ _).1 h]
  unfold CDProcessor.featureVectorChange at hd
  cases he : P.deltaLoop occ flips (fun _ => 0) with
  | none => simp [he] at hd
  | some e =>
    simp only [he, Option.map_some, Option.some.injEq] at hd
    rw [← hd]
    simp only [CDProcessor.featureVector]
    rw [P.deltaLoop_eq hP.1 flips occ _ e he i]
    ring

/-- C03, error branch. -/
theorem C03_change_error_iff (P : CDProcessor K) (occ : Occ) (flips : Step) :
    P.featureVectorChange occ flips = none ↔
      ∃ f ∈ flips, ∀ p ∈ P.orbits, ∀ cluster ∈ p.2, f.1 ∉ cluster := by
  unfold CDProcessor.featureVectorChange
  rw [Option.map_eq_none_iff, P.deltaLoop_none]

/-- C03. What the full feature vector is: slot 0 the offset, the slot of an orbit the average of
its interaction table over its clusters, both times the number of prim cells. -/
theorem C03_feature_vector_value (P : CDProcessor K) (hP : P.WellFormed) (occ : Occ) :
    P.featureVector occ 0 = P.offset * P.size ∧
    ∀ p ∈ P.orbits,
      P.featureVector occ p.1.1.id =
        clusterAverage (fun cluster => tableAt p.1.2 p.1.1.tensorIndices (cluster.map occ)) p.2
          * P.size := by
  have keys : ((P.orbits.flatMap fun p => interWrites occ p.1.1 p.1.2 p.2).map Prod.fst)
      = (P.orbits.map fun p => p.1.1.id) := by
    induction P.orbits with
    | nil => rfl
    | cons a l ih => simp [interWrites] at ih ⊢; exact ih
  constructor
  · simp only [CDProcessor.featureVector, interactionsFromOccupancy]
    rw [applyWrites_not_mem]
    · simp
    · rw [keys]
      intro h0
      obtain ⟨p, hp, h1⟩ := List.mem_map.1 h0
      have := hP.2 p hp
      omega
  · intro p hp
    simp only [CDProcessor.featureVector, interactionsFromOccupancy]
    congr 1
    refine applyWrites_mem _ _ _ _ (by rw [keys]; exact hP.1) ?_
    refine List.mem_flatMap.2 ⟨p, hp, ?_⟩
    simp only [interWrites, List.mem_singleton, clusterAverage, tableAt, flatIndex_eq_zip]

/-! ### Non-vacuity -/

/-- Three sites on a ring; a point orbit with one function and a pair orbit with one function. -/
def exampleCE : CEProcessor ℚ where
  size := 3
  numCorr := 3
  orbits :=
    [({ id := 1, bitId := 1, corrData := fun j => if j = 0 then 1 else -1, numCombos := 1,
        tensorSize := 2, tensorIndices := [1] }, [[0], [1], [2]]),
     ({ id := 2, bitId := 2, corrData := fun j => if j = 0 ∨ j = 3 then 1 else -1, numCombos := 1,
        tensorSize := 4, tensorIndices := [2, 1] }, [[0, 1], [1, 2], [2, 0]])]

example : exampleCE.WellFormed := by
  constructor
  · decide
  · intro p hp; simp [exampleCE] at hp; rcases hp with rfl | rfl <;> simp

/-- flips with a repeated site; the change of the pair function is not zero -/
example : ∃ d, exampleCE.featureVectorChange (fun _ => 0) [(0, 1), (1, 1), (0, 0)] = some d ∧
    d 2 = -4 ∧ d 1 = -2 := by
  refine ⟨_, rfl, ?_, ?_⟩ <;> decide +kernel

end Smol
