import Verif.Lemmas.Distance
import Verif.Props.Sampler
import Mathlib.Algebra.Order.BigOperators.Group.List

/-!
# C67 Distance processors
-/

namespace Smol
open Spec

set_option linter.unusedSectionVars false

variable {K : Type*} [Field K] [LinearOrder K]

/-- The features of an orbit, with its diameter. -/
def CorrDist.features (P : CorrDist K) : List (K × List ℕ) :=
  P.orbits.map fun o => (o.1, (List.range o.2.1.numCombos).map fun k => o.2.1.bitId + k)

/-- The features of an orbit, with its diameter. -/
def InterDist.features (P : InterDist K) : List (K × List ℕ) :=
  P.orbits.map fun o => (o.1, [o.2.1.1.id])

/-- C67. The diameter entering the score is the largest orbit diameter up to which all correlations
are within the tolerance. -/
theorem C67_max_diameter (P : CorrDist K) (dist : ℕ → K) :
    IsMatchDiameter P.features P.pars.tol dist (P.maxDiameter dist) :=
  matchLoop_spec Prod.fst P.pars.tol _ dist P.orbits

/-- C67. The same for cluster interactions. -/
theorem C67_max_diameter_interactions (P : InterDist K) (dist : ℕ → K) :
    IsMatchDiameter P.features P.pars.tol dist (P.maxDiameter dist) :=
  matchLoop_spec Prod.fst P.pars.tol _ dist P.orbits

section change
variable [CharZero K]

/-- C67. The change reported for any flips (sites may repeat, sites in no cluster are allowed) is
the difference of the features after and before. -/
theorem C67_change_is_difference (P : CorrDist K) (hP : P.base.WellFormed) (hs : P.size ≠ 0)
    (occ occ' : Occ) (flips : Step) (h : ReachedBy occ flips occ') (i : ℕ) :
    P.featureVectorChange occ flips i = P.featureVector occ' i - P.featureVector occ i := by
  rw [(reachedBy_iff _ _ _).1 h]
  have hs' : (P.size : K) ≠ 0 := by exact_mod_cast hs
  have hF : ∀ o j, P.base.featureVector o j / (P.size : K) =
      correlationsFromOccupancy P.base.orbits o j := by
    intro o j
    simp only [CEProcessor.featureVector, CorrDist.base]
    exact mul_div_cancel_right₀ _ hs'
  have hw : ∀ o, (P.base.orbits.flatMap fun p => corrDistWrites o P.pars.target p.1 p.2) =
      (P.base.orbits.flatMap fun p => corrWrites o p.1 p.2).map
        fun w => (w.1, |w.2 - P.pars.target w.1|) := by
    intro o
    rw [List.map_flatMap]
    congr 1; funext p
    simp [corrDistWrites, corrWrites, Function.comp_def]
  have hW : ∀ o, (P.base.orbits.flatMap fun p => corrWrites o p.1 p.2).map Prod.fst =
      P.base.orbits.flatMap fun p => (List.range p.1.numCombos).map fun k => p.1.bitId + k := by
    intro o
    simp [List.map_flatMap, corrWrites, Function.comp_def]
  have h0 : 0 ∉ P.base.orbits.flatMap fun p =>
      (List.range p.1.numCombos).map fun k => p.1.bitId + k := by
    intro hh
    obtain ⟨p, hp, h1⟩ := List.mem_flatMap.1 hh
    obtain ⟨k, _, h2⟩ := List.mem_map.1 h1
    have := hP.2 p hp
    omega
  have hR : ∀ o i, applyWrites (fun _ => 0)
      (P.base.orbits.flatMap fun p => corrDistWrites o P.pars.target p.1 p.2) i =
      if i ∈ P.base.orbits.flatMap fun p =>
        (List.range p.1.numCombos).map fun k => p.1.bitId + k then
        |correlationsFromOccupancy P.base.orbits o i - P.pars.target i| else 0 := by
    intro o i
    rw [hw, applyWrites_dist _ (fun i => if i = 0 then 1 else 0), hW]
    rfl
  unfold CorrDist.featureVectorChange CorrDist.featureVectorDistances CorrDist.featureVector
    corrDistances
  rw [foldl_flips]
  simp only [hF]
  refine dist_change_eq _ h0 _ P.maxDiameter ?_ _ _ _ _ _ ?_ (hR occ) (hR _) i
  · intro d d' hd
    refine matchLoop_congr _ _ _ _ _ ?_ 0
    intro p hp a ha j hj
    refine hd j ?_
    have := mem_orbitsByDiameter Prod.fst P.orbits p hp a ha
    exact List.mem_flatMap.2 ⟨a.2, List.mem_map.2 ⟨a, this, rfl⟩, hj⟩
  · intro j hj
    simp only [correlationsFromOccupancy]
    rw [applyWrites_not_mem, applyWrites_not_mem]
    · rw [hW]; exact hj
    · rw [hW]; exact hj

/-- C67. The same for cluster interactions. -/
theorem C67_change_is_difference_interactions (P : InterDist K) (hP : P.base.WellFormed)
    (hs : P.size ≠ 0) (occ occ' : Occ) (flips : Step) (h : ReachedBy occ flips occ') (i : ℕ) :
    P.featureVectorChange occ flips i = P.featureVector occ' i - P.featureVector occ i := by
  rw [(reachedBy_iff _ _ _).1 h]
  have hs' : (P.size : K) ≠ 0 := by exact_mod_cast hs
  have hF : ∀ o j, P.base.featureVector o j / (P.size : K) =
      interactionsFromOccupancy P.offset P.base.orbits o j := by
    intro o j
    simp only [CDProcessor.featureVector, InterDist.base]
    exact mul_div_cancel_right₀ _ hs'
  have hw : ∀ o, (P.base.orbits.flatMap fun p => interDistWrites o P.pars.target p.1.1 p.1.2 p.2) =
      (P.base.orbits.flatMap fun p => interWrites o p.1.1 p.1.2 p.2).map
        fun w => (w.1, |w.2 - P.pars.target w.1|) := by
    intro o
    rw [List.map_flatMap]
    congr 1
  have hW : ∀ o, (P.base.orbits.flatMap fun p => interWrites o p.1.1 p.1.2 p.2).map Prod.fst =
      P.base.orbits.map fun p => p.1.1.id := by
    intro o
    induction P.base.orbits with
    | nil => rfl
    | cons a l ih => simp [interWrites] at ih ⊢; exact ih
  have h0 : 0 ∉ P.base.orbits.map fun p => p.1.1.id := by
    intro hh
    obtain ⟨p, hp, h1⟩ := List.mem_map.1 hh
    have := hP.2 p hp
    omega
  have hR : ∀ o i, applyWrites (fun _ => 0)
      (P.base.orbits.flatMap fun p => interDistWrites o P.pars.target p.1.1 p.1.2 p.2) i =
      if i ∈ P.base.orbits.map fun p => p.1.1.id then
        |interactionsFromOccupancy P.offset P.base.orbits o i - P.pars.target i| else 0 := by
    intro o i
    rw [hw, applyWrites_dist _ (fun i => if i = 0 then P.offset else 0), hW]
    rfl
  unfold InterDist.featureVectorChange InterDist.featureVectorDistances InterDist.featureVector
    interDistances
  rw [foldl_flips]
  simp only [hF]
  refine dist_change_eq _ h0 _ P.maxDiameter ?_ _ _ _ _ _ ?_ (hR occ) (hR _) i
  · intro d d' hd
    refine matchLoop_congr _ _ _ _ _ ?_ 0
    intro p hp a ha j hj
    refine hd j ?_
    have := mem_orbitsByDiameter Prod.fst P.orbits p hp a ha
    rw [List.mem_singleton.1 hj]
    exact List.mem_map.2 ⟨a.2, List.mem_map.2 ⟨a, this, rfl⟩, rfl⟩
  · intro j hj
    simp only [interactionsFromOccupancy]
    rw [applyWrites_not_mem, applyWrites_not_mem]
    · rw [hW]; exact hj
    · rw [hW]; exact hj

/-- C67. Hence both processors meet what the ensembles and samplers need (C01, C06), for any number
of sites. -/
theorem C67_exact (A : ℕ → Prop) :
    (∀ P : CorrDist K, P.base.WellFormed → P.size ≠ 0 → P.toPart.Exact A) ∧
    (∀ P : InterDist K, P.base.WellFormed → P.size ≠ 0 → P.toPart.Exact A) := by
  have hz : ∀ (f g : ℕ → K) (l : List ℕ),
      List.zipWith (· - ·) (l.map f) (l.map g) = l.map fun i => f i - g i := by
    intro f g l; rw [List.zipWith_map, List.zipWith_self]
  constructor
  · intro P hP hs
    refine ⟨fun _ _ => by simp [CorrDist.toPart], ?_⟩
    intro occ flips occ' _ hr
    simp only [CorrDist.toPart]
    rw [hz]
    exact List.map_congr_left fun i _ => C67_change_is_difference P hP hs occ occ' flips hr i
  · intro P hP hs
    refine ⟨fun _ _ => by simp [InterDist.toPart], ?_⟩
    intro occ flips occ' _ hr
    simp only [InterDist.toPart]
    rw [hz]
    exact List.map_congr_left fun i _ =>
      C67_change_is_difference_interactions P hP hs occ occ' flips hr i

/-- C67. A sampler run on a distance processor, in any ensemble: the features it records for an
occupancy are the distances of that occupancy, and the recorded enthalpy their scalar product with
the natural parameters. -/
theorem C67_trace (P : CorrDist K) (hP : P.base.WellFormed) (hs : P.size ≠ 0) (e : Ens K) (n : ℕ)
    (sls : List Sublattice) (h : SublatticesOk sls) (hn : ∀ sl ∈ sls, ∀ s ∈ sl.active, s < n)
    (us : ℕ → Usher) (hu : ∀ i, (us i).Over sls) (dec : Decisions)
    (hdec : ∀ r i x, FullLegal sls x → ((us i).propose x).Outcome (dec r i x).1)
    (walkers nsteps thin : ℕ) (init : List Occ) (hinit : ∀ o ∈ init, FullLegal sls o)
    (out : List (List (Row K)))
    (hout : sample (List.replicate walkers (Kern.ofEnsemble e P.toPart n none fun _ _ => 0)) dec
      nsteps thin init = some out) :
    ∀ rows ∈ out, ∀ row ∈ rows, (∀ i < P.pars.numFeat,
      row.features[i]? = some (P.featureVector row.occ i)) ∧
      row.enthalpy = (List.zipWith (· * ·) e.params row.features).sum := by
  intro rows hrows row hrow
  have := C01_ensemble_trace_matches e P.toPart n (fun _ => True) ((C67_exact _).1 P hP hs) none
    (fun _ _ => 0) (by simp) sls h (fun sl hsl s hs => ⟨trivial, hn sl hsl s hs⟩) us hu dec hdec
    walkers nsteps thin init hinit out hout rows hrows row hrow
  rw [this.2.1, this.1]
  refine ⟨fun i hi => ?_, rfl⟩
  unfold Ens.feature
  cases e.mu <;> simp [CorrDist.toPart, hi, List.getElem?_append]

end change

section score

theorem dist_dot (w x : K) (ws : List K) (f : ℕ → K) (n : ℕ) (hn : ws.length + 1 = n) :
    dot (w :: ws) ((List.range n).map (Function.update f 0 x)) =
      w * x + ((List.range ws.length).map fun j => ws.getD j 0 * f (j + 1)).sum := by
  subst hn
  rw [List.range_succ_eq_map]
  simp only [dot, List.map_cons, Function.update_self, List.zipWith_cons_cons, List.sum_cons]
  congr 2
  apply List.ext_getElem
  · simp
  · intro i h1 h2
    simp at h1
    simp [h1]

/-- C67. The score: minus the match weight times the diameter up to which the target is matched,
plus the weighted sum of the distances. -/
theorem C67_score (numExternal : ℕ) (target : List K) (w tol : K) (weights : List K) (P : CorrDist K)
    (hp : distInit numExternal target w tol weights = some P.pars) (occ : Occ) :
    ∃ L, IsMatchDiameter P.features tol
        (fun i => |P.base.featureVector occ i / (P.size : K) - target.getD i 0|) L ∧
      P.toPart.property occ = -w * L + ((List.range weights.length).map fun j => weights.getD j 0 *
        |P.base.featureVector occ (j + 1) / (P.size : K) - target.getD (j + 1) 0|).sum := by
  have hP : weights.length + 1 = target.length ∧
      P.pars = ⟨fun i => target.getD i 0, target.length, tol, -w :: weights⟩ := by
    unfold distInit at hp
    split at hp
    · simp at hp
    split at hp
    · simp at hp
    split at hp
    · simp at hp
    · rename_i h3
      simp only [Option.some.injEq] at hp
      exact ⟨by simpa using h3, hp.symm⟩
  refine ⟨P.maxDiameter fun i => |P.base.featureVector occ i / (P.size : K) - target.getD i 0|,
    ?_, ?_⟩
  · have := C67_max_diameter P
      fun i => |P.base.featureVector occ i / (P.size : K) - target.getD i 0|
    rw [show P.pars.tol = tol by rw [hP.2]] at this
    exact this
  · unfold PartProc.property CorrDist.toPart CorrDist.featureVector
    simp only [show P.pars.target = fun i => target.getD i 0 by rw [hP.2],
      show P.pars.coefs = -w :: weights by rw [hP.2], show P.pars.numFeat = target.length by rw [hP.2]]
    rw [dist_dot _ _ _ _ _ hP.1]
    congr 1
    by_cases hw : w = 0
    · simp [hw]
    · simp [hw]

/-- C67. The same for cluster interactions. -/
theorem C67_score_interactions (numExternal : ℕ) (target : List K) (w tol : K) (weights : List K)
    (P : InterDist K) (hp : distInit numExternal target w tol weights = some P.pars) (occ : Occ) :
    ∃ L, IsMatchDiameter P.features tol
        (fun i => |P.base.featureVector occ i / (P.size : K) - target.getD i 0|) L ∧
      P.toPart.property occ = -w * L + ((List.range weights.length).map fun j => weights.getD j 0 *
        |P.base.featureVector occ (j + 1) / (P.size : K) - target.getD (j + 1) 0|).sum := by
  have hP : weights.length + 1 = target.length ∧
      P.pars = ⟨fun i => target.getD i 0, target.length, tol, -w :: weights⟩ := by
    unfold distInit at hp
    split at hp
    · simp at hp
    split at hp
    · simp at hp
    split at hp
    · simp at hp
    · rename_i h3
      simp only [Option.some.injEq] at hp
      exact ⟨by simpa using h3, hp.symm⟩
  refine ⟨P.maxDiameter fun i => |P.base.featureVector occ i / (P.size : K) - target.getD i 0|,
    ?_, ?_⟩
  · have := C67_max_diameter_interactions P
      fun i => |P.base.featureVector occ i / (P.size : K) - target.getD i 0|
    rw [show P.pars.tol = tol by rw [hP.2]] at this
    exact this
  · unfold PartProc.property InterDist.toPart InterDist.featureVector
    simp only [show P.pars.target = fun i => target.getD i 0 by rw [hP.2],
      show P.pars.coefs = -w :: weights by rw [hP.2], show P.pars.numFeat = target.length by rw [hP.2]]
    rw [dist_dot _ _ _ _ _ hP.1]
    congr 1
    by_cases hw : w = 0
    · simp [hw]
    · simp [hw]

/-- C67, error branch: construction fails exactly for external terms, a negative match weight or a
wrong number of weights. -/
theorem C67_init_error_iff (numExternal : ℕ) (target : List K) (w tol : K) (weights : List K) :
    distInit numExternal target w tol weights = none ↔
      0 < numExternal ∨ w < 0 ∨ weights.length + 1 ≠ target.length := by
  unfold distInit
  split
  · simp; omega
  split
  · simp; tauto
  split
  · simp; tauto
  · rename_i h1 h2 h3
    simp only [reduceCtorEq, false_iff, not_or]
    exact ⟨h1, h2, h3⟩

end score

section perfect
variable [IsStrictOrderedRing K]

/-- the matched diameter is largest if everything is matched -/
theorem matchDiameter_le {fs : List (K × List ℕ)} {tol : K} {d d' : ℕ → K} {L L' : K}
    (hL : IsMatchDiameter fs tol d L) (hL' : IsMatchDiameter fs tol d' L')
    (hd : ∀ o ∈ fs, 0 ≤ o.1) (hall : ∀ o ∈ fs, ∀ i ∈ o.2, d i ≤ tol) :
    L' ≤ L ∧ (fs ≠ [] → (∃ o ∈ fs, o.1 = L) ∧ ∀ o ∈ fs, o.1 ≤ L) := by
  have hm : ∀ D, MatchedUpTo fs tol d D := fun D o ho _ => hall o ho
  rcases hL with ⟨rfl, h⟩ | ⟨⟨o, ho, rfl⟩, _, h⟩
  · have hnil : fs = [] := by
      cases fs with
      | nil => rfl
      | cons o l => exact absurd (hm o.1) (h o (by simp))
    subst hnil
    refine ⟨?_, by simp⟩
    rcases hL' with ⟨rfl, _⟩ | ⟨⟨o, ho, _⟩, _⟩
    · exact le_rfl
    · simp at ho
  · have hmax : ∀ p ∈ fs, p.1 ≤ o.1 := fun p hp => h p hp (hm p.1)
    refine ⟨?_, fun _ => ⟨⟨o, ho, rfl⟩, hmax⟩⟩
    rcases hL' with ⟨rfl, _⟩ | ⟨⟨p, hp, rfl⟩, _⟩
    · exact hd o ho
    · exact hmax p hp

/-- C67. An occupancy that matches the target exactly has the lowest score there is: minus the match
weight times the largest orbit diameter. -/
theorem C67_perfect_match_is_lowest (numExternal : ℕ) (target : List K) (w tol : K)
    (weights : List K) (P : CorrDist K)
    (hp : distInit numExternal target w tol weights = some P.pars)
    (htol : 0 ≤ tol) (hw : ∀ x ∈ weights, 0 ≤ x) (hd : ∀ o ∈ P.features, 0 ≤ o.1)
    (hf : ∀ o ∈ P.features, ∀ i ∈ o.2, 0 < i ∧ i < target.length) (occ : Occ)
    (hocc : ∀ i, 0 < i → i < target.length →
      P.base.featureVector occ i / (P.size : K) = target.getD i 0) :
    (∀ occ', P.toPart.property occ ≤ P.toPart.property occ') ∧
    (P.features ≠ [] → ∃ o ∈ P.features, (∀ o' ∈ P.features, o'.1 ≤ o.1) ∧
      P.toPart.property occ = -w * o.1) := by
  obtain ⟨L, hL, hs⟩ := C67_score numExternal target w tol weights P hp occ
  have hw0 : 0 ≤ w := by
    by_contra hneg
    have := (C67_init_error_iff numExternal target w tol weights).2 (Or.inr (Or.inl (not_le.1 hneg)))
    rw [this] at hp; simp at hp
  have hlen : weights.length + 1 = target.length := by
    by_contra hne
    have := (C67_init_error_iff numExternal target w tol weights).2 (Or.inr (Or.inr hne))
    rw [this] at hp; simp at hp
  have hzero : ((List.range weights.length).map fun j => weights.getD j 0 *
        |P.base.featureVector occ (j + 1) / (P.size : K) - target.getD (j + 1) 0|).sum = 0 := by
    apply List.sum_eq_zero
    intro x hx
    obtain ⟨j, hj, rfl⟩ := List.mem_map.1 hx
    have := List.mem_range.1 hj
    rw [hocc (j + 1) (by omega) (by omega)]
    simp
  have hall : ∀ o ∈ P.features, ∀ i ∈ o.2,
      |P.base.featureVector occ i / (P.size : K) - target.getD i 0| ≤ tol := by
    intro o ho i hi
    obtain ⟨h1, h2⟩ := hf o ho i hi
    rw [hocc i h1 h2]
    simpa using htol
  rw [hzero, add_zero] at hs
  constructor
  · intro occ'
    obtain ⟨L', hL', hs'⟩ := C67_score numExternal target w tol weights P hp occ'
    rw [hs, hs']
    have hle := (matchDiameter_le hL hL' hd hall).1
    have hpos : 0 ≤ ((List.range weights.length).map fun j => weights.getD j 0 *
        |P.base.featureVector occ' (j + 1) / (P.size : K) - target.getD (j + 1) 0|).sum := by
      apply List.sum_nonneg
      intro x hx
      obtain ⟨j, hj, rfl⟩ := List.mem_map.1 hx
      have := List.mem_range.1 hj
      refine mul_nonneg ?_ (abs_nonneg _)
      rw [show weights.getD j 0 = weights[j] by simp [this]]
      exact hw _ (List.getElem_mem _)
    have := mul_le_mul_of_nonneg_left hle hw0
    linarith
  · intro hne
    obtain ⟨⟨o, ho, rfl⟩, hmax⟩ := (matchDiameter_le hL hL hd hall).2 hne
    exact ⟨o, ho, hmax, hs⟩

end perfect

section reload

/-- C67. Saving and loading: the target and the match weight come back, the weights become ones and
the tolerance the default. The processor is the same exactly if it was built with these. -/
theorem C67_reload_iff (target : List K) (w tol tol0 : K) (weights : List K)
    (p : DistPars K) (hp : distInit 0 target w tol weights = some p) :
    (∃ p', distReload tol0 p = some p' ∧ p'.target = p.target ∧ p'.numFeat = p.numFeat ∧
      p'.coefs = -w :: List.replicate weights.length 1 ∧ p'.tol = tol0) ∧
    (distReload tol0 p = some p ↔ (∀ x ∈ weights, x = 1) ∧ tol = tol0) := by
  have hw0 : ¬ w < 0 := by
    intro hneg
    have := (C67_init_error_iff 0 target w tol weights).2 (Or.inr (Or.inl hneg))
    rw [this] at hp; simp at hp
  have hlen : weights.length + 1 = target.length := by
    by_contra hne
    have := (C67_init_error_iff 0 target w tol weights).2 (Or.inr (Or.inr hne))
    rw [this] at hp; simp at hp
  unfold distInit at hp
  rw [if_neg (by simp), if_neg hw0, if_neg (by simpa using hlen)] at hp
  simp only [Option.some.injEq] at hp
  subst hp
  have hre : distReload tol0 ⟨fun i => target.getD i 0, target.length, tol, -w :: weights⟩ =
      some ⟨fun i => target.getD i 0, target.length, tol0, -w :: List.replicate weights.length 1⟩ := by
    unfold distReload distInit
    simp only [List.getD_cons_zero, neg_neg]
    rw [if_neg (by simp), if_neg hw0, if_neg (by simp; omega)]
    have h1 : (List.range target.length).map (fun i => target.getD i 0) = target := by
      apply List.ext_getElem
      · simp
      · intro i h1 h2; simp [h2]
    have h2 : target.length - 1 = weights.length := by omega
    rw [h1, h2]
  refine ⟨⟨_, hre, rfl, rfl, rfl, rfl⟩, ?_⟩
  rw [hre]
  simp only [Option.some.injEq, DistPars.mk.injEq, true_and, List.cons.injEq]
  constructor
  · rintro ⟨h1, h2⟩
    refine ⟨?_, h1.symm⟩
    intro x hx
    rw [← h2] at hx
    exact List.eq_of_mem_replicate hx
  · rintro ⟨h1, h2⟩
    exact ⟨h2.symm, (List.eq_replicate_of_mem h1).symm⟩

/-- Two sites, a point orbit and a pair orbit of diameter `3/2`; tables of the codes 0 ↦ -1,
1 ↦ 1. -/
def exampleDist (p : DistPars ℚ) : CorrDist ℚ where
  pars := p
  size := 1
  orbits := [(3/2, ⟨2, 2, fun i => if i = 0 ∨ i = 3 then 1 else -1, 1, 4, [2, 1]⟩, [[0, 1]]),
    (0, ⟨1, 1, fun i => if i = 0 then -1 else 1, 1, 2, [1]⟩, [[0], [1]])]

/-- C67, the loss on loading matters: with weights 4 and 1 one occupancy has the lower score, after
loading the other one. -/
theorem C67_reload_changes_ranking :
    ∃ (target weights : List ℚ) (p p' : DistPars ℚ) (a b : Occ),
      distInit 0 target 1 (1 / 100000) weights = some p ∧ distReload (1 / 100000) p = some p' ∧
      (exampleDist p).toPart.property a < (exampleDist p).toPart.property b ∧
      (exampleDist p').toPart.property b < (exampleDist p').toPart.property a := by
  refine ⟨[1, 1/4, 3/4], [4, 1], _, _, fun i => if i = 0 then 0 else 1, fun _ => 1, rfl, rfl, ?_, ?_⟩
    <;> decide +kernel

/-- Non-vacuity: a processor whose target is matched exactly by one occupancy, not by the other;
the hypotheses of the theorems above hold. -/
example : ∃ (P : CorrDist ℚ) (occ occ' : Occ),
    distInit 0 [1, 0, -1] 2 (1 / 100000) [1, 1] = some P.pars ∧ P.base.WellFormed ∧ P.size ≠ 0 ∧
    (∀ o ∈ P.features, 0 ≤ o.1) ∧ (∀ o ∈ P.features, ∀ i ∈ o.2, 0 < i ∧ i < 3) ∧
    (∀ i, 0 < i → i < 3 → P.base.featureVector occ i / (P.size : ℚ) = [1, 0, -1].getD i 0) ∧
    P.toPart.property occ = -3 ∧ P.toPart.property occ' = 3 ∧
    ReachedBy occ [(0, 1)] occ' ∧ P.featureVectorChange occ [(0, 1)] 0 = -3/2 ∧
    P.featureVectorChange occ [(0, 1)] 1 = 1 := by
  refine ⟨exampleDist ⟨fun i => [1, 0, -1].getD i 0, 3, 1 / 100000, [-2, 1, 1]⟩,
    fun i => if i = 0 then 0 else 1, fun _ => 1, by norm_num [distInit, exampleDist],
    ⟨by decide +kernel, by decide +kernel⟩, by decide +kernel, by decide +kernel, by decide +kernel,
    ?_, by decide +kernel, by decide +kernel, ?_, by decide +kernel, by decide +kernel⟩
  · intro i h1 h2
    obtain rfl | rfl : i = 1 ∨ i = 2 := by omega
    · decide +kernel
    · decide +kernel
  · rw [reachedBy_iff]; funext i; simp [applyStep, Function.update_apply]

end reload

end Smol
