import Verif.Model.TraceStats
import Verif.Spec.TraceStats
import Verif.Lemmas.Sampler
import Verif.Lemmas.SampleStats
import Verif.Props.Container
import Verif.Model.Ensemble

/-!
# C79: what the samples of a run are, sampling efficiency, orbit factors
-/

namespace Smol
open Spec

section Walk
variable {K : Type*} [CommRing K]

/-- The walkers after `r` rounds. -/
def AtRound (ks : List (Kern K)) (dec : Decisions) (init : List Occ) (r : ℕ)
    (ws : List (Walker K)) : Prop :=
  ws.length = ks.length ∧ ∀ i x, init[i]? = some x → ∃ w, ws[i]? = some w ∧
    w.1 = walk dec i x r ∧ w.2.occ = w.1 ∧ (0 < r → w.2.accepted = accepts dec i x (r - 1))

theorem roundAll_at {ks : List (Kern K)} {dec : Decisions} {init : List Occ} {r : ℕ}
    {ws : List (Walker K)} (h : AtRound ks dec init r ws) :
    AtRound ks dec init (r + 1) (roundAll ks dec r ws) := by
  refine ⟨by simp [roundAll, h.1], fun i x hx => ?_⟩
  obtain ⟨w, h1, h2, h3, h4⟩ := h.2 i x hx
  have hi : i < ks.length := by
    rw [← h.1]; exact (List.getElem?_eq_some_iff.1 h1).1
  refine ⟨w.advance ks[i] (dec r i w.1), ?_, ?_, ?_, ?_⟩
  · rw [roundAll, List.getElem?_mapIdx]
    have : (ks.zip ws)[i]? = some (ks[i], w) :=
      List.getElem?_zip_eq_some.2 ⟨List.getElem?_eq_getElem hi, h1⟩
    rw [this]
    rfl
  · show (if (dec r i w.1).2 then applyStep w.1 (dec r i w.1).1 else w.1) = _
    rw [h2]
    rfl
  · simp only [Walker.advance, Row.update, Kern.singleStep]
    split_ifs <;> rfl
  · intro _
    rw [Nat.add_sub_cancel]
    show (w.2.update _).accepted = _
    unfold accepts
    rw [← h2]
    simp only [Row.update, Kern.singleStep]
    split_ifs with hh <;> simp [hh]

theorem rounds_at {ks : List (Kern K)} {dec : Decisions} {init : List Occ} (m r : ℕ)
    {ws : List (Walker K)} (h : AtRound ks dec init r ws) :
    AtRound ks dec init (r + m) (rounds ks dec r m ws) := by
  induction m generalizing r ws with
  | zero => exact h
  | succ m ih =>
    have := ih (r + 1) (roundAll_at h)
    rw [show r + 1 + m = r + (m + 1) by omega] at this
    exact this

theorem yields_at {ks : List (Kern K)} {dec : Decisions} {init : List Occ} (thin m r : ℕ)
    {ws : List (Walker K)} (h : AtRound ks dec init r ws) (t : ℕ) (ht : t < m) :
    ∃ ws', (sampleYields ks dec thin r m ws)[t]? = some ws' ∧
      AtRound ks dec init (r + (t + 1) * thin) ws' := by
  induction m generalizing r ws t with
  | zero => omega
  | succ m ih =>
    have hr := rounds_at thin r h
    cases t with
    | zero =>
      refine ⟨_, rfl, ?_⟩
      rw [Nat.zero_add, one_mul]
      exact hr
    | succ t =>
      obtain ⟨ws', h1, h2⟩ := ih (r + thin) hr t (by omega)
      refine ⟨ws', ?_, ?_⟩
      · rw [sampleYields]
        exact h1
      · rw [show r + (t + 1 + 1) * thin = r + thin + (t + 1) * thin by ring]
        exact h2

/-- C79. Sample `t` of a run (counted from 0) is, for every walker, its occupancy after exactly
`(t + 1) * thin_by` steps, and `accepted` tells whether the last of these was accepted. -/
theorem C79_samples (ks : List (Kern K)) (dec : Decisions) (nsteps thin : ℕ) (hthin : 0 < thin)
    (init : List Occ) (hinit : init.length = ks.length) :
    ∃ out, sample ks dec nsteps thin init = some out ∧ out.length = nsteps / thin ∧
      ∀ t < nsteps / thin, ∃ rows, out[t]? = some rows ∧ rows.length = ks.length ∧
        ∀ i x, init[i]? = some x → ∃ row, rows[i]? = some row ∧
          row.occ = walk dec i x ((t + 1) * thin) ∧
          row.accepted = accepts dec i x ((t + 1) * thin - 1) := by
  have hs : ∃ out, sample ks dec nsteps thin init = some out := by
    unfold sample
    rw [if_neg (by omega)]
    exact ⟨_, rfl⟩
  obtain ⟨out, hout⟩ := hs
  refine ⟨out, hout, sample_length ks dec nsteps thin init out hout, fun t ht => ?_⟩
  unfold sample at hout
  rw [if_neg (by omega), Option.some.injEq] at hout
  have h0 : AtRound ks dec init 0 (List.zipWith (fun (k : Kern K) o => (o, k.initialRow o)) ks init) := by
    refine ⟨by simp [hinit], fun i x hx => ?_⟩
    have hi : i < ks.length := by
      rw [← hinit]; exact (List.getElem?_eq_some_iff.1 hx).1
    refine ⟨(x, ks[i].initialRow x), ?_, rfl, rfl, fun h => absurd h (lt_irrefl 0)⟩
    rw [List.getElem?_zipWith, List.getElem?_eq_getElem hi, hx]
  obtain ⟨ws, h1, h2, h3⟩ := yields_at thin (nsteps / thin) 0 h0 t ht
  refine ⟨ws.map Prod.snd, ?_, by rw [List.length_map, h2], fun i x hx => ?_⟩
  · rw [← hout, List.getElem?_map, h1]
    rfl
  · obtain ⟨w, e1, e2, e3, e4⟩ := h3 i x hx
    refine ⟨w.2, by rw [List.getElem?_map, e1]; rfl, ?_, ?_⟩
    · rw [e3, e2, Nat.zero_add]
    · rw [e4 (by rw [Nat.zero_add]; positivity), Nat.zero_add]

/-- C79. Sampling efficiency after a run: for every walker the fraction of accepted steps among the
recorded ones (the last step of every interval of `thin_by` steps) that are not discarded. -/
theorem C79_efficiency (ks : List (Kern K)) (dec : Decisions) (nsteps thin : ℕ) (hthin : 0 < thin)
    (init : List Occ) (hinit : init.length = ks.length) (discard : ℕ)
    (hdis : discard < nsteps / thin) :
    ∃ c, runInMemory ks dec 0 nsteps thin (some init) Container.new = some c ∧
      ∃ eff, efficiencyWalkers c ks.length discard = some eff ∧ eff.length = ks.length ∧
        ∀ i x, init[i]? = some x → eff[i]? = some (some (acceptedFraction dec i x
          ((List.range' discard (nsteps / thin - discard)).map fun t => (t + 1) * thin - 1))) := by
  obtain ⟨out, h1, h2, h3⟩ := C79_samples ks dec nsteps thin hthin init hinit
  refine ⟨⟨out.map some, out.length, out.length * thin⟩, ?_, ?_⟩
  · unfold runInMemory runStart
    simp only [Nat.zero_add, Option.bind_some, h1]
    rw [runMemory_spec thin out Container.new rfl]
    simp [Container.new]
  have hm : (((out.map some).drop discard).mapM id : Option (List (List (Row K)))) =
      some (out.drop discard) := by
    rw [← List.map_drop]
    generalize out.drop discard = l
    induction l with
    | nil => rfl
    | cons a t ih => rw [List.map_cons, List.mapM_cons, ih]; rfl
  refine ⟨_, by unfold efficiencyWalkers; rw [hm, Option.map_some], by simp, fun i x hx => ?_⟩
  have hi : i < ks.length := by
    rw [← hinit]; exact (List.getElem?_eq_some_iff.1 hx).1
  rw [List.getElem?_map, List.getElem?_range hi, Option.map_some]
  congr 1
  have hdiv : ((out.length : ℤ) - discard) ≠ 0 := by rw [h2]; omega
  simp only
  rw [if_neg hdiv]
  congr 1
  unfold acceptedFraction
  rw [List.length_map, List.length_range']
  have hq : (((out.length : ℤ) - (discard : ℤ) : ℤ) : ℚ) = ((nsteps / thin - discard : ℕ) : ℚ) := by
    rw [h2, Nat.cast_sub (le_of_lt hdis)]
    push_cast
    rfl
  rw [hq]
  congr 2
  have hdrop : out.drop discard = (List.range' discard (nsteps / thin - discard)).map
      fun t => out.getD t [] := by
    apply List.ext_getElem
    · simp [h2]
    · intro k e1 e2
      rw [List.length_map, List.length_range'] at e2
      have : discard + k < out.length := by rw [h2]; omega
      simp only [List.getElem_drop, List.getElem_map, List.getElem_range', one_mul]
      rw [List.getD_eq_getElem?_getD, List.getElem?_eq_getElem this, Option.getD_some]
  rw [hdrop, List.filter_map, List.length_map, List.filter_map, List.length_map]
  congr 1
  refine List.filter_congr fun t ht => ?_
  rw [List.mem_range'] at ht
  obtain ⟨k, hk, rfl⟩ := ht
  obtain ⟨rows, e1, _, e2⟩ := h3 (discard + 1 * k) (by omega)
  obtain ⟨row, e3, _, e4⟩ := e2 i x hx
  rw [Function.comp_apply, Function.comp_apply, List.getD_eq_getElem?_getD, e1, Option.getD_some, e3,
    Option.map_some, Option.getD_some, e4]

/-- C79. Without thinning it is the fraction of accepted steps after the discarded ones, and with
`flat=True` its average over the walkers. -/
theorem C79_efficiency_unthinned (ks : List (Kern K)) (dec : Decisions) (nsteps : ℕ)
    (init : List Occ) (hinit : init.length = ks.length) (hne : ks ≠ []) (discard : ℕ)
    (hdis : discard < nsteps) :
    ∃ c, runInMemory ks dec 0 nsteps 1 (some init) Container.new = some c ∧
      efficiencyWalkers c ks.length discard = some (init.mapIdx fun i x =>
        some (acceptedFraction dec i x (List.range' discard (nsteps - discard)))) ∧
      efficiencyFlat c ks.length discard = some (some ((init.mapIdx fun i x =>
        acceptedFraction dec i x (List.range' discard (nsteps - discard))).sum / ks.length)) := by
  obtain ⟨c, h1, eff, h2, h3, h4⟩ := C79_efficiency ks dec nsteps 1 one_pos init hinit discard
    (by rw [Nat.div_one]; exact hdis)
  have he : eff = init.mapIdx fun i x =>
        some (acceptedFraction dec i x (List.range' discard (nsteps - discard))) := by
    apply List.ext_getElem?
    intro i
    by_cases hi : i < init.length
    · rw [h4 i _ (List.getElem?_eq_getElem hi), List.getElem?_mapIdx, List.getElem?_eq_getElem hi]
      simp
    · rw [List.getElem?_eq_none (by omega), List.getElem?_eq_none (by rw [List.length_mapIdx]; omega)]
  refine ⟨c, h1, by rw [h2, he], ?_⟩
  unfold efficiencyFlat
  rw [h2, Option.map_some, he]
  congr 1
  have hm : ∀ l : List ℚ, ((l.map some).mapM id : Option (List ℚ)) = some l := by
    intro l
    induction l with
    | nil => rfl
    | cons a t ih => rw [List.map_cons, List.mapM_cons, ih]; rfl
  have hmap : (init.mapIdx fun i x =>
        some (acceptedFraction dec i x (List.range' discard (nsteps - discard)))) =
      (init.mapIdx fun i x =>
        acceptedFraction dec i x (List.range' discard (nsteps - discard))).map some := by
    apply List.ext_getElem
    · simp
    · intro k e1 e2
      simp
  rw [hmap, hm, Option.bind_some]
  unfold meanQ
  rw [if_neg, List.length_mapIdx, hinit]
  intro hcon
  have := congrArg List.length hcon
  rw [List.length_mapIdx, hinit, List.length_nil] at this
  exact hne (List.length_eq_zero_iff.1 this)

/-- two walkers, the second never accepts; three steps, the first one discarded -/
def effDecisions : Decisions := fun r i _ => ([(0, r)], decide (i = 0 ∧ r ≠ 1))

example (k : Kern ℤ) : ∃ c, runInMemory [k, k] effDecisions 0 3 1 (some [fun _ => 0, fun _ => 5])
      Container.new = some c ∧
    efficiencyWalkers c 2 1 = some [some (1 / 2), some 0] ∧
    efficiencyFlat c 2 1 = some (some (1 / 4)) := by
  obtain ⟨c, h1, h2, h3⟩ := C79_efficiency_unthinned [k, k] effDecisions 3 [fun _ => 0, fun _ => 5]
    rfl (by simp) 1 (by decide)
  refine ⟨c, h1, ?_, ?_⟩
  · exact h2.trans (by
      have : (List.mapIdx (fun i x => some (acceptedFraction effDecisions i x
        (List.range' 1 (3 - 1)))) [fun _ => 0, fun _ => 5]) = [some (1 / 2), some 0] := by
        decide +kernel
      rw [this])
  · exact h3.trans (by
      have : ((List.mapIdx (fun i x => acceptedFraction effDecisions i x
        (List.range' 1 (3 - 1))) [fun _ => 0, fun _ => 5]).sum / ((2 : ℕ) : ℚ)) = 1 / 4 := by
        decide +kernel
      rw [show ([k, k] : List (Kern ℤ)).length = 2 from rfl, this])

/-- the walk and the recorded flags -/
example : (walk effDecisions 0 (fun _ => 7) 3) 0 = 2 ∧ (walk effDecisions 0 (fun _ => 7) 2) 0 = 0 ∧
    (walk effDecisions 1 (fun _ => 7) 3) 0 = 7 := by decide

omit [CommRing K] in
/-- C79, limit: nothing left after discarding is `nan`; discarding more than there is gives zero. -/
theorem C79_all_discarded (c : Container (List (Row K))) (hfull : c.rows.length = c.nsamples)
    (w discard : ℕ) (h : c.nsamples ≤ discard) :
    efficiencyWalkers c w discard =
      some (List.replicate w (if c.nsamples = discard then none else some 0)) := by
  unfold efficiencyWalkers
  rw [List.drop_eq_nil_of_le (by omega)]
  by_cases hh : c.nsamples = discard
  · simp [hh]
  · have : (c.nsamples : ℤ) - discard ≠ 0 := by omega
    simp [hh, this]

end Walk

section Orbits
variable {K : Type*} [CommRing K]

theorem masked_share (params : List K) (ids : List ℕ) (f : List K) (hi : ids.length = params.length)
    (hf : f.length = params.length) (i : ℕ) :
    (((ids.zip (List.zipWith (· * ·) params f)).filter fun p => decide (p.1 = i)).map Prod.snd).sum =
      orbitShare params ids f i := by
  unfold orbitShare
  induction params generalizing ids f with
  | nil =>
    rw [List.length_nil, List.length_eq_zero_iff] at hi
    subst hi
    rfl
  | cons p ps ih =>
    match ids, f, hi, hf with
    | a :: as, x :: xs, hi, hf =>
      rw [List.length_cons, List.range_succ_eq_map, List.map_cons, List.sum_cons, List.map_map]
      have := ih as xs (by simpa using hi) (by simpa using hf)
      rw [List.zipWith_cons_cons, List.zip_cons_cons, List.filter_cons]
      have e : ((List.range ps.length).map ((fun g => if (a :: as)[g]? = some i then
          (p :: ps).getD g 0 * (x :: xs).getD g 0 else 0) ∘ Nat.succ)) =
          (List.range ps.length).map fun g => if as[g]? = some i then
            ps.getD g 0 * xs.getD g 0 else 0 := by
        refine List.map_congr_left fun g _ => ?_
        simp
      rw [e, ← this]
      by_cases ha : a = i
      · simp [ha]
      · simp [ha]

/-- C79. For a single selected occupancy the orbit factors are the shares of the orbits. -/
theorem C79_orbit_factors_partial (params : List K) (ids : List ℕ) (f : List K)
    (hi : ids.length = params.length) (hf : f.length = params.length) :
    orbitFactors params ids [[f]] = some ((List.range params.length).map
      fun i => orbitShare params ids f i) := by
  let : Inhabited K := ⟨0⟩
  have hv : timesParams params (squeeze params.length [f]) =
      some (.vec (List.zipWith (· * ·) params f)) := by
    unfold squeeze
    by_cases h1 : params.length = 1
    · obtain ⟨p, rfl⟩ := List.length_eq_one_iff.1 h1
      obtain ⟨x, rfl⟩ := List.length_eq_one_iff.1 (hf.trans h1)
      rfl
    · simp only [h1, if_false, timesParams, hf, if_true]
  unfold orbitFactors
  rw [show ([[f]] : List (List (List K))).flatten = [f] from rfl]
  show (timesParams params (squeeze params.length [f])).bind _ = _
  rw [hv, Option.bind_some]
  apply mapM_eq_map
  intro i _
  unfold maskedSum
  simp only
  rw [if_pos (by simp [hi, hf]), masked_share params ids f hi hf]

/-- C79, the claim is false for several samples: the mask of functions acts on the axis of samples,
and the call raises unless there are as many samples as functions. -/
theorem C79_orbit_factors_raise (params : List K) (ids : List ℕ)
    (features : List (List (List K))) (hi : ids.length = params.length) (hne : params ≠ [])
    (h1 : features.flatten.length ≠ 1) (h2 : features.flatten.length ≠ params.length) :
    orbitFactors params ids features = none := by
  let : Inhabited K := ⟨0⟩
  unfold orbitFactors
  show (timesParams params (squeeze params.length features.flatten)).bind _ = none
  refine Option.bind_eq_none_iff.2 fun vals hvals => ?_
  rw [mapM_eq_none_iff]
  refine ⟨0, List.mem_range.2 (List.length_pos_iff.2 hne), ?_⟩
  generalize features.flatten = rows at h1 h2 hvals
  by_cases hn : params.length = 1
  · have hsq : squeeze params.length rows = .vec (rows.map fun r => r.headD default) := by
      unfold squeeze
      match rows, h1 with
      | [], _ => simp [hn]
      | [_], h => exact absurd rfl h
      | a :: b :: r, _ => simp [hn]
    rw [hsq] at hvals
    obtain ⟨p, rfl⟩ := List.length_eq_one_iff.1 hn
    unfold timesParams at hvals
    simp only at hvals
    rw [if_neg (by rw [List.length_map]; exact h2), Option.some.injEq] at hvals
    subst hvals
    unfold maskedSum
    simp only
    rw [if_neg (by rw [List.length_map, List.length_map, hi]; exact h2)]
  · have hsq : squeeze params.length rows = .mat rows := by
      unfold squeeze
      match rows, h1 with
      | [], _ => simp [hn]
      | [_], h => exact absurd rfl h
      | a :: b :: r, _ => simp [hn]
    rw [hsq] at hvals
    unfold timesParams at hvals
    simp only at hvals
    split_ifs at hvals
    rw [Option.some.injEq] at hvals
    subst hvals
    unfold maskedSum
    simp only
    rw [if_neg (by rw [List.length_map, hi]; exact h2)]

/-- C79, witness: two samples and two functions in orbits 0 and 1. The result is the property of the
first and of the second sample, instead of the shares `[2, 30]` and `[4, 50]`. -/
theorem C79_orbit_factors_fail :
    orbitFactors ([2, 10] : List ℤ) [0, 1] [[[1, 3]], [[2, 5]]] = some [32, 54] ∧
      (List.range 2).map (orbitShare ([2, 10] : List ℤ) [0, 1] [1, 3]) = [2, 30] ∧
      (List.range 2).map (orbitShare ([2, 10] : List ℤ) [0, 1] [2, 5]) = [4, 50] := by
  decide

example : orbitFactors ([2, 10, 100] : List ℤ) [0, 1, 1] [[[1, 3, 4]]] = some [2, 430, 0] ∧
    orbitFactors ([2, 10, 100] : List ℤ) [0, 1, 1] [[[1, 3, 4], [1, 1, 1]]] = none := by decide

end Orbits

/-- A processor for one site whose feature is the site's code. -/
def liveProc : PartProc ℤ := ⟨false, [2], fun o => [(o 0 : ℤ)], fun o s => [((applyStep o s) 0 : ℤ) - o 0]⟩

/-- The energy and the natural parameters at the time of sampling, the energies that the container
returns at that time, and those it returns after the chemical potentials were taken off the
ensemble. -/
def liveEnergies : Option (ℤ × Option (List (List ℤ)) × Option (List (List ℤ))) :=
  (Ens.init ([2] : List ℤ) [Sublattice.new [10, 11] [0]]).bind fun e0 =>
    (e0.setMu [(10, 3), (11, 5)]).bind fun e1 =>
      let row := (Kern.ofEnsemble e1 liveProc 1 none fun _ _ => 0).initialRow fun _ => 1
      e1.delMu.map fun e2 =>
        (liveProc.property fun _ => 1, getEnergies e1.params 1 [[row]], getEnergies e2.params 1 [[row]])

/-- C20, limit: the container reads the natural parameters of the ensemble when it is asked, not those
of the time of sampling. After chemical potentials were taken off the ensemble `get_energies` returns
the recorded enthalpies, which include the chemical work: here -3 instead of 2. -/
theorem C20_live_parameters_fail : liveEnergies = some (2, some [[2]], some [[-3]]) := by
  decide

end Smol
