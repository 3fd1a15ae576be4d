import Verif.Spec.GroundSolver
import Verif.Props.GroundVars

/-!
# C52 Results of a ground-state solver
-/

namespace Smol
open Spec

variable {σ : Type}

theorem readOccupancy_fields (decode : List ℤ → Option (List ℕ)) (st : GsState σ) :
    (st.readOccupancy decode).1.solution = st.solution ∧
      (st.readOccupancy decode).1.energy = st.energy ∧
      (st.readOccupancy decode).1.struct = st.struct := by
  obtain ⟨sol, en, oc, sr⟩ := st
  unfold GsState.readOccupancy
  cases sol <;> cases en <;> cases oc <;> simp
  split <;> simp

theorem readStructure_fields (decode : List ℤ → Option (List ℕ)) (build : List ℕ → σ)
    (st : GsState σ) : (st.readStructure decode build).1.solution = st.solution ∧
      (st.readStructure decode build).1.energy = st.energy := by
  unfold GsState.readStructure
  split
  · rename_i h1 h2
    split
    · exact ⟨rfl, rfl⟩
    · have := readOccupancy_fields decode st
      split <;> rename_i heq
      · rw [heq] at this; exact ⟨this.1, this.2.1⟩
      · rw [heq] at this; exact ⟨this.1, this.2.1⟩
  · exact ⟨rfl, rfl⟩

theorem run_solution (decode : List ℤ → Option (List ℕ)) (build : List ℕ → σ) (ops : List GsOp) :
    ∀ (st : GsState σ) (r : Option (List ℚ × ℚ)),
      st.solution = r.map (fun x => x.1.map truncInt) → st.energy = r.map Prod.snd →
      (ops.foldl (GsState.step decode build) st).solution =
          (lastSolve ops r).map (fun x => x.1.map truncInt) ∧
        (ops.foldl (GsState.step decode build) st).energy = (lastSolve ops r).map Prod.snd := by
  induction ops with
  | nil => intro st r h1 h2; exact ⟨h1, h2⟩
  | cons op ops ih =>
    intro st r h1 h2
    rw [List.foldl_cons]
    cases op with
    | solve x =>
      rw [lastSolve]
      apply ih
      · cases x <;> rfl
      · cases x <;> rfl
    | reset => rw [lastSolve]; exact ih _ _ rfl rfl
    | readOccupancy =>
      rw [lastSolve]
      have := readOccupancy_fields decode st
      exact ih _ _ (this.1.trans h1) (this.2.1.trans h2)
    | readStructure =>
      rw [lastSolve]
      have := readStructure_fields decode build st
      exact ih _ _ (this.1.trans h1) (this.2.trans h2)

/-- The integer next to `q` on the side of zero. -/
def TowardZero (q : ℚ) (z : ℤ) : Prop :=
  (0 ≤ q → 0 ≤ z ∧ (z : ℚ) ≤ q ∧ q < z + 1) ∧ (q ≤ 0 → z ≤ 0 ∧ q ≤ z ∧ (z : ℚ) < q + 1)

theorem truncInt_towardZero (q : ℚ) : TowardZero q (truncInt q) := by
  unfold TowardZero truncInt
  constructor
  · intro h
    rw [if_pos h]
    exact ⟨Int.floor_nonneg.2 h, Int.floor_le q, Int.lt_floor_add_one q⟩
  · intro h
    split
    · have : q = 0 := le_antisymm h (by assumption)
      subst this
      simp
    · refine ⟨Int.ceil_le.2 (by simpa using h), Int.le_ceil q, Int.ceil_lt_add_one q⟩

/-- C52. After any history, solution and energy are those of the latest solve since the last reset
(the solution truncated toward zero, value by value), and absent when it failed. -/
theorem C52_solution (decode : List ℤ → Option (List ℕ)) (build : List ℕ → σ) (ops : List GsOp) :
    (lastSolve ops none = none → (GsState.run decode build ops).solution = none) ∧
      (∀ r, lastSolve ops none = some r → ∃ zs, (GsState.run decode build ops).solution = some zs ∧
        List.Forall₂ TowardZero r.1 zs) ∧
      (GsState.run decode build ops).energy = (lastSolve ops none).map Prod.snd := by
  unfold GsState.run
  obtain ⟨h1, h2⟩ := run_solution decode build ops {} none rfl rfl
  refine ⟨fun h => by rw [h1, h]; rfl, fun r hr => ⟨r.1.map truncInt, by rw [h1, hr]; rfl, ?_⟩, h2⟩
  rw [List.forall₂_map_right_iff]
  exact List.forall₂_same.2 fun q _ => truncInt_towardZero q

/-- The caches agree with the solution, and are empty when nothing was seen. -/
structure SolverOk (decode : List ℤ → Option (List ℕ)) (build : List ℕ → σ) (seen : Bool)
    (st : GsState σ) : Prop where
  both : st.solution.isSome = st.energy.isSome
  occ : ∀ o, st.occupancy = some o → st.solution.bind decode = some o
  struct : ∀ x, st.struct = some x → (st.solution.bind decode).map build = some x
  unseen : seen = false → st.occupancy = none ∧ st.struct = none

theorem SolverOk.readOccupancy {decode : List ℤ → Option (List ℕ)} {build : List ℕ → σ}
    {seen : Bool} {st : GsState σ} (h : SolverOk decode build seen st) :
    (st.readOccupancy decode).2 = st.solution.bind decode ∧
      SolverOk decode build (seen || st.solution.isSome) (st.readOccupancy decode).1 := by
  obtain ⟨sol, en, oc, sr⟩ := st
  obtain ⟨h1, h2, h3, h4⟩ := h
  cases sol with
  | none =>
    cases en with
    | none => exact ⟨rfl, h1, h2, h3, fun hh => h4 (by simpa using hh)⟩
    | some e => simp at h1
  | some sol =>
    cases en with
    | none => simp at h1
    | some e =>
      cases oc with
      | some o => exact ⟨(h2 o rfl).symm, h1, h2, h3, by simp⟩
      | none =>
        simp only [GsState.readOccupancy]
        cases hd : decode sol with
        | none =>
          simp only
          exact ⟨by simp [hd], h1, h2, h3, by simp⟩
        | some o =>
          simp only
          refine ⟨by simp [hd], h1, ?_, h3, by simp⟩
          intro o' ho'
          cases ho'
          simpa using hd

theorem SolverOk.readStructure {decode : List ℤ → Option (List ℕ)} {build : List ℕ → σ}
    {seen : Bool} {st : GsState σ} (h : SolverOk decode build seen st) :
    (st.readStructure decode build).2 = (st.solution.bind decode).map build ∧
      SolverOk decode build (seen || st.solution.isSome) (st.readStructure decode build).1 := by
  obtain ⟨hr, hc⟩ := h.readOccupancy
  have hf := readOccupancy_fields decode st
  unfold GsState.readStructure
  split
  · rename_i s e hs he
    split
    · rename_i x hx
      refine ⟨(h.struct x hx).symm, h.both, h.occ, h.struct, ?_⟩
      rw [hs]; simp
    · rename_i hx
      split <;> rename_i st' heq
      · rename_i o
        rw [heq] at hr hc hf
        simp only at hr hc hf
        refine ⟨by rw [← hr]; rfl, hc.both, hc.occ, ?_, ?_⟩
        · intro x hx
          cases hx
          rw [hf.1, ← hr]; rfl
        · rw [hs]; simp
      · rw [heq] at hr hc
        simp only at hr hc
        exact ⟨by rw [← hr]; rfl, hc⟩
  · rename_i hne
    cases hs : st.solution with
    | none =>
      refine ⟨rfl, h.both, h.occ, h.struct, ?_⟩
      intro hh; exact h.unseen (by simpa using hh)
    | some s =>
      cases he : st.energy with
      | none => have := h.both; rw [hs, he] at this; simp at this
      | some e => exact absurd he (hne s e hs)

theorem run_cache (decode : List ℤ → Option (List ℕ)) (build : List ℕ → σ) (ops : List GsOp) :
    ∀ (st : GsState σ) (seen : Bool), SolverOk decode build seen st →
      Unseen st.solution.isSome seen ops →
      ∃ seen', SolverOk decode build seen' (ops.foldl (GsState.step decode build) st) := by
  induction ops with
  | nil => intro st seen h _; exact ⟨seen, h⟩
  | cons op ops ih =>
    intro st seen h hu
    rw [List.foldl_cons]
    cases op with
    | solve r =>
      obtain ⟨hs, hu⟩ := hu
      have hun := h.unseen hs
      have e : (st.solve r).solution.isSome = r.isSome := by cases r <;> rfl
      apply ih (st.solve r) seen _ (by rw [e]; exact hu)
      have e1 : (st.solve r).occupancy = none := by cases r <;> exact hun.1
      have e2 : (st.solve r).struct = none := by cases r <;> exact hun.2
      refine ⟨by cases r <;> rfl, ?_, ?_, fun _ => ⟨e1, e2⟩⟩
      · intro o ho; rw [e1] at ho; cases ho
      · intro o ho; rw [e2] at ho; cases ho
    | reset =>
      refine ih {} false ⟨rfl, ?_, ?_, fun _ => ⟨rfl, rfl⟩⟩ hu
      · intro o ho; cases ho
      · intro o ho; cases ho
    | readOccupancy =>
      refine ih _ _ h.readOccupancy.2 ?_
      have e : (GsState.step decode build st .readOccupancy).solution = st.solution :=
        (readOccupancy_fields decode st).1
      rw [e]; exact hu
    | readStructure =>
      refine ih _ _ h.readStructure.2 ?_
      have e : (GsState.step decode build st .readStructure).solution = st.solution :=
        (readStructure_fields decode build st).1
      rw [e]; exact hu

/-- C52. Occupancy and structure read from the solver are those of its current solution, and
raise when there is none, as long as no solve follows a look at earlier results without a reset.
Missing for the full claim: that hypothesis; without it the claim is false
(`C52_stale_occupancy`). -/
theorem C52_results_partial (decode : List ℤ → Option (List ℕ)) (build : List ℕ → σ)
    (ops : List GsOp) (h : Unseen false false ops) :
    let st := GsState.run decode build ops
    (st.readOccupancy decode).2 = st.solution.bind decode ∧
      (st.readStructure decode build).2 = (st.solution.bind decode).map build := by
  obtain ⟨seen, hc⟩ := run_cache decode build ops {} false
    ⟨rfl, (fun o ho => by cases ho), (fun o ho => by cases ho), fun _ => ⟨rfl, rfl⟩⟩ h
  exact ⟨hc.readOccupancy.1, hc.readStructure.1⟩

/-- C52, a reset makes the results follow the solution again whatever was read before. -/
theorem C52_reset_clears (decode : List ℤ → Option (List ℕ)) (build : List ℕ → σ)
    (ops : List GsOp) (r : Option (List ℚ × ℚ)) :
    let st := GsState.run decode build (ops ++ [.reset, .solve r])
    (st.readOccupancy decode).2 = (r.map fun x => x.1.map truncInt).bind decode := by
  have : GsState.run decode build (ops ++ [.reset, .solve r]) = GsState.solve {} r := by
    unfold GsState.run
    rw [List.foldl_append]; rfl
  simp only [this]
  cases r with
  | none => rfl
  | some r =>
    simp only [GsState.solve, GsState.readOccupancy, Option.map_some, Option.bind_some]
    cases decode (r.1.map truncInt) <;> rfl

/-- `get_occupancy_from_variables` for the example of C51. -/
def exDecode (values : List ℤ) : Option (List ℕ) :=
  occupancyFromVariables exSubls values [[0, -2, 1], [-2, -2, -1], [2, -2, 3], [-1]]

/-- C52, negated. Solving twice and looking after each solve: the second look shows the first
occupancy although the solution is a different one, with a different occupancy. -/
theorem C52_stale_occupancy :
    let st := GsState.run exDecode id
      [.solve (some ([1, 0, 0, 1], -1)), .readOccupancy, .solve (some ([0, 1, 1, 0], -2))]
    (st.readOccupancy exDecode).2 = some [0, 2, 2, 0] ∧
      st.solution.bind exDecode = some [2, 2, 0, 0] := by
  decide +kernel

/-- C52. The values are truncated, not rounded: a value slightly below one counts as zero, and
reading the occupancy raises. -/
theorem C52_truncated_solution :
    let st := GsState.run exDecode id [.solve (some ([9999 / 10000, 0, 0, 1], -1))]
    st.solution = some [0, 0, 0, 1] ∧ (st.readOccupancy exDecode).2 = none := by
  decide +kernel

/-- The hypothesis of `C52_results_partial` holds for a history with two solves, a failed one and
reads. -/
example : Unseen false false [.readOccupancy, .solve none, .readStructure,
    .solve (some ([1, 0, 0, 1], -1)), .readStructure, .readOccupancy, .reset,
    .solve (some ([0, 1, 1, 0], -2))] := by
  simp [Unseen]

end Smol
