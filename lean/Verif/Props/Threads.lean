import Verif.Lemmas.Threads
import Verif.Props.Processor

/-!
# C42 Results do not depend on thread scheduling
-/

namespace Smol

variable {K : Type*} [Field K]

/-- The result of some complete parallel execution of the tasks with `nthreads` threads, starting
from the given output array. -/
def ParallelResult (tasks : List (Task K)) (init : ℕ → K) (nthreads : ℕ) (out : ℕ → K) : Prop :=
  ∃ m : Machine K, Relation.ReflTransGen (Machine.Step tasks nthreads)
    (Machine.start tasks init) m ∧ m.Final nthreads ∧ m.out = out

theorem parallel_eq {tasks : List (Task K)} (hd : SlotsDistinct tasks) (init : ℕ → K)
    (nthreads : ℕ) (out : ℕ → K) (h : ParallelResult tasks init nthreads out) :
    out = applyWrites init (tasks.flatMap Task.writes) := by
  obtain ⟨m, h1, h2, rfl⟩ := h
  exact final_out hd h1 h2

/-- C42. The correlation vector computed by any number of threads, whatever the order in which the
orbits are handed out and the interleaving of the threads' steps, is the serial one. -/
theorem C42_correlations (P : CEProcessor K) (hP : P.WellFormed) (occ : Occ) (nthreads : ℕ)
    (out : ℕ → K)
    (h : ParallelResult (P.orbits.map fun p => corrTask occ p.1 p.2)
      (fun i => if i = 0 then 1 else 0) nthreads out) :
    out = correlationsFromOccupancy P.orbits occ := by
  have hd : SlotsDistinct (P.orbits.map fun p => corrTask occ p.1 p.2) := by
    unfold SlotsDistinct
    rw [List.flatMap_map]
    exact hP.1
  rw [parallel_eq hd _ _ _ h, List.flatMap_map]
  rfl

/-- C42. The same for the cluster interactions. -/
theorem C42_interactions (P : CDProcessor K) (hP : P.WellFormed) (occ : Occ) (nthreads : ℕ)
    (out : ℕ → K)
    (h : ParallelResult (P.orbits.map fun p => interTask occ p.1.1 p.1.2 p.2)
      (fun i => if i = 0 then P.offset else 0) nthreads out) :
    out = interactionsFromOccupancy P.offset P.orbits occ := by
  have hd : SlotsDistinct (P.orbits.map fun p => interTask occ p.1.1 p.1.2 p.2) := by
    unfold SlotsDistinct
    rw [List.flatMap_map]
    have := hP.1
    rw [List.map_eq_flatMap] at this
    exact this
  rw [parallel_eq hd _ _ _ h, List.flatMap_map]
  rfl

omit [Field K] in
theorem localData_sublist [Field K] {α : Type*} (orbits : List (α × ClusterRows)) (site : ℕ) :
    ((localData orbits site : List (α × ClusterRows × K)).map Prod.fst).Sublist
      (orbits.map Prod.fst) := by
  induction orbits with
  | nil => simp [localData]
  | cons p l ih =>
    unfold localData at ih ⊢
    rw [List.filterMap_cons]
    split <;> rename_i h
    · exact ih.cons _
    · simp only at h
      split at h
      · cases h
      · simp only [Option.some.injEq] at h
        subst h
        exact ih.cons_cons _

theorem sublist_flatMap {α β : Type*} {l m : List α} (h : l.Sublist m) (f : α → List β) :
    (l.flatMap f).Sublist (m.flatMap f) := by
  induction h with
  | slnil => exact List.Sublist.slnil
  | cons a _ ih =>
    rw [List.flatMap_cons]; exact ih.trans (List.sublist_append_right _ _)
  | cons_cons a _ ih =>
    rw [List.flatMap_cons, List.flatMap_cons]; exact (List.Sublist.refl _).append ih

/-- C42. The change of the correlation vector for a flip computed in parallel is the serial one. -/
theorem C42_delta_correlations (P : CEProcessor K) (hP : P.WellFormed) (occI : Occ) (f : ℕ × ℕ)
    (nthreads : ℕ) (out d : ℕ → K) (hser : P.deltaCorr occI f = some d)
    (h : ParallelResult ((localData P.orbits f.1).map fun x : OrbitData K × ClusterRows × K =>
      deltaCorrTask (Function.update occI f.1 f.2) occI x.1 x.2.1 x.2.2)
      (fun _ => 0) nthreads out) : out = d := by
  have hd : SlotsDistinct ((localData P.orbits f.1).map fun x : OrbitData K × ClusterRows × K =>
      deltaCorrTask (Function.update occI f.1 f.2) occI x.1 x.2.1 x.2.2) := by
    unfold SlotsDistinct
    rw [List.flatMap_map]
    have h1 := hP.1
    have e1 : (P.orbits.flatMap fun p => (List.range p.1.numCombos).map fun k => p.1.bitId + k) =
        (P.orbits.map Prod.fst).flatMap fun o => (List.range o.numCombos).map fun k =>
          o.bitId + k := by rw [List.flatMap_map]
    rw [e1] at h1
    have h2 := List.Nodup.sublist (sublist_flatMap (localData_sublist (K := K) P.orbits f.1)
      (fun o => (List.range o.numCombos).map fun k => o.bitId + k)) h1
    rw [List.flatMap_map] at h2
    exact h2
  rw [parallel_eq hd _ _ _ h, List.flatMap_map]
  unfold CEProcessor.deltaCorr at hser
  simp only at hser
  split at hser
  · cases hser
  · rw [← Option.some.inj hser]
    rfl

/-- C42. The same for the change of the cluster interactions. -/
theorem C42_delta_interactions (P : CDProcessor K) (hP : P.WellFormed) (occI : Occ) (f : ℕ × ℕ)
    (nthreads : ℕ) (out d : ℕ → K) (hser : P.deltaInter occI f = some d)
    (h : ParallelResult ((localData P.orbits f.1).map
      fun x : (OrbitData K × (ℕ → K)) × ClusterRows × K =>
      deltaInterTask (Function.update occI f.1 f.2) occI x.1.1 x.1.2 x.2.1 x.2.2)
      (fun _ => 0) nthreads out) : out = d := by
  have hd : SlotsDistinct ((localData P.orbits f.1).map
      fun x : (OrbitData K × (ℕ → K)) × ClusterRows × K =>
      deltaInterTask (Function.update occI f.1 f.2) occI x.1.1 x.1.2 x.2.1 x.2.2) := by
    unfold SlotsDistinct
    rw [List.flatMap_map]
    have h1 := hP.1
    have e1 : (P.orbits.map fun p => p.1.1.id) =
        (P.orbits.map Prod.fst).map fun o => o.1.id := by rw [List.map_map]; rfl
    rw [e1] at h1
    have h2 := List.Nodup.sublist ((localData_sublist (K := K) P.orbits f.1).map
      (fun o => o.1.id)) h1
    rw [List.map_map, List.map_eq_flatMap] at h2
    exact h2
  rw [parallel_eq hd _ _ _ h, List.flatMap_map]
  unfold CDProcessor.deltaInter at hser
  simp only at hser
  split at hser
  · cases hser
  · rw [← Option.some.inj hser]
    rfl

/-- C42. With at least one thread every execution ends: the number of steps is bounded, and as
long as the loop has not ended some thread can go on. -/
theorem C42_terminates (tasks : List (Task K)) (init : ℕ → K) (nthreads : ℕ) (hn : 0 < nthreads) :
    (∃ bound : ℕ, ∀ (steps : ℕ) (run : ℕ → Machine K), run 0 = Machine.start tasks init →
      (∀ i < steps, Machine.Step tasks nthreads (run i) (run (i + 1))) → steps ≤ bound) ∧
    ∀ m, Relation.ReflTransGen (Machine.Step tasks nthreads) (Machine.start tasks init) m →
      ¬ m.Final nthreads → ∃ m', Machine.Step tasks nthreads m m' := by
  constructor
  · refine ⟨(Machine.start tasks init).left tasks nthreads, fun steps run h0 hrun => ?_⟩
    have : ∀ i ≤ steps, (run i).left tasks nthreads + i ≤ (run 0).left tasks nthreads := by
      intro i
      induction i with
      | zero => intro _; omega
      | succ i ih =>
        intro hi
        have h1 := ih (by omega)
        have h2 := machine_left_step (hrun i (by omega))
        omega
    have := this steps (le_refl _)
    rw [← h0]; omega
  · intro m hm hnf
    have hinv : (∀ n ∈ m.pool, n < tasks.length) ∧ ∀ t n r, m.threads t = some (n, r) →
        n < tasks.length := by
      clear hnf
      induction hm with
      | refl => exact ⟨fun n h => List.mem_range.1 h, fun t n r h => by cases h⟩
      | tail _ hs ih =>
        cases hs with
        | take t n T g ht hidle hp hT =>
          refine ⟨fun a ha => ih.1 a (List.mem_of_mem_erase ha), fun t' a r h => ?_⟩
          simp only [Function.update_apply] at h
          split at h
          · simp only [Option.some.injEq, Prod.mk.injEq] at h
            rw [← h.1]; exact ih.1 n hp
          · exact ih.2 _ _ _ h
        | exec t n T r ht hrun hT hnd =>
          refine ⟨ih.1, fun t' a r' h => ?_⟩
          simp only [Function.update_apply] at h
          split at h
          · simp only [Option.some.injEq, Prod.mk.injEq] at h
            rw [← h.1]; exact ih.2 _ _ _ hrun
          · exact ih.2 _ _ _ h
        | release t n r ht hrun hdone =>
          refine ⟨ih.1, fun t' a r' h => ?_⟩
          simp only [Function.update_apply] at h
          split at h
          · cases h
          · exact ih.2 _ _ _ h
    by_cases hbusy : ∃ t < nthreads, m.threads t ≠ none
    · obtain ⟨t, ht, hb⟩ := hbusy
      obtain ⟨⟨n, r⟩, hr⟩ := Option.ne_none_iff_exists'.1 hb
      by_cases hdone : r.pc = .done
      · exact ⟨_, .release m t n r ht hr hdone⟩
      · exact ⟨_, .exec m t n _ r ht hr (List.getElem?_eq_getElem (hinv.2 t n r hr)) hdone⟩
    · push Not at hbusy
      have hp : m.pool ≠ [] := fun h => hnf ⟨h, hbusy⟩
      obtain ⟨n, hnp⟩ := List.exists_mem_of_ne_nil _ hp
      exact ⟨_, .take m 0 n _ ⟨.done, 0, 0, 0, 0, 0, 0, 0⟩ hn (hbusy 0 hn) hnp
        (List.getElem?_eq_getElem (hinv.1 n hnp))⟩

theorem setNumThreads_some (openmp envSet : Bool) (maxThreads : ℕ) (hm : 0 < maxThreads) (v : ℤ) :
    (setNumThreads openmp envSet maxThreads (some v) = none ↔ v = 0) ∧
    ∀ n, setNumThreads openmp envSet maxThreads (some v) = some n → 1 ≤ n ∧ n ≤ maxThreads := by
  have h1 : ∀ v : ℤ, v ≠ 0 → effectiveThreads openmp maxThreads (some v) =
      if !openmp then some 1 else if v < 0 then some (max 1 (maxThreads + v + 1)) else some v := by
    intro v hv
    unfold effectiveThreads
    split
    · rename_i h; simp only [Option.some.injEq] at h; exact absurd h hv
    · rfl
  have h2 : effectiveThreads openmp maxThreads none =
      if !openmp then some 1 else some (maxThreads : ℤ) := rfl
  have h0 : effectiveThreads openmp maxThreads (some 0) = none := rfl
  have hm' : (1 : ℤ) ≤ maxThreads := by omega
  have key : setNumThreads openmp envSet maxThreads (some v) =
      (effectiveThreads openmp maxThreads none).bind fun mx =>
        effectiveThreads openmp maxThreads (some (if v > mx then mx else v)) := rfl
  rw [key, h2]
  by_cases hv : v = 0
  · subst hv
    cases openmp
    · simp [h0]
    · simp only [Bool.not_true, Bool.false_eq_true, if_false, Option.bind_some]
      rw [if_neg (by omega), h0]
      simp
  · cases openmp
    · simp only [Bool.not_false, if_true, Option.bind_some]
      rw [h1 _ (by split <;> omega)]
      simp [hv]
      omega
    · simp only [Bool.not_true, Bool.false_eq_true, if_false, Option.bind_some]
      by_cases hgt : v > (maxThreads : ℤ)
      · rw [if_pos hgt, h1 _ (by omega)]
        simp only [Bool.not_true, Bool.false_eq_true, if_false]
        rw [if_neg (by omega)]
        refine ⟨by simp [hv], fun n hn => ?_⟩
        simp only [Option.some.injEq] at hn
        omega
      · rw [if_neg hgt, h1 _ hv]
        simp only [Bool.not_true, Bool.false_eq_true, if_false]
        split
        · refine ⟨by simp [hv], fun n hn => ?_⟩
          simp only [Option.some.injEq] at hn
          omega
        · refine ⟨by simp [hv], fun n hn => ?_⟩
          simp only [Option.some.injEq] at hn
          omega

/-- C42. A request for a number of threads is refused exactly when it is 0; otherwise the number
used is at least one and at most the number available. -/
theorem C42_num_threads (openmp envSet : Bool) (maxThreads : ℕ) (hm : 0 < maxThreads)
    (value : Option ℤ) :
    (setNumThreads openmp envSet maxThreads value = none ↔ value = some 0) ∧
    ∀ n, setNumThreads openmp envSet maxThreads value = some n → 1 ≤ n ∧ n ≤ maxThreads := by
  cases value with
  | some v => simpa using setNumThreads_some openmp envSet maxThreads hm v
  | none =>
    have : ∃ w : ℤ, w ≠ 0 ∧ setNumThreads openmp envSet maxThreads none =
        setNumThreads openmp envSet maxThreads (some w) := by
      cases openmp
      · exact ⟨1, by decide, by cases envSet <;> rfl⟩
      · cases envSet
        · exact ⟨2, by decide, rfl⟩
        · exact ⟨maxThreads, by omega, rfl⟩
    obtain ⟨w, hw, e⟩ := this
    obtain ⟨h1, h2⟩ := setNumThreads_some openmp envSet maxThreads hm w
    rw [e, h1]
    simp only [hw, reduceCtorEq, true_and]
    exact h2

/-- two orbits with one function each, on one cluster -/
def raceTasks (a b : ℕ) : List (Task ℚ) :=
  [⟨a, 1, [], [], fun _ => 0, fun _ => 0, fun _ _ _ => 0, fun _ => 1⟩,
   ⟨b, 1, [], [], fun _ => 0, fun _ => 0, fun _ _ _ => 0, fun _ => 2⟩]

/-- one running thread -/
def single (n : ℕ) (r : Regs ℚ) : ℕ → Option (ℕ × Regs ℚ) := Function.update (fun _ => none) 0 (some (n, r))

theorem single_zero (n : ℕ) (r : Regs ℚ) : single n r 0 = some (n, r) := Function.update_self ..

theorem single_exec (tasks : List (Task ℚ)) (out : ℕ → ℚ) (pool : List ℕ) (n : ℕ) (T : Task ℚ)
    (r : Regs ℚ) (hT : tasks[n]? = some T) (hr : r.pc ≠ .done) :
    Machine.Step tasks 1 ⟨out, pool, single n r⟩
      ⟨writeOut out (T.step r).2, pool, single n (T.step r).1⟩ := by
  have := Machine.Step.exec (nthreads := 1) ⟨out, pool, single n r⟩ 0 n T r (by omega)
    (single_zero n r) hT hr
  simp only [single, Function.update_idem] at this ⊢
  exact this

/-- An execution for every order in which two iterations are done one after the other. -/
theorem raceTasks_result (a b : ℕ) (first : Bool) :
    ParallelResult (raceTasks a b) (fun _ => 0) 1
      (applyWrites (fun _ => 0) (if first then [(a, 1), (b, 2)] else [(b, 2), (a, 1)])) := by
  have run : ∀ (m : Machine ℚ) (n s : ℕ) (v : ℚ) (T : Task ℚ), m.threads = (fun _ => none) →
      n ∈ m.pool → (raceTasks a b)[n]? = some T →
      T = ⟨s, 1, [], [], fun _ => 0, fun _ => 0, fun _ _ _ => 0, fun _ => v⟩ →
      Relation.ReflTransGen (Machine.Step (raceTasks a b) 1) m
        ⟨Function.update m.out s v, m.pool.erase n, fun _ => none⟩ := by
    intro m n s v T hth hn hT hTe
    obtain ⟨out, pool, threads⟩ := m
    simp only at hth hn
    subst hth
    refine Relation.ReflTransGen.head (b := ⟨out, pool.erase n, single n (T.enter ⟨.done, 0, 0, 0, 0, 0, 0, 0⟩)⟩)
      (Machine.Step.take ⟨out, pool, fun _ => none⟩ 0 n T _ (by omega) rfl hn hT) ?_
    subst hTe
    refine Relation.ReflTransGen.head (single_exec _ _ _ _ _ _ hT (by simp [Task.enter])) ?_
    refine Relation.ReflTransGen.head (single_exec _ _ _ _ _ _ hT (by simp [Task.step, Task.enter])) ?_
    refine Relation.ReflTransGen.head (single_exec _ _ _ _ _ _ hT (by simp [Task.step, Task.enter])) ?_
    refine Relation.ReflTransGen.head (single_exec _ _ _ _ _ _ hT (by simp [Task.step, Task.enter])) ?_
    refine Relation.ReflTransGen.single ?_
    have := Machine.Step.release (tasks := raceTasks a b) (nthreads := 1)
      ⟨Function.update out s v, pool.erase n, single n ⟨.done, 1, 0, 0, 0, 0, s + 1, 0⟩⟩ 0 n _
      (by omega) (single_zero n _) rfl
    have e : Function.update (single n ⟨.done, 1, 0, 0, 0, 0, s + 1, 0⟩) 0 none = fun _ => none := by
      funext x; simp [single, Function.update_apply]
    simp only [e] at this
    simpa [Task.step, Task.enter, writeOut] using this
  have hp : (Machine.start (raceTasks a b) (fun _ => 0)).pool = [0, 1] := rfl
  cases first
  · refine ⟨_, (run _ 1 b 2 _ rfl (by rw [hp]; decide) rfl rfl).trans
      (run ⟨_, [0, 1].erase 1, fun _ => none⟩ 0 a 1 _ rfl (List.mem_singleton.2 rfl) rfl rfl), ⟨rfl, fun _ _ => rfl⟩, rfl⟩
  · refine ⟨_, (run _ 0 a 1 _ rfl (by rw [hp]; decide) rfl rfl).trans
      (run ⟨_, [0, 1].erase 0, fun _ => none⟩ 1 b 2 _ rfl (List.mem_singleton.2 rfl) rfl rfl), ⟨rfl, fun _ _ => rfl⟩, rfl⟩

/-- C42. The distinct ids of C43 are needed: two orbits with the same slot give results that
depend on the schedule. -/
theorem C42_shared_slot_fails (a : ℕ) :
    ∃ out out' : ℕ → ℚ, ParallelResult (raceTasks a a) (fun _ => 0) 1 out ∧
      ParallelResult (raceTasks a a) (fun _ => 0) 1 out' ∧ out ≠ out' := by
  refine ⟨_, _, raceTasks_result a a true, raceTasks_result a a false, fun h => ?_⟩
  have := congrFun h a
  simp [applyWrites] at this

/-- complete executions exist -/
example : SlotsDistinct (raceTasks 1 2) ∧
    ∃ out, ParallelResult (raceTasks 1 2) (fun _ => 0) 1 out ∧ out 1 = 1 ∧ out 2 = 2 := by
  refine ⟨by unfold SlotsDistinct; decide, _, raceTasks_result 1 2 true, ?_, ?_⟩ <;>
    simp [applyWrites]

example : setNumThreads true false 8 none = some 2 ∧ setNumThreads true false 8 (some 100) = some 8 ∧
    setNumThreads true false 8 (some (-2)) = some 7 ∧ setNumThreads true false 8 (some 0) = none := by
  decide

end Smol
