import Verif.Model.Threads
import Verif.Lemmas.Evaluator
import Mathlib.Data.List.Pairwise
import Mathlib.Logic.Relation
import Mathlib.Algebra.BigOperators.Group.Finset.Basic
import Mathlib.Algebra.Order.BigOperators.Group.Finset

namespace Smol

variable {K : Type*} [Field K]

/-- value stored for function `k` -/
def Task.value (T : Task K) (k : ℕ) : K :=
  T.finish ((T.rows.map fun row =>
    T.contrib k (flatIndex T.strides row T.occI) (flatIndex T.strides row T.occF)).sum)

/-- what a task writes, in order -/
def Task.writes (T : Task K) : List (ℕ × K) :=
  (List.range T.count).map fun k => (T.base + k, T.value k)

/-- slots of a task -/
def Task.slots (T : Task K) : List ℕ := (List.range T.count).map fun k => T.base + k

def partialIndex (strides row : List ℕ) (occ : Occ) (i : ℕ) : ℕ :=
  ((List.range i).map fun a => strides.getD a 0 * occ (row.getD a 0)).sum

theorem partialIndex_succ (strides row : List ℕ) (occ : Occ) (i : ℕ) :
    partialIndex strides row occ (i + 1) =
      partialIndex strides row occ i + strides.getD i 0 * occ (row.getD i 0) := by
  simp [partialIndex, List.range_succ]

theorem partialIndex_all (strides row : List ℕ) (occ : Occ) :
    partialIndex strides row occ row.length = flatIndex strides row occ := by
  unfold partialIndex flatIndex
  induction row generalizing strides with
  | nil => simp
  | cons r row ih =>
    rw [List.length_cons, List.range_succ_eq_map, List.map_cons, List.map_map, List.sum_cons]
    cases strides with
    | nil =>
      simp [Function.comp_def]
    | cons s strides =>
      rw [List.zipWith_cons_cons, List.sum_cons, ← ih strides]
      rfl

/-- sum accumulated after `j` clusters -/
def Task.partialSum (T : Task K) (k j : ℕ) : K :=
  ((T.rows.take j).map fun row =>
    T.contrib k (flatIndex T.strides row T.occI) (flatIndex T.strides row T.occF)).sum

structure LocalInv (T : Task K) (out : ℕ → K) (r : Regs K) : Prop where
  slot : r.slot = T.base + r.k
  written : ∀ k < r.k, out (T.base + k) = T.value k
  le : r.k ≤ T.count
  lt : r.pc = .loopJ ∨ r.pc = .loopI ∨ r.pc = .store → r.k < T.count
  sum : r.pc = .loopJ ∨ r.pc = .loopI → r.j ≤ T.rows.length ∧ r.p = T.partialSum r.k r.j
  idx : r.pc = .loopI → r.j < T.rows.length ∧ r.i ≤ (T.rows.getD r.j []).length ∧
    r.indI = partialIndex T.strides (T.rows.getD r.j []) T.occI r.i ∧
    r.indF = partialIndex T.strides (T.rows.getD r.j []) T.occF r.i
  fin : r.pc = .store → r.p = T.partialSum r.k T.rows.length
  done : r.pc = .done → r.k = T.count

theorem partialSum_all (T : Task K) (k : ℕ) :
    T.finish (T.partialSum k T.rows.length) = T.value k := by
  simp [Task.partialSum, Task.value]

theorem partialSum_succ (T : Task K) (k j : ℕ) (hj : j < T.rows.length) :
    T.partialSum k (j + 1) = T.partialSum k j +
      T.contrib k (flatIndex T.strides (T.rows.getD j []) T.occI)
        (flatIndex T.strides (T.rows.getD j []) T.occF) := by
  unfold Task.partialSum
  rw [List.take_add_one, List.map_append, List.sum_append, List.getElem?_eq_getElem hj]
  simp [List.getD_eq_getElem?_getD, hj]

theorem enter_inv (T : Task K) (out : ℕ → K) (g : Regs K) : LocalInv T out (T.enter g) where
  slot := rfl
  written := by intro k hk; exact absurd hk (Nat.not_lt_zero k)
  le := Nat.zero_le _
  lt := by rintro (h | h | h) <;> cases h
  sum := by rintro (h | h) <;> cases h
  idx := by intro h; cases h
  fin := by intro h; cases h
  done := by intro h; cases h

/-- a step keeps the invariant and writes the right value to its own slot -/
theorem step_inv {T : Task K} {out : ℕ → K} {r : Regs K} (h : LocalInv T out r) :
    LocalInv T (writeOut out (T.step r).2) (T.step r).1 ∧
      ∀ w, (T.step r).2 = some w → ∃ k < T.count, w = (T.base + k, T.value k) := by
  have heq : r = ⟨r.pc, r.k, r.j, r.i, r.indI, r.indF, r.slot, r.p⟩ := rfl
  cases hpc : r.pc with
  | loopK =>
    unfold Task.step
    rw [hpc]
    simp only
    split <;> rename_i hc
    · refine ⟨⟨h.slot, h.written, h.le, fun _ => hc, ?_, ?_, ?_, ?_⟩, by simp⟩
      · intro _; exact ⟨Nat.zero_le _, by simp [Task.partialSum]⟩
      · intro h'; cases h'
      · intro h'; cases h'
      · intro h'; cases h'
    · refine ⟨⟨h.slot, h.written, h.le, ?_, ?_, ?_, ?_, ?_⟩, by simp⟩
      · rintro (h' | h' | h') <;> cases h'
      · rintro (h' | h') <;> cases h'
      · intro h'; cases h'
      · intro h'; cases h'
      · intro _; have := h.le; show r.k = T.count; omega
  | loopJ =>
    have hlt := h.lt (Or.inl hpc)
    have hs := h.sum (Or.inl hpc)
    unfold Task.step
    rw [hpc]
    simp only
    split <;> rename_i hc
    · refine ⟨⟨h.slot, h.written, h.le, fun _ => hlt, fun _ => hs, ?_, ?_, ?_⟩, by simp⟩
      · intro _
        exact ⟨hc, Nat.zero_le _, by simp [partialIndex], by simp [partialIndex]⟩
      · intro h'; cases h'
      · intro h'; cases h'
    · refine ⟨⟨h.slot, h.written, h.le, fun _ => hlt, ?_, ?_, ?_, ?_⟩, by simp⟩
      · rintro (h' | h') <;> cases h'
      · intro h'; cases h'
      · intro _
        show r.p = T.partialSum r.k T.rows.length
        rw [hs.2]; congr 1; omega
      · intro h'; cases h'
  | loopI =>
    have hlt := h.lt (Or.inr (Or.inl hpc))
    have hs := h.sum (Or.inr hpc)
    have hi := h.idx hpc
    unfold Task.step
    rw [hpc]
    simp only
    split <;> rename_i hc
    · refine ⟨⟨h.slot, h.written, h.le, fun _ => hlt, fun _ => hs, ?_, ?_, ?_⟩, by simp⟩
      · intro _
        refine ⟨hi.1, hc, ?_, ?_⟩
        · show _ = partialIndex _ _ _ (r.i + 1)
          rw [partialIndex_succ, ← hi.2.2.1]
        · show _ = partialIndex _ _ _ (r.i + 1)
          rw [partialIndex_succ, ← hi.2.2.2]
      · intro h'; cases h'
      · intro h'; cases h'
    · refine ⟨⟨h.slot, h.written, h.le, fun _ => hlt, ?_, ?_, ?_, ?_⟩, by simp⟩
      · intro _
        have hie : r.i = (T.rows.getD r.j []).length := by omega
        refine ⟨hi.1, ?_⟩
        show r.p + T.contrib r.k r.indI r.indF = T.partialSum r.k (r.j + 1)
        rw [partialSum_succ _ _ _ hi.1, ← hs.2, hi.2.2.1, hi.2.2.2, hie, partialIndex_all,
          partialIndex_all]
      · intro h'; cases h'
      · intro h'; cases h'
      · intro h'; cases h'
  | store =>
    have hlt := h.lt (Or.inr (Or.inr hpc))
    have hf := h.fin hpc
    have hv : T.finish r.p = T.value r.k := by rw [hf, partialSum_all]
    unfold Task.step
    rw [hpc]
    simp only
    constructor
    · refine ⟨?_, ?_, hlt, ?_, ?_, ?_, ?_, ?_⟩
      · show r.slot + 1 = T.base + (r.k + 1)
        rw [h.slot]; omega
      · intro k hk
        have hk' : k < r.k + 1 := hk
        simp only [writeOut]
        rcases Nat.lt_succ_iff_lt_or_eq.1 hk' with hk' | rfl
        · rw [Function.update_of_ne (by rw [h.slot]; omega)]
          exact h.written k hk'
        · rw [h.slot, Function.update_self, hv]
      · rintro (h' | h' | h') <;> cases h'
      · rintro (h' | h') <;> cases h'
      · intro h'; cases h'
      · intro h'; cases h'
      · intro h'; cases h'
    · intro w hw
      simp only [Option.some.injEq] at hw
      exact ⟨r.k, hlt, by rw [← hw, h.slot, hv]⟩
  | done =>
    unfold Task.step
    rw [hpc]
    exact ⟨h, by simp⟩

/-- slots of different tasks, or different functions, are different -/
def SlotsDistinct (tasks : List (Task K)) : Prop := (tasks.flatMap Task.slots).Nodup

theorem slots_value {tasks : List (Task K)} (hd : SlotsDistinct tasks) {n m : ℕ} {T U : Task K}
    (hT : tasks[n]? = some T) (hU : tasks[m]? = some U) {k l : ℕ} (hk : k < T.count)
    (hl : l < U.count) (e : T.base + k = U.base + l) : T.value k = U.value l := by
  have hnm : n = m := by
    unfold SlotsDistinct at hd
    rw [List.nodup_flatMap] at hd
    obtain ⟨hn, rfl⟩ := List.getElem?_eq_some_iff.1 hT
    obtain ⟨hm, rfl⟩ := List.getElem?_eq_some_iff.1 hU
    by_contra hne
    have hs1 : (tasks[n]).base + k ∈ (tasks[n]).slots :=
      List.mem_map.2 ⟨k, List.mem_range.2 hk, rfl⟩
    have hs2 : (tasks[n]).base + k ∈ (tasks[m]).slots :=
      List.mem_map.2 ⟨l, List.mem_range.2 hl, e.symm⟩
    rcases Nat.lt_or_gt_of_ne hne with h | h
    · exact (List.pairwise_iff_getElem.1 hd.2 n m hn hm h) hs1 hs2
    · exact (List.pairwise_iff_getElem.1 hd.2 m n hm hn h) hs2 hs1
  subst hnm
  rw [hT, Option.some.injEq] at hU
  subst hU
  have : k = l := by omega
  rw [this]

/-- a right write leaves right values right -/
theorem write_keeps {tasks : List (Task K)} (hd : SlotsDistinct tasks) {n m : ℕ} {T U : Task K}
    (hT : tasks[n]? = some T) (hU : tasks[m]? = some U) {k l : ℕ} (hk : k < T.count)
    (hl : l < U.count) (out : ℕ → K) (h : out (U.base + l) = U.value l) :
    Function.update out (T.base + k) (T.value k) (U.base + l) = U.value l := by
  by_cases e : U.base + l = T.base + k
  · rw [e, Function.update_self]; exact slots_value hd hT hU hk hl e.symm
  · rw [Function.update_of_ne e]; exact h

structure MInv (tasks : List (Task K)) (init : ℕ → K) (nthreads : ℕ) (m : Machine K) : Prop where
  pool : ∀ n ∈ m.pool, n < tasks.length
  rest : ∀ s, s ∉ tasks.flatMap Task.slots → m.out s = init s
  finished : ∀ (n : ℕ) (T : Task K), tasks[n]? = some T → n ∉ m.pool →
    (∀ t < nthreads, ∀ r, m.threads t ≠ some (n, r)) →
    ∀ k < T.count, m.out (T.base + k) = T.value k
  running : ∀ t < nthreads, ∀ (n : ℕ) (r : Regs K), m.threads t = some (n, r) →
    ∃ T, tasks[n]? = some T ∧ LocalInv T m.out r

theorem start_inv (tasks : List (Task K)) (init : ℕ → K) (nthreads : ℕ) :
    MInv tasks init nthreads (Machine.start tasks init) where
  pool := by intro n hn; exact List.mem_range.1 hn
  rest := fun _ _ => rfl
  finished := by
    intro n T hT hn
    exact absurd (List.mem_range.2 (List.getElem?_eq_some_iff.1 hT).1) hn
  running := by intro t _ n r h; cases h

theorem machine_step_inv {tasks : List (Task K)} (hd : SlotsDistinct tasks) {init : ℕ → K}
    {nthreads : ℕ} {m m' : Machine K} (h : MInv tasks init nthreads m)
    (hs : Machine.Step tasks nthreads m m') : MInv tasks init nthreads m' := by
  cases hs with
  | take t n T g ht hidle hn hT =>
    refine ⟨?_, h.rest, ?_, ?_⟩
    · intro a ha; exact h.pool a (List.mem_of_mem_erase ha)
    · intro a U hU ha hr
      by_cases hna : a = n
      · subst hna
        exact absurd (Function.update_self t _ m.threads) (hr t ht _)
      · refine h.finished a U hU (fun hmem => ha ((List.mem_erase_of_ne hna).2 hmem)) ?_
        intro t' ht' r hr'
        by_cases htt : t' = t
        · subst htt; rw [hidle] at hr'; cases hr'
        · exact hr t' ht' r (by
            show Function.update m.threads t _ t' = _
            rw [Function.update_of_ne htt]; exact hr')
    · intro t' ht' a r hr
      by_cases htt : t' = t
      · subst htt
        have : some (n, T.enter g) = some (a, r) := by
          rw [← hr]; exact (Function.update_self t' _ m.threads).symm
        simp only [Option.some.injEq, Prod.mk.injEq] at this
        obtain ⟨rfl, rfl⟩ := this
        exact ⟨T, hT, enter_inv T m.out g⟩
      · have : m.threads t' = some (a, r) := by
          rw [← hr]; exact (Function.update_of_ne htt _ m.threads).symm
        exact h.running t' ht' a r this
  | exec t n T r ht hrun hT hnd =>
    obtain ⟨T', hT', hl⟩ := h.running t ht n r hrun
    obtain rfl : T = T' := by rw [hT] at hT'; exact Option.some.inj hT'
    obtain ⟨hl', hw⟩ := step_inv hl
    have keep : ∀ (a : ℕ) (U : Task K), tasks[a]? = some U → ∀ l < U.count,
        m.out (U.base + l) = U.value l →
        writeOut m.out (T.step r).2 (U.base + l) = U.value l := by
      intro a U hU l hlt ho
      cases hw' : (T.step r).2 with
      | none => exact ho
      | some w =>
        obtain ⟨k, hk, rfl⟩ := hw w hw'
        exact write_keeps hd hT hU hk hlt m.out ho
    refine ⟨h.pool, ?_, ?_, ?_⟩
    · intro s hsl
      show writeOut m.out (T.step r).2 s = init s
      cases hw' : (T.step r).2 with
      | none => exact h.rest s hsl
      | some w =>
        obtain ⟨k, hk, rfl⟩ := hw w hw'
        simp only [writeOut]
        rw [Function.update_of_ne]
        · exact h.rest s hsl
        · rintro rfl
          exact hsl (List.mem_flatMap.2 ⟨T, List.mem_of_getElem? hT,
            List.mem_map.2 ⟨k, List.mem_range.2 hk, rfl⟩⟩)
    · intro a U hU ha hr l hlt
      refine keep a U hU l hlt (h.finished a U hU ha ?_ l hlt)
      intro t' ht' r' hr'
      by_cases htt : t' = t
      · subst htt
        rw [hrun] at hr'
        simp only [Option.some.injEq, Prod.mk.injEq] at hr'
        obtain ⟨rfl, rfl⟩ := hr'
        exact hr t' ht' _ (Function.update_self t' _ m.threads)
      · exact hr t' ht' r' (by
          show Function.update m.threads t _ t' = _
          rw [Function.update_of_ne htt]; exact hr')
    · intro t' ht' a r' hr'
      by_cases htt : t' = t
      · subst htt
        have : some (n, (T.step r).1) = some (a, r') := by
          rw [← hr']; exact (Function.update_self t' _ m.threads).symm
        simp only [Option.some.injEq, Prod.mk.injEq] at this
        obtain ⟨rfl, rfl⟩ := this
        exact ⟨T, hT, hl'⟩
      · have : m.threads t' = some (a, r') := by
          rw [← hr']; exact (Function.update_of_ne htt _ m.threads).symm
        obtain ⟨U, hU, hlU⟩ := h.running t' ht' a r' this
        refine ⟨U, hU, { hlU with written := ?_ }⟩
        intro k hk
        exact keep a U hU k (lt_of_lt_of_le hk hlU.le) (hlU.written k hk)
  | release t n r ht hrun hdone =>
    refine ⟨h.pool, h.rest, ?_, ?_⟩
    · intro a U hU ha hr k hk
      by_cases hx : ∀ t' < nthreads, ∀ r', m.threads t' ≠ some (a, r')
      · exact h.finished a U hU ha hx k hk
      · push Not at hx
        obtain ⟨t', ht', r', hr'⟩ := hx
        by_cases htt : t' = t
        · subst htt
          rw [hrun] at hr'
          simp only [Option.some.injEq, Prod.mk.injEq] at hr'
          obtain ⟨rfl, rfl⟩ := hr'
          obtain ⟨T, hT, hl⟩ := h.running t' ht n r hrun
          obtain rfl : U = T := by rw [hU] at hT; exact Option.some.inj hT
          exact hl.written k (by rw [hl.done hdone]; exact hk)
        · exact absurd (show Function.update m.threads t none t' = some (a, r') by
            rw [Function.update_of_ne htt]; exact hr') (hr t' ht' r')
    · intro t' ht' a r' hr'
      by_cases htt : t' = t
      · subst htt
        have : (none : Option (ℕ × Regs K)) = some (a, r') := by
          rw [← hr']; exact (Function.update_self t' _ m.threads).symm
        cases this
      · have : m.threads t' = some (a, r') := by
          rw [← hr']; exact (Function.update_of_ne htt _ m.threads).symm
        exact h.running t' ht' a r' this

theorem machine_inv {tasks : List (Task K)} (hd : SlotsDistinct tasks) {init : ℕ → K}
    {nthreads : ℕ} {m : Machine K}
    (h : Relation.ReflTransGen (Machine.Step tasks nthreads) (Machine.start tasks init) m) :
    MInv tasks init nthreads m := by
  induction h with
  | refl => exact start_inv tasks init nthreads
  | tail _ hs ih => exact machine_step_inv hd ih hs

/-- what every finished execution has in its output -/
theorem final_out {tasks : List (Task K)} (hd : SlotsDistinct tasks) {init : ℕ → K}
    {nthreads : ℕ} {m : Machine K}
    (h : Relation.ReflTransGen (Machine.Step tasks nthreads) (Machine.start tasks init) m)
    (hf : m.Final nthreads) : m.out = applyWrites init (tasks.flatMap Task.writes) := by
  have hi := machine_inv hd h
  have hkeys : (tasks.flatMap Task.writes).map Prod.fst = tasks.flatMap Task.slots := by
    rw [List.map_flatMap]
    congr 1
    funext T
    simp [Task.writes, Task.slots, Function.comp_def]
  funext s
  by_cases hs : s ∈ tasks.flatMap Task.slots
  · obtain ⟨T, hT, hk0⟩ := List.mem_flatMap.1 hs
    obtain ⟨k, hk, rfl⟩ := List.mem_map.1 hk0
    obtain ⟨n, hn, rfl⟩ := List.getElem_of_mem hT
    rw [applyWrites_mem _ _ _ ((tasks[n]).value k) (by rw [hkeys]; exact hd)
      (List.mem_flatMap.2 ⟨_, hT, List.mem_map.2 ⟨k, hk, rfl⟩⟩)]
    refine hi.finished n _ (List.getElem?_eq_getElem hn) (by rw [hf.1]; simp) ?_ k
      (List.mem_range.1 hk)
    intro t ht r hr
    rw [hf.2 t ht] at hr; cases hr
  · rw [applyWrites_not_mem _ _ _ (by rw [hkeys]; exact hs)]
    exact hi.rest s hs

/-! ### termination -/

def Task.rowsCost (T : Task K) (j : ℕ) : ℕ := ((T.rows.drop j).map fun r => r.length + 2).sum

def Task.perK (T : Task K) : ℕ := T.rowsCost 0 + 3

/-- steps left in an iteration -/
def Task.left (T : Task K) (r : Regs K) : ℕ :=
  match r.pc with
  | .loopK => (T.count - r.k) * T.perK + 1
  | .loopJ => (T.count - (r.k + 1)) * T.perK + T.rowsCost r.j + 3
  | .loopI => (T.count - (r.k + 1)) * T.perK + T.rowsCost (r.j + 1) + 3 +
      ((T.rows.getD r.j []).length - r.i) + 1
  | .store => (T.count - (r.k + 1)) * T.perK + 2
  | .done => 0

omit [Field K] in
theorem rowsCost_step (T : Task K) (j : ℕ) (h : j < T.rows.length) :
    T.rowsCost j = (T.rows.getD j []).length + 2 + T.rowsCost (j + 1) := by
  unfold Task.rowsCost
  rw [List.drop_eq_getElem_cons h, List.map_cons, List.sum_cons]
  simp [List.getD_eq_getElem?_getD, h]

omit [Field K] in
theorem rowsCost_end (T : Task K) (j : ℕ) (h : T.rows.length ≤ j) : T.rowsCost j = 0 := by
  unfold Task.rowsCost
  rw [List.drop_eq_nil_of_le h]; rfl

theorem left_step (T : Task K) (r : Regs K) (h : r.pc ≠ .done) :
    T.left (T.step r).1 < T.left r := by
  cases hpc : r.pc with
  | loopK =>
    unfold Task.step; rw [hpc]; simp only
    split <;> rename_i hc
    · unfold Task.left; rw [hpc]; simp only
      have : T.count - r.k = (T.count - (r.k + 1)) + 1 := by omega
      rw [this, Nat.succ_mul, Task.perK]; omega
    · unfold Task.left; rw [hpc]; simp only; omega
  | loopJ =>
    unfold Task.step; rw [hpc]; simp only
    split <;> rename_i hc
    · unfold Task.left; rw [hpc]; simp only
      rw [rowsCost_step T r.j hc]; omega
    · unfold Task.left; rw [hpc]; simp only; omega
  | loopI =>
    unfold Task.step; rw [hpc]; simp only
    split <;> rename_i hc
    · unfold Task.left; simp only [hpc]; omega
    · unfold Task.left; rw [hpc]; simp only; omega
  | store =>
    unfold Task.step; rw [hpc]; simp only
    unfold Task.left; rw [hpc]; simp only; omega
  | done => exact absurd hpc h

/-- steps left for a thread -/
def threadLeft (tasks : List (Task K)) : Option (ℕ × Regs K) → ℕ
  | none => 0
  | some (n, r) => match tasks[n]? with
    | none => 1
    | some T => T.left r + 1

def entryCost (tasks : List (Task K)) (n : ℕ) : ℕ :=
  match tasks[n]? with
  | none => 1
  | some T => T.count * T.perK + 3

/-- bound on the number of steps still possible -/
def Machine.left (tasks : List (Task K)) (nthreads : ℕ) (m : Machine K) : ℕ :=
  (m.pool.map (entryCost tasks)).sum +
    ((Finset.range nthreads).sum fun t => threadLeft tasks (m.threads t))

omit [Field K] in
theorem sum_update (nthreads t : ℕ) (ht : t < nthreads) (tasks : List (Task K))
    (f : ℕ → Option (ℕ × Regs K)) (x : Option (ℕ × Regs K)) :
    ((Finset.range nthreads).sum fun a => threadLeft tasks (Function.update f t x a)) +
      threadLeft tasks (f t) =
    ((Finset.range nthreads).sum fun a => threadLeft tasks (f a)) + threadLeft tasks x := by
  have hm : t ∈ Finset.range nthreads := Finset.mem_range.2 ht
  rw [← Finset.add_sum_erase _ _ hm, ← Finset.add_sum_erase (f := fun a => threadLeft tasks (f a)) _ hm,
    Function.update_self]
  have : ((Finset.range nthreads).erase t).sum (fun a => threadLeft tasks (Function.update f t x a)) =
      ((Finset.range nthreads).erase t).sum fun a => threadLeft tasks (f a) := by
    apply Finset.sum_congr rfl
    intro a ha
    rw [Function.update_of_ne (Finset.ne_of_mem_erase ha)]
  rw [this]; omega

theorem machine_left_step {tasks : List (Task K)} {nthreads : ℕ} {m m' : Machine K}
    (hs : Machine.Step tasks nthreads m m') : m'.left tasks nthreads < m.left tasks nthreads := by
  cases hs with
  | take t n T g ht hidle hn hT =>
    unfold Machine.left
    have h1 := sum_update nthreads t ht tasks m.threads (some (n, T.enter g))
    rw [hidle] at h1
    have h2 : (m.pool.map (entryCost tasks)).sum =
        entryCost tasks n + ((m.pool.erase n).map (entryCost tasks)).sum := by
      have := ((List.perm_cons_erase hn).map (entryCost tasks)).sum_eq
      simpa using this
    have h3 : entryCost tasks n = T.count * T.perK + 3 := by simp [entryCost, hT]
    have h4 : threadLeft tasks (some (n, T.enter g)) = T.count * T.perK + 2 := by
      simp [threadLeft, hT, Task.left, Task.enter]
    have h5 : threadLeft tasks (none : Option (ℕ × Regs K)) = 0 := rfl
    simp only
    omega
  | exec t n T r ht hrun hT hnd =>
    unfold Machine.left
    have h1 := sum_update nthreads t ht tasks m.threads (some (n, (T.step r).1))
    rw [hrun] at h1
    have h2 := left_step T r hnd
    have h3 : threadLeft tasks (some (n, r)) = T.left r + 1 := by simp [threadLeft, hT]
    have h4 : threadLeft tasks (some (n, (T.step r).1)) = T.left (T.step r).1 + 1 := by
      simp [threadLeft, hT]
    simp only
    omega
  | release t n r ht hrun hdone =>
    unfold Machine.left
    have h1 := sum_update nthreads t ht tasks m.threads none
    rw [hrun] at h1
    have h2 : 0 < threadLeft tasks (some (n, r)) := by
      simp only [threadLeft]; split <;> omega
    have h5 : threadLeft tasks (none : Option (ℕ × Regs K)) = 0 := rfl
    simp only
    omega

end Smol
