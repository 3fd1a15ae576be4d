import Verif.Lemmas.ThreadSettings

/-!
# C101: numbers of threads
-/

namespace Smol
open Smol.Spec

/-- C101. In every session every number of threads is between one and the most, and the evaluators of
a processor for local changes all have the same. -/
theorem C101_in_step (e : TEnv) (hm : 0 < e.most) (ops : List TOp) (x : TState) (hx : InStep e x) :
    InStep e (e.session x ops) := by
  induction ops generalizing x with
  | nil => exact hx
  | cons o ops ih =>
    refine ih _ ?_
    obtain ⟨hs, hp⟩ := hx
    have ok : ∀ v y, e.assign v = some y → UsableThreads e y := fun v y h =>
      wanted_usableThreads e hm v (by rw [← assign_wanted e hm v]; exact h)
    cases o with
    | newSub v =>
      simp only [TEnv.run]
      cases h : e.assign v with
      | none => exact ⟨hs, hp⟩
      | some y =>
        refine ⟨fun z hz => ?_, hp⟩
        rcases List.mem_append.1 hz with hz | hz
        · exact hs z hz
        · rw [List.mem_singleton.1 hz]
          exact ok v y h
    | setSub i v =>
      simp only [TEnv.run]
      cases hi : x.subs[i]? with
      | none => exact ⟨hs, hp⟩
      | some q =>
        cases h : e.assign v with
        | none => exact ⟨hs, hp⟩
        | some y =>
          refine ⟨fun z hz => ?_, hp⟩
          rcases List.mem_or_eq_of_mem_set hz with hz | hz
          · exact hs z hz
          · rw [hz]
            exact ok v y h
    | newProc i sites nt ntf =>
      simp only [TEnv.run]
      cases hi : x.subs[i]? with
      | none => exact ⟨hs, hp⟩
      | some sub =>
        cases h : e.makeProc sub sites nt ntf with
        | none =>
          simp only [h]
          exact ⟨hs, hp⟩
        | some p =>
          simp only [h]
          refine ⟨hs, fun q hq => ?_⟩
          rcases List.mem_append.1 hq with hq | hq
          · exact hp q hq
          · rw [List.mem_singleton.1 hq]
            unfold TEnv.makeProc at h
            cases hf : e.assign (if ntf.truthy then ntf else .int sub) with
            | none => simp [hf] at h
            | some full =>
              cases hl : e.assign nt with
              | none =>
                rw [hf, assignMany_none e nt hl] at h
                cases sites with
                | zero =>
                  simp at h
                  subst h
                  exact ⟨ok _ _ hf, by simp, by simp⟩
                | succ sites => simp [List.replicate_succ] at h
              | some y =>
                rw [hf, assignMany_some e nt hl] at h
                simp only [Option.some.injEq] at h
                subst h
                refine ⟨ok _ _ hf, fun z hz => ?_, fun z hz z' hz' => ?_⟩
                · rw [List.eq_of_mem_replicate hz]
                  exact ok _ _ hl
                · rw [List.eq_of_mem_replicate hz, List.eq_of_mem_replicate hz']
    | setLocal j v =>
      simp only [TEnv.run]
      cases hj : x.procs[j]? with
      | none => exact ⟨hs, hp⟩
      | some p =>
        refine ⟨hs, fun q hq => ?_⟩
        rcases List.mem_or_eq_of_mem_set hq with hq | hq
        · exact hp q hq
        · have hpp := hp p (List.mem_of_getElem? hj)
          rw [hq]
          cases h : e.assign v with
          | none =>
            rw [assignMany_none e v h]
            exact hpp
          | some y =>
            rw [assignMany_some e v h]
            refine ⟨hpp.1, fun z hz => ?_, fun z hz z' hz' => ?_⟩
            · rw [List.eq_of_mem_replicate hz]
              exact ok _ _ h
            · rw [List.eq_of_mem_replicate hz, List.eq_of_mem_replicate hz']
    | setFull j v =>
      simp only [TEnv.run]
      cases hj : x.procs[j]? with
      | none => exact ⟨hs, hp⟩
      | some p =>
        cases h : e.assign v with
        | none => exact ⟨hs, hp⟩
        | some y =>
          refine ⟨hs, fun q hq => ?_⟩
          rcases List.mem_or_eq_of_mem_set hq with hq | hq
          · exact hp q hq
          · have hpp := hp p (List.mem_of_getElem? hj)
            rw [hq]
            exact ⟨ok v y h, hpp.2⟩

/-- C101. Setting the threads of a processor for local changes: it raises exactly for zero and for
values that are not integers, and then changes nothing; otherwise the number that is meant is set on
all evaluators and read back, and no other object changes. -/
theorem C101_set_local (e : TEnv) (hm : 0 < e.most) (x : TState) (j : ℕ) (v : TVal) {p : TProc}
    (hj : x.procs[j]? = some p) (hp : p.locals ≠ []) :
    match wanted e v with
    | none => e.run x (.setLocal j v) = (x, true)
    | some y => (e.run x (.setLocal j v)).2 = false ∧ (e.run x (.setLocal j v)).1.subs = x.subs ∧
        (e.run x (.setLocal j v)).1.procs[j]? = some ⟨p.full, List.replicate p.locals.length y⟩ ∧
        (⟨p.full, List.replicate p.locals.length y⟩ : TProc).numThreads = some y ∧
        ∀ i, i ≠ j → (e.run x (.setLocal j v)).1.procs[i]? = x.procs[i]? := by
  have ha := assign_wanted e hm v
  have hlt := (List.getElem?_eq_some_iff.1 hj).1
  cases h : wanted e v with
  | none =>
    rw [h] at ha
    simp only [TEnv.run, hj, assignMany_none e v ha]
    have h1 : x.procs.set j p = x.procs := by
      apply List.ext_getElem?
      intro i
      rw [List.getElem?_set]
      split
      · rename_i hi
        subst hi
        exact hj.symm
      · rfl
    have h2 : p.locals.isEmpty = false := by simpa using hp
    rw [h2]
    simp only [Bool.not_false, Prod.mk.injEq, and_true]
    cases x
    simp only [TState.mk.injEq, true_and]
    exact h1
  | some y =>
    rw [h] at ha
    simp only [TEnv.run, hj, assignMany_some e v ha]
    refine ⟨trivial, trivial, ?_, ?_, fun i hi => ?_⟩
    · rw [List.getElem?_set_self hlt]
    · unfold TProc.numThreads
      cases hl : p.locals with
      | nil => exact absurd hl hp
      | cons a l => simp [List.replicate_succ]
    · rw [List.getElem?_set_ne (Ne.symm hi)]

/-- C101. The same for the threads for full vectors. -/
theorem C101_set_full (e : TEnv) (hm : 0 < e.most) (x : TState) (j : ℕ) (v : TVal) {p : TProc}
    (hj : x.procs[j]? = some p) :
    match wanted e v with
    | none => e.run x (.setFull j v) = (x, true)
    | some y => (e.run x (.setFull j v)).2 = false ∧ (e.run x (.setFull j v)).1.subs = x.subs ∧
        (e.run x (.setFull j v)).1.procs[j]? = some ⟨y, p.locals⟩ ∧
        ∀ i, i ≠ j → (e.run x (.setFull j v)).1.procs[i]? = x.procs[i]? := by
  have ha := assign_wanted e hm v
  have hlt := (List.getElem?_eq_some_iff.1 hj).1
  cases h : wanted e v with
  | none =>
    rw [h] at ha
    simp only [TEnv.run, hj, ha]
  | some y =>
    rw [h] at ha
    simp only [TEnv.run, hj, ha]
    refine ⟨trivial, trivial, ?_, fun i hi => ?_⟩
    · rw [List.getElem?_set_self hlt]
    · rw [List.getElem?_set_ne (Ne.symm hi)]

/-- C101. The same for a subspace; processors made of it before keep theirs. -/
theorem C101_set_subspace (e : TEnv) (hm : 0 < e.most) (x : TState) (i : ℕ) (v : TVal) {q : ℤ}
    (hi : x.subs[i]? = some q) :
    match wanted e v with
    | none => e.run x (.setSub i v) = (x, true)
    | some y => (e.run x (.setSub i v)).2 = false ∧ (e.run x (.setSub i v)).1.procs = x.procs ∧
        (e.run x (.setSub i v)).1.subs[i]? = some y ∧
        ∀ i', i' ≠ i → (e.run x (.setSub i v)).1.subs[i']? = x.subs[i']? := by
  have ha := assign_wanted e hm v
  have hlt := (List.getElem?_eq_some_iff.1 hi).1
  cases h : wanted e v with
  | none =>
    rw [h] at ha
    simp only [TEnv.run, hi, ha]
  | some y =>
    rw [h] at ha
    simp only [TEnv.run, hi, ha]
    refine ⟨trivial, trivial, ?_, fun i' hi' => ?_⟩
    · rw [List.getElem?_set_self hlt]
    · rw [List.getElem?_set_ne (Ne.symm hi')]

/-- C101. A new processor computes full vectors with the number of threads asked for, or that of the
subspace if none (or zero) is given, and local changes with the number asked for. -/
theorem C101_new_processor (e : TEnv) (hm : 0 < e.most) (sub : ℤ) (hs : UsableThreads e sub)
    (sites : ℕ) (hn : 0 < sites) (nt ntf : TVal) :
    e.makeProc sub sites nt ntf =
      match (if ntf = .none ∨ ntf = .int 0 then (some sub : Option ℤ) else wanted e ntf), wanted e nt with
      | some f, some y => some ⟨f, List.replicate sites y⟩
      | _, _ => none := by
  have hsub : wanted e (.int sub) = some sub := wanted_of_usable e hs
  have hf : e.assign (if ntf.truthy then ntf else .int sub) =
      if ntf = .none ∨ ntf = .int 0 then (some sub : Option ℤ) else wanted e ntf := by
    rw [assign_wanted e hm]
    cases ntf with
    | none => simpa [TVal.truthy] using hsub
    | other => simp [TVal.truthy]
    | int z =>
      by_cases hz : z = 0
      · subst hz
        simpa [TVal.truthy] using hsub
      · simp [TVal.truthy, hz]
  unfold TEnv.makeProc
  rw [hf]
  cases h1 : (if ntf = .none ∨ ntf = .int 0 then (some sub : Option ℤ) else wanted e ntf) with
  | none => rfl
  | some f =>
    have ha := assign_wanted e hm nt
    cases h2 : wanted e nt with
    | none =>
      rw [h2] at ha
      rw [assignMany_none e nt ha]
      obtain ⟨k, rfl⟩ : ∃ k, sites = k + 1 := ⟨sites - 1, by omega⟩
      simp [List.replicate_succ]
    | some y =>
      rw [h2] at ha
      rw [assignMany_some e nt ha]
      simp

/-- C101, violated. The documentation says that without a number for local changes that of the
subspace is used.  Whatever the subspace has, it is the default: the two agree only if the subspace
has the default. -/
theorem C101_subspace_ignored (e : TEnv) (hm : 0 < e.most) (sub : ℤ) (hs : UsableThreads e sub)
    (sites : ℕ) (hn : 0 < sites) :
    ∃ p, e.makeProc sub sites .none .none = some p ∧ p.full = sub ∧ p.numThreads = some (unasked e) ∧
      (p.numThreads = some sub ↔ sub = unasked e) := by
  refine ⟨⟨sub, List.replicate sites (unasked e)⟩, ?_, rfl, ?_, ?_⟩
  · rw [C101_new_processor e hm sub hs sites hn]
    rfl
  all_goals
    obtain ⟨k, rfl⟩ : ∃ k, sites = k + 1 := ⟨sites - 1, by omega⟩
    simp [TProc.numThreads, List.replicate_succ, eq_comm]

/-- C101. A processor without sites in clusters accepts every value and raises when asked. -/
theorem C101_no_evaluators (e : TEnv) (x : TState) (j : ℕ) (v : TVal) {p : TProc}
    (hj : x.procs[j]? = some p) (hp : p.locals = []) :
    (e.run x (.setLocal j v)).2 = false ∧ p.numThreads = none := by
  simp [TEnv.run, hj, hp, TEnv.assignMany, TProc.numThreads]

/-! ### examples -/

private def exEnv : TEnv := ⟨true, false, 8⟩

example : InStep exEnv ⟨[], []⟩ := ⟨by simp, by simp⟩

/-- a subspace with four threads; the processor made of it uses two for local changes -/
example : exEnv.session ⟨[], []⟩ [.newSub (.int 4), .newProc 0 3 .none .none] =
    ⟨[4], [⟨4, [2, 2, 2]⟩]⟩ := by decide

example : exEnv.session ⟨[], []⟩ [.newSub (.int 4), .newProc 0 3 (.int (-1)) (.int 100), .setSub 0 (.int (-20)),
    .setLocal 0 (.int 0), .setLocal 0 (.int 5), .setFull 0 .other] = ⟨[1], [⟨8, [5, 5, 5]⟩]⟩ := by decide

example : wanted exEnv (.int 100) = some 8 ∧ wanted exEnv (.int (-2)) = some 7 ∧ wanted exEnv (.int 0) = none ∧
    wanted exEnv .none = some 2 := by decide

example : UsableThreads exEnv 4 := by unfold UsableThreads; decide

end Smol
