import Verif.Spec.Sqs
import Mathlib.Tactic.Common

/-!
# C54 The best special quasirandom structures are kept
-/

namespace Smol
open Spec

variable {K α : Type*} [LinearOrder K]

/-- the records after a given best score -/
def recordsFrom : Option K → List (SqsTrace K α) → List (SqsTrace K α)
  | _, [] => []
  | best, t :: l =>
    if ∀ b ∈ best, t.score < b then t :: recordsFrom (some t.score) l else recordsFrom best l

theorem records_eq (l : List (SqsTrace K α)) : records l = recordsFrom none l := by
  have key : ∀ (l : List (SqsTrace K α)) (best : Option K),
      ((List.range l.length).filter fun i => (∀ x ∈ best, ∀ a ∈ l[i]?, a.score < x) ∧
        ∀ j < i, ∀ a ∈ l[i]?, ∀ b ∈ l[j]?, a.score < b.score).filterMap (fun i => l[i]?) =
      recordsFrom best l := by
    intro l
    induction l with
    | nil => intro best; rfl
    | cons t l ih =>
      intro best
      have hcomp : ((fun i => (t :: l)[i]?) ∘ Nat.succ) = fun i => l[i]? := by funext i; simp
      rw [List.length_cons, List.range_succ_eq_map, List.filter_cons, List.filter_map]
      unfold recordsFrom
      by_cases hb : ∀ b ∈ best, t.score < b
      · rw [if_pos hb, if_pos (by simpa using hb), List.filterMap_cons]
        simp only [List.getElem?_cons_zero]
        rw [List.filterMap_map, hcomp, ← ih (some t.score)]
        congr 2
        apply List.filter_congr
        intro i _
        simp only [Function.comp_apply, Nat.succ_eq_add_one, List.getElem?_cons_succ]
        apply decide_eq_decide.2
        constructor
        · rintro ⟨-, h⟩
          refine ⟨fun x hx a ha => ?_, fun j hj a ha b hb => h (j + 1) (by omega) a ha b (by simpa using hb)⟩
          cases hx
          exact h 0 (by omega) a ha t (by simp)
        · rintro ⟨h1, h2⟩
          have h3 := fun a ha => h1 t.score rfl a ha
          refine ⟨fun x hx a ha => (h3 a ha).trans (hb x hx), fun j hj a ha b hb => ?_⟩
          cases j with
          | zero => simp at hb; subst hb; exact h3 a ha
          | succ j => exact h2 j (by omega) a ha b (by simpa using hb)
      · rw [if_neg hb, if_neg (by simpa using hb), List.filterMap_map, hcomp, ← ih best]
        congr 1
        apply List.filter_congr
        intro i _
        simp only [Function.comp_apply, Nat.succ_eq_add_one, List.getElem?_cons_succ]
        apply decide_eq_decide.2
        constructor
        · rintro ⟨h1, h⟩
          exact ⟨h1, fun j hj a ha b hb => h (j + 1) (by omega) a ha b (by simpa using hb)⟩
        · rintro ⟨h1, h2⟩
          refine ⟨h1, fun j hj a ha b hb' => ?_⟩
          cases j with
          | zero =>
            simp at hb'; subst hb'
            push Not at hb
            obtain ⟨x, hx, hle⟩ := hb
            exact lt_of_lt_of_le (h1 x hx a ha) hle
          | succ j => exact h2 j (by omega) a ha b (by simpa using hb')
  have := key l none
  rw [← this]
  unfold records
  congr 1
  apply List.filter_congr
  intro i _
  simp

/-- the last entries -/
def lastN {τ : Type*} (n : ℕ) (l : List τ) : List τ := l.drop (l.length - n)

theorem lastN_append_one {τ : Type*} (n : ℕ) (l m : List τ) (x : τ) :
    lastN n (lastN n (l ++ [x]) ++ m) = lastN n (l ++ x :: m) := by
  have e : l ++ x :: m = (l ++ [x]) ++ m := by simp
  rw [e]
  generalize l ++ [x] = a
  unfold lastN
  rw [List.length_append, List.length_append, List.length_drop]
  by_cases h : a.length ≤ n
  · rw [Nat.sub_eq_zero_of_le h]; simp
  · rw [List.drop_append, List.drop_drop, List.length_drop, List.drop_append]
    have h1 : a.length - n + (a.length - (a.length - n) + m.length - n) = a.length + m.length - n := by
      omega
    have h2 : a.length - (a.length - n) + m.length - n - (a.length - (a.length - n)) =
        a.length + m.length - n - a.length := by omega
    rw [h1, h2]

theorem sqsLoop_eq (maxlen : ℕ) (l : List (SqsTrace K α)) : ∀ (best : Option K)
    (d : List (SqsTrace K α)), d.length ≤ maxlen →
    sqsLoop maxlen best d l = lastN maxlen (d ++ recordsFrom best l) := by
  induction l with
  | nil =>
    intro best d hd
    unfold sqsLoop recordsFrom lastN
    rw [List.append_nil, Nat.sub_eq_zero_of_le hd]; rfl
  | cons t l ih =>
    intro best d hd
    unfold sqsLoop recordsFrom
    split_ifs with h
    · rw [ih]
      · exact lastN_append_one maxlen d _ t
      · unfold dequeAppend; rw [List.length_drop]; omega
    · exact ih _ _ hd

theorem lastN_length {τ : Type*} (n : ℕ) (l : List τ) : (lastN n l).length = min n l.length := by
  unfold lastN; rw [List.length_drop]; omega

theorem mem_lastN {τ : Type*} {n : ℕ} {l : List τ} {x : τ} (h : x ∈ lastN n l) : x ∈ l :=
  List.mem_of_mem_drop h

/-- the last record is the best -/
theorem recordsFrom_last (l : List (SqsTrace K α)) : ∀ best : Option K,
    (∀ t ∈ recordsFrom best l, t ∈ l) ∧
    (∀ x ∈ best, ∀ t ∈ recordsFrom best l, t.score < x) ∧
    (recordsFrom best l = [] → ∀ u ∈ l, ∃ x ∈ best, x ≤ u.score) ∧
    (recordsFrom best l).Pairwise (fun a b => b.score < a.score) ∧
    ∀ t, (recordsFrom best l).getLast? = some t → ∀ u ∈ l, t.score ≤ u.score := by
  induction l with
  | nil => intro best; simp [recordsFrom]
  | cons a l ih =>
    intro best
    unfold recordsFrom
    split_ifs with h
    · obtain ⟨h1, h2, h3, h4, h5⟩ := ih (some a.score)
      refine ⟨?_, ?_, by simp, ?_, ?_⟩
      · intro t ht
        rcases List.mem_cons.1 ht with rfl | ht
        · simp
        · exact List.mem_cons_of_mem _ (h1 t ht)
      · intro x hx t ht
        rcases List.mem_cons.1 ht with rfl | ht
        · exact h x hx
        · exact (h2 _ rfl t ht).trans (h x hx)
      · rw [List.pairwise_cons]
        exact ⟨fun t ht => h2 _ rfl t ht, h4⟩
      · intro t ht u hu
        cases hr : recordsFrom (some a.score) l with
        | nil =>
          rw [hr] at ht
          simp at ht
          subst ht
          rcases List.mem_cons.1 hu with rfl | hu
          · exact le_refl _
          · obtain ⟨x, hx, hle⟩ := h3 hr u hu
            cases hx
            exact hle
        | cons b r =>
          rw [hr, List.getLast?_cons_cons, ← hr] at ht
          rcases List.mem_cons.1 hu with rfl | hu
          · exact (h2 _ rfl t (List.mem_of_getLast? ht)).le
          · exact h5 t ht u hu
    · obtain ⟨h1, h2, h3, h4, h5⟩ := ih best
      push Not at h
      obtain ⟨x, hx, hle⟩ := h
      refine ⟨fun t ht => List.mem_cons_of_mem _ (h1 t ht), h2, ?_, h4, ?_⟩
      · intro hr u hu
        rcases List.mem_cons.1 hu with rfl | hu
        · exact ⟨x, hx, hle⟩
        · exact h3 hr u hu
      · intro t ht u hu
        rcases List.mem_cons.1 hu with rfl | hu
        · exact (h2 x hx t (List.mem_of_getLast? ht)).le.trans hle
        · exact h5 t ht u hu

/-! ## saving -/

theorem saveUntilFull_eq {τ : Type*} (l : List τ) : ∀ c : Container τ, c.nsamples ≤ c.rows.length →
    ((saveUntilFull l c).2 = true ↔ c.rows.length < c.nsamples + l.length) ∧
    (saveUntilFull l c).1.rows.length = c.rows.length ∧
    (saveUntilFull l c).1.nsamples = min c.rows.length (c.nsamples + l.length) := by
  induction l with
  | nil =>
    intro c hc
    simp only [saveUntilFull, List.length_nil, Nat.add_zero, true_and]
    exact ⟨by simp; omega, by omega⟩
  | cons y ys ih =>
    intro c hc
    unfold saveUntilFull
    by_cases h : c.nsamples < c.rows.length
    · have e : c.save 1 y = some ⟨c.rows.set c.nsamples (some y), c.nsamples + 1, c.totalSteps + 1⟩ := by
        unfold Container.save; rw [if_pos h]
      rw [e]
      obtain ⟨h1, h2, h3⟩ := ih ⟨c.rows.set c.nsamples (some y), c.nsamples + 1, c.totalSteps + 1⟩
        (by simp only [List.length_set]; omega)
      simp only [List.length_set] at h1 h2 h3
      simp only [List.length_cons]
      refine ⟨h1.trans (by omega), h2, by rw [h3]; omega⟩
    · have e : c.save 1 y = none := by unfold Container.save; rw [if_neg h]
      rw [e]
      simp only [List.length_cons, true_iff, true_and]
      exact ⟨by omega, by omega⟩

/-- The samples hold no unused rows, as between any two calls. -/
def SamplesFull {τ : Type*} (st : SqsState τ) : Prop := st.samples.nsamples = st.samples.rows.length

theorem maxSave_pos (g : Option ℕ) (s : ℕ) : 0 < maxSave g s := by
  unfold maxSave
  split <;> omega

theorem generate_eq (st : SqsState (SqsTrace K α)) (hs : SamplesFull st)
    (c : SqsCall (SqsTrace K α)) (d : List (SqsTrace K α)) (hd : c.clear = true ∧ d = [] ∨
      c.clear = false ∧ st.deque = some d) :
    let m := maxSave c.maxSave c.steps
    let d' := lastN (d.length + m) (d ++ records c.visited)
    (st.generate c).1.deque = some d' ∧ SamplesFull (st.generate c).1 ∧
      ((st.generate c).2 = true ↔ m < d'.length) := by
  intro m d'
  have hloop : ∀ n : ℕ, n = d.length + m → sqsLoop n none d c.visited = d' := by
    rintro n rfl
    rw [sqsLoop_eq _ _ _ _ (by omega), ← records_eq]
  have key : ∀ s : Container (SqsTrace K α), s.nsamples = s.rows.length →
      let r := saveUntilFull d' (s.allocate m)
      let out := if r.2 then ((⟨some d', r.1⟩ : SqsState (SqsTrace K α)), true)
        else (⟨some d', r.1.vacuum⟩, false)
      out.1.deque = some d' ∧ SamplesFull out.1 ∧ (out.2 = true ↔ m < d'.length) := by
    intro s hs r out
    have hal : (s.allocate m).rows.length = s.rows.length + m := by
      simp [Container.allocate]
    have haln : (s.allocate m).nsamples = s.nsamples := rfl
    obtain ⟨h1, h2, h3⟩ := saveUntilFull_eq d' (s.allocate m) (by rw [hal, haln]; omega)
    rw [hal, haln] at h1 h3
    rw [hal] at h2
    by_cases h : r.2 = true
    · have e : out = (⟨some d', r.1⟩, true) := if_pos h
      rw [e]
      have := h1.1 h
      refine ⟨rfl, ?_, by simp; omega⟩
      show r.1.nsamples = r.1.rows.length
      rw [h3, h2]; omega
    · have e : out = (⟨some d', r.1.vacuum⟩, false) := if_neg h
      rw [e]
      have := mt h1.2 h
      refine ⟨rfl, ?_, by simp; omega⟩
      show r.1.nsamples = (r.1.rows.take r.1.nsamples).length
      rw [List.length_take, h3, h2]; omega
  unfold SqsState.generate
  rcases hd with ⟨hc, rfl⟩ | ⟨hc, hdq⟩
  · simp only [hc, if_true]
    rw [hloop _ (by simp [m])]
    exact key _ rfl
  · simp only [hc, Bool.false_eq_true, if_false, hdq, Option.map_some]
    rw [hloop _ rfl]
    exact key _ hs

/-! ## properties -/

/-- C54. A call with `clear_previous` returns, and afterwards the queue holds the last records, in
order; the best configuration visited is among them. -/
theorem C54_cleared (st : SqsState (SqsTrace K α)) (hs : SamplesFull st)
    (c : SqsCall (SqsTrace K α)) (hc : c.clear = true) :
    (st.generate c).2 = false ∧ SamplesFull (st.generate c).1 ∧ ∃ d,
      (st.generate c).1.deque = some d ∧ d = (records c.visited).drop
        ((records c.visited).length - maxSave c.maxSave c.steps) ∧
      (c.visited ≠ [] → ∃ t, d.getLast? = some t ∧ IsBest c.visited t) := by
  obtain ⟨h1, h2, h3⟩ := generate_eq st hs c [] (Or.inl ⟨hc, rfl⟩)
  rw [List.length_nil, Nat.zero_add, List.nil_append] at h1 h3
  have hm := maxSave_pos c.maxSave c.steps
  have hlen := lastN_length (maxSave c.maxSave c.steps) (records c.visited)
  refine ⟨?_, h2, _, h1, rfl, ?_⟩
  · rw [Bool.eq_false_iff]
    intro h
    have := h3.1 h
    omega
  · intro hv
    obtain ⟨r1, -, r3, -, r5⟩ := recordsFrom_last c.visited none
    have hre := records_eq c.visited
    cases hr : recordsFrom none c.visited with
    | nil =>
      obtain ⟨u, l, e⟩ := List.exists_cons_of_ne_nil hv
      obtain ⟨x, hx, -⟩ := r3 hr u (by rw [e]; simp)
      cases hx
    | cons a r =>
      have hne : recordsFrom none c.visited ≠ [] := by rw [hr]; simp
      have hlast : (recordsFrom none c.visited).getLast? =
          some ((recordsFrom none c.visited).getLast hne) := List.getLast?_eq_some_getLast hne
      rw [hre]
      refine ⟨(recordsFrom none c.visited).getLast hne, ?_, r1 _ (List.getLast_mem hne), r5 _ hlast⟩
      have hpos : 0 < (recordsFrom none c.visited).length := List.length_pos_iff.2 hne
      unfold lastN
      rw [List.getLast?_drop, if_neg (by omega)]
      exact hlast

/-- C54. Whatever sequence of calls is made, with or without `clear_previous`, as long as they
return, the queue holds a configuration that is the best of all visited since the last clearing. -/
theorem C54_best_since_clear (calls : List (SqsCall (SqsTrace K α)))
    (st : SqsState (SqsTrace K α)) (h : SqsState.new.generates calls = some st)
    (hv : visitedSinceClear [] calls ≠ []) :
    ∃ d t, st.deque = some d ∧ t ∈ d ∧ (∀ u ∈ d, u ∈ visitedSinceClear [] calls) ∧
      IsBest (visitedSinceClear [] calls) t := by
  have key : ∀ (calls : List (SqsCall (SqsTrace K α))) (st0 : SqsState (SqsTrace K α))
      (acc : List (SqsTrace K α)), SamplesFull st0 →
      (∀ d, st0.deque = some d → (∀ u ∈ d, u ∈ acc) ∧
        ((∃ t ∈ d, ∀ u ∈ acc, t.score ≤ u.score) ∨ d = [] ∧ acc = [])) →
      (st0.deque = none → acc = []) →
      st0.generates calls = some st →
      (st.deque = none → visitedSinceClear acc calls = []) ∧
      ∀ d, st.deque = some d → (∀ u ∈ d, u ∈ visitedSinceClear acc calls) ∧
        ((∃ t ∈ d, ∀ u ∈ visitedSinceClear acc calls, t.score ≤ u.score) ∨
          d = [] ∧ visitedSinceClear acc calls = []) := by
    intro calls
    induction calls with
    | nil =>
      intro st0 acc _ h2 h3 h4
      cases h4
      exact ⟨h3, h2⟩
    | cons c calls ih =>
      intro st0 acc hs h2 h3 h4
      unfold SqsState.generates at h4
      split at h4
      · cases h4
      · rename_i hret
        rw [Bool.not_eq_true] at hret
        unfold visitedSinceClear
        have hm := maxSave_pos c.maxSave c.steps
        obtain ⟨r1, -, r3, -, r5⟩ := recordsFrom_last c.visited none
        -- the best of this call
        have hbest : c.visited = [] ∧ records c.visited = [] ∨
            ∃ t, (records c.visited).getLast? = some t ∧ t ∈ c.visited ∧
              ∀ u ∈ c.visited, t.score ≤ u.score := by
          rw [records_eq]
          cases hr : recordsFrom none c.visited with
          | nil =>
            left
            refine ⟨?_, rfl⟩
            by_contra hv
            obtain ⟨u, l, e⟩ := List.exists_cons_of_ne_nil hv
            obtain ⟨x, hx, -⟩ := r3 hr u (by rw [e]; simp)
            cases hx
          | cons a r =>
            right
            have hne : recordsFrom none c.visited ≠ [] := by rw [hr]; simp
            have hlast := List.getLast?_eq_some_getLast hne
            rw [← hr]
            exact ⟨_, hlast, r1 _ (List.getLast_mem hne), r5 _ hlast⟩
        have hrecmem : ∀ u ∈ records c.visited, u ∈ c.visited := by rw [records_eq]; exact r1
        by_cases hc : c.clear = true
        · obtain ⟨g1, g2, g3⟩ := generate_eq st0 hs c [] (Or.inl ⟨hc, rfl⟩)
          rw [List.length_nil, Nat.zero_add, List.nil_append] at g1 g3
          rw [if_pos hc]
          refine ih _ _ g2 ?_ (fun h => by rw [g1] at h; cases h) h4
          intro d hd
          rw [g1, Option.some.injEq] at hd
          subst hd
          refine ⟨fun u hu => hrecmem u (mem_lastN hu), ?_⟩
          rcases hbest with ⟨e1, e2⟩ | ⟨t, ht, -, hle⟩
          · right; rw [e2]; exact ⟨by simp [lastN], e1⟩
          · left
            refine ⟨t, ?_, hle⟩
            have hpos : 0 < (records c.visited).length :=
              List.length_pos_iff.2 fun h => by rw [h] at ht; cases ht
            apply List.mem_of_getLast?
            unfold lastN
            rw [List.getLast?_drop, if_neg (by omega)]
            exact ht
        · rw [if_neg hc]
          have hc' : c.clear = false := by simpa using hc
          cases hdq : st0.deque with
          | none =>
            exfalso
            have : (st0.generate c).2 = true := by
              unfold SqsState.generate
              simp [hc', hdq]
            rw [this] at hret; cases hret
          | some d =>
            obtain ⟨g1, g2, g3⟩ := generate_eq st0 hs c d (Or.inr ⟨hc', hdq⟩)
            obtain ⟨h5, h6⟩ := h2 d hdq
            have hnot : ¬ maxSave c.maxSave c.steps <
                (lastN (d.length + maxSave c.maxSave c.steps) (d ++ records c.visited)).length := by
              intro h
              have := g3.2 h
              rw [this] at hret; cases hret
            rw [lastN_length, List.length_append] at hnot
            -- nothing is dropped unless the queue was empty
            refine ih _ _ g2 ?_ (fun h => by rw [g1] at h; cases h) h4
            intro e he
            rw [g1, Option.some.injEq] at he
            subst he
            refine ⟨fun u hu => ?_, ?_⟩
            · rcases List.mem_append.1 (mem_lastN hu) with hu | hu
              · exact List.mem_append_left _ (h5 u hu)
              · exact List.mem_append_right _ (hrecmem u hu)
            · rcases h6 with ⟨t, ht, hle⟩ | ⟨rfl, rfl⟩
              · have hdpos : 0 < d.length := List.length_pos_of_mem ht
                have hall : lastN (d.length + maxSave c.maxSave c.steps) (d ++ records c.visited) =
                    d ++ records c.visited := by
                  unfold lastN
                  rw [List.length_append, Nat.sub_eq_zero_of_le (by omega)]; rfl
                rw [hall]
                left
                rcases hbest with ⟨e1, e2⟩ | ⟨b, hb, -, hble⟩
                · refine ⟨t, List.mem_append_left _ ht, ?_⟩
                  rw [e1, List.append_nil]; exact hle
                · have hbm : b ∈ records c.visited := List.mem_of_getLast? hb
                  rcases le_total t.score b.score with htb | htb
                  · refine ⟨t, List.mem_append_left _ ht, fun u hu => ?_⟩
                    rcases List.mem_append.1 hu with hu | hu
                    · exact hle u hu
                    · exact htb.trans (hble u hu)
                  · refine ⟨b, List.mem_append_right _ hbm, fun u hu => ?_⟩
                    rcases List.mem_append.1 hu with hu | hu
                    · exact htb.trans (hle u hu)
                    · exact hble u hu
              · rw [List.length_nil, Nat.zero_add, List.nil_append, List.nil_append]
                rcases hbest with ⟨e1, e2⟩ | ⟨t, ht, -, hle⟩
                · right; rw [e2]; exact ⟨by simp [lastN], e1⟩
                · left
                  refine ⟨t, ?_, hle⟩
                  have hpos : 0 < (records c.visited).length :=
                    List.length_pos_iff.2 fun h => by rw [h] at ht; cases ht
                  apply List.mem_of_getLast?
                  unfold lastN
                  rw [List.getLast?_drop, if_neg (by omega)]
                  exact ht
  obtain ⟨k1, k2⟩ := key calls SqsState.new [] rfl (fun d hd => by cases hd) (fun _ => rfl) h
  cases hdq : st.deque with
  | none => exact (hv (k1 hdq)).elim
  | some d =>
    obtain ⟨h1, h2⟩ := k2 d hdq
    rcases h2 with ⟨t, ht, hle⟩ | ⟨-, he⟩
    · exact ⟨d, t, rfl, ht, h1, h1 t ht, hle⟩
    · exact (hv he).elim

/-- C54, what the code does not do: continuing without `clear_previous` raises as soon as the queue
outgrows the room of one call, however few configurations were saved before. -/
theorem C54_continue_raises_iff (st : SqsState (SqsTrace K α)) (hs : SamplesFull st)
    (c : SqsCall (SqsTrace K α)) (hc : c.clear = false) (d : List (SqsTrace K α))
    (hd : st.deque = some d) (hne : d ≠ []) :
    (st.generate c).2 = true ↔
      maxSave c.maxSave c.steps < d.length + (records c.visited).length := by
  obtain ⟨-, -, h3⟩ := generate_eq st hs c d (Or.inr ⟨hc, hd⟩)
  rw [h3, lastN_length, List.length_append]
  have : 0 < d.length := List.length_pos_iff.2 hne
  omega

/-- C54, what the code does not do: continuing a new generator raises. -/
theorem C54_continue_new_raises (c : SqsCall (SqsTrace K α)) (hc : c.clear = false) :
    (SqsState.new.generate c).2 = true := by
  unfold SqsState.generate
  simp [hc, SqsState.new]

/-- C54, what the code does not do: when continuing raises, the best configuration can be gone from
the queue. -/
theorem C54_lost_after_exception :
    ∃ (calls : List (SqsCall (SqsTrace ℤ ℕ))) (c : SqsCall (SqsTrace ℤ ℕ))
      (st : SqsState (SqsTrace ℤ ℕ)) (d : List (SqsTrace ℤ ℕ)),
      SqsState.new.generates calls = some st ∧ (st.generate c).2 = true ∧
      (st.generate c).1.deque = some d ∧
      ∃ u ∈ visitedSinceClear [] (calls ++ [c]), ∀ t ∈ d, u.score < t.score :=
  ⟨[⟨true, some 1, 10, [⟨-5, 0⟩]⟩], ⟨false, some 1, 10, [⟨3, 1⟩, ⟨2, 2⟩]⟩,
    ⟨some [⟨-5, 0⟩], ⟨[some ⟨-5, 0⟩], 1, 1⟩⟩, [⟨3, 1⟩, ⟨2, 2⟩], rfl, by decide, by decide,
    ⟨-5, 0⟩, by decide, by decide⟩

/-! ## reading the queue -/

theorem mem_groupFirsts (fit : α → α → Bool) (l : List α) : ∀ firsts, ∀ a ∈ groupFirsts fit firsts l,
    a ∈ l ∧ ∀ f ∈ firsts, fit f a = false := by
  induction l with
  | nil => intro firsts a h; simp [groupFirsts] at h
  | cons b l ih =>
    intro firsts a h
    unfold groupFirsts at h
    split_ifs at h with hb
    · obtain ⟨h1, h2⟩ := ih _ a h
      exact ⟨List.mem_cons_of_mem _ h1, h2⟩
    · rcases List.mem_cons.1 h with rfl | h
      · refine ⟨by simp, fun f hf => ?_⟩
        rw [List.any_eq_true] at hb
        by_contra hne
        exact hb ⟨f, hf, by simpa using hne⟩
      · obtain ⟨h1, h2⟩ := ih _ a h
        exact ⟨List.mem_cons_of_mem _ h1, fun f hf => h2 f (List.mem_append_left _ hf)⟩

theorem groupFirsts_pairwise (fit : α → α → Bool) (l : List α) : ∀ firsts,
    (groupFirsts fit firsts l).Pairwise fun a b => fit a b = false := by
  induction l with
  | nil => intro firsts; simp [groupFirsts]
  | cons b l ih =>
    intro firsts
    unfold groupFirsts
    split_ifs with hb
    · exact ih _
    · rw [List.pairwise_cons]
      exact ⟨fun a ha => (mem_groupFirsts fit l _ a ha).2 b (by simp), ih _⟩

theorem groupFirsts_covers (fit : α → α → Bool) (hrefl : ∀ a, fit a a = true) (l : List α) :
    ∀ firsts, ∀ a ∈ l, ∃ f ∈ firsts ++ groupFirsts fit firsts l, fit f a = true := by
  induction l with
  | nil => intro firsts a h; simp at h
  | cons b l ih =>
    intro firsts a ha
    unfold groupFirsts
    split_ifs with hb
    · rcases List.mem_cons.1 ha with rfl | ha
      · obtain ⟨f, hf, e⟩ := List.any_eq_true.1 hb
        exact ⟨f, List.mem_append_left _ hf, e⟩
      · exact ih _ a ha
    · rcases List.mem_cons.1 ha with rfl | ha
      · exact ⟨a, by simp, hrefl a⟩
      · obtain ⟨f, hf, e⟩ := ih (firsts ++ [b]) a ha
        exact ⟨f, by simpa using hf, e⟩

omit [LinearOrder K] in
theorem filter_struct [DecidableEq α] (l : List (SqsTrace K α)) (g : List α) :
    (l.filter fun t => t.struct ∈ g).map SqsTrace.struct =
      (l.map SqsTrace.struct).filter fun a => a ∈ g := by
  rw [List.filter_map]; rfl

theorem groupFirsts_sublist (fit : α → α → Bool) (l : List α) : ∀ firsts,
    (groupFirsts fit firsts l).Sublist l := by
  induction l with
  | nil => intro firsts; simp [groupFirsts]
  | cons b l ih =>
    intro firsts
    unfold groupFirsts
    split_ifs with hb
    · exact (ih _).cons _
    · exact (ih _).cons_cons _

theorem filter_mem_sublist [DecidableEq α] {s l : List α} (h : s.Sublist l) (hn : l.Nodup) :
    (l.filter fun a => a ∈ s) = s := by
  have hp : (l.filter fun a => a ∈ s).Perm s := by
    rw [List.perm_ext_iff_of_nodup (hn.filter _) (h.nodup hn)]
    intro a
    simp only [List.mem_filter, decide_eq_true_eq]
    exact ⟨fun h => h.2, fun ha => ⟨h.subset ha, ha⟩⟩
  induction h with
  | slnil => rfl
  | cons b h ih =>
    rename_i s l
    rw [List.nodup_cons] at hn
    have hb : b ∉ s := fun hb => hn.1 (h.subset hb)
    rw [List.filter_cons, if_neg (by simpa using hb)] at hp ⊢
    exact ih hn.2 hp
  | cons_cons b h ih =>
    rename_i s l
    rw [List.nodup_cons] at hn
    have e : (l.filter fun a => a ∈ b :: s) = l.filter fun a => a ∈ s := by
      apply List.filter_congr
      intro a ha
      have : a ≠ b := fun e => hn.1 (e ▸ ha)
      simp [this]
    rw [List.filter_cons, if_pos (by simp), e] at hp ⊢
    rw [List.perm_cons] at hp
    rw [ih hn.2 hp]

/-- C54. `get_best_sqs`: the results are members of the queue in order of increasing score, at most
as many as asked for, and the first is the best of the queue. -/
theorem C54_get_best [DecidableEq α] (fit : α → α → Bool) (num : ℕ) (hnum : 0 < num)
    (removeDuplicates : Bool) (st : SqsState (SqsTrace K α)) (d : List (SqsTrace K α))
    (hd : st.deque = some d) (hne : d ≠ []) :
    ∃ r t, st.best fit num removeDuplicates = some r ∧ r.length ≤ num ∧ (∀ u ∈ r, u ∈ d) ∧
      r.Pairwise (fun a b => a.score ≤ b.score) ∧ r.head? = some t ∧ IsBest d t := by
  have tot : Std.Total fun a b : SqsTrace K α => a.score ≤ b.score := ⟨fun a b => le_total _ _⟩
  have tr : IsTrans (SqsTrace K α) fun a b => a.score ≤ b.score := ⟨fun a b c => le_trans⟩
  unfold SqsState.best
  rw [hd, Option.map_some]
  simp only
  have hperm := List.perm_insertionSort (fun a b : SqsTrace K α => a.score ≤ b.score) d
  have hsort := List.pairwise_insertionSort (fun a b : SqsTrace K α => a.score ≤ b.score) d
  generalize (d.insertionSort fun a b => a.score ≤ b.score) = s at hperm hsort
  cases s with
  | nil => exact (hne (hperm.nil_eq).symm).elim
  | cons t s =>
    rw [List.pairwise_cons] at hsort
    have hbest : IsBest d t := by
      refine ⟨hperm.mem_iff.1 (by simp), fun u hu => ?_⟩
      rcases List.mem_cons.1 (hperm.mem_iff.2 hu) with rfl | hu
      · exact le_refl _
      · exact hsort.1 u hu
    have hlisted : ∃ l, (if num = 1 then (t :: s).take 1 else t :: s) = t :: l ∧
        (t :: l).Sublist (t :: s) := by
      split_ifs
      · exact ⟨[], rfl, by simp⟩
      · exact ⟨s, rfl, List.Sublist.refl _⟩
    obtain ⟨l, hl, hsub⟩ := hlisted
    rw [hl]
    have hunique : ∃ l', (if removeDuplicates = true then (t :: l).filter fun u =>
        decide (u.struct ∈ groupFirsts fit [] ((t :: l).map SqsTrace.struct)) else t :: l) = t :: l' ∧
        (t :: l').Sublist (t :: l) := by
      split_ifs
      · refine ⟨l.filter fun u => decide (u.struct ∈ groupFirsts fit [] ((t :: l).map SqsTrace.struct)),
          ?_, ?_⟩
        · rw [List.filter_cons, if_pos]
          simp [groupFirsts]
        · exact List.filter_sublist.cons_cons _
      · exact ⟨l, rfl, List.Sublist.refl _⟩
    obtain ⟨l', hl', hsub'⟩ := hunique
    rw [hl']
    have hall : ((t :: l').take num).Sublist (t :: s) :=
      (List.take_sublist _ _).trans (hsub'.trans hsub)
    refine ⟨_, t, rfl, by rw [List.length_take]; omega, fun u hu => hperm.mem_iff.1 (hall.subset hu),
      (List.pairwise_cons.2 hsort).sublist hall, ?_, hbest⟩
    cases num with
    | zero => omega
    | succ n => rfl

/-- C54. Together: after calls that returned, `get_best_sqs` gives first a configuration of the
lowest score visited since the last clearing. -/
theorem C54_best_returned [DecidableEq α] (fit : α → α → Bool) (num : ℕ) (hnum : 0 < num)
    (removeDuplicates : Bool) (calls : List (SqsCall (SqsTrace K α)))
    (st : SqsState (SqsTrace K α)) (h : SqsState.new.generates calls = some st)
    (hv : visitedSinceClear [] calls ≠ []) :
    ∃ r t, st.best fit num removeDuplicates = some r ∧ r.head? = some t ∧
      IsBest (visitedSinceClear [] calls) t := by
  obtain ⟨d, b, hd, hb, hsub, hbest⟩ := C54_best_since_clear calls st h hv
  obtain ⟨r, t, hr, -, -, -, ht, hdt⟩ := C54_get_best fit num hnum removeDuplicates st d hd
    (List.ne_nil_of_mem hb)
  exact ⟨r, t, hr, ht, hsub t hdt.1, fun u hu => (hdt.2 b hb).trans (hbest.2 u hu)⟩

/-- C54. When no structure is in the queue twice, no returned structure matches one returned before
it, and with enough room every structure of the queue is matched by a returned one. -/
theorem C54_no_duplicates_partial [DecidableEq α] (fit : α → α → Bool) (hrefl : ∀ a, fit a a = true)
    (num : ℕ) (hnum : 1 < num) (st : SqsState (SqsTrace K α)) (d : List (SqsTrace K α))
    (hd : st.deque = some d) (hn : (d.map SqsTrace.struct).Nodup) :
    ∃ r, st.best fit num true = some r ∧ r.Pairwise (fun a b => fit a.struct b.struct = false) ∧
      (d.length ≤ num → ∀ u ∈ d, ∃ t ∈ r, fit t.struct u.struct = true) := by
  unfold SqsState.best
  rw [hd, Option.map_some]
  simp only [if_true]
  have hperm := List.perm_insertionSort (fun a b : SqsTrace K α => a.score ≤ b.score) d
  generalize (d.insertionSort fun a b => a.score ≤ b.score) = s at hperm
  rw [if_neg (show ¬ num = 1 by omega)]
  have hns : (s.map SqsTrace.struct).Nodup := (hperm.map _).nodup_iff.2 hn
  set g := groupFirsts fit [] (s.map SqsTrace.struct) with hg
  have hmap : (s.filter fun t => decide (t.struct ∈ g)).map SqsTrace.struct = g := by
    rw [filter_struct s g, hg]
    exact filter_mem_sublist (groupFirsts_sublist fit _ _) hns
  refine ⟨_, rfl, ?_, ?_⟩
  · apply List.Pairwise.sublist (List.take_sublist _ _)
    rw [← List.pairwise_map (f := SqsTrace.struct) (R := fun a b => fit a b = false), hmap, hg]
    exact groupFirsts_pairwise fit _ _
  · intro hlen u hu
    have hsl : s.length = d.length := hperm.length_eq
    rw [List.take_of_length_le ((List.length_filter_le _ _).trans (by omega))]
    obtain ⟨f, hf, e⟩ := groupFirsts_covers fit hrefl (s.map SqsTrace.struct) [] u.struct
      (List.mem_map.2 ⟨u, hperm.mem_iff.2 hu, rfl⟩)
    rw [List.nil_append, ← hg, ← hmap] at hf
    obtain ⟨t, ht, rfl⟩ := List.mem_map.1 hf
    exact ⟨t, ht, e⟩

/-- C54, what the code does not do: a structure found in two calls is returned twice even with
`remove_duplicates`. -/
theorem C54_duplicates_kept :
    ∃ (calls : List (SqsCall (SqsTrace ℤ ℕ))) (st : SqsState (SqsTrace ℤ ℕ)) (t : SqsTrace ℤ ℕ),
      SqsState.new.generates calls = some st ∧
      st.best (fun a b => a == b) 2 true = some [t, t] :=
  ⟨[⟨true, some 1, 10, [⟨-5, 0⟩]⟩, ⟨false, some 2, 10, [⟨-5, 0⟩]⟩],
    ⟨some [⟨-5, 0⟩, ⟨-5, 0⟩], ⟨[some ⟨-5, 0⟩, some ⟨-5, 0⟩, some ⟨-5, 0⟩], 3, 3⟩⟩, ⟨-5, 0⟩,
    by rfl, by decide⟩

/-- Two calls, the second continuing: the queue and the result. -/
example : (SqsState.new.generates [⟨true, some 3, 10, [⟨4, 0⟩, ⟨6, 1⟩, ⟨1, 2⟩, ⟨1, 3⟩]⟩,
      ⟨false, none, 500, [⟨3, 4⟩, ⟨2, 5⟩]⟩] : Option (SqsState (SqsTrace ℤ ℕ))).map
        (fun s => (s.deque, s.best (fun a b => a == b) 2 true)) =
    some (some [⟨4, 0⟩, ⟨1, 2⟩, ⟨3, 4⟩, ⟨2, 5⟩], some [⟨1, 2⟩, ⟨2, 5⟩]) ∧
    records ([⟨4, 0⟩, ⟨6, 1⟩, ⟨1, 2⟩, ⟨1, 3⟩] : List (SqsTrace ℤ ℕ)) = [⟨4, 0⟩, ⟨1, 2⟩] ∧
    SamplesFull (SqsState.new : SqsState (SqsTrace ℤ ℕ)) := by
  refine ⟨by decide, by decide, rfl⟩

end Smol
