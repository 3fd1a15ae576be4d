import Verif.Spec.TraceRun
import Mathlib.Data.List.Nodup

namespace Smol

variable {α V W : Type*} [DecidableEq α]

/-- The names of a trace. -/
def tkeys (t : NTrace α W) : List α := t.map Prod.fst

theorem lookup_cons_ite (t : NTrace α W) (p : α × W) (n : α) :
    List.lookup n (p :: t) = if n = p.1 then some p.2 else t.lookup n := by
  obtain ⟨k, w⟩ := p
  rw [List.lookup_cons]
  by_cases h : n = k
  · subst h; simp
  · have : (n == k) = false := by simpa using h
    simp [this, h]

theorem tlookup_isSome_iff (t : NTrace α W) (n : α) : (t.lookup n).isSome ↔ n ∈ tkeys t := by
  induction t with
  | nil => simp [tkeys]
  | cons p t ih =>
    rw [tkeys, List.map_cons, List.mem_cons]
    by_cases h : n = p.1
    · subst h; simp [lookup_cons_ite]
    · rw [lookup_cons_ite, if_neg h]
      simp only [h, false_or]
      exact ih

theorem lookup_none_iff (t : NTrace α W) (n : α) : t.lookup n = none ↔ n ∉ tkeys t := by
  rw [← tlookup_isSome_iff]
  cases t.lookup n <;> simp

theorem lookup_map_val {W' : Type*} (t : NTrace α W) (g : α → W → W') (n : α) :
    (t.map fun p => (p.1, g p.1 p.2)).lookup n = (t.lookup n).map (g n) := by
  induction t with
  | nil => rfl
  | cons p t ih =>
    rw [List.map_cons, lookup_cons_ite, lookup_cons_ite]
    by_cases h : n = p.1
    · subst h; simp
    · simp only [h, if_false]
      exact ih

theorem updateCell_eq (tr : NTrace α (List V)) (i : ℕ) (n : α) (f : V → V) :
    updateCell tr i n f = if n ∈ tkeys tr then
      some (tr.map fun p => (p.1, if p.1 = n then p.2.modify i f else p.2)) else none := by
  unfold updateCell tkeys
  congr 2
  refine List.map_congr_left fun p _ => ?_
  split <;> rfl

/-- Updates of the values of walker `i`, in order. -/
def applyUpd (tr : NTrace α (List V)) (i : ℕ) (us : List (α × (V → V))) :
    Option (NTrace α (List V)) :=
  us.foldlM (fun tr u => updateCell tr i u.1 u.2) tr

/-- What updates do to the value of name `n`. -/
def updFun (n : α) (us : List (α × (V → V))) (v : V) : V :=
  us.foldl (fun v u => if u.1 = n then u.2 v else v) v

theorem applyUpd_spec (us : List (α × (V → V))) (i : ℕ) (tr : NTrace α (List V)) :
    (applyUpd tr i us = none ↔ ∃ u ∈ us, u.1 ∉ tkeys tr) ∧
    ∀ tr', applyUpd tr i us = some tr' → tkeys tr' = tkeys tr ∧
      ∀ n, tr'.lookup n = (tr.lookup n).map fun l => l.modify i (updFun n us) := by
  induction us generalizing tr with
  | nil =>
    refine ⟨by simp [applyUpd], fun tr' h => ?_⟩
    have : tr = tr' := by simpa [applyUpd] using h
    subst this
    refine ⟨rfl, fun n => ?_⟩
    have : (updFun n ([] : List (α × (V → V)))) = id := rfl
    rw [this]
    cases tr.lookup n with
    | none => rfl
    | some l => simp
  | cons u us ih =>
    have hstep : applyUpd tr i (u :: us) = (updateCell tr i u.1 u.2).bind fun t => applyUpd t i us := by
      simp only [applyUpd, List.foldlM_cons]
      rfl
    rw [hstep, updateCell_eq]
    by_cases hu : u.1 ∈ tkeys tr
    · rw [if_pos hu]
      simp only [Option.bind_some]
      have hk : tkeys (tr.map fun p => (p.1, if p.1 = u.1 then p.2.modify i u.2 else p.2)) =
          tkeys tr := by
        simp [tkeys]
      obtain ⟨h1, h2⟩ := ih (tr.map fun p => (p.1, if p.1 = u.1 then p.2.modify i u.2 else p.2))
      rw [hk] at h1
      refine ⟨?_, fun tr' h => ?_⟩
      · rw [h1]
        constructor
        · rintro ⟨w, hw, hn⟩; exact ⟨w, List.mem_cons_of_mem _ hw, hn⟩
        · rintro ⟨w, hw, hn⟩
          rcases List.mem_cons.1 hw with rfl | hw
          · exact absurd hu hn
          · exact ⟨w, hw, hn⟩
      · obtain ⟨g1, g2⟩ := h2 tr' h
        refine ⟨g1.trans hk, fun n => ?_⟩
        rw [g2 n, lookup_map_val tr (fun a l => if a = u.1 then l.modify i u.2 else l) n,
          Option.map_map]
        congr 1
        funext l
        simp only [Function.comp]
        have hf : updFun n (u :: us) = fun v => updFun n us (if u.1 = n then u.2 v else v) := rfl
        rw [hf]
        by_cases hn : n = u.1
        · subst hn
          simp only [if_true]
          apply List.ext_getElem?
          intro j
          simp only [List.getElem?_modify]
          by_cases hj : i = j
          · subst hj; cases l[i]? <;> simp
          · simp [hj]
        · have hn' : ¬ u.1 = n := fun h => hn h.symm
          simp only [hn, hn', if_false]
    · rw [if_neg hu]
      refine ⟨⟨fun _ => ⟨u, List.mem_cons_self, hu⟩, fun _ => rfl⟩, fun tr' h => ?_⟩
      cases h

/-- The updates of a step. -/
def stepUpds [Add V] (st : NStepTr α V) : List (α × (V → V)) :=
  (st.vals.map fun p => (p.1, fun _ => p.2)) ++
    if st.accepted then st.delta.map fun p => (p.1, fun v => v + p.2) else []

theorem traceStep_eq [Add V] (tr : NTrace α (List V)) (i : ℕ) (st : NStepTr α V) :
    traceStep tr i st = applyUpd tr i (stepUpds st) := by
  unfold traceStep applyUpd stepUpds
  rw [List.foldlM_append, List.foldlM_map]
  congr 1
  funext tr
  split
  · rw [List.foldlM_map]
  · rfl

/-- The names a step needs. -/
def NStepTr.Fits (st : NStepTr α V) (ks : List α) : Prop :=
  (∀ n ∈ tkeys st.vals, n ∈ ks) ∧ (st.accepted = true → ∀ n ∈ tkeys st.delta, n ∈ ks)

omit [DecidableEq α] in
theorem stepUpds_fits [Add V] (st : NStepTr α V) (ks : List α) :
    (∃ u ∈ stepUpds st, u.1 ∉ ks) ↔ ¬ st.Fits ks := by
  unfold stepUpds NStepTr.Fits tkeys
  rw [not_and_or]
  push Not
  constructor
  · rintro ⟨u, hu, hn⟩
    rcases List.mem_append.1 hu with hu | hu
    · obtain ⟨p, hp, rfl⟩ := List.mem_map.1 hu
      exact Or.inl ⟨p.1, List.mem_map_of_mem hp, hn⟩
    · by_cases ha : st.accepted
      · rw [if_pos ha] at hu
        obtain ⟨p, hp, rfl⟩ := List.mem_map.1 hu
        exact Or.inr ⟨ha, p.1, List.mem_map_of_mem hp, hn⟩
      · rw [if_neg ha] at hu
        cases hu
  · rintro (⟨n, hn, h⟩ | ⟨ha, n, hn, h⟩)
    · obtain ⟨p, hp, rfl⟩ := List.mem_map.1 hn
      exact ⟨(p.1, fun _ => p.2), List.mem_append.2 (Or.inl (List.mem_map.2 ⟨p, hp, rfl⟩)), h⟩
    · obtain ⟨p, hp, rfl⟩ := List.mem_map.1 hn
      refine ⟨(p.1, fun v => v + p.2), List.mem_append.2 (Or.inr ?_), h⟩
      rw [if_pos ha]
      exact List.mem_map.2 ⟨p, hp, rfl⟩

theorem updFun_append (n : α) (us ws : List (α × (V → V))) (v : V) :
    updFun n (us ++ ws) v = updFun n ws (updFun n us v) := List.foldl_append

theorem updFun_not (n : α) (us : List (α × (V → V))) (h : n ∉ us.map Prod.fst) (v : V) :
    updFun n us v = v := by
  induction us generalizing v with
  | nil => rfl
  | cons u us ih =>
    rw [List.map_cons, List.mem_cons, not_or] at h
    change updFun n us (if u.1 = n then u.2 v else v) = v
    rw [if_neg (fun e => h.1 e.symm)]
    exact ih h.2 v

theorem updFun_map (n : α) (t : NTrace α V) (hk : (tkeys t).Nodup) (g : V → V → V) (v : V) :
    updFun n (t.map fun p => (p.1, g p.2)) v = ((t.lookup n).map fun x => g x v).getD v := by
  induction t generalizing v with
  | nil => rfl
  | cons p t ih =>
    rw [tkeys, List.map_cons, List.nodup_cons] at hk
    change updFun n (t.map fun p => (p.1, g p.2)) (if p.1 = n then g p.2 v else v) = _
    rw [lookup_cons_ite]
    by_cases h : p.1 = n
    · subst h
      rw [if_pos rfl, if_pos rfl, updFun_not]
      · simp
      · rw [List.map_map]; exact hk.1
    · rw [if_neg h, if_neg (fun e => h e.symm)]
      exact ih hk.2 v

theorem updFun_stepUpds [Add V] (n : α) (st : NStepTr α V) (h1 : (tkeys st.vals).Nodup)
    (h2 : (tkeys st.delta).Nodup) (v : V) : updFun n (stepUpds st) v = Spec.walkerStep n v st := by
  unfold stepUpds Spec.walkerStep
  rw [updFun_append, updFun_map n st.vals h1 (fun x _ => x)]
  have : ((st.vals.lookup n).map fun x => x) = st.vals.lookup n := by simp
  rw [this]
  cases ha : st.accepted with
  | false => rfl
  | true =>
    simp only [if_true]
    rw [updFun_map n st.delta h2 (fun x v => v + x)]
    cases st.delta.lookup n <;> rfl

theorem getElem?_modify_ite (l : List V) (k i : ℕ) (f : V → V) :
    (l.modify k f)[i]? = if k = i then l[i]?.map f else l[i]? := by
  rw [List.getElem?_modify]
  by_cases h : k = i
  · subst h; simp
  · simp [h]

/-- One step of all walkers, from walker `k` on. -/
theorem applyRound_spec [Add V] (sts : List (NStepTr α V)) (k : ℕ) (tr : NTrace α (List V)) :
    ((sts.zipIdx k).foldlM (fun tr p => traceStep tr p.2 p.1) tr = none ↔
      ∃ st ∈ sts, ¬ st.Fits (tkeys tr)) ∧
    ∀ tr', (sts.zipIdx k).foldlM (fun tr p => traceStep tr p.2 p.1) tr = some tr' →
      tkeys tr' = tkeys tr ∧ ∀ n l, tr.lookup n = some l → ∃ l', tr'.lookup n = some l' ∧
        l'.length = l.length ∧ (∀ i, i < k → l'[i]? = l[i]?) ∧
        ∀ i, l'[k + i]? = match sts[i]? with
          | none => l[k + i]?
          | some st => l[k + i]?.map (updFun n (stepUpds st)) := by
  induction sts generalizing k tr with
  | nil =>
    refine ⟨by simp, fun tr' h => ?_⟩
    have : tr = tr' := by simpa using h
    subst this
    exact ⟨rfl, fun n l hl => ⟨l, hl, rfl, fun _ _ => rfl, fun i => by simp⟩⟩
  | cons st sts ih =>
    have hstep : ((st :: sts).zipIdx k).foldlM (fun tr p => traceStep tr p.2 p.1) tr =
        (traceStep tr k st).bind fun t =>
          (sts.zipIdx (k + 1)).foldlM (fun tr p => traceStep tr p.2 p.1) t := by
      rw [List.zipIdx_cons, List.foldlM_cons]
      rfl
    rw [hstep, traceStep_eq]
    obtain ⟨a1, a2⟩ := applyUpd_spec (stepUpds st) k tr
    rw [stepUpds_fits] at a1
    rcases hu : applyUpd tr k (stepUpds st) with _ | t
    · simp only [Option.bind_none, true_iff, reduceCtorEq, false_imp_iff, implies_true, and_true]
      exact ⟨st, List.mem_cons_self, a1.1 hu⟩
    · obtain ⟨b1, b2⟩ := a2 t hu
      have hfit : st.Fits (tkeys tr) := by
        by_contra hn
        rw [a1.2 hn] at hu
        cases hu
      obtain ⟨c1, c2⟩ := ih (k + 1) t
      rw [b1] at c1
      simp only [Option.bind_some]
      refine ⟨?_, fun tr' h => ?_⟩
      · rw [c1]
        constructor
        · rintro ⟨s, hs, h⟩; exact ⟨s, List.mem_cons_of_mem _ hs, h⟩
        · rintro ⟨s, hs, h⟩
          rcases List.mem_cons.1 hs with rfl | hs
          · exact absurd hfit h
          · exact ⟨s, hs, h⟩
      · obtain ⟨d1, d2⟩ := c2 tr' h
        refine ⟨d1.trans b1, fun n l hl => ?_⟩
        have hl2 : t.lookup n = some (l.modify k (updFun n (stepUpds st))) := by rw [b2 n, hl]; rfl
        obtain ⟨l', e1, e2, e3, e4⟩ := d2 n _ hl2
        refine ⟨l', e1, by rw [e2, List.length_modify], fun i hi => ?_, fun i => ?_⟩
        · rw [e3 i (by omega), getElem?_modify_ite]
          rw [if_neg (by omega)]
        · cases i with
          | zero =>
            rw [Nat.add_zero, e3 k (by omega), getElem?_modify_ite, if_pos rfl]
            simp
          | succ i =>
            have := e4 i
            rw [show k + 1 + i = k + (i + 1) by omega] at this
            rw [this, List.getElem?_cons_succ, getElem?_modify_ite, if_neg (by omega)]

/-- Steps of all walkers with distinct names. -/
def NStepTr.Dict (st : NStepTr α V) : Prop := (tkeys st.vals).Nodup ∧ (tkeys st.delta).Nodup

theorem block_spec [Add V] (b : List (List (NStepTr α V))) (tr : NTrace α (List V)) :
    (b.foldlM applyRound tr = none ↔ ∃ sts ∈ b, ∃ st ∈ sts, ¬ st.Fits (tkeys tr)) ∧
    ((∀ sts ∈ b, ∀ st ∈ sts, st.Dict) → ∀ tr', b.foldlM applyRound tr = some tr' →
      tkeys tr' = tkeys tr ∧ ∀ n l, tr.lookup n = some l → ∃ l', tr'.lookup n = some l' ∧
        l'.length = l.length ∧
        ∀ i, l'[i]? = l[i]?.map fun v => Spec.walkerVal n v (Spec.walkerSteps i b)) := by
  induction b generalizing tr with
  | nil =>
    refine ⟨by simp, fun _ tr' h => ?_⟩
    have : tr = tr' := by simpa using h
    subst this
    refine ⟨rfl, fun n l hl => ⟨l, hl, rfl, fun i => ?_⟩⟩
    simp only [Spec.walkerSteps, Spec.walkerVal, List.filterMap_nil, List.foldl_nil]
    cases l[i]? <;> rfl
  | cons sts b ih =>
    have hstep : (sts :: b).foldlM applyRound tr =
        (applyRound tr sts).bind fun t => b.foldlM applyRound t := by
      rw [List.foldlM_cons]; rfl
    obtain ⟨a1, a2⟩ := applyRound_spec sts 0 tr
    rw [hstep]
    change (applyRound tr sts = none ↔ _) at a1
    change (∀ tr', applyRound tr sts = some tr' → _) at a2
    rcases hu : applyRound tr sts with _ | t
    · simp only [Option.bind_none, true_iff, reduceCtorEq, false_imp_iff, implies_true, and_true]
      obtain ⟨st, hs, h⟩ := a1.1 hu
      exact ⟨sts, List.mem_cons_self, st, hs, h⟩
    · obtain ⟨b1, b2⟩ := a2 t hu
      have hfit : ∀ st ∈ sts, st.Fits (tkeys tr) := by
        intro st hs
        by_contra hn
        rw [a1.2 ⟨st, hs, hn⟩] at hu
        cases hu
      obtain ⟨c1, c2⟩ := ih t
      rw [b1] at c1
      simp only [Option.bind_some]
      refine ⟨?_, fun hd tr' h => ?_⟩
      · rw [c1]
        constructor
        · rintro ⟨s, hs, h⟩; exact ⟨s, List.mem_cons_of_mem _ hs, h⟩
        · rintro ⟨s, hs, st, hst, h⟩
          rcases List.mem_cons.1 hs with rfl | hs
          · exact absurd (hfit st hst) h
          · exact ⟨s, hs, st, hst, h⟩
      · obtain ⟨d1, d2⟩ := c2 (fun s hs => hd s (List.mem_cons_of_mem _ hs)) tr' h
        refine ⟨d1.trans b1, fun n l hl => ?_⟩
        obtain ⟨l1, e1, e2, -, e3⟩ := b2 n l hl
        obtain ⟨l', f1, f2, f3⟩ := d2 n l1 e1
        refine ⟨l', f1, f2.trans e2, fun i => ?_⟩
        have := e3 i
        rw [Nat.zero_add] at this
        rw [f3 i, this]
        rcases hi : sts[i]? with _ | st
        · simp only [Spec.walkerSteps, List.filterMap_cons, hi]
        · have hd' := hd sts List.mem_cons_self st (List.mem_of_getElem? hi)
          simp only [Spec.walkerSteps, Spec.walkerVal, List.filterMap_cons, hi, List.foldl_cons,
            Option.map_map]
          congr 1
          funext v
          simp only [Function.comp]
          rw [updFun_stepUpds n st hd'.1 hd'.2]

/-- The stacked trace: names of the first walker, values of all. -/
theorem stackTraces_spec (traces : List (NTrace α V)) :
    (stackTraces traces = none ↔ traces = [] ∨
      ∃ t0 ∈ traces.head?, ∃ n ∈ tkeys t0, ∃ t ∈ traces, n ∉ tkeys t) ∧
    ∀ tr, stackTraces traces = some tr → ∃ t0, traces.head? = some t0 ∧ tkeys tr = tkeys t0 ∧
      ∀ n ∈ tkeys t0, ∃ l, tr.lookup n = some l ∧ l.length = traces.length ∧
        ∀ (i : ℕ) (t : NTrace α V), traces[i]? = some t → l[i]? = t.lookup n ∧ (t.lookup n).isSome := by
  unfold stackTraces
  rcases hh : traces.head? with _ | t0
  · have : traces = [] := by simpa using hh
    subst this
    simp
  · have hne : traces ≠ [] := by rintro rfl; simp at hh
    simp only [Option.bind_some, hne, false_or, Option.mem_def, Option.some.injEq]
    -- the names of `t0`, one at a time
    have key : ∀ ps : NTrace α V,
        (ps.mapM (fun p => (traces.mapM fun (t : NTrace α V) => t.lookup p.1).map
          fun vs => (p.1, vs)) = none ↔ ∃ n ∈ tkeys ps, ∃ t ∈ traces, n ∉ tkeys t) ∧
        ∀ tr, ps.mapM (fun p => (traces.mapM fun (t : NTrace α V) => t.lookup p.1).map
          fun vs => (p.1, vs)) = some tr → tkeys tr = tkeys ps ∧
          ∀ n ∈ tkeys ps, ∃ l, tr.lookup n = some l ∧ l.length = traces.length ∧
            ∀ (i : ℕ) (t : NTrace α V), traces[i]? = some t → l[i]? = t.lookup n ∧ (t.lookup n).isSome := by
      have row : ∀ (ts : List (NTrace α V)) (n : α),
          ((ts.mapM fun (t : NTrace α V) => t.lookup n) = none ↔ ∃ t ∈ ts, n ∉ tkeys t) ∧
          ∀ l, (ts.mapM fun (t : NTrace α V) => t.lookup n) = some l → l.length = ts.length ∧
            ∀ (i : ℕ) (t : NTrace α V), ts[i]? = some t → l[i]? = t.lookup n ∧ (t.lookup n).isSome := by
        intro ts n
        induction ts with
        | nil =>
          refine ⟨by simp, fun l hl => ?_⟩
          have : [] = l := by simpa using hl
          subst this
          simp
        | cons t ts ih =>
          rw [List.mapM_cons]
          rcases ht : t.lookup n with _ | v
          · refine ⟨⟨fun _ => ⟨t, List.mem_cons_self, (lookup_none_iff t n).1 ht⟩, fun _ => rfl⟩, ?_⟩
            intro l hl
            cases hl
          · have hk : n ∈ tkeys t := by
              rw [← tlookup_isSome_iff, ht]; rfl
            rcases hts : (ts.mapM fun (t : NTrace α V) => t.lookup n) with _ | l0
            · refine ⟨⟨fun _ => ?_, fun _ => rfl⟩, ?_⟩
              · obtain ⟨s, hs, h⟩ := ih.1.1 hts
                exact ⟨s, List.mem_cons_of_mem _ hs, h⟩
              · intro l hl
                cases hl
            · refine ⟨⟨fun h => (nomatch h), ?_⟩, ?_⟩
              · rintro ⟨s, hs, h⟩
                rcases List.mem_cons.1 hs with rfl | hs
                · exact absurd hk h
                · have := ih.1.2 ⟨s, hs, h⟩
                  rw [hts] at this
                  cases this
              · intro l hl
                have : v :: l0 = l := Option.some.inj hl
                subst this
                obtain ⟨g1, g2⟩ := ih.2 l0 hts
                refine ⟨by simp [g1], fun i s hs => ?_⟩
                cases i with
                | zero =>
                  have : t = s := by simpa using hs
                  subst this
                  simp [ht]
                | succ i =>
                  rw [List.getElem?_cons_succ] at hs ⊢
                  exact g2 i s hs
      intro ps
      induction ps with
      | nil =>
        refine ⟨by simp [tkeys], fun tr h => ?_⟩
        have : [] = tr := by simpa using h
        subst this
        simp [tkeys]
      | cons p ps ih =>
        obtain ⟨r1, r2⟩ := row traces p.1
        rw [List.mapM_cons]
        rcases hr : (traces.mapM fun (t : NTrace α V) => t.lookup p.1) with _ | l
        · refine ⟨⟨fun _ => ⟨p.1, by simp [tkeys], r1.1 hr⟩, fun _ => rfl⟩, fun tr h => ?_⟩
          cases h
        · obtain ⟨g1, g2⟩ := r2 l hr
          rcases hps : (ps.mapM (fun p => (traces.mapM fun (t : NTrace α V) => t.lookup p.1).map
              fun vs => (p.1, vs))) with _ | tr0
          · have e1 : ∀ g : List (α × List V) → Option (List (α × List V)),
                (ps.mapM (fun p => (traces.mapM fun (t : NTrace α V) => t.lookup p.1).map
              fun vs => (p.1, vs)) >>= g) = none := fun g => by rw [hps]; rfl
            simp only [Option.map_some, e1]
            refine ⟨⟨fun _ => ?_, fun _ => rfl⟩, fun tr h => by cases h⟩
            obtain ⟨n, hn, h⟩ := ih.1.1 hps
            exact ⟨n, by rw [tkeys, List.map_cons]; exact List.mem_cons_of_mem _ hn, h⟩
          · have e1 : ∀ g : List (α × List V) → Option (List (α × List V)),
                (ps.mapM (fun p => (traces.mapM fun (t : NTrace α V) => t.lookup p.1).map
              fun vs => (p.1, vs)) >>= g) = g tr0 := fun g => by rw [hps]; rfl
            simp only [Option.map_some, e1]
            refine ⟨⟨fun h => (nomatch h), ?_⟩, fun tr h => ?_⟩
            · rintro ⟨n, hn, h⟩
              rw [tkeys, List.map_cons, List.mem_cons] at hn
              rcases hn with rfl | hn
              · rw [r1.2 h] at hr; cases hr
              · rw [ih.1.2 ⟨n, hn, h⟩] at hps; cases hps
            · have : (p.1, l) :: tr0 = tr := Option.some.inj h
              subst this
              obtain ⟨k1, k2⟩ := ih.2 tr0 hps
              refine ⟨by simp only [tkeys, List.map_cons] at k1 ⊢; rw [k1], fun n hn => ?_⟩
              rw [lookup_cons_ite]
              by_cases hnp : n = p.1
              · subst hnp
                exact ⟨l, by simp, g1, g2⟩
              · rw [if_neg hnp]
                rw [tkeys, List.map_cons, List.mem_cons] at hn
                exact k2 n (hn.resolve_left hnp)
    obtain ⟨k1, k2⟩ := key t0
    refine ⟨?_, fun tr h => ⟨t0, rfl, k2 tr h⟩⟩
    rw [k1]
    constructor
    · intro h; exact ⟨t0, rfl, h⟩
    · rintro ⟨t, rfl, h⟩; exact h

theorem block_keys [Add V] (b : List (List (NStepTr α V))) (tr tr' : NTrace α (List V))
    (h : b.foldlM applyRound tr = some tr') : tkeys tr' = tkeys tr := by
  induction b generalizing tr with
  | nil =>
    have : tr = tr' := by simpa using h
    rw [this]
  | cons sts b ihb =>
    rw [List.foldlM_cons] at h
    rcases hu : applyRound tr sts with _ | t
    · rw [hu] at h; cases h
    · rw [hu] at h
      rw [ihb t h]
      exact ((applyRound_spec sts 0 tr).2 t hu).1

theorem runBlocks_spec [Add V] (blocks : List (List (List (NStepTr α V))))
    (cont : NTrace α (List (Option (List V)))) (tr : NTrace α (List V)) :
    ((runBlocks cont tr blocks).2 = false ↔
      (∀ b ∈ blocks, ∀ sts ∈ b, ∀ st ∈ sts, st.Fits (tkeys tr)) ∧
      (blocks ≠ [] → ∀ n ∈ tkeys tr, n ∈ tkeys cont)) ∧
    tkeys (runBlocks cont tr blocks).1 = tkeys cont ∧
    (∀ n old, cont.lookup n = some old → ∃ rows, (runBlocks cont tr blocks).1.lookup n =
      some (old ++ rows) ∧ rows.length ≤ blocks.length ∧
      ((runBlocks cont tr blocks).2 = false → rows.length = blocks.length) ∧
      (n ∉ tkeys tr → ∀ r ∈ rows, r = none) ∧
      ((∀ b ∈ blocks, ∀ sts ∈ b, ∀ st ∈ sts, st.Dict) → ∀ l, tr.lookup n = some l →
        ∀ r, r < rows.length → ∃ row, rows[r]? = some (some row) ∧ row.length = l.length ∧
          ∀ i, row[i]? = l[i]?.map fun v =>
            Spec.walkerVal n v (Spec.walkerSteps i (blocks.take (r + 1)).flatten))) := by
  induction blocks generalizing cont tr with
  | nil =>
    refine ⟨by simp [runBlocks], rfl, fun n old h => ⟨[], by simpa [runBlocks] using h, le_refl _,
      fun _ => rfl, fun _ => by simp, fun _ l _ r hr => ?_⟩⟩
    simp at hr
  | cons b bs ih =>
    obtain ⟨a1, a2⟩ := block_spec b tr
    have hd0 : ∀ (bs' : List (List (List (NStepTr α V)))), (∀ c ∈ b :: bs', ∀ sts ∈ c, ∀ st ∈ sts,
        st.Dict) → ∀ sts ∈ b, ∀ st ∈ sts, st.Dict := fun bs' h => h b List.mem_cons_self
    rcases hb : b.foldlM applyRound tr with _ | tr'
    · have e : runBlocks cont tr (b :: bs) = (cont, true) := by simp [runBlocks, hb]
      rw [e]
      refine ⟨⟨fun h => by simp at h, fun h => ?_⟩, rfl, fun n old hn => ⟨[], by simpa using hn,
        Nat.zero_le _, fun h => by simp at h, fun _ => by simp, fun _ l _ r hr => by simp at hr⟩⟩
      obtain ⟨sts, hs, st, hst, hf⟩ := a1.1 hb
      exact absurd (h.1 b List.mem_cons_self sts hs st hst) hf
    · have hfit : ∀ sts ∈ b, ∀ st ∈ sts, st.Fits (tkeys tr) := by
        intro sts hs st hst
        by_contra hn
        rw [a1.2 ⟨sts, hs, st, hst, hn⟩] at hb
        cases hb
      have hkeys := block_keys b tr tr' hb
      by_cases hs : ∀ n ∈ tkeys tr', n ∈ tkeys cont
      · have hsave : saveRow cont tr' = some (cont.map fun p => (p.1, p.2 ++ [tr'.lookup p.1])) := by
          unfold saveRow
          exact if_pos hs
        have e : runBlocks cont tr (b :: bs) =
            runBlocks (cont.map fun p => (p.1, p.2 ++ [tr'.lookup p.1])) tr' bs := by
          simp [runBlocks, hb, hsave]
        rw [e]
        have hck : tkeys (cont.map fun p => (p.1, p.2 ++ [tr'.lookup p.1])) = tkeys cont := by
          simp [tkeys]
        obtain ⟨i1, i2, i3⟩ := ih (cont.map fun p => (p.1, p.2 ++ [tr'.lookup p.1])) tr'
        rw [hck, hkeys] at i1
        refine ⟨?_, i2.trans hck, fun n old hn => ?_⟩
        · rw [i1]
          constructor
          · rintro ⟨h1, -⟩
            refine ⟨fun c hc => ?_, fun _ => hkeys ▸ hs⟩
            rcases List.mem_cons.1 hc with rfl | hc
            · exact hfit
            · exact h1 c hc
          · rintro ⟨h1, h2⟩
            exact ⟨fun c hc => h1 c (List.mem_cons_of_mem _ hc), fun _ => h2 (by simp)⟩
        · have hl : (cont.map fun p => (p.1, p.2 ++ [tr'.lookup p.1])).lookup n =
              some (old ++ [tr'.lookup n]) := by
            rw [lookup_map_val cont (fun a l => l ++ [tr'.lookup a]) n, hn]; rfl
          obtain ⟨rows, r1, r2, r3, r4, r5⟩ := i3 n _ hl
          refine ⟨tr'.lookup n :: rows, by rw [r1]; simp, by simpa using r2,
            fun h => by simp [r3 h], fun hnk r hr => ?_, fun hd l hlk r hr => ?_⟩
          · rcases List.mem_cons.1 hr with rfl | hr
            · rw [lookup_none_iff, hkeys]; exact hnk
            · exact r4 (by rw [hkeys]; exact hnk) r hr
          · obtain ⟨-, c2⟩ := a2 (hd0 bs hd) tr' hb
            obtain ⟨l', f1, f2, f3⟩ := c2 n l hlk
            cases r with
            | zero =>
              refine ⟨l', by simp [f1], f2, fun i => ?_⟩
              rw [f3 i]
              simp
            | succ r =>
              obtain ⟨row, g1, g2, g3⟩ := r5 (fun c hc => hd c (List.mem_cons_of_mem _ hc)) l' f1 r
                (by simpa using hr)
              refine ⟨row, by simpa using g1, g2.trans f2, fun i => ?_⟩
              rw [g3 i, f3 i, Option.map_map]
              congr 1
              funext v
              simp only [Function.comp, Spec.walkerVal, Spec.walkerSteps, List.take_succ_cons,
                List.flatten_cons, List.filterMap_append, List.foldl_append]
      · have hsave : saveRow cont tr' = none := by
          unfold saveRow
          exact if_neg hs
        have e : runBlocks cont tr (b :: bs) = (cont, true) := by simp [runBlocks, hb, hsave]
        rw [e]
        refine ⟨⟨fun h => by simp at h, fun h => ?_⟩, rfl, fun n old hn => ⟨[], by simpa using hn,
          Nat.zero_le _, fun h => by simp at h, fun _ => by simp, fun _ l _ r hr => by simp at hr⟩⟩
        exact absurd (hkeys ▸ h.2 (by simp)) hs

end Smol
