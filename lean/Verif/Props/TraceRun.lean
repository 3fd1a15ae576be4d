import Verif.Lemmas.TraceRun
import Mathlib.Algebra.Group.Basic
import Mathlib.Algebra.BigOperators.Group.List.Basic
import Mathlib.Tactic.Ring

/-!
# C95 Traces of all walkers are recorded under the names of the kernels
-/

namespace Smol

variable {α V : Type*} [DecidableEq α]

/-- C95. A run raises exactly when there is no walker, a walker lacks a name of the first walker's
initial trace, a step records a name (or, if accepted, a change of a name) which that trace does not
have, or a sample has a name which the container does not have. -/
theorem C95_raises [Add V] (cont : NTrace α (List (Option (List V)))) (inits : List (NTrace α V))
    (blocks : List (List (List (NStepTr α V)))) :
    (traceRun cont inits blocks).2 = false ↔ ∃ t0 rest, inits = t0 :: rest ∧
      (∀ n ∈ t0.map Prod.fst, ∀ t ∈ inits, n ∈ t.map Prod.fst) ∧
      (∀ b ∈ blocks, ∀ sts ∈ b, ∀ st ∈ sts,
        (∀ n ∈ st.vals.map Prod.fst, n ∈ t0.map Prod.fst) ∧
        (st.accepted = true → ∀ n ∈ st.delta.map Prod.fst, n ∈ t0.map Prod.fst)) ∧
      (blocks ≠ [] → ∀ n ∈ t0.map Prod.fst, n ∈ cont.map Prod.fst) := by
  obtain ⟨s1, s2⟩ := stackTraces_spec inits
  unfold traceRun
  rcases hs : stackTraces inits with _ | tr
  · simp only [Bool.true_eq_false, false_iff]
    rintro ⟨t0, rest, rfl, h1, -⟩
    rcases s1.1 hs with h | ⟨t, ht, n, hn, t', ht', hn'⟩
    · cases h
    · have : t0 = t := by simpa using ht
      subst this
      exact hn' (h1 n hn t' ht')
  · obtain ⟨t0, h0, h1, -⟩ := s2 tr hs
    obtain ⟨r1, -⟩ := runBlocks_spec blocks cont tr
    simp only
    rw [r1, h1]
    constructor
    · rintro ⟨g1, g2⟩
      cases inits with
      | nil => simp at h0
      | cons t rest =>
        have : t = t0 := by simpa using h0
        subst this
        refine ⟨t, rest, rfl, fun n hn t' ht' => ?_, g1, g2⟩
        by_contra hc
        have := s1.2 (Or.inr ⟨t, by simp, n, hn, t', ht', hc⟩)
        rw [hs] at this
        cases this
    · rintro ⟨t, rest, rfl, -, g1, g2⟩
      have : t = t0 := by simpa using h0
      subst this
      exact ⟨g1, g2⟩

/-- C95. What a run leaves in the container: old rows stay, and there is one row more for every
sample.  The row of sample `r` under a name of the walkers' traces holds, for every walker, the
value that follows from its own initial trace and its own steps alone.  Names of the container which
the walkers do not trace get rows that are never written. -/
theorem C95_rows [Add V] (cont : NTrace α (List (Option (List V)))) (t0 : NTrace α V)
    (rest : List (NTrace α V)) (blocks : List (List (List (NStepTr α V))))
    (hd : ∀ b ∈ blocks, ∀ sts ∈ b, ∀ st ∈ sts,
      (st.vals.map Prod.fst).Nodup ∧ (st.delta.map Prod.fst).Nodup) :
    (traceRun cont (t0 :: rest) blocks).1.map Prod.fst = cont.map Prod.fst ∧
    ∀ n old, cont.lookup n = some old → ∃ rows,
      (traceRun cont (t0 :: rest) blocks).1.lookup n = some (old ++ rows) ∧
      rows.length ≤ blocks.length ∧
      ((traceRun cont (t0 :: rest) blocks).2 = false → rows.length = blocks.length) ∧
      (n ∉ t0.map Prod.fst → ∀ r ∈ rows, r = none) ∧
      (n ∈ t0.map Prod.fst → ∀ r, r < rows.length → ∃ row, rows[r]? = some (some row) ∧
        row.length = (t0 :: rest).length ∧
        ∀ (i : ℕ) (t : NTrace α V), (t0 :: rest)[i]? = some t → ∃ v, t.lookup n = some v ∧
          row[i]? = some (Spec.walkerVal n v
            (Spec.walkerSteps i (blocks.take (r + 1)).flatten))) := by
  unfold traceRun
  obtain ⟨s1, s2⟩ := stackTraces_spec (t0 :: rest)
  rcases hs : stackTraces (t0 :: rest) with _ | tr
  · exact ⟨rfl, fun n old hn => ⟨[], by simpa using hn, Nat.zero_le _, fun h => by simp at h,
      fun _ => by simp, fun _ r hr => by simp at hr⟩⟩
  · obtain ⟨t, h0, h1, h2⟩ := s2 tr hs
    have : t0 = t := by simpa using h0
    subst this
    obtain ⟨-, r2, r3⟩ := runBlocks_spec blocks cont tr
    refine ⟨r2, fun n old hn => ?_⟩
    obtain ⟨rows, g1, g2, g3, g4, g5⟩ := r3 n old hn
    refine ⟨rows, g1, g2, g3, fun hk => g4 (by rw [h1]; exact hk), fun hk r hr => ?_⟩
    obtain ⟨l, l1, l2, l3⟩ := h2 n hk
    obtain ⟨row, q1, q2, q3⟩ := g5 hd l l1 r hr
    refine ⟨row, q1, q2.trans l2, fun i t ht => ?_⟩
    obtain ⟨m1, m2⟩ := l3 i t ht
    obtain ⟨v, hv⟩ := Option.isSome_iff_exists.1 m2
    refine ⟨v, hv, ?_⟩
    rw [q3 i, m1, hv]
    rfl

/-- C95. A name that every step records (and no step changes) has the value of the last step. -/
theorem C95_recorded [Add V] (n : α) (v : V) (sts : List (NStepTr α V)) (st : NStepTr α V) (x : V)
    (hx : st.vals.lookup n = some x) (hn : st.delta.lookup n = none) :
    Spec.walkerVal n v (sts ++ [st]) = x := by
  unfold Spec.walkerVal
  rw [List.foldl_append, List.foldl_cons, List.foldl_nil, Spec.walkerStep, hx, hn]
  cases st.accepted <;> rfl

/-- C95. A name that steps only change has the initial value plus the sum of the changes of the
accepted steps. -/
theorem C95_changed [AddMonoid V] (n : α) (v : V) (sts : List (NStepTr α V))
    (hn : ∀ st ∈ sts, st.vals.lookup n = none) :
    Spec.walkerVal n v sts =
      v + ((sts.filter (·.accepted)).map fun st => (st.delta.lookup n).getD 0).sum := by
  induction sts generalizing v with
  | nil => simp [Spec.walkerVal]
  | cons st sts ih =>
    have e : Spec.walkerVal n v (st :: sts) = Spec.walkerVal n (Spec.walkerStep n v st) sts := rfl
    rw [e, ih _ fun s hs => hn s (List.mem_cons_of_mem _ hs)]
    unfold Spec.walkerStep
    rw [hn st List.mem_cons_self]
    cases ha : st.accepted with
    | false => simp [ha]
    | true =>
      cases hd : st.delta.lookup n with
      | none => simp [ha, hd]
      | some d => simp [ha, hd, add_assoc]

/-- A walker whose steps add 5 (accepted) and 7 (rejected), and record 1 and 2. -/
example : Spec.walkerVal (V := ℤ) 0 10
      [⟨[(1, 1)], [(0, 5)], true⟩, ⟨[(1, 2)], [(0, 7)], false⟩] = 15 ∧
    Spec.walkerVal (V := ℤ) 1 10
      [⟨[(1, 1)], [(0, 5)], true⟩, ⟨[(1, 2)], [(0, 7)], false⟩] = 2 := by decide

/-- Two walkers, two samples of one step. -/
example : traceRun (V := ℤ) [(0, []), (1, [])] [[(0, 10), (1, 0)], [(0, 20), (1, 0)]]
    [[[⟨[(1, 1)], [(0, 5)], true⟩, ⟨[(1, 0)], [(0, 3)], false⟩]],
     [[⟨[(1, 0)], [(0, 5)], false⟩, ⟨[(1, 1)], [(0, 3)], true⟩]]] =
    ([(0, [some [15, 20], some [15, 23]]), (1, [some [1, 0], some [0, 1]])], false) := by decide

/-- The walkers of a sampler have the traces of their kernels: names of the initial traces and of
the steps of walker `i` are those of kernel `i`. -/
def KernelTraces (ks : List KNames) (inits : List (NTrace TName V))
    (blocks : List (List (List (NStepTr TName V)))) : Prop :=
  inits.map (fun t => t.map Prod.fst) = ks.map KNames.initNames ∧
  ∀ b ∈ blocks, ∀ sts ∈ b, sts.length ≤ ks.length ∧ ∀ (i : ℕ) st k, sts[i]? = some st →
    ks[i]? = some k → st.vals.map Prod.fst = k.stepNames ∧ st.delta.map Prod.fst = k.deltaNames

theorem stepNames_subset (k k0 : KNames) (h : k.kind = k0.kind) :
    ∀ n ∈ k.stepNames, n ∈ k0.initNames := by
  intro n hn
  unfold KNames.stepNames KNames.initNames at *
  rw [h] at hn
  simp only [List.mem_append, List.mem_cons, List.not_mem_nil, or_false] at hn ⊢
  tauto

theorem deltaNames_subset (k k0 : KNames) :
    (∀ n ∈ k.deltaNames, n ∈ k0.initNames) ↔ (k.deltaBias = true → k0.bias = true) := by
  obtain ⟨kind, b, db⟩ := k
  obtain ⟨kind0, b0, db0⟩ := k0
  cases db <;> cases b0 <;> cases kind0 <;> simp [KNames.deltaNames, KNames.initNames, KKind.extra]

theorem initNames_subset (k k0 : KNames) (h : k.kind = k0.kind) :
    (∀ n ∈ k0.initNames, n ∈ k.initNames) ↔ (k0.bias = true → k.bias = true) := by
  obtain ⟨kind, b, db⟩ := k
  obtain ⟨kind0, b0, db0⟩ := k0
  simp only at h
  subst h
  cases b <;> cases b0 <;> cases kind <;> simp [KNames.initNames, KKind.extra]

/-- C95. When kernels of one class run under a container with the names of an earlier kernel of that
class, the run raises exactly if one of these holds: the first kernel has a bias and another has none;
a kernel whose changes include a bias has a step accepted while the first has none; something is
sampled while the first kernel has a bias and the container has none. -/
theorem C95_kernels [Add V] (k0 kc : KNames) (ks : List KNames)
    (hkind : ∀ k ∈ k0 :: ks, k.kind = kc.kind) (cont : NTrace TName (List (Option (List V))))
    (hc : cont.map Prod.fst = kc.initNames) (inits : List (NTrace TName V))
    (blocks : List (List (List (NStepTr TName V)))) (ht : KernelTraces (k0 :: ks) inits blocks) :
    (traceRun cont inits blocks).2 = true ↔
      (k0.bias = true ∧ ∃ k ∈ ks, k.bias = false) ∨
      (k0.bias = false ∧ ∃ b ∈ blocks, ∃ sts ∈ b, ∃ (i : ℕ) (st : NStepTr TName V) (k : KNames),
        sts[i]? = some st ∧ (k0 :: ks)[i]? = some k ∧ st.accepted = true ∧ k.deltaBias = true) ∨
      (blocks ≠ [] ∧ k0.bias = true ∧ kc.bias = false) := by
  obtain ⟨h1, h2⟩ := ht
  cases inits with
  | nil => simp at h1
  | cons t0 rest =>
    rw [List.map_cons, List.map_cons, List.cons.injEq] at h1
    obtain ⟨e0, e1⟩ := h1
    have hk0 : k0.kind = kc.kind := hkind k0 List.mem_cons_self
    rw [← Bool.not_eq_false, C95_raises, ← not_iff_not, not_not]
    have hA : (∀ n ∈ t0.map Prod.fst, ∀ t ∈ t0 :: rest, n ∈ t.map Prod.fst) ↔
        ¬ (k0.bias = true ∧ ∃ k ∈ ks, k.bias = false) := by
      rw [e0]
      have : (∀ n ∈ k0.initNames, ∀ t ∈ t0 :: rest, n ∈ t.map Prod.fst) ↔
          ∀ k ∈ ks, ∀ n ∈ k0.initNames, n ∈ k.initNames := by
        constructor
        · intro h k hk n hn
          have : k.initNames ∈ rest.map fun t => t.map Prod.fst := by
            rw [e1]; exact List.mem_map_of_mem hk
          obtain ⟨t, htm, hte⟩ := List.mem_map.1 this
          rw [← hte]
          exact h n hn t (List.mem_cons_of_mem _ htm)
        · intro h n hn t htm
          rcases List.mem_cons.1 htm with rfl | htm
          · rw [e0]; exact hn
          · have : (t.map Prod.fst) ∈ ks.map KNames.initNames := by
              rw [← e1]; exact List.mem_map_of_mem htm
            obtain ⟨k, hk, hke⟩ := List.mem_map.1 this
            rw [← hke]
            exact h k hk n hn
      rw [this]
      push Not
      constructor
      · intro h hb k hk
        have := (initNames_subset k k0
          ((hkind k (List.mem_cons_of_mem _ hk)).trans hk0.symm)).1 (h k hk) hb
        simp [this]
      · intro h k hk
        rw [initNames_subset k k0 ((hkind k (List.mem_cons_of_mem _ hk)).trans hk0.symm)]
        intro hb
        have := h hb k hk
        simpa using this
    have hB : (∀ b ∈ blocks, ∀ sts ∈ b, ∀ st ∈ sts,
        (∀ n ∈ st.vals.map Prod.fst, n ∈ t0.map Prod.fst) ∧
        (st.accepted = true → ∀ n ∈ st.delta.map Prod.fst, n ∈ t0.map Prod.fst)) ↔
        ¬ (k0.bias = false ∧ ∃ b ∈ blocks, ∃ sts ∈ b, ∃ (i : ℕ) (st : NStepTr TName V) (k : KNames),
          sts[i]? = some st ∧ (k0 :: ks)[i]? = some k ∧ st.accepted = true ∧
          k.deltaBias = true) := by
      rw [e0]
      constructor
      · rintro h ⟨hb, b, hbm, sts, hsm, i, st, k, hst, hk, ha, hdb⟩
        have := (h b hbm sts hsm st (List.mem_of_getElem? hst)).2 ha
        rw [((h2 b hbm sts hsm).2 i st k hst hk).2, deltaNames_subset] at this
        rw [this hdb] at hb
        cases hb
      · intro h b hbm sts hsm st hst
        obtain ⟨i, hi, rfl⟩ := List.mem_iff_getElem.1 hst
        have hlen := (h2 b hbm sts hsm).1
        have hik : i < (k0 :: ks).length := by omega
        have hs? : sts[i]? = some sts[i] := List.getElem?_eq_getElem hi
        have hk? : (k0 :: ks)[i]? = some (k0 :: ks)[i] := List.getElem?_eq_getElem hik
        obtain ⟨n1, n2⟩ := (h2 b hbm sts hsm).2 i _ _ hs? hk?
        rw [n1, n2, deltaNames_subset]
        refine ⟨stepNames_subset _ _ ((hkind _ (List.getElem_mem hik)).trans hk0.symm),
          fun ha hdb => ?_⟩
        by_contra hb
        exact h ⟨by simpa using hb, b, hbm, sts, hsm, i, _, _, hs?, hk?, ha, hdb⟩
    have hC : (blocks ≠ [] → ∀ n ∈ t0.map Prod.fst, n ∈ cont.map Prod.fst) ↔
        ¬ (blocks ≠ [] ∧ k0.bias = true ∧ kc.bias = false) := by
      rw [e0, hc, initNames_subset kc k0 hk0.symm]
      cases k0.bias <;> cases kc.bias <;> simp
    constructor
    · rintro ⟨t, r, he, g1, g2, g3⟩
      obtain ⟨rfl, rfl⟩ := List.cons.inj he
      rw [not_or, not_or]
      exact ⟨hA.1 g1, hB.1 g2, hC.1 g3⟩
    · intro h
      rw [not_or, not_or] at h
      exact ⟨t0, rest, rfl, hA.2 h.1, hB.2 h.2.1, hC.2 h.2.2⟩

theorem kmake_some (kind : KKind) (b : Bool) (k : KNames) (h : KNames.make kind b = some k) :
    k = ⟨kind, b, b⟩ := by
  unfold KNames.make at h
  split_ifs at h
  exact (Option.some.inj h).symm

/-- Kernels keep their class, and the flags of their bias, which are equal, are only ever raised. -/
theorem setBiasOf_inv (ops : List (ℕ × Bool)) (ks : List KNames) (kind : KKind) (b : Bool)
    (h : ∀ k ∈ ks, k.kind = kind ∧ k.deltaBias = k.bias ∧ (b = true → k.bias = true)) :
    (ops.foldl setBiasOf ks).length = ks.length ∧
    (∀ k ∈ ops.foldl setBiasOf ks,
      k.kind = kind ∧ k.deltaBias = k.bias ∧ (b = true → k.bias = true)) ∧
    ((∀ op ∈ ops, op.2 = false) → ops.foldl setBiasOf ks = ks) := by
  induction ops generalizing ks with
  | nil => exact ⟨rfl, h, fun _ => rfl⟩
  | cons op ops ih =>
    have hs : ∀ k : KNames, (k.kind = kind ∧ k.deltaBias = k.bias ∧ (b = true → k.bias = true)) →
        ((k.setBias op.2).1.kind = kind ∧ (k.setBias op.2).1.deltaBias = (k.setBias op.2).1.bias ∧
          (b = true → (k.setBias op.2).1.bias = true)) := by
      intro k hk
      unfold KNames.setBias
      split
      · exact hk
      · exact ⟨hk.1, rfl, fun _ => rfl⟩
    have h' : ∀ k ∈ setBiasOf ks op,
        k.kind = kind ∧ k.deltaBias = k.bias ∧ (b = true → k.bias = true) := by
      intro k hk
      obtain ⟨i, hi, rfl⟩ := List.mem_iff_getElem.1 hk
      unfold setBiasOf at hi ⊢
      rw [List.length_modify] at hi
      rw [List.getElem_modify]
      split
      · exact hs _ (h _ (List.getElem_mem hi))
      · exact h _ (List.getElem_mem hi)
    obtain ⟨g1, g2, g3⟩ := ih (setBiasOf ks op) h'
    refine ⟨by rw [List.foldl_cons, g1, setBiasOf, List.length_modify], g2, fun hf => ?_⟩
    rw [List.foldl_cons, g3 fun o ho => hf o (List.mem_cons_of_mem _ ho)]
    have : op.2 = false := hf op List.mem_cons_self
    unfold setBiasOf
    apply List.ext_getElem?
    intro i
    rw [getElem?_modify_ite]
    split
    · cases ks[i]? with
      | none => rfl
      | some k => simp [KNames.setBias, this]
    · rfl

/-- C95. Assigning a bias fails exactly for Wang-Landau kernels and objects that are no bias (such as
`None`), and then changes nothing; otherwise the kernel has a bias from then on, whatever is assigned
later.  Wang-Landau kernels cannot be made with a bias either. -/
theorem C95_setter (k : KNames) (valid : Bool) :
    ((k.setBias valid).2 = true ↔ k.kind = .wangLandau ∨ valid = false) ∧
    ((k.setBias valid).2 = true → (k.setBias valid).1 = k) ∧
    ((k.setBias valid).2 = false → ∀ more : List Bool,
      (more.foldl (fun k v => (k.setBias v).1) (k.setBias valid).1).bias = true) ∧
    (KNames.make k.kind k.bias = none ↔ k.kind = .wangLandau ∧ k.bias = true) := by
  have keep : ∀ (more : List Bool) (k : KNames), k.bias = true →
      (more.foldl (fun k v => (k.setBias v).1) k).bias = true := by
    intro more
    induction more with
    | nil => exact fun k h => h
    | cons v more ih =>
      intro k h
      refine ih _ ?_
      change (k.setBias v).1.bias = true
      unfold KNames.setBias
      split
      · exact h
      · rfl
  refine ⟨?_, ?_, ?_, ?_⟩
  · unfold KNames.setBias; split <;> simp_all
  · unfold KNames.setBias; split <;> simp
  · intro h more
    refine keep more _ ?_
    unfold KNames.setBias at h ⊢
    split at h
    · cases h
    · rename_i hn; rw [if_neg hn]
  · unfold KNames.make; split <;> simp_all

/-- C95. A sampler made with a bias for all walkers or none: whatever biases are set afterwards on
any of its kernels, if there was one at construction, and however often setting fails, runs never
raise because of a missing name, and every name of the container is written in each sample. -/
theorem C95_session [Add V] (kind : KKind) (b : Bool) (k : KNames)
    (hk : KNames.make kind b = some k) (nwalkers : ℕ) (hw : 0 < nwalkers) (ops : List (ℕ × Bool))
    (hops : b = true ∨ ∀ op ∈ ops, op.2 = false) (cont : NTrace TName (List (Option (List V))))
    (hc : cont.map Prod.fst = containerNames (List.replicate nwalkers k))
    (inits : List (NTrace TName V)) (blocks : List (List (List (NStepTr TName V))))
    (ht : KernelTraces (ops.foldl setBiasOf (List.replicate nwalkers k)) inits blocks) :
    (traceRun cont inits blocks).2 = false ∧
      ∀ n ∈ cont.map Prod.fst, ∀ t ∈ inits, n ∈ t.map Prod.fst := by
  have hk' := kmake_some kind b k hk
  have hc' : cont.map Prod.fst = k.initNames := by
    rw [hc, containerNames]
    cases nwalkers with
    | zero => omega
    | succ w => rfl
  obtain ⟨g1, g2, g3⟩ := setBiasOf_inv ops (List.replicate nwalkers k) kind b (by
    intro k' hm
    rw [List.eq_of_mem_replicate hm, hk']
    exact ⟨rfl, rfl, id⟩)
  -- all kernels have the flag of the construction
  have hall : ∀ k' ∈ ops.foldl setBiasOf (List.replicate nwalkers k),
      k'.kind = k.kind ∧ k'.bias = k.bias ∧ k'.deltaBias = k.bias := by
    intro k' hm
    obtain ⟨m1, m2, m3⟩ := g2 k' hm
    rcases hops with rfl | hf
    · refine ⟨by rw [m1, hk'], ?_, ?_⟩
      · rw [m3 rfl, hk']
      · rw [m2, m3 rfl, hk']
    · rw [g3 hf] at hm
      rw [List.eq_of_mem_replicate hm]
      exact ⟨rfl, rfl, by rw [hk']⟩
  constructor
  · rcases hl : ops.foldl setBiasOf (List.replicate nwalkers k) with _ | ⟨k0, ks⟩
    · rw [hl] at g1
      simp at g1
      omega
    · rw [hl] at ht hall
      rw [← Bool.not_eq_true, C95_kernels k0 k ks (fun k' hm => (hall k' hm).1) cont hc' inits blocks
        ht]
      have h0 := hall k0 List.mem_cons_self
      rintro (⟨a1, k', a2, a3⟩ | ⟨a1, b', -, sts, -, i, st, k', -, a2, -, a3⟩ | ⟨-, a1, a2⟩)
      · rw [(hall k' (List.mem_cons_of_mem _ a2)).2.1, ← h0.2.1, a1] at a3
        cases a3
      · rw [(hall k' (List.mem_of_getElem? a2)).2.2, ← h0.2.1, a1] at a3
        cases a3
      · rw [h0.2.1, a2] at a1
        cases a1
  · intro n hn t htm
    have : (t.map Prod.fst) ∈ (ops.foldl setBiasOf (List.replicate nwalkers k)).map
        KNames.initNames := by
      rw [← ht.1]; exact List.mem_map_of_mem htm
    obtain ⟨k', hm, he⟩ := List.mem_map.1 this
    rw [← he]
    rw [hc'] at hn
    obtain ⟨q1, q2, -⟩ := hall k' hm
    exact (initNames_subset k' k q1).2 (fun h => by rw [q2, h]) n hn

/-- C95. A bias set on the first kernel of a sampler that was made without any: every run with at
least one sample raises and saves nothing, although setting was accepted. -/
theorem C95_late_bias [Add V] (kind : KKind) (k : KNames) (hk : KNames.make kind false = some k)
    (hkind : kind ≠ .wangLandau) (nwalkers : ℕ) (cont : NTrace TName (List (Option (List V))))
    (hc : cont.map Prod.fst = containerNames (List.replicate (nwalkers + 1) k))
    (inits : List (NTrace TName V)) (blocks : List (List (List (NStepTr TName V))))
    (hne : blocks ≠ [])
    (ht : KernelTraces (setBiasOf (List.replicate (nwalkers + 1) k) (0, true)) inits blocks) :
    (k.setBias true).2 = false ∧ traceRun cont inits blocks = (cont, true) := by
  have hk' := kmake_some kind false k hk
  subst hk'
  refine ⟨by simp [KNames.setBias, hkind], ?_⟩
  have hks : setBiasOf (List.replicate (nwalkers + 1) ⟨kind, false, false⟩) (0, true) =
      ⟨kind, true, true⟩ :: List.replicate nwalkers ⟨kind, false, false⟩ := by
    simp [setBiasOf, List.replicate_succ, KNames.setBias, hkind]
  rw [hks] at ht
  have hc' : cont.map Prod.fst = (⟨kind, false, false⟩ : KNames).initNames := hc
  have hb : TName.bias ∉ cont.map Prod.fst := by
    rw [hc']
    cases kind <;> simp [KNames.initNames, KKind.extra]
  cases inits with
  | nil => simp [KernelTraces] at ht
  | cons t0 rest =>
    have e0 : t0.map Prod.fst = (⟨kind, true, true⟩ : KNames).initNames :=
      (List.cons.inj ht.1).1
    have hb0 : TName.bias ∈ t0.map Prod.fst := by
      rw [e0]
      cases kind <;> simp [KNames.initNames]
    unfold traceRun
    rcases hs : stackTraces (t0 :: rest) with _ | tr
    · rfl
    · obtain ⟨t, q0, q1, -⟩ := (stackTraces_spec (t0 :: rest)).2 tr hs
      have : t0 = t := by simpa using q0
      subst this
      cases blocks with
      | nil => exact absurd rfl hne
      | cons b bs =>
        simp only [runBlocks]
        rcases hbl : b.foldlM applyRound tr with _ | tr'
        · rfl
        · have hkeys := block_keys b tr tr' hbl
          have hsave : saveRow cont tr' = none := by
            unfold saveRow
            refine if_neg fun h => hb (h _ ?_)
            change _ ∈ tkeys tr'
            rw [hkeys, q1]
            exact hb0
          simp only [hsave]

/-- C95. Multicell kernels: all steps of kernels of the cells fit the trace of the current cell's
kernel if all kernels have a bias or all have none (and no bias is set on one of them later). -/
theorem C95_multicell (cells : List KNames) (kind : KKind) (b : Bool)
    (h : ∀ k ∈ cells, k = ⟨kind, b, b⟩) (c k : KNames) (hc : c ∈ cells) (hk : k ∈ cells) :
    (∀ n ∈ k.cellStepNames, n ∈ c.cellInitNames) ∧ (∀ n ∈ k.deltaNames, n ∈ c.cellInitNames) := by
  rw [h c hc, h k hk]
  cases kind <;> cases b <;>
    simp [KNames.cellStepNames, KNames.cellInitNames, KNames.stepNames, KNames.initNames,
      KNames.deltaNames, KKind.extra]

/-- C95. The documentation of multicell kernels says that the kernels may have different biases. With
a first cell without bias and a second with one, any accepted step of the second raises. -/
theorem C95_multicell_mixed_bias [Add V] (cont : NTrace TName (List (Option (List V))))
    (init : NTrace TName V) (st : NStepTr TName V) (blocks : List (List (List (NStepTr TName V))))
    (hi : init.map Prod.fst = (⟨.metropolis, false, false⟩ : KNames).cellInitNames)
    (hs : st.delta.map Prod.fst = (⟨.metropolis, true, true⟩ : KNames).deltaNames)
    (ha : st.accepted = true) (hb : [st] ∈ blocks.flatten) :
    (traceRun cont [init] blocks).2 = true := by
  by_contra hc
  rw [Bool.not_eq_true, C95_raises] at hc
  obtain ⟨t0, rest, he, -, h2, -⟩ := hc
  obtain ⟨rfl, -⟩ := List.cons.inj he
  obtain ⟨b, hbm, hm⟩ := List.mem_flatten.1 hb
  have := (h2 b hbm [st] hm st List.mem_cons_self).2 ha TName.bias (by rw [hs]; decide)
  rw [hi] at this
  revert this
  decide

/-- Two walkers without bias: a bias set on the second raises only when its step is accepted. -/
example : ∀ a : Bool, (traceRun (V := ℤ) (α := TName)
    ((⟨.uniformlyRandom, false, false⟩ : KNames).initNames.map fun n => (n, []))
    [(⟨.uniformlyRandom, false, false⟩ : KNames).initNames.map fun n => (n, 0),
     (⟨.uniformlyRandom, true, true⟩ : KNames).initNames.map fun n => (n, 0)]
    [[[⟨(⟨.uniformlyRandom, false, false⟩ : KNames).stepNames.map fun n => (n, 1),
        (⟨.uniformlyRandom, false, false⟩ : KNames).deltaNames.map fun n => (n, 1), true⟩,
       ⟨(⟨.uniformlyRandom, true, true⟩ : KNames).stepNames.map fun n => (n, 1),
        (⟨.uniformlyRandom, true, true⟩ : KNames).deltaNames.map fun n => (n, 1), a⟩]]]).2 = a := by
  decide

/-- Traces of two Metropolis walkers with biases, one of which was replaced, meet `KernelTraces`. -/
example : KernelTraces (V := ℤ)
    ([(1, true), (0, false)].foldl setBiasOf (List.replicate 2 ⟨.metropolis, true, true⟩))
    [(⟨.metropolis, true, true⟩ : KNames).initNames.map fun n => (n, 0),
     (⟨.metropolis, true, true⟩ : KNames).initNames.map fun n => (n, 0)] [[]] := by
  refine ⟨by decide, fun b hb sts hs => ?_⟩
  simp only [List.mem_singleton] at hb
  subst hb
  cases hs

end Smol
