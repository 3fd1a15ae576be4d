import Verif.Lemmas.Container
import Verif.Spec.Container

/-!
# C20 Sample container, C21 streaming, C23 minimum energy sample, C58 temperature and annealing
-/

namespace Smol
open Spec

/-! ### C20 -/

section C20
variable {α : Type*}

/-- The requests of a history that matter for what is recorded. -/
def Container.Op.request : Container.Op α → Option (Option α)
  | .save _ y => some (some y)
  | .clear => some none
  | .allocate _ => none
  | .vacuum => none

/-- The same for the number of steps. -/
def Container.Op.stepRequest : Container.Op α → Option (Option ℕ)
  | .save thin _ => some (some thin)
  | .clear => some none
  | .allocate _ => none
  | .vacuum => none

theorem recorded_append (rs : List (Option α)) (r : Option α) :
    recorded (rs ++ [r]) = match r with | none => [] | some y => recorded rs ++ [y] := by
  have h : ∀ l : List (Option α), recorded l =
      l.foldl (fun l r => match r with | none => [] | some y => l ++ [y]) [] := by
    intro l; cases l <;> rfl
  rw [h, h, List.foldl_append]
  rfl

theorem Container.run_append (c : Container α) (a b : List (Container.Op α)) :
    c.run (a ++ b) = (c.run a).bind fun c => c.run b := by
  induction a generalizing c with
  | nil => rfl
  | cons o a ih =>
    rw [List.cons_append, Container.run, Container.run]
    cases c.step o with
    | none => rfl
    | some c' => exact ih c'

/-- C20. After any sequence of operations that did not raise, the container reports the number of
traces saved since the last `clear`, holds exactly these in the order they were saved, and the
remaining rows are unused. -/
theorem C20_holds_saved (ops : List (Container.Op α)) (c : Container α)
    (h : Container.new.run ops = some c) :
    c.nsamples = (recorded (ops.filterMap Container.Op.request)).length ∧
    c.rows.take c.nsamples = (recorded (ops.filterMap Container.Op.request)).map some ∧
    ∀ r ∈ c.rows.drop c.nsamples, r = none := by
  induction ops using List.reverseRecOn generalizing c with
  | nil =>
    simp only [Container.run, Option.some.injEq] at h
    subst h
    simp [Container.new, recorded]
  | append_singleton ops o ih =>
    rw [Container.run_append] at h
    cases h1 : Container.new.run ops with
    | none => rw [h1] at h; cases h
    | some d =>
      rw [h1, Option.bind_some] at h
      obtain ⟨i1, i2, i3⟩ := ih d h1
      rw [List.filterMap_append]
      cases o with
      | save thin y =>
        simp only [Container.run, Container.step] at h
        unfold Container.save at h
        split at h
        swap; · cases h
        rename_i hlt
        simp only [Option.bind_some, Option.some.injEq] at h
        subst h
        rw [show [Container.Op.save thin y].filterMap Container.Op.request = [some y] from rfl,
          recorded_append]
        refine ⟨by simp [i1], ?_, ?_⟩
        · simp only
          rw [List.take_add_one, List.take_set, List.set_eq_of_length_le (by simp),
            List.getElem?_set_self hlt, i2]
          simp
        · intro r hr
          apply i3
          simp only at hr
          rw [List.drop_set, if_pos (by omega)] at hr
          rw [List.drop_eq_getElem_cons hlt]
          exact List.mem_cons_of_mem _ hr
      | clear =>
        simp only [Container.run, Container.step, Option.bind_some, Option.some.injEq] at h
        subst h
        rw [show [(Container.Op.clear : Container.Op α)].filterMap Container.Op.request = [none]
          from rfl, recorded_append]
        simp [Container.clear]
      | allocate n =>
        simp only [Container.run, Container.step, Option.bind_some, Option.some.injEq] at h
        subst h
        have hle : d.nsamples ≤ d.rows.length := by
          have := congrArg List.length i2
          rw [List.length_take, List.length_map, ← i1] at this
          omega
        rw [show [(Container.Op.allocate n : Container.Op α)].filterMap Container.Op.request = []
          from rfl, List.append_nil]
        simp only [Container.allocate]
        refine ⟨i1, ?_, ?_⟩
        · rw [List.take_append_of_le_length hle, i2]
        · intro r hr
          rw [List.drop_append_of_le_length hle] at hr
          rcases List.mem_append.1 hr with h | h
          · exact i3 r h
          · exact (List.mem_replicate.1 h).2
      | vacuum =>
        simp only [Container.run, Container.step, Option.bind_some, Option.some.injEq] at h
        subst h
        rw [show [(Container.Op.vacuum : Container.Op α)].filterMap Container.Op.request = []
          from rfl, List.append_nil]
        simp only [Container.vacuum]
        refine ⟨i1, ?_, ?_⟩
        · rw [List.take_take, min_self, i2]
        · intro r hr
          simp at hr

/-- C20. `total_mc_steps` is the sum of the thinning amounts of the saves since the last `clear`. -/
theorem C20_total_steps (ops : List (Container.Op α)) (c : Container α)
    (h : Container.new.run ops = some c) :
    c.totalSteps = (recorded (ops.filterMap Container.Op.stepRequest)).sum := by
  induction ops using List.reverseRecOn generalizing c with
  | nil =>
    simp only [Container.run, Option.some.injEq] at h
    subst h
    simp [Container.new, recorded]
  | append_singleton ops o ih =>
    rw [Container.run_append] at h
    cases h1 : Container.new.run ops with
    | none => rw [h1] at h; cases h
    | some d =>
      rw [h1, Option.bind_some] at h
      have i1 := ih d h1
      rw [List.filterMap_append]
      cases o with
      | save thin y =>
        simp only [Container.run, Container.step] at h
        unfold Container.save at h
        split at h
        swap; · cases h
        simp only [Option.bind_some, Option.some.injEq] at h
        subst h
        rw [show [Container.Op.save thin y].filterMap Container.Op.stepRequest = [some thin]
          from rfl, recorded_append]
        simp [i1]
      | clear =>
        simp only [Container.run, Container.step, Option.bind_some, Option.some.injEq] at h
        subst h
        rw [show [(Container.Op.clear : Container.Op α)].filterMap Container.Op.stepRequest = [none]
          from rfl, recorded_append]
        simp [Container.clear]
      | allocate n =>
        simp only [Container.run, Container.step, Option.bind_some, Option.some.injEq] at h
        subst h
        rw [show [(Container.Op.allocate n : Container.Op α)].filterMap Container.Op.stepRequest = []
          from rfl, List.append_nil]
        exact i1
      | vacuum =>
        simp only [Container.run, Container.step, Option.bind_some, Option.some.injEq] at h
        subst h
        rw [show [(Container.Op.vacuum : Container.Op α)].filterMap Container.Op.stepRequest = []
          from rfl, List.append_nil]
        exact i1

/-- C20. Saving raises exactly when every allocated row is used. -/
theorem C20_save_error_iff (ops : List (Container.Op α)) (c : Container α)
    (h : Container.new.run ops = some c) (thin : ℕ) (y : α) :
    c.save thin y = none ↔
      c.rows = (recorded (ops.filterMap Container.Op.request)).map some := by
  obtain ⟨i1, i2, i3⟩ := C20_holds_saved ops c h
  have hle : c.nsamples ≤ c.rows.length := by
    have := congrArg List.length i2
    rw [List.length_take, List.length_map, ← i1] at this
    omega
  unfold Container.save
  constructor
  · intro hs
    split at hs
    · cases hs
    · rw [← i2, List.take_of_length_le (by omega)]
  · intro hs
    rw [if_neg]
    have := congrArg List.length hs
    rw [List.length_map, ← i1] at this
    omega

/-- C20. Getter with `discard = d` and `thin_by = t` on a container without unused rows: it returns
samples `d + t - 1, d + 2t - 1, ...`, and `(n - d) // t` of them, the number that
`get_species_counts` assumes. -/
theorem C20_getter (ops : List (Container.Op α)) (c : Container α)
    (h : Container.new.run ops = some c) (hfull : c.rows.length = c.nsamples)
    (d t : ℕ) (ht : 1 ≤ t) :
    ∃ sel, c.getTrace d t = some sel ∧ sel.length = (c.nsamples - d) / t ∧
      sel.length = c.numSelected d t ∧
      ∀ k < (c.nsamples - d) / t, ∃ y,
        (recorded (ops.filterMap Container.Op.request))[d + (k + 1) * t - 1]? = some y ∧
        sel[k]? = some (some y) := by
  obtain ⟨i1, i2, _⟩ := C20_holds_saved ops c h
  rw [List.take_of_length_le (by omega)] at i2
  unfold Container.getTrace pySlice
  rw [if_neg (by omega)]
  have hidx : ∀ k, d + t - 1 + k * t = d + (k + 1) * t - 1 := by
    intro k
    have : (k + 1) * t = k * t + t := by ring
    omega
  have hin : ∀ k < (c.nsamples - d) / t, d + t - 1 + k * t < c.rows.length := by
    intro k hk
    have h1 : (k + 1) * t ≤ (c.nsamples - d) / t * t := Nat.mul_le_mul_right t hk
    have h2 := Nat.div_mul_le_self (c.nsamples - d) t
    have h3 : 1 * t ≤ (k + 1) * t := Nat.mul_le_mul_right t (by omega)
    rw [hidx, hfull]
    omega
  have hout : ∀ k, (c.nsamples - d) / t ≤ k → c.rows.length ≤ d + t - 1 + k * t := by
    intro k hk
    have h1 := Nat.lt_mul_of_div_lt (Nat.lt_succ_of_le hk) (by omega : 0 < t)
    rw [Nat.succ_eq_add_one] at h1
    rw [hidx, hfull]
    omega
  have hc : (c.nsamples - d) / t ≤ c.rows.length := by
    rw [hfull]
    exact le_trans (Nat.div_le_self _ _) (Nat.sub_le _ _)
  obtain ⟨h1, h2⟩ := filterMap_range_prefix (fun k => c.rows[d + t - 1 + k * t]?) _ c.rows.length hc
    (fun k hk => by
      rw [List.getElem?_eq_getElem (hin k hk)]; rfl)
    (fun k hk => List.getElem?_eq_none (hout k hk))
  refine ⟨_, rfl, h1, by rw [h1]; rfl, ?_⟩
  intro k hk
  have hlt := hin k hk
  rw [i2, List.length_map, hidx] at hlt
  refine ⟨_, List.getElem?_eq_getElem hlt, ?_⟩
  rw [h2 k hk, i2, hidx, List.getElem?_map, List.getElem?_eq_getElem hlt]
  rfl

/-- C20, limit: while allocated rows are unused (a run interrupted before its end) a getter also
returns the unused, uninitialised rows. -/
theorem C20_unused_rows_returned :
    ∃ (ops : List (Container.Op ℕ)) (c : Container ℕ), Container.new.run ops = some c ∧
      c.nsamples = 1 ∧ c.getTrace 0 1 = some [some 7, none] :=
  ⟨[.allocate 2, .save 1 7], ⟨[some 7, none], 1, 1⟩, by decide, by decide, by decide⟩

/-- C20. Energies: whether or not the ensemble has parameters beyond the energy coefficients, the
energy of every selected sample is the dot product of the first features with the energy
coefficients, given that the recorded enthalpy is the dot product with all natural parameters. -/
theorem C20_energies {K : Type*} [CommRing K] (params : List K) (numCoefs : ℕ)
    (sel : List (List (Row K))) (hne : sel ≠ [])
    (hrow : ∀ ws ∈ sel, ∀ r ∈ ws, r.features.length = params.length ∧
      r.enthalpy = (List.zipWith (· * ·) params r.features).sum) :
    ∃ e, getEnergies params numCoefs sel = some e ∧ e.length = sel.length ∧
      ∀ (k i : ℕ) (ws : List (Row K)) (r : Row K), sel[k]? = some ws → ws[i]? = some r →
        ∃ es, e[k]? = some es ∧ es[i]? = some
          (List.zipWith (· * ·) (r.features.take numCoefs) (params.take numCoefs)).sum := by
  unfold getEnergies
  split
  · rename_i hlen
    refine ⟨_, rfl, by simp, ?_⟩
    intro k i ws r hk hi
    refine ⟨ws.map Row.enthalpy, by rw [List.getElem?_map, hk]; rfl, ?_⟩
    rw [List.getElem?_map, hi, Option.map_some]
    obtain ⟨h1, h2⟩ := hrow ws (List.mem_of_getElem? hk) r (List.mem_of_getElem? hi)
    rw [h2, List.take_of_length_le (by omega), List.take_of_length_le (by omega),
      List.zipWith_comm_of_comm (fun a b => mul_comm a b)]
  · rw [if_neg]
    · refine ⟨_, rfl, by simp, ?_⟩
      intro k i ws r hk hi
      refine ⟨_, by rw [List.getElem?_map, hk]; rfl, ?_⟩
      rw [List.getElem?_map, hi]
      rfl
    · push Not
      refine ⟨hne, fun ws hws r hr => ?_⟩
      rw [List.length_take, List.length_take, (hrow ws hws r hr).1]

/-- five samples, the first two discarded and thinned by two -/
example : (Container.new.run ([.allocate 3, .save 10 1, .allocate 3, .save 10 2, .save 10 3,
    .save 10 4, .save 10 5, .vacuum] : List (Container.Op ℕ))).bind (fun c =>
      (c.getTrace 1 2).map fun s => (s, c.numSelected 1 2, c.totalSteps)) =
      some ([some 3, some 5], 2, 50) := by decide

example : getEnergies [2, 3, -1] 2 [[(⟨fun _ => 0, [1, 4, 5], 9, none, true⟩ : Row ℤ)]] =
    some [[14]] := by decide

end C20

/-! ### C21 -/

section C21
variable {α : Type*}

/-- A container as it is when a run starts: new or cleared, or keeping a flushed last chunk. -/
def Container.Ready (chunk : ℕ) (c : Container α) : Prop :=
  c.nsamples = 0 ∧ c.totalSteps = 0 ∧ (c.rows = [] ∨ c.rows.length = chunk)

/-- What an existing file holds. -/
def fileRead (f : Option (Backend α)) : List (Option α) := (f.map Backend.read).getD []

/-- The attributes of a file fit its data sets. -/
def FileOk (f : Option (Backend α)) : Prop := ∀ b ∈ f, b.nsamples ≤ b.rows.length

theorem getBackend_spec (f : Option (Backend α)) (hf : FileOk f) (n : ℕ) :
    (getBackend f n).read = fileRead f ∧
      (getBackend f n).nsamples + n ≤ (getBackend f n).rows.length ∧
      (getBackend f n).nsamples = ((f.map Backend.nsamples).getD 0) ∧
      (getBackend f n).totalSteps = ((f.map Backend.totalSteps).getD 0) := by
  cases f with
  | none => simp [getBackend, Backend.read, fileRead]
  | some b =>
    have := hf b rfl
    simp only [getBackend, fileRead, Option.map_some, Option.getD_some]
    split
    · refine ⟨?_, ?_, rfl, rfl⟩
      · simp only [Backend.read]
        rw [List.take_append_of_le_length this]
      · simp only [List.length_append, List.length_replicate]; omega
    · exact ⟨rfl, by omega, rfl, rfl⟩

/-- C21. A streaming run never raises, appends to the file every sample of a full chunk, in order
and nothing else, and keeps the sample and step counters of the file right. -/
theorem C21_stream_appends (chunk thin : ℕ) (hchunk : 0 < chunk) (keep : Bool) (ys : List α)
    (c : Container α) (hc : c.Ready chunk) (f : Option (Backend α)) (hf : FileOk f) :
    ∃ c' b', runStream chunk thin keep ys c f = some (c', b') ∧ FileOk (some b') ∧
      b'.read = fileRead f ++ (ys.take (chunk * (ys.length / chunk))).map some ∧
      b'.nsamples = (f.map Backend.nsamples).getD 0 + chunk * (ys.length / chunk) ∧
      b'.totalSteps = (f.map Backend.totalSteps).getD 0 + chunk * (ys.length / chunk) * thin ∧
      (keep = false → c' = Container.new) ∧
      (chunk ∣ ys.length → c'.Ready chunk ∧ (keep = true → ∀ y ∈ ys.getLast?,
        c'.rows.getLast? = some (some y))) := by
  obtain ⟨h0, h0', hr⟩ := hc
  obtain ⟨g1, g2, g3, g4⟩ := getBackend_spec f hf ys.length
  set c1 : Container α := if c.rows.length = 0 then c.allocate chunk else c with hc1
  have hc1rows : c1.rows.length = chunk := by
    rw [hc1]
    rcases hr with hr | hr
    · rw [hr]; simp [Container.allocate, hr]
    · rw [if_neg (by omega)]; exact hr
  have hc1n : c1.nsamples = 0 := by rw [hc1]; split <;> exact h0
  have hc1t : c1.totalSteps = 0 := by rw [hc1]; split <;> exact h0'
  obtain ⟨c', b', s1, s2, s3, s4, s5, s6, s7, s8, s9, s10⟩ :=
    streamLoop_spec chunk thin hchunk ys 0 c1 (getBackend f ys.length) hc1rows
      (by rw [hc1n, Nat.zero_mod]) (by rw [hc1n, hc1t, Nat.zero_mul])
      (by rw [hc1n]; omega) (ys.map some) (by rw [hc1n]; simp)
  rw [List.length_map] at s3 s5 s7 s8 s9
  refine ⟨if keep then c' else c'.clear, b', ?_, ?_, ?_, ?_, ?_, ?_, ?_⟩
  · unfold runStream
    simp only
    rw [← hc1, s1]
    rfl
  · intro b hb
    simp only [Option.mem_def, Option.some.injEq] at hb
    subst hb
    rw [s7, s6]
    have := Nat.mul_div_le ys.length chunk
    omega
  · rw [s9, g1, List.map_take]
  · rw [s7, g3]
  · rw [s8, g4]
  · rintro rfl; rfl
  · rintro hdvd
    have hz : c'.nsamples = 0 := by rw [s3, Nat.mod_eq_zero_of_dvd hdvd]
    cases keep with
    | false => exact ⟨⟨rfl, rfl, Or.inl rfl⟩, by simp⟩
    | true =>
      refine ⟨⟨hz, by simp [s4, hz], Or.inr s2⟩, fun _ y hy => s10 hz y hy⟩

theorem streamLoop_rows (chunk thin : ℕ) (ys : List α) (i : ℕ) (c c' : Container α) (b b' : Backend α)
    (h : streamLoop chunk thin i ys (c, b) = some (c', b')) : b'.rows.length = b.rows.length := by
  induction ys generalizing i c b with
  | nil =>
    simp only [streamLoop, Option.some.injEq, Prod.mk.injEq] at h
    rw [h.2]
  | cons y ys ih =>
    rw [streamLoop] at h
    obtain ⟨c1, -, h⟩ := Option.bind_eq_some_iff.1 h
    split at h
    · obtain ⟨⟨c2, b2⟩, h2, h⟩ := Option.bind_eq_some_iff.1 h
      rw [ih _ _ _ h]
      unfold Container.flush at h2
      split at h2
      · rename_i hcond
        obtain ⟨-, rfl⟩ := Prod.mk.inj (Option.some.inj h2)
        simp only [List.length_append, List.length_take, List.length_drop]
        omega
      · simp at h2
    · exact ih _ _ _ h

/-- C21. A file grows only by the rows that are missing: after a run it has the rows it had, or as
many as its samples and those of the run need.  With full chunks, a file without unused rows has
none afterwards. -/
theorem C21_file_size (chunk thin : ℕ) (hchunk : 0 < chunk) (keep : Bool) (ys : List α)
    (c c' : Container α) (hc : c.Ready chunk) (f : Option (Backend α)) (hf : FileOk f)
    (b' : Backend α) (h : runStream chunk thin keep ys c f = some (c', b')) :
    b'.rows.length = max ((f.map fun b => b.rows.length).getD 0)
      ((f.map Backend.nsamples).getD 0 + ys.length) ∧
    (chunk ∣ ys.length → (∀ b ∈ f, b.rows.length = b.nsamples) → b'.rows.length = b'.nsamples) := by
  have key : b'.rows.length = max ((f.map fun b => b.rows.length).getD 0)
      ((f.map Backend.nsamples).getD 0 + ys.length) := by
    unfold runStream at h
    obtain ⟨⟨c3, b3⟩, h5, h6⟩ := Option.map_eq_some_iff.1 h
    obtain ⟨-, rfl⟩ := Prod.mk.inj h6
    rw [streamLoop_rows _ _ _ _ _ _ _ _ h5]
    cases f with
    | none => simp [getBackend]
    | some b =>
      have := hf b rfl
      simp only [getBackend, Option.map_some, Option.getD_some]
      split
      · simp only [List.length_append, List.length_replicate]; omega
      · omega
  refine ⟨key, fun hd hfull => ?_⟩
  obtain ⟨c2, b2, h1, -, -, h4, -⟩ := C21_stream_appends chunk thin hchunk keep ys c hc f hf
  rw [h] at h1
  obtain ⟨rfl, rfl⟩ := Prod.mk.inj (Option.some.inj h1)
  rw [key, h4, Nat.mul_div_cancel' hd]
  cases f with
  | none => simp
  | some b =>
    have := hfull b rfl
    simp only [Option.map_some, Option.getD_some]
    omega

/-- C21. Any number of streaming runs, with any chunk sizes: the file holds, one after the other,
the samples of the full chunks of each run. -/
theorem C21_repeated_runs (runs : List (ℕ × ℕ × List α)) (hpos : ∀ r ∈ runs, 0 < r.1)
    (f : Option (Backend α)) (hf : FileOk f) :
    ∃ f', runsStream runs Container.new f = some (Container.new, f') ∧ FileOk f' ∧
      fileRead f' = fileRead f ++
        (runs.flatMap fun r => r.2.2.take (r.1 * (r.2.2.length / r.1))).map some := by
  induction runs generalizing f with
  | nil => exact ⟨f, rfl, hf, by simp⟩
  | cons r rs ih =>
    obtain ⟨c', b', s1, s2, s3, _, _, s6, _⟩ := C21_stream_appends r.1 r.2.1 (hpos r (by simp)) false
      r.2.2 Container.new ⟨rfl, rfl, Or.inl rfl⟩ f hf
    obtain ⟨f', t1, t2, t3⟩ := ih (fun q hq => hpos q (List.mem_cons_of_mem _ hq)) (some b') s2
    refine ⟨f', ?_, t2, ?_⟩
    · rw [runsStream, s1, Option.bind_some, s6 rfl, t1]
    · rw [t3]
      simp only [fileRead, Option.map_some, Option.getD_some] at s3 ⊢
      rw [s3]
      simp [List.append_assoc]

theorem runMemory_spec (thin : ℕ) (ys : List α) (c : Container α)
    (hfull : c.rows.length = c.nsamples) :
    runMemory thin ys c = some ⟨c.rows ++ ys.map some, c.nsamples + ys.length,
      c.totalSteps + ys.length * thin⟩ := by
  unfold runMemory
  rw [saveAll_spec thin ys _ c.rows ys.length rfl (by simp [Container.allocate, hfull]) (le_refl _)]
  simp [Container.allocate, hfull]

theorem runsMemory_spec (runs : List (ℕ × ℕ × List α)) (c : Container α)
    (hfull : c.rows.length = c.nsamples) :
    ∃ c', runsMemory runs c = some c' ∧ c'.rows.length = c'.nsamples ∧
      c'.rows = c.rows ++ (runs.flatMap fun r => r.2.2).map some := by
  induction runs generalizing c with
  | nil => exact ⟨c, rfl, hfull, by simp⟩
  | cons r rs ih =>
    rw [runsMemory, runMemory_spec _ _ c hfull, Option.bind_some]
    obtain ⟨c', h1, h2, h3⟩ := ih ⟨c.rows ++ r.2.2.map some, c.nsamples + r.2.2.length,
      c.totalSteps + r.2.2.length * r.2.1⟩ (by simp [hfull])
    exact ⟨c', h1, h2, by rw [h3]; simp [List.append_assoc]⟩

/-- C21. If every run has a multiple of its chunk size of samples, the file holds the same sequence
of samples as a container filled by the same runs in memory. -/
theorem C21_same_as_memory (runs : List (ℕ × ℕ × List α)) (hpos : ∀ r ∈ runs, 0 < r.1)
    (hdvd : ∀ r ∈ runs, r.1 ∣ r.2.2.length) :
    ∃ f c, runsStream runs Container.new none = some (Container.new, f) ∧
      runsMemory runs Container.new = some c ∧ fileRead f = c.rows ∧
      c.rows = (runs.flatMap fun r => r.2.2).map some := by
  obtain ⟨f, h1, _, h3⟩ := C21_repeated_runs runs hpos none (by intro b hb; simp at hb)
  obtain ⟨c, g1, _, g3⟩ := runsMemory_spec runs (Container.new (α := α)) rfl
  refine ⟨f, c, h1, g1, ?_, by rw [g3]; simp [Container.new]⟩
  rw [h3, g3]
  simp only [fileRead, Option.map_none, Option.getD_none, Container.new]
  congr 2
  clear h1 h3 g1 g3
  induction runs with
  | nil => rfl
  | cons r rs ih =>
    rw [List.flatMap_cons, List.flatMap_cons, ih (fun q hq => hpos q (List.mem_cons_of_mem _ hq))
      (fun q hq => hdvd q (List.mem_cons_of_mem _ hq)), Nat.mul_div_cancel' (hdvd r (by simp)),
      List.take_length]

/-- C21, the claim is false without divisibility: five samples streamed in chunks of two leave four
in the file; the fifth is neither there nor in memory. -/
theorem C21_tail_lost : ∃ (ys : List ℕ) (c : Container ℕ) (b : Backend ℕ),
    runStream 2 1 false ys Container.new none = some (c, b) ∧ ys = [1, 2, 3, 4, 5] ∧
      b.read = [some 1, some 2, some 3, some 4] ∧ c = Container.new :=
  ⟨[1, 2, 3, 4, 5], Container.new, ⟨[some 1, some 2, some 3, some 4, none], 4, 4⟩, by decide,
    by decide, by decide, by decide⟩

/-- C21. With `keep_last_chunk` (as `anneal` does) and a remainder, the next streaming run raises:
the container still counts the unflushed samples and runs out of rows. -/
theorem C21_keep_remainder_raises : ∃ (ys zs : List ℕ) (c : Container ℕ) (b : Backend ℕ),
    runStream 2 1 true ys Container.new none = some (c, b) ∧
      runStream 2 1 true zs c (some b) = none :=
  ⟨[1, 2, 3], [4, 5], ⟨[some 3, some 2], 1, 1⟩, ⟨[some 1, some 2, none], 2, 2⟩, by decide,
    by decide⟩

/-- C21. Streaming after a run in memory raises, whatever the lengths: no row is left for the first
sample. -/
theorem C21_stream_after_memory_raises (chunk thin thin' : ℕ) (keep : Bool) (y z : α)
    (ys zs : List α) (f : Option (Backend α)) :
    (runMemory thin (y :: ys) Container.new).bind
      (fun c => runStream chunk thin' keep (z :: zs) c f) = none := by
  rw [runMemory_spec _ _ _ rfl, Option.bind_some]
  simp [runStream, Container.new, streamLoop, Container.save]

example : (runsStream [(2, 3, [1, 2, 3, 4]), (3, 1, [5, 6, 7])] (Container.new (α := ℕ)) none).map
    (fun p => (fileRead p.2, p.2.map Backend.totalSteps)) =
      some ([1, 2, 3, 4, 5, 6, 7].map some, some 15) := by decide

end C21

/-! ### C23 -/

section C23
variable {K : Type*} [LinearOrder K]

theorem argminFrom_spec (pre : List K) (xs : List K) (best : K) (bi : ℕ)
    (hb : pre[bi]? = some best) (hmin : ∀ x ∈ pre, best ≤ x) (hfirst : ∀ (j : ℕ) (x : K), j < bi →
      pre[j]? = some x → best < x) :
    ∃ b, (pre ++ xs)[argminFrom best bi pre.length xs]? = some b ∧ (∀ x ∈ pre ++ xs, b ≤ x) ∧
      ∀ (j : ℕ) (x : K), j < argminFrom best bi pre.length xs → (pre ++ xs)[j]? = some x → b < x := by
  induction xs generalizing pre best bi with
  | nil => exact ⟨best, by simpa [argminFrom] using hb, by simpa using hmin,
      by simpa [argminFrom] using hfirst⟩
  | cons x xs ih =>
    have happ : pre ++ x :: xs = (pre ++ [x]) ++ xs := by simp
    have hlen : pre.length + 1 = (pre ++ [x]).length := by simp
    have hbi : bi < pre.length := (List.getElem?_eq_some_iff.1 hb).1
    rw [argminFrom, happ, hlen]
    split
    · rename_i hlt
      refine ih (pre ++ [x]) x pre.length ?_ ?_ ?_
      · simp
      · intro y hy
        rcases List.mem_append.1 hy with h | h
        · exact le_of_lt (lt_of_lt_of_le hlt (hmin y h))
        · simp at h; rw [h]
      · intro j y hj hy
        rw [List.getElem?_append_left hj] at hy
        exact lt_of_lt_of_le hlt (hmin y (List.mem_of_getElem? hy))
    · rename_i hge
      refine ih (pre ++ [x]) best bi ?_ ?_ ?_
      · rw [List.getElem?_append_left hbi]; exact hb
      · intro y hy
        rcases List.mem_append.1 hy with h | h
        · exact hmin y h
        · simp at h; rw [h]; exact not_lt.1 hge
      · intro j y hj hy
        rw [List.getElem?_append_left (by omega)] at hy
        exact hfirst j y hj hy

theorem argmin_spec (l : List K) (hl : l ≠ []) :
    ∃ i b, argmin l = some i ∧ l[i]? = some b ∧ ∀ x ∈ l, b ≤ x := by
  cases l with
  | nil => exact absurd rfl hl
  | cons x xs =>
    obtain ⟨b, h1, h2, _⟩ := argminFrom_spec [x] xs x 0 rfl (by simp) (by simp)
    exact ⟨_, b, rfl, h1, h2⟩

/-- position in the flattened array -/
theorem flatten_getElem {β γ : Type*} (e : List (List β)) (o : List (List γ))
    (h : e.map List.length = o.map List.length) (i : ℕ) (b : β) (hb : e.flatten[i]? = some b) :
    ∃ (k w : ℕ) (es : List β) (os : List γ) (x : γ), e[k]? = some es ∧ o[k]? = some os ∧
      es[w]? = some b ∧ os[w]? = some x ∧ o.flatten[i]? = some x := by
  induction e generalizing o i with
  | nil => simp at hb
  | cons es e ih =>
    cases o with
    | nil => simp at h
    | cons os o =>
      simp only [List.map_cons, List.cons.injEq] at h
      rw [List.flatten_cons] at hb ⊢
      by_cases hi : i < es.length
      · rw [List.getElem?_append_left hi] at hb
        refine ⟨0, i, es, os, os[i]'(by omega), rfl, rfl, hb, List.getElem?_eq_getElem (by omega), ?_⟩
        rw [List.getElem?_append_left (by omega)]
        exact List.getElem?_eq_getElem (by omega)
      · rw [List.getElem?_append_right (by omega)] at hb
        obtain ⟨k, w, es', os', x, h1, h2, h3, h4, h5⟩ := ih o h.2 _ hb
        refine ⟨k + 1, w, es', os', x, h1, h2, h3, h4, ?_⟩
        rw [List.getElem?_append_right (by omega), ← h.1]
        exact h5

/-- C23. `flat=True`, at least two rows selected and at least two sites: the occupancy returned is
the one recorded, for some sample and walker, together with a smallest value. -/
theorem C23_flat_minimum (n : ℕ) (hn : n ≠ 1) (e : List (List K)) (occ : List (List (List ℕ)))
    (hshape : e.map List.length = occ.map List.length) (h2 : 2 ≤ e.flatten.length) :
    ∃ x, minOccFlat n e occ = some (.vec x) ∧
      ∃ (k w : ℕ) (es : List K) (os : List (List ℕ)) (b : K), e[k]? = some es ∧ occ[k]? = some os ∧
        es[w]? = some b ∧ os[w]? = some x ∧ ∀ fs ∈ e, ∀ y ∈ fs, b ≤ y := by
  obtain ⟨i, b, h1, hb, hmin⟩ := argmin_spec e.flatten (by intro h; rw [h] at h2; simp at h2)
  obtain ⟨k, w, es, os, x, g1, g2, g3, g4, g5⟩ := flatten_getElem e occ hshape i b hb
  have hlen : occ.flatten.length = e.flatten.length := by
    rw [List.length_flatten, List.length_flatten, hshape]
  refine ⟨x, ?_, k, w, es, os, b, g1, g2, g3, g4, ?_⟩
  · unfold minOccFlat
    rw [h1, Option.bind_some]
    have hsq : squeeze n occ.flatten = .mat occ.flatten := by
      unfold squeeze
      split
      · rename_i r hr
        rw [hr, List.length_singleton] at hlen
        omega
      · rw [if_neg hn]
    rw [hsq, Arr.index, g5]
    rfl
  · intro fs hfs y hy
    exact hmin y (List.mem_flatten.2 ⟨fs, hfs, hy⟩)

/-- C23, the claim is false when a single row is selected: `_flatten` squeezes the array and the
"occupancy" returned is the code of one site. -/
theorem C23_single_sample_fails :
    minOccFlat 3 [[(5 : ℤ)]] [[[1, 0, 2]]] = some (.scalar 1) := by decide

theorem column_getElem {β : Type*} (l : List (List β)) (h : ∀ ws ∈ l, ws.length = 1) :
    l.map (fun ws => ws[0]?) = (column l 0).map some := by
  unfold column
  induction l with
  | nil => rfl
  | cons ws l ih =>
    obtain ⟨x, rfl⟩ := List.length_eq_one_iff.1 (h ws (by simp))
    rw [List.map_cons, ih fun ws hw => h ws (List.mem_cons_of_mem _ hw)]
    simp

/-- C23. `flat=False` with one walker: the occupancy recorded with a smallest value.
`_partial`: the claim for several walkers is false, `C23_walkers_fail`. -/
theorem C23_one_walker_partial (e : List (List K)) (occ : List (List (List ℕ)))
    (hlen : e.length = occ.length) (he : ∀ ws ∈ e, ws.length = 1)
    (ho : ∀ ws ∈ occ, ws.length = 1) (hne : e ≠ []) :
    ∃ x, minOccWalkers 1 e occ = some [x] ∧
      ∃ (k : ℕ) (b : K), e[k]? = some [b] ∧ occ[k]? = some [x] ∧ ∀ fs ∈ e, ∀ y ∈ fs, b ≤ y := by
  have hce := column_getElem e he
  have hclen : (column e 0).length = e.length := by
    have := congrArg List.length hce
    simpa using this.symm
  obtain ⟨i, b, h1, hb, hmin⟩ := argmin_spec (column e 0) (by
    intro h
    rw [h] at hclen
    exact hne (List.length_eq_zero_iff.1 hclen.symm))
  have hi : i < e.length := by rw [← hclen]; exact (List.getElem?_eq_some_iff.1 hb).1
  have hei : e[i]? = some [b] := by
    have h3 : (e.map fun ws => ws[0]?)[i]? = ((column e 0).map some)[i]? := by rw [hce]
    rw [List.getElem?_map, List.getElem?_map, hb, List.getElem?_eq_getElem hi] at h3
    simp only [Option.map_some, Option.some.injEq] at h3
    obtain ⟨y, hy⟩ := List.length_eq_one_iff.1 (he _ (List.getElem_mem hi))
    rw [List.getElem?_eq_getElem hi, hy]
    rw [hy] at h3
    simp only [List.getElem?_cons_zero, Option.some.injEq] at h3
    rw [h3]
  have hio : i < occ.length := by omega
  obtain ⟨x, hx⟩ := List.length_eq_one_iff.1 (ho _ (List.getElem_mem hio))
  have hoi : occ[i]? = some [x] := by rw [List.getElem?_eq_getElem hio, hx]
  refine ⟨x, ?_, i, b, hei, hoi, ?_⟩
  · unfold minOccWalkers
    have hr : List.range 1 = [0] := rfl
    simp [hr, h1, hoi]
  · intro fs hfs y hy
    apply hmin
    unfold column
    rw [List.mem_filterMap]
    obtain ⟨z, rfl⟩ := List.length_eq_one_iff.1 (he fs hfs)
    simp only [List.mem_singleton] at hy
    exact ⟨[z], hfs, by simp [hy]⟩

/-- C23, the claim is false for two walkers: the second walker has its smallest value 1 in the
second sample, with occupancy `[1, 1]`; the code returns its occupancy of the first sample. -/
theorem C23_walkers_fail :
    minOccWalkers 2 [[(0 : ℤ), 9], [5, 1]] [[[0, 0], [0, 1]], [[1, 0], [1, 1]]] =
      some [[0, 0], [0, 1]] := by decide

example : minOccFlat 2 [[(3 : ℤ), 9], [5, 1]] [[[0, 0], [0, 1]], [[1, 0], [1, 1]]] =
    some (.vec [1, 1]) := by decide

example : minOccWalkers 1 [[(3 : ℤ)], [1], [5]] [[[0, 0]], [[1, 0]], [[1, 1]]] = some [[1, 0]] := by
  decide

end C23

/-! ### C58 -/

section C58

/-- the temperature assigned -/
def ThermalOp.newT {K : Type*} : ThermalOp K → Option K
  | .setT x => some x
  | .setkB _ => none

/-- the kB assigned -/
def ThermalOp.newkB {K : Type*} : ThermalOp K → Option K
  | .setT _ => none
  | .setkB x => some x

/-- C58. Whatever assignments to temperature and kB a thermal kernel went through, as long as none
raised, `beta * kB * temperature = 1`, the temperature read is the last one assigned, and so is
kB. -/
theorem C58_beta_consistent {K : Type*} [Field K] [DecidableEq K] (kB t : K) (k0 k : Thermal K)
    (h0 : Thermal.init kB t = some k0) (ops : List (ThermalOp K)) (h : k0.run ops = some k) :
    k.beta * k.kB * k.temperature = 1 ∧
      k.temperature = ((ops.filterMap ThermalOp.newT).getLast?).getD t ∧
      k.kB = ((ops.filterMap ThermalOp.newkB).getLast?).getD kB := by
  have hinit : k0.beta * k0.kB * k0.temperature = 1 ∧ k0.temperature = t ∧ k0.kB = kB := by
    unfold Thermal.init at h0
    split at h0
    · cases h0
    rename_i hne
    simp only [Thermal.step, if_neg hne, Option.some.injEq] at h0
    subst h0
    refine ⟨?_, rfl, rfl⟩
    obtain ⟨ha, hb⟩ := mul_ne_zero_iff.1 hne
    simp only
    field_simp
  clear h0
  obtain ⟨i1, rfl, rfl⟩ := hinit
  induction ops generalizing k0 with
  | nil =>
    simp only [Thermal.run, Option.some.injEq] at h
    subst h
    exact ⟨i1, rfl, rfl⟩
  | cons o os ih =>
    rw [Thermal.run] at h
    split at h
    swap; · cases h
    rename_i hok
    have hstep : (k0.step o).1.beta * (k0.step o).1.kB * (k0.step o).1.temperature = 1 := by
      cases o with
      | setT x =>
        simp only [Thermal.step] at hok ⊢
        split at hok
        · cases hok
        rename_i hne
        rw [if_neg hne]
        obtain ⟨ha, hb⟩ := mul_ne_zero_iff.1 hne
        simp only
        field_simp
      | setkB x =>
        simp only [Thermal.step] at hok ⊢
        split at hok
        · cases hok
        rename_i hne
        rw [if_neg hne]
        obtain ⟨ha, hb⟩ := mul_ne_zero_iff.1 hne
        simp only
        field_simp
    obtain ⟨j1, j2, j3⟩ := ih _ h hstep
    refine ⟨j1, ?_, ?_⟩
    · rw [j2]
      cases o with
      | setT x =>
        have : (k0.step (.setT x)).1.temperature = x := by
          simp only [Thermal.step]; split <;> rfl
        rw [this, List.filterMap_cons_some (show ThermalOp.newT (.setT x) = some x from rfl),
          List.getLast?_cons]
        rfl
      | setkB x =>
        have : (k0.step (.setkB x)).1.temperature = k0.temperature := by
          simp only [Thermal.step]; split <;> rfl
        rw [this, List.filterMap_cons_none rfl]
    · rw [j3]
      cases o with
      | setT x =>
        have : (k0.step (.setT x)).1.kB = k0.kB := by
          simp only [Thermal.step]; split <;> rfl
        rw [this, List.filterMap_cons_none rfl]
      | setkB x =>
        have : (k0.step (.setkB x)).1.kB = x := by
          simp only [Thermal.step]; split <;> rfl
        rw [this, List.filterMap_cons_some (show ThermalOp.newkB (.setkB x) = some x from rfl),
          List.getLast?_cons]
        rfl

/-- C58, limit: an assignment that raises leaves the kernel inconsistent: after the refused
temperature 0, the kernel reports temperature 0 with the old beta. -/
theorem C58_refused_assignment_inconsistent : ∃ k0 : Thermal ℚ, Thermal.init 2 5 = some k0 ∧
    (k0.step (.setT 0)).2 = false ∧ (k0.step (.setT 0)).1.temperature = 0 ∧
      (k0.step (.setT 0)).1.beta = 1 / 10 :=
  ⟨⟨2, 1 / 10, 5⟩, by norm_num [Thermal.init, Thermal.step], by decide +kernel, by decide +kernel, by decide +kernel⟩

variable {α β T : Type*}

theorem annealLoop_spec (chain : T → β → List α) (occOf : α → β) (thin : ℕ)
    (hne : ∀ t o, chain t o ≠ []) (temps : List T) (init : Option β) (c : Container α)
    (hfull : c.rows.length = c.nsamples) (o : β) (ho : runStart occOf init c = some o)
    (t0 : Option T) :
    ∃ outs c', Stages chain occOf temps o outs ∧ c'.rows.length = c'.nsamples ∧
      c'.rows = c.rows ++ outs.flatten.map some ∧
      annealLoop chain occOf thin temps init c t0 =
        some (c', temps.getLast?.or t0) := by
  induction temps generalizing init c o t0 with
  | nil => exact ⟨[], c, rfl, hfull, by simp, by simp [annealLoop]⟩
  | cons t ts ih =>
    rw [annealLoop, ho, Option.bind_some, runMemory_spec _ _ _ hfull, Option.bind_some]
    set c1 : Container α := ⟨c.rows ++ (chain t o).map some, c.nsamples + (chain t o).length,
      c.totalSteps + (chain t o).length * thin⟩ with hc1
    obtain ⟨y, hy⟩ : ∃ y, (chain t o).getLast? = some y :=
      ⟨_, List.getLast?_eq_some_getLast (hne t o)⟩
    have hstart : runStart occOf none c1 = some (occOf y) := by
      simp [runStart, hc1, List.getLast?_append, List.getLast?_map, hy]
    obtain ⟨outs, c', h1, h2, h3, h4⟩ := ih none c1 (by simp [hc1, hfull]) (occOf y) hstart (some t)
    refine ⟨chain t o :: outs, c', ⟨y, outs, rfl, hy, h1⟩, h2, ?_, ?_⟩
    · rw [h3, hc1]; simp [List.append_assoc]
    · rw [h4, List.getLast?_cons]
      cases ts.getLast? <;> rfl

/-- C58. Annealing in memory, when every run records at least one sample: the temperatures are
visited in the given order, each stage starting where the previous one ended; the container gets
the samples of all stages in order; the kernels end at the last temperature. -/
theorem C58_anneal [LT T] [DecidableLT T] (chain : T → β → List α) (occOf : α → β) (thin : ℕ)
    (hne : ∀ t o, chain t o ≠ []) (temps : List T) (first last : T)
    (hfirst : temps.head? = some first) (hlast : temps.getLast? = some last)
    (horder : ¬ first < last) (o : β) (c : Container α) (hfull : c.rows.length = c.nsamples)
    (t0 : Option T) :
    ∃ outs c', anneal chain occOf thin temps (some o) c t0 = some (c', some last) ∧
      Stages chain occOf temps o outs ∧ c'.rows = c.rows ++ outs.flatten.map some := by
  obtain ⟨outs, c', h1, _, h3, h4⟩ := annealLoop_spec chain occOf thin hne temps (some o) c hfull o
    rfl t0
  refine ⟨outs, c', ?_, h1, h3⟩
  unfold anneal
  rw [hfirst, hlast]
  simp only
  rw [if_neg horder, h4, hlast]
  rfl

/-- C58. Annealing is refused exactly when the first temperature is below the last (temperatures
between them are not looked at), or there are none. -/
theorem C58_anneal_refused_iff [LT T] [DecidableLT T] (chain : T → β → List α) (occOf : α → β)
    (thin : ℕ) (hne : ∀ t o, chain t o ≠ []) (temps : List T) (o : β) (c : Container α)
    (hfull : c.rows.length = c.nsamples) (t0 : Option T) :
    anneal chain occOf thin temps (some o) c t0 = none ↔
      temps = [] ∨ ∃ a z, temps.head? = some a ∧ temps.getLast? = some z ∧ a < z := by
  cases temps with
  | nil => simp [anneal]
  | cons t ts =>
    obtain ⟨z, hz⟩ : ∃ z, (t :: ts).getLast? = some z :=
      ⟨_, List.getLast?_eq_some_getLast (by simp)⟩
    constructor
    · intro h
      right
      refine ⟨t, z, rfl, hz, ?_⟩
      by_contra hlt
      obtain ⟨outs, c', h1, _⟩ := C58_anneal chain occOf thin hne (t :: ts) t z rfl hz hlt o c hfull t0
      rw [h1] at h
      cases h
    · rintro (h | ⟨a, z', h1, h2, h3⟩)
      · cases h
      · unfold anneal
        rw [h1, h2]
        simp only
        rw [if_pos h3]

/-- C58. Annealing with streaming, when every run records a positive multiple of the chunk: the
file gets the samples of all stages in order and memory is cleared. -/
theorem C58_anneal_streaming (chain : T → β → List α) (occOf : α → β) (chunk thin : ℕ)
    (hchunk : 0 < chunk) (hne : ∀ t o, chain t o ≠ []) (hdvd : ∀ t o, chunk ∣ (chain t o).length)
    (temps : List T) (hts : temps ≠ []) (o : β) (f : Option (Backend α)) (hf : FileOk f)
    (t0 : Option T) :
    ∃ outs f', annealStreamLoop chain occOf chunk thin temps (some o) Container.new f t0 =
        some (Container.new, f', temps.getLast?) ∧
      Stages chain occOf temps o outs ∧ fileRead f' = fileRead f ++ outs.flatten.map some := by
  have key : ∀ (temps : List T) (init : Option β) (c : Container α) (f : Option (Backend α))
      (o : β) (t0 : Option T), c.Ready chunk → FileOk f → runStart occOf init c = some o →
      ∃ outs f', annealStreamLoop chain occOf chunk thin temps init c f t0 =
        some (Container.new, f', temps.getLast?.or t0) ∧
      Stages chain occOf temps o outs ∧ fileRead f' = fileRead f ++ outs.flatten.map some := by
    intro temps
    induction temps with
    | nil =>
      intro init c f o t0 _ _ _
      exact ⟨[], f, by simp [annealStreamLoop, Container.clear, Container.new], rfl, by simp⟩
    | cons t ts ih =>
      intro init c f o t0 hc hf ho
      obtain ⟨c1, b1, s1, s2, s3, _, _, _, s7⟩ :=
        C21_stream_appends chunk thin hchunk true (chain t o) c hc f hf
      obtain ⟨r1, r2⟩ := s7 (hdvd t o)
      obtain ⟨y, hy⟩ : ∃ y, (chain t o).getLast? = some y :=
        ⟨_, List.getLast?_eq_some_getLast (hne t o)⟩
      have hstart : runStart occOf none c1 = some (occOf y) := by
        simp [runStart, r2 rfl y hy]
      obtain ⟨outs, f', h1, h2, h3⟩ := ih none c1 (some b1) (occOf y) (some t) r1 s2 hstart
      refine ⟨chain t o :: outs, f', ?_, ⟨y, outs, rfl, hy, h2⟩, ?_⟩
      · rw [annealStreamLoop, ho, Option.bind_some, s1, Option.bind_some, h1, List.getLast?_cons]
        cases ts.getLast? <;> rfl
      · rw [h3]
        simp only [fileRead, Option.map_some, Option.getD_some] at s3 ⊢
        rw [s3, Nat.mul_div_cancel' (hdvd t o), List.take_length]
        simp [List.append_assoc]
  obtain ⟨outs, f', h1, h2, h3⟩ := key temps (some o) Container.new f o t0
    ⟨rfl, rfl, Or.inl rfl⟩ hf rfl
  refine ⟨outs, f', ?_, h2, h3⟩
  rw [h1]
  cases hl : temps.getLast? with
  | none => exact absurd (List.getLast?_eq_none_iff.1 hl) hts
  | some z => rfl

/-- three temperatures, two samples each; the middle one is not checked -/
example : anneal (fun (t : ℕ) (o : ℕ) => [(t, o), (t, o + t)]) (fun y => y.2) 1 [5, 9, 2] (some 100)
    Container.new none = some (⟨[(5, 100), (5, 105), (9, 105), (9, 114), (2, 114), (2, 116)].map some,
      6, 6⟩, some 2) := by decide

example : (annealStreamLoop (fun (t : ℕ) (o : ℕ) => [(t, o), (t, o + t)]) (fun y => y.2) 2 1 [5, 2]
    (some 100) Container.new none none).map (fun p => (fileRead p.2.1, p.2.2)) =
      some ([(5, 100), (5, 105), (2, 105), (2, 107)].map some, some 2) := by decide

example : (Thermal.init (2 : ℚ) 5).bind (fun k => (k.run [.setT 7, .setkB 3, .setT 4]).map
    fun k => (k.beta, k.kB, k.temperature)) = some (1 / 12, 3, 4) := by decide +kernel

end C58
end Smol
