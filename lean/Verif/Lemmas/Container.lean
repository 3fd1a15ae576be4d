import Verif.Model.Container

/-! Lemmas on sample containers. -/

namespace Smol

theorem filterMap_range_some {β : Type*} (f : ℕ → Option β) (n : ℕ) (h : ∀ k < n, (f k).isSome) :
    ((List.range n).filterMap f).length = n ∧
      ∀ k < n, ((List.range n).filterMap f)[k]? = f k := by
  induction n with
  | zero => simp
  | succ n ih =>
    obtain ⟨h1, h2⟩ := ih fun k hk => h k (by omega)
    obtain ⟨y, hy⟩ := Option.isSome_iff_exists.1 (h n (by omega))
    rw [List.range_succ, List.filterMap_append]
    have hl : List.filterMap f [n] = [y] := by simp [hy]
    rw [hl]
    refine ⟨by simp [h1], ?_⟩
    intro k hk
    by_cases hkn : k = n
    · subst hkn
      rw [List.getElem?_append_right (by omega), h1]
      simp [hy]
    · rw [List.getElem?_append_left (by omega), h2 k (by omega)]

theorem filterMap_range_prefix {β : Type*} (f : ℕ → Option β) (c n : ℕ) (hc : c ≤ n)
    (h1 : ∀ k < c, (f k).isSome) (h2 : ∀ k, c ≤ k → f k = none) :
    ((List.range n).filterMap f).length = c ∧
      ∀ k < c, ((List.range n).filterMap f)[k]? = f k := by
  induction n with
  | zero =>
    obtain rfl : c = 0 := by omega
    simp
  | succ n ih =>
    by_cases hcn : c = n + 1
    · subst hcn
      exact filterMap_range_some f (n + 1) h1
    · rw [List.range_succ, List.filterMap_append]
      have : List.filterMap f [n] = [] := by simp [h2 n (by omega)]
      rw [this, List.append_nil]
      exact ih (by omega)

theorem saveAll_spec {α : Type*} (thin : ℕ) (ys : List α) (c : Container α) (pre : List (Option α))
    (m : ℕ) (hrows : c.rows = pre ++ List.replicate m none) (hn : c.nsamples = pre.length)
    (hm : ys.length ≤ m) :
    saveAll thin ys c = some ⟨pre ++ ys.map some ++ List.replicate (m - ys.length) none,
      pre.length + ys.length, c.totalSteps + ys.length * thin⟩ := by
  induction ys generalizing c pre m with
  | nil =>
    obtain ⟨r, n, t⟩ := c
    simp only at hrows hn
    simp [saveAll, hrows, hn]
  | cons y ys ih =>
    rw [List.length_cons] at hm
    obtain ⟨m, rfl⟩ : ∃ m', m = m' + 1 := ⟨m - 1, by omega⟩
    rw [saveAll]
    have hlt : c.nsamples < c.rows.length := by rw [hn, hrows]; simp
    rw [Container.save, if_pos hlt, Option.bind_some]
    have hset : c.rows.set c.nsamples (some y) = (pre ++ [some y]) ++ List.replicate m none := by
      rw [hrows, hn, List.set_append_right _ _ (le_refl _), Nat.sub_self, List.replicate_succ,
        List.set_cons_zero, List.append_assoc]
      rfl
    rw [ih _ (pre ++ [some y]) m hset (by simp [hn]) (by omega)]
    simp only [List.length_cons, List.length_append, List.length_nil, List.map_cons]
    congr 2
    · simp [List.append_assoc]
    · omega
    · ring

/-- The streaming loop: `all` are the rows waiting in memory followed by those to come. -/
theorem streamLoop_spec {α : Type*} (chunk thin : ℕ) (hchunk : 0 < chunk) (ys : List α) (i : ℕ)
    (c : Container α) (b : Backend α) (hrows : c.rows.length = chunk)
    (hn : c.nsamples = i % chunk) (ht : c.totalSteps = c.nsamples * thin)
    (hspace : b.nsamples + c.nsamples + ys.length ≤ b.rows.length)
    (all : List (Option α)) (hall : all = c.rows.take c.nsamples ++ ys.map some) :
    ∃ c' b', streamLoop chunk thin i ys (c, b) = some (c', b') ∧
      c'.rows.length = chunk ∧ c'.nsamples = all.length % chunk ∧
      c'.totalSteps = c'.nsamples * thin ∧
      c'.rows.take c'.nsamples = all.drop (chunk * (all.length / chunk)) ∧
      b'.rows.length = b.rows.length ∧ b'.nsamples = b.nsamples + chunk * (all.length / chunk) ∧
      b'.totalSteps = b.totalSteps + chunk * (all.length / chunk) * thin ∧
      b'.read = b.read ++ all.take (chunk * (all.length / chunk)) ∧
      (c'.nsamples = 0 → ∀ y ∈ ys.getLast?, c'.rows.getLast? = some (some y)) := by
  induction ys generalizing i c b all with
  | nil =>
    have hlt : i % chunk < chunk := Nat.mod_lt _ hchunk
    have hal : all.length = i % chunk := by
      rw [hall]; simp [hn, hrows]; omega
    have hq : all.length / chunk = 0 := Nat.div_eq_of_lt (by omega)
    refine ⟨c, b, rfl, hrows, ?_, ht, ?_, rfl, ?_, ?_, ?_, ?_⟩
    · rw [hal, Nat.mod_mod, hn]
    · rw [hq, hall]; simp
    · rw [hq]; simp
    · rw [hq]; simp
    · rw [hq]; simp
    · simp
  | cons y ys ih =>
    have hlt : i % chunk < chunk := Nat.mod_lt _ hchunk
    rw [List.length_cons] at hspace
    rw [streamLoop, Container.save, if_pos (by omega), Option.bind_some]
    set c1 : Container α := ⟨c.rows.set c.nsamples (some y), c.nsamples + 1, c.totalSteps + thin⟩
      with hc1
    have hc1rows : c1.rows.length = chunk := by simp [hc1, hrows]
    have htake : c1.rows.take (c.nsamples + 1) = c.rows.take c.nsamples ++ [some y] := by
      simp only [hc1]
      rw [List.take_add_one, List.take_set, List.set_eq_of_length_le (by simp),
        List.getElem?_set_self (by omega)]
      rfl
    have hall' : all = c1.rows.take (c.nsamples + 1) ++ ys.map some := by
      rw [htake, hall]; simp
    have hplen : (c1.rows.take (c.nsamples + 1)).length = c.nsamples + 1 := by
      rw [List.length_take]; omega
    by_cases hmod : (i + 1) % chunk = 0
    · rw [if_pos hmod]
      have hj : c.nsamples + 1 = chunk := by
        rw [hn]
        have h1 := Nat.div_add_mod i chunk
        have h2 := Nat.div_add_mod (i + 1) chunk
        rw [hmod] at h2
        by_contra hne
        have hlt' : i % chunk + 1 < chunk := by omega
        have : (i + 1) % chunk = i % chunk + 1 := by
          rw [Nat.add_mod_eq_add_mod_right 1 (Nat.mod_mod i chunk).symm, Nat.mod_eq_of_lt hlt']
        omega
      have hfull : c1.rows.take (c.nsamples + 1) = c1.rows := by
        rw [List.take_of_length_le]; omega
      rw [hfull] at hall' hplen
      have hflush : c1.flush b = some (⟨c1.rows, 0, 0⟩,
          ⟨b.rows.take b.nsamples ++ c1.rows ++ b.rows.drop (b.nsamples + chunk),
            b.nsamples + chunk, b.totalSteps + c1.totalSteps⟩) := by
        unfold Container.flush
        have : c1.nsamples = chunk := hj
        rw [this, if_pos ⟨hc1rows, by omega⟩]
      rw [hflush, Option.bind_some]
      set b1 : Backend α := ⟨b.rows.take b.nsamples ++ c1.rows ++ b.rows.drop (b.nsamples + chunk),
            b.nsamples + chunk, b.totalSteps + c1.totalSteps⟩ with hb1
      have hb1len : b1.rows.length = b.rows.length := by
        simp only [hb1, List.length_append, List.length_take, List.length_drop, hc1rows]
        omega
      obtain ⟨c', b', h1, h2, h3, h4, h5, h6, h7, h8, h9, h10⟩ := ih (i + 1) ⟨c1.rows, 0, 0⟩ b1
        hc1rows hmod.symm (by simp) (by rw [hb1len]; simp only [hb1]; omega) (ys.map some) (by simp)
      have hlen : all.length = chunk + (ys.map (some (α := α))).length := by
        rw [hall', List.length_append, hc1rows]
      have hq : all.length / chunk = (ys.map (some (α := α))).length / chunk + 1 := by
        rw [hlen, Nat.add_comm, Nat.add_div_right _ hchunk]
      have hqm : chunk * (all.length / chunk) =
          chunk + chunk * ((ys.map (some (α := α))).length / chunk) := by
        rw [hq]; ring
      refine ⟨c', b', h1, h2, ?_, h4, ?_, ?_, ?_, ?_, ?_, ?_⟩
      · rw [h3, hlen, Nat.add_mod_left]
      · rw [h5, hqm, hall', ← hc1rows, List.drop_length_add_append]
      · rw [h6, hb1len]
      · rw [h7, hqm]; simp only [hb1]; omega
      · rw [h8, hqm]
        have : c1.totalSteps = chunk * thin := by
          simp only [hc1]; rw [ht, ← hj]; ring
        simp only [hb1, this]; ring
      · rw [h9, hqm]
        have hr : b1.read = b.read ++ c1.rows := by
          unfold Backend.read
          simp only [hb1]
          rw [List.take_append_of_le_length, List.take_of_length_le]
          · simp only [List.length_append, List.length_take, hc1rows]; omega
          · simp only [List.length_append, List.length_take, hc1rows]; omega
        rw [hr, hall', ← hc1rows, List.take_length_add_append, List.append_assoc]
      · intro h0 z hz
        cases ys with
        | nil =>
          simp only [streamLoop, Option.some.injEq, Prod.mk.injEq] at h1
          simp only [List.getLast?_singleton, Option.mem_some_iff] at hz
          subst hz
          rw [← h1.1]
          simp only
          rw [← hfull, htake]
          simp
        | cons y2 ys =>
          rw [List.getLast?_cons_cons] at hz
          exact h10 h0 z hz
    · rw [if_neg hmod]
      have hj : (i + 1) % chunk = c.nsamples + 1 := by
        rw [hn]
        have hne : i % chunk + 1 ≠ chunk := by
          intro h
          apply hmod
          rw [Nat.add_mod_eq_add_mod_right 1 (Nat.mod_mod i chunk).symm, h, Nat.mod_self]
        rw [Nat.add_mod_eq_add_mod_right 1 (Nat.mod_mod i chunk).symm, Nat.mod_eq_of_lt (by omega)]
      obtain ⟨c', b', h1, h2, h3, h4, h5, h6, h7, h8, h9, h10⟩ := ih (i + 1) c1 b
        hc1rows (by simp only [hc1]; exact hj.symm) (by simp only [hc1]; rw [ht]; ring)
        (by simp only [hc1]; omega) all hall'
      refine ⟨c', b', h1, h2, h3, h4, h5, h6, h7, h8, h9, ?_⟩
      intro h0 z hz
      cases ys with
      | nil =>
        exfalso
        rw [h3, hall'] at h0
        simp only [List.map_nil, List.append_nil, hplen] at h0
        rw [Nat.mod_eq_of_lt] at h0
        · omega
        · rw [← hj]; exact Nat.mod_lt _ hchunk
      | cons y2 ys =>
        rw [List.getLast?_cons_cons] at hz
        exact h10 h0 z hz

end Smol
