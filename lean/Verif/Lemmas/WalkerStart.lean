import Verif.Spec.WalkerStart

/-! Lemmas for the states walkers start from. -/

namespace Smol
open Smol.Spec

variable {σ : Type*} {step : σ → ORow → σ × ORow}

theorem ownChain_first (s : σ) (r : ORow) (t : ℕ) :
    ownChain step s r (t + 1) = ownChain step (step s r).1 (step s r).2 t := by
  induction t with
  | zero => rfl
  | succ t ih => rw [ownChain, ih, ownChain]

theorem ownChain_add (s : σ) (r : ORow) (a b : ℕ) :
    ownChain step s r (a + b) = ownChain step (ownChain step s r a).1 (ownChain step s r a).2 b := by
  induction b with
  | zero => rfl
  | succ b ih => rw [← Nat.add_assoc, ownChain, ih, ownChain]

theorem walkersStep_lengths (ss : List σ) (rs : List ORow) :
    (walkersStep step ss rs).1.length = ss.length ∧ (walkersStep step ss rs).2.length = rs.length := by
  induction ss generalizing rs with
  | nil => cases rs <;> simp [walkersStep]
  | cons s ss ih =>
    cases rs with
    | nil => simp [walkersStep]
    | cons r rs => simp [walkersStep, ih rs]

theorem walkersStep_get (ss : List σ) (rs : List ORow) (i : ℕ) {s : σ} {r : ORow} (hs : ss[i]? = some s)
    (hr : rs[i]? = some r) : (walkersStep step ss rs).1[i]? = some (step s r).1 ∧
      (walkersStep step ss rs).2[i]? = some (step s r).2 := by
  induction ss generalizing rs i with
  | nil => simp at hs
  | cons s0 ss ih =>
    cases rs with
    | nil => simp at hr
    | cons r0 rs =>
      cases i with
      | zero =>
        simp only [List.getElem?_cons_zero, Option.some.injEq] at hs hr
        subst hs hr
        simp [walkersStep]
      | succ i => simpa [walkersStep] using ih rs i (by simpa using hs) (by simpa using hr)

theorem walkersStep_rest (ss : List σ) (rs : List ORow) (i : ℕ) (hi : rs.length ≤ i) :
    (walkersStep step ss rs).1[i]? = ss[i]? := by
  induction ss generalizing rs i with
  | nil => cases rs <;> simp [walkersStep]
  | cons s0 ss ih =>
    cases rs with
    | nil => simp [walkersStep]
    | cons r0 rs =>
      cases i with
      | zero => simp at hi
      | succ i => simpa [walkersStep] using ih rs i (by simpa using hi)

theorem walkersSteps_lengths (t : ℕ) (x : List σ × List ORow) :
    (walkersSteps step t x).1.length = x.1.length ∧ (walkersSteps step t x).2.length = x.2.length := by
  induction t generalizing x with
  | zero => exact ⟨rfl, rfl⟩
  | succ t ih =>
    unfold walkersSteps
    have h1 := ih (walkersStep step x.1 x.2)
    have h2 := walkersStep_lengths (step := step) x.1 x.2
    exact ⟨h1.1.trans h2.1, h1.2.trans h2.2⟩

theorem walkersSteps_get (t : ℕ) (x : List σ × List ORow) (i : ℕ) {s : σ} {r : ORow}
    (hs : x.1[i]? = some s) (hr : x.2[i]? = some r) :
    (walkersSteps step t x).1[i]? = some (ownChain step s r t).1 ∧
      (walkersSteps step t x).2[i]? = some (ownChain step s r t).2 := by
  induction t generalizing x s r with
  | zero => exact ⟨hs, hr⟩
  | succ t ih =>
    unfold walkersSteps
    obtain ⟨h1, h2⟩ := walkersStep_get (step := step) x.1 x.2 i hs hr
    rw [ownChain_first]
    exact ih _ h1 h2

theorem walkersSteps_rest (t : ℕ) (x : List σ × List ORow) (i : ℕ) (hi : x.2.length ≤ i) :
    (walkersSteps step t x).1[i]? = x.1[i]? := by
  induction t generalizing x with
  | zero => rfl
  | succ t ih =>
    unfold walkersSteps
    have h2 := walkersStep_lengths (step := step) x.1 x.2
    rw [ih _ (by rw [h2.2]; exact hi), walkersStep_rest _ _ _ hi]

/-- With as many rows as walkers. -/
theorem recordRun_own (w thin k : ℕ) (x : List σ × List ORow) (hw : x.2.length = w) :
    ∃ ss samples, recordRun step w thin k x = some (ss, samples) ∧
      OwnChains step thin k x.1 x.2 samples := by
  induction k generalizing x with
  | zero => exact ⟨x.1, [], rfl, rfl, by simp⟩
  | succ k ih =>
    have hl := walkersSteps_lengths (step := step) thin x
    obtain ⟨ss, samples, h1, h2, h3⟩ := ih (walkersSteps step thin x) (hl.2.trans hw)
    refine ⟨ss, (walkersSteps step thin x).2 :: samples, ?_, by simp [h2], ?_⟩
    · unfold recordRun
      rw [h1]
      unfold recordRows
      rw [if_pos (hl.2.trans hw)]
    · intro j sample hj
      cases j with
      | zero =>
        simp only [List.getElem?_cons_zero, Option.some.injEq] at hj
        subst hj
        refine ⟨hl.2, fun i s r hs hr => ?_⟩
        rw [(walkersSteps_get thin x i hs hr).2]
        simp
      | succ j =>
        obtain ⟨h4, h5⟩ := h3 j sample (by simpa using hj)
        refine ⟨h4.trans hl.2, fun i s r hs hr => ?_⟩
        obtain ⟨h6, h7⟩ := walkersSteps_get thin x i hs hr
        rw [h5 i _ _ h6 h7, ← ownChain_add]
        congr 3
        rw [Nat.add_mul (j + 1) 1 thin]
        omega

/-- With a single row and several walkers. -/
theorem recordRun_single (w thin k : ℕ) (hw : w ≠ 1) (s : σ) (ss : List σ) (r : ORow) :
    ∃ samples, recordRun step w thin k (s :: ss, [r]) =
        some ((ownChain step s r (k * thin)).1 :: ss, samples) ∧ samples.length = k ∧
      ∀ (j : ℕ) sample, samples[j]? = some sample →
        sample = List.replicate w (ownChain step s r ((j + 1) * thin)).2 := by
  induction k generalizing s r with
  | zero => exact ⟨[], by simp [recordRun, ownChain], rfl, by simp⟩
  | succ k ih =>
    have hx : walkersSteps step thin (s :: ss, [r]) =
        ((ownChain step s r thin).1 :: ss, [(ownChain step s r thin).2]) := by
      have hl := walkersSteps_lengths (step := step) thin (s :: ss, [r])
      obtain ⟨h1, h2⟩ := walkersSteps_get thin (s :: ss, [r]) 0 (s := s) (r := r) rfl rfl
      apply Prod.ext
      · apply List.ext_getElem?
        intro i
        cases i with
        | zero => rw [h1]; rfl
        | succ i => rw [walkersSteps_rest thin _ _ (by simp)]; simp
      · apply List.ext_getElem?
        intro i
        cases i with
        | zero => rw [h2]; rfl
        | succ i =>
          simp only [List.getElem?_cons_succ, List.getElem?_nil]
          apply List.getElem?_eq_none_iff.2
          rw [hl.2]
          simp
    obtain ⟨samples, h1, h2, h3⟩ := ih (ownChain step s r thin).1 (ownChain step s r thin).2
    refine ⟨List.replicate w (ownChain step s r thin).2 :: samples, ?_, by simp [h2], ?_⟩
    · unfold recordRun
      rw [hx, h1]
      unfold recordRows
      rw [if_neg (by simp only [List.length_singleton]; omega), ← ownChain_add]
      simp only [Option.some.injEq, Prod.mk.injEq, List.cons.injEq, and_true]
      congr 2
      rw [Nat.add_mul]
      omega
    · intro j sample hj
      cases j with
      | zero =>
        simp only [List.getElem?_cons_zero, Option.some.injEq] at hj
        rw [← hj]
        simp
      | succ j =>
        rw [h3 j sample (by simpa using hj), ← ownChain_add]
        congr 3
        rw [Nat.add_mul (j + 1) 1 thin]
        omega

/-! ### setup -/

theorem select_d1 (kernels : List WKernel) (rows : List ORow) :
    ((kernels.zip (rows.map OArr.d1)).filterMap fun p => selectRow p.1 p.2) = [] := by
  rw [List.filterMap_eq_nil_iff]
  rintro ⟨k, a⟩ h
  obtain ⟨r, -, rfl⟩ := List.mem_map.1 (List.of_mem_zip h).2
  cases k <;> rfl

theorem aux_d1 (kernels : List WKernel) (rows : List ORow) :
    ((kernels.zip (rows.map OArr.d1)).mapM fun p => setAuxRows p.1 p.2) =
      some (List.replicate (min kernels.length rows.length) []) := by
  induction kernels generalizing rows with
  | nil => simp
  | cons k kernels ih =>
    cases rows with
    | nil => simp
    | cons r rows =>
      have := ih rows
      simp only [List.map_cons, List.zip_cons_cons, List.mapM_cons, this]
      cases k <;> simp [setAuxRows, Nat.succ_min_succ, List.replicate_succ]

theorem rows_d1 (rows : List ORow) : (rows.map OArr.d1).mapM OArr.row? = some rows := by
  induction rows with
  | nil => rfl
  | cons r rows ih =>
    rw [List.map_cons, List.mapM_cons, ih]
    rfl

/-- Rows are handed to the walkers in order. -/
theorem setup_rows {w n : ℕ} {kernels : List WKernel} {init : OArr} {m : ℕ} {rows : List ORow}
    (hocc : initialOcc w n kernels init = some (.d2 m rows)) (hk : kernels ≠ []) (hr : rows ≠ []) :
    setupSample w n kernels init =
      some (List.replicate (min kernels.length rows.length) [], rows.take kernels.length) := by
  unfold setupSample startRows
  rw [hocc]
  simp only [Option.bind_some, OArr.slices, aux_d1, select_d1, ← List.map_take, rows_d1]
  rw [if_neg]
  intro h
  have := congrArg List.length h
  rw [List.length_take, List.length_nil] at this
  have h1 := List.length_pos_of_ne_nil hk
  have h2 := List.length_pos_of_ne_nil hr
  omega

/-- Occupancies of the cells of the first kernel. -/
theorem setup_cells {w n : ℕ} {k : WKernel} {kernels : List WKernel} {init : OArr} {c m n' cur : ℕ}
    {rows : List ORow} {r : ORow} (hocc : initialOcc w n (k :: kernels) init = some (.d3 m n' [rows]))
    (hk : k = some (c, cur)) (hc : rows.length = c) (hr : rows[cur]? = some r) :
    setupSample w n (k :: kernels) init = some ([rows], [r]) := by
  subst hk
  unfold setupSample startRows
  rw [hocc]
  simp [OArr.slices, setAuxRows, selectRow, hc, hr]

theorem setup_deep {w n : ℕ} {k : WKernel} {kernels : List WKernel} {init : OArr} {b c m : ℕ}
    {blocks : List (List ORow)} (hocc : initialOcc w n (k :: kernels) init = some (.d4 b c m [blocks])) :
    setupSample w n (k :: kernels) init = none := by
  unfold setupSample
  rw [hocc]
  cases k <;> simp [OArr.slices, setAuxRows]

theorem initialOcc_shape {w n : ℕ} {kernels : List WKernel} {rows : List ORow} (h : rows.length = w) :
    initialOcc w n kernels (.d2 n rows) = some (.d2 n rows) := by
  unfold initialOcc
  rw [if_pos (by simp [OArr.shape, h])]

theorem initialOcc_d1 {w n : ℕ} {kernels : List WKernel} (x : ORow)
    (h : w = 1 ∨ kernels.any Option.isSome = true) :
    initialOcc w n kernels (.d1 x) = some (.d2 x.length [x]) := by
  unfold initialOcc
  rw [if_neg (by simp [OArr.shape])]
  simp only [reshapeOccu]
  rcases h with h | h
  · rw [if_pos h]
  · rw [if_pos h, ite_self]

theorem initialOcc_cells {w n m : ℕ} {kernels : List WKernel} {rows : List ORow}
    (h : rows.length ≠ w) (hm : kernels.any Option.isSome = true) :
    initialOcc w n kernels (.d2 m rows) = some (.d3 rows.length m [rows]) := by
  unfold initialOcc
  rw [if_neg (by simp [OArr.shape, h])]
  simp only [reshapeOccu]
  rw [if_pos hm]

end Smol
