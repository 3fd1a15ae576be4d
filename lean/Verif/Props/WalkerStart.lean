import Verif.Lemmas.WalkerStart

/-!
# C100: every walker runs its own chain from its own state
-/

namespace Smol
open Smol.Spec

variable {σ : Type*} (step : σ → ORow → σ × ORow)

/-- C100. Given one occupancy per walker, walker `i` starts from the `i`-th, and every sample holds
the states of all walkers' own chains. -/
theorem C100_own_chains (w n thin nsamples : ℕ) (kernels : List WKernel) (states : List σ)
    (rows : List ORow) (hk : kernels.length = w) (hw : 0 < w) (hr : rows.length = w) :
    ∃ ss samples, walkersRun step w n thin nsamples kernels states (.d2 n rows) = some (ss, samples) ∧
      OwnChains step thin nsamples states rows samples := by
  have hs := setup_rows (initialOcc_shape (n := n) (kernels := kernels) hr)
    (List.ne_nil_of_length_pos (by omega)) (List.ne_nil_of_length_pos (by omega))
  rw [List.take_of_length_le (by omega)] at hs
  obtain ⟨ss, samples, h1, h2⟩ := recordRun_own (step := step) w thin nsamples (states, rows) hr
  refine ⟨ss, samples, ?_, h2⟩
  unfold walkersRun
  rw [hs]
  exact h1

/-- C100. With a single walker an occupancy may be given without the dimension of the walkers. -/
theorem C100_single_walker (n thin nsamples : ℕ) (k : WKernel) (states : List σ) (x : ORow) :
    ∃ ss samples, walkersRun step 1 n thin nsamples [k] states (.d1 x) = some (ss, samples) ∧
      OwnChains step thin nsamples states [x] samples := by
  have hs := setup_rows (w := 1) (n := n) (kernels := [k]) (initialOcc_d1 x (Or.inl rfl)) (by simp) (by simp)
  obtain ⟨ss, samples, h1, h2⟩ := recordRun_own (step := step) 1 thin nsamples (states, [x]) rfl
  refine ⟨ss, samples, ?_, h2⟩
  unfold walkersRun
  rw [hs]
  exact h1

/-- C100. Samplers without multicell kernels raise for every other shape, and only then. -/
theorem C100_raises_iff (w n thin nsamples : ℕ) (kernels : List WKernel) (states : List σ) (init : OArr)
    (hk : kernels.length = w) (hw : 0 < w) (hp : ∀ k ∈ kernels, k = none) :
    walkersRun step w n thin nsamples kernels states init = none ↔ ¬ Suits w n init := by
  have hm : kernels.any Option.isSome = false := by
    rw [List.any_eq_false]
    intro k hk
    rw [hp k hk]
    simp
  constructor
  · rintro h (hs | ⟨rfl, hs⟩)
    · cases init with
      | d1 x => simp [OArr.shape] at hs
      | d2 m rows =>
        simp only [OArr.shape, List.cons.injEq, and_true] at hs
        obtain ⟨h1, rfl⟩ := hs
        obtain ⟨ss, samples, h2, -⟩ := C100_own_chains step w m thin nsamples kernels states rows hk hw h1
        rw [h2] at h
        cases h
      | d3 c m blocks => simp [OArr.shape] at hs
      | d4 b c m deep => simp [OArr.shape] at hs
    · cases init with
      | d1 x =>
        obtain ⟨k, rfl⟩ := List.length_eq_one_iff.1 hk
        obtain ⟨ss, samples, h2, -⟩ := C100_single_walker step n thin nsamples k states x
        rw [h2] at h
        cases h
      | d2 m rows => simp [OArr.shape] at hs
      | d3 c m blocks => simp [OArr.shape] at hs
      | d4 b c m deep => simp [OArr.shape] at hs
  · intro h
    have hocc : initialOcc w n kernels init = none := by
      unfold initialOcc
      rw [if_neg fun hs => h (Or.inl hs), hm]
      cases init with
      | d1 x =>
        simp only [reshapeOccu]
        rw [if_neg fun hw => h (Or.inr ⟨hw, rfl⟩)]
        rfl
      | d2 m rows => rfl
      | d3 c m blocks => rfl
      | d4 b c m deep => rfl
    unfold walkersRun setupSample
    rw [hocc]
    rfl

/-- C100. One multicell walker, given an occupancy for each of its cells: each cell gets its own, and
the walker starts from that of the current cell. -/
theorem C100_cells (n m c cur : ℕ) (rows : List ORow) (hc : rows.length = c) (h1 : c ≠ 1) (hcur : cur < c) :
    setupSample 1 n [some (c, cur)] (.d2 m rows) = some ([rows], [rows.getD cur []]) := by
  refine setup_cells (initialOcc_cells (by omega) rfl) rfl hc ?_
  rw [List.getD_eq_getElem?_getD, List.getElem?_eq_getElem (by omega)]
  rfl

/-- C100, violated. Several multicell walkers given one occupancy, or one for each cell: only the first
walker runs.  Every sample repeats its state for all walkers, and the other kernels are left as they
were. -/
theorem C100_walkers_repeated (w n thin nsamples c cur : ℕ) (kernels : List WKernel) (s : σ)
    (states : List σ) (x : ORow) (init : OArr) (hw : w ≠ 1)
    (hi : init = .d1 x ∨ ∃ m rows, init = .d2 m rows ∧ rows.length = c ∧ c ≠ w ∧ rows[cur]? = some x) :
    ∃ samples, walkersRun step w n thin nsamples (some (c, cur) :: kernels) (s :: states) init =
        some ((ownChain step s x (nsamples * thin)).1 :: states, samples) ∧ samples.length = nsamples ∧
      ∀ (j : ℕ) sample, samples[j]? = some sample →
        sample = List.replicate w (ownChain step s x ((j + 1) * thin)).2 := by
  obtain ⟨samples, h1, h2, h3⟩ := recordRun_single (step := step) w thin nsamples hw s states x
  refine ⟨samples, ?_, h2, h3⟩
  have hs : ∃ aux, setupSample w n (some (c, cur) :: kernels) init = some (aux, [x]) := by
    rcases hi with rfl | ⟨m, rows, rfl, hc, hcw, hx⟩
    · have := setup_rows (w := w) (n := n) (kernels := some (c, cur) :: kernels)
        (initialOcc_d1 x (Or.inr rfl)) (by simp) (by simp)
      rw [List.take_of_length_le (by simp)] at this
      exact ⟨_, this⟩
    · exact ⟨_, setup_cells (initialOcc_cells (by omega) rfl) rfl hc hx⟩
  obtain ⟨aux, hs⟩ := hs
  unfold walkersRun
  rw [hs]
  exact h1

/-- C100, violated. Occupancies for each cell of each walker are refused, however many walkers there
are. -/
theorem C100_walker_cells_refused (w n c m : ℕ) (k : WKernel) (kernels : List WKernel)
    (blocks : List (List ORow)) : setupSample w n (k :: kernels) (.d3 c m blocks) = none := by
  have : initialOcc w n (k :: kernels) (.d3 c m blocks) = none ∨
      initialOcc w n (k :: kernels) (.d3 c m blocks) = some (.d4 blocks.length c m [blocks]) := by
    unfold initialOcc
    rw [if_neg (by simp [OArr.shape])]
    simp only [reshapeOccu]
    split
    · exact Or.inr rfl
    · exact Or.inl rfl
  rcases this with h | h
  · unfold setupSample
    rw [h]
    rfl
  · exact setup_deep h

/-- C100, violated. As many occupancies as cells are taken as those of the walkers if there are as many
walkers: no cell gets one. -/
theorem C100_cells_misread (w n : ℕ) (kernels : List WKernel) (rows : List ORow) (hw : 0 < w)
    (hk : kernels.length = w) (hr : rows.length = w) :
    setupSample w n kernels (.d2 n rows) = some (List.replicate w [], rows) := by
  have := setup_rows (initialOcc_shape (n := n) (kernels := kernels) hr)
    (List.ne_nil_of_length_pos (by omega)) (List.ne_nil_of_length_pos (by omega))
  rwa [List.take_of_length_le (by omega), hk, hr, Nat.min_self] at this

/-! ### examples -/

/-- a kernel that counts its steps and writes the count to the first site -/
private def exStep (s : ℕ) (r : ORow) : ℕ × ORow := (s + 1, (s + 1) :: r.drop 1)

example : walkersRun exStep 2 3 2 2 [none, none] [0, 10] (.d2 3 [[5, 0, 0], [6, 1, 1]]) =
    some ([4, 14], [[[2, 0, 0], [12, 1, 1]], [[4, 0, 0], [14, 1, 1]]]) := by decide

example : walkersRun exStep 1 3 2 2 [none] [0] (.d1 [5, 0, 0]) =
    some ([4], [[[2, 0, 0]], [[4, 0, 0]]]) := by decide

example : ¬ Suits 2 3 (.d1 [5, 0, 0]) ∧ ¬ Suits 2 3 (.d2 3 [[5, 0, 0]]) ∧
    Suits 2 3 (.d2 3 [[5, 0, 0], [6, 1, 1]]) := by
  simp [Suits, OArr.shape]

example : setupSample 1 3 [some (2, 1)] (.d2 3 [[5, 0, 0], [6, 1, 1]]) =
    some ([[[5, 0, 0], [6, 1, 1]]], [[6, 1, 1]]) := by decide

/-- two walkers with two cells each, started from one occupancy -/
example : walkersRun exStep 2 3 1 2 [some (2, 0), some (2, 0)] [0, 10] (.d1 [5, 0, 0]) =
    some ([2, 10], [[[1, 0, 0], [1, 0, 0]], [[2, 0, 0], [2, 0, 0]]]) := by decide

/-- two walkers with three cells each, started from the occupancies of the cells -/
example : walkersRun exStep 2 2 1 1 [some (3, 0), some (3, 0)] [0, 10] (.d2 2 [[5, 0], [6, 1], [7, 2]]) =
    some ([1, 10], [[[1, 0], [1, 0]]]) := by decide

end Smol
