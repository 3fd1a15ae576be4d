import Verif.Model.Convergence
import Mathlib.Analysis.Real.Sqrt
import Mathlib.Tactic.Linarith
import Mathlib.Tactic.Ring
import Mathlib.Tactic.FieldSimp
import Mathlib.Tactic.NormNum

/-!
# C70: what the convergence analysis decides

Statements use the textbook definitions: real standard deviation, means of prefixes.
-/

namespace Smol

/-! ## Specification -/

namespace Spec

/-- Arithmetic mean. -/
noncomputable def mean (xs : List ℚ) : ℝ := ((xs.sum / xs.length : ℚ) : ℝ)

/-- Population standard deviation. -/
noncomputable def std (xs : List ℚ) : ℝ :=
  √((xs.map fun x : ℚ => ((x : ℝ) - mean xs) ^ 2).sum / xs.length)

/-- A number is within the tolerance of the mean of a series, by default its standard deviation. -/
def Near (xs : List ℚ) (tol : Option ℚ) (x : ℝ) : Prop :=
  |x - mean xs| < match tol with
    | some t => (t : ℝ)
    | none => std xs

/-- The criteria of the documentation, for the last `m` running means (all of them for `m = 0`). -/
def Converged (xs : List ℚ) (tol : Option ℚ) (minStd : ℚ) (m : ℕ) : Prop :=
  std xs < minStd ∨
    ((∀ x, xs.getLast? = some x → Near xs tol x) ∧
      ∀ k, 0 < k → k ≤ xs.length → (m = 0 ∨ xs.length < k + m) → Near xs tol (mean (xs.take k)))

/-- `m` requested running means of `n` samples: a tenth if unspecified or too many. -/
def lastAsked (n : ℕ) (lastM : Option ℕ) : ℕ :=
  match lastM with
  | some m => if m ≤ n then m else n / 10
  | none => n / 10

end Spec

/-! ## Lemmas -/

theorem average_cast (xs : List ℚ) : ((average xs : ℚ) : ℝ) = Spec.mean xs := rfl

theorem variance_cast (xs : List ℚ) :
    ((variance xs : ℚ) : ℝ)
      = (xs.map fun x : ℚ => ((x : ℝ) - Spec.mean xs) ^ 2).sum / xs.length := by
  unfold variance average
  have h : ∀ (c : ℚ) (l : List ℚ), (((l.map fun x => (x - c) ^ 2).sum : ℚ) : ℝ)
      = (l.map fun x : ℚ => ((x : ℝ) - (c : ℝ)) ^ 2).sum := by
    intro c l
    induction l with
    | nil => simp
    | cons a l ih => simp only [List.map_cons, List.sum_cons]; push_cast; rw [ih]
  rw [List.length_map, Rat.cast_div, h]
  simp [Spec.mean]

theorem std_eq (xs : List ℚ) : Spec.std xs = √((variance xs : ℚ) : ℝ) := by
  rw [variance_cast]; rfl

theorem variance_nonneg (xs : List ℚ) : 0 ≤ variance xs := by
  unfold variance
  rw [average]
  apply div_nonneg _ (Nat.cast_nonneg _)
  apply List.sum_nonneg
  intro x hx
  simp only [List.mem_map] at hx
  obtain ⟨y, _, rfl⟩ := hx
  positivity

theorem stdBelow_iff (xs : List ℚ) (minStd : ℚ) :
    stdBelow xs minStd = true ↔ Spec.std xs < minStd := by
  unfold stdBelow
  rw [decide_eq_true_iff, std_eq]
  constructor
  · rintro ⟨h0, h⟩
    rw [Real.sqrt_lt' (by exact_mod_cast h0)]
    exact_mod_cast h
  · intro h
    have h0 : (0 : ℝ) < minStd := lt_of_le_of_lt (Real.sqrt_nonneg _) h
    rw [Real.sqrt_lt' h0] at h
    exact ⟨by exact_mod_cast h0, by exact_mod_cast h⟩

theorem nearMean_iff (xs : List ℚ) (tol : Option ℚ) (x : ℚ) :
    nearMean xs tol x = true ↔ Spec.Near xs tol (x : ℝ) := by
  unfold nearMean Spec.Near
  rw [← average_cast]
  cases tol with
  | some t =>
    simp only [decide_eq_true_iff]
    rw [abs_lt]
    constructor
    · rintro ⟨h1, h2⟩
      have h1' : (x : ℝ) < average xs + t := by exact_mod_cast h1
      have h2' : (average xs : ℝ) - t < x := by exact_mod_cast h2
      constructor <;> linarith
    · rintro ⟨h1, h2⟩
      have h1' : (x : ℝ) < average xs + t := by linarith
      have h2' : (average xs : ℝ) - t < x := by linarith
      exact ⟨by exact_mod_cast h1', by exact_mod_cast h2'⟩
  | none =>
    simp only [decide_eq_true_iff]
    rw [std_eq, Real.lt_sqrt (abs_nonneg _), sq_abs]
    constructor <;> intro h <;> exact_mod_cast h

theorem cumMeans_length (s : ℚ) (c : ℕ) (xs : List ℚ) : (cumMeans s c xs).length = xs.length := by
  induction xs generalizing s c with
  | nil => rfl
  | cons a l ih => simp [cumMeans, ih]

theorem cumMeans_getElem? (s : ℚ) (c : ℕ) (xs : List ℚ) (j : ℕ) (hj : j < xs.length) :
    (cumMeans s c xs)[j]? = some ((s + (xs.take (j + 1)).sum) / ((c + j + 1 : ℕ) : ℚ)) := by
  induction xs generalizing s c j with
  | nil => simp at hj
  | cons a l ih =>
    cases j with
    | zero => simp [cumMeans]
    | succ j =>
      simp only [cumMeans, List.getElem?_cons_succ]
      rw [ih _ _ _ (by simpa using hj)]
      simp only [List.take_succ_cons, List.sum_cons]
      congr 2
      · ring
      · congr 1; ring

theorem cumMeans_zero (xs : List ℚ) (j : ℕ) (hj : j < xs.length) :
    (cumMeans 0 0 xs)[j]? = some (average (xs.take (j + 1))) := by
  rw [cumMeans_getElem? _ _ _ _ hj, average, List.length_take, min_eq_left (by omega)]
  simp

theorem effectiveLast_eq (n : ℕ) (m : Option ℕ) : effectiveLast n m = Spec.lastAsked n m := by
  cases m with
  | none => rfl
  | some m => simp only [effectiveLast, Spec.lastAsked]; split <;> split <;> omega

theorem mem_lastSlice (m : ℕ) (xs : List ℚ) (y : ℚ) :
    y ∈ lastSlice m (cumMeans 0 0 xs) ↔
      ∃ k, 0 < k ∧ k ≤ xs.length ∧ (m = 0 ∨ xs.length < k + m) ∧ y = average (xs.take k) := by
  unfold lastSlice
  split
  · next hm =>
    rw [List.mem_iff_getElem?]
    constructor
    · rintro ⟨j, hj⟩
      have hlt : j < xs.length := by
        have := (List.getElem?_eq_some_iff.1 hj).1
        rwa [cumMeans_length] at this
      rw [cumMeans_zero _ _ hlt] at hj
      exact ⟨j + 1, by omega, by omega, Or.inl hm, (Option.some.inj hj).symm⟩
    · rintro ⟨k, h0, hk, _, rfl⟩
      refine ⟨k - 1, ?_⟩
      rw [cumMeans_zero _ _ (by omega), Nat.sub_add_cancel h0]
  · next hm =>
    rw [List.mem_iff_getElem?]
    simp only [List.getElem?_drop, cumMeans_length]
    constructor
    · rintro ⟨j, hj⟩
      have hlt : xs.length - m + j < xs.length := by
        have := (List.getElem?_eq_some_iff.1 hj).1
        rwa [cumMeans_length] at this
      rw [cumMeans_zero _ _ hlt] at hj
      exact ⟨xs.length - m + j + 1, by omega, by omega, Or.inr (by omega),
        (Option.some.inj hj).symm⟩
    · rintro ⟨k, h0, hk, h, rfl⟩
      have h : xs.length < k + m := by omega
      refine ⟨k - 1 - (xs.length - m), ?_⟩
      rw [show xs.length - m + (k - 1 - (xs.length - m)) = k - 1 by omega,
        cumMeans_zero _ _ (by omega), Nat.sub_add_cancel h0]

/-! ## The check -/

/-- The check answers for every series but the empty one, and it answers exactly by the documented
criteria: the standard deviation is below the minimum, or the last sample and the last `m` running
means all lie strictly within the tolerance of the mean. -/
theorem C70_converged_iff (xs : List ℚ) (tol : Option ℚ) (minStd : ℚ) (lastM : Option ℕ)
    (hne : xs ≠ []) :
    ∃ b, checkConverged xs tol minStd lastM = some b ∧
      (b = true ↔ Spec.Converged xs tol minStd (Spec.lastAsked xs.length lastM)) := by
  obtain ⟨last, hlast⟩ : ∃ l, xs.getLast? = some l := by
    rw [← Option.isSome_iff_exists]; simpa using hne
  unfold checkConverged Spec.Converged
  rw [hlast]
  simp only
  by_cases hs : stdBelow xs minStd = true
  · rw [if_pos hs]
    exact ⟨true, rfl, by simp [(stdBelow_iff xs minStd).1 hs]⟩
  · rw [if_neg hs]
    refine ⟨_, rfl, ?_⟩
    have hs' : ¬ Spec.std xs < minStd := fun h => hs ((stdBelow_iff xs minStd).2 h)
    rw [Bool.and_eq_true, List.all_eq_true, nearMean_iff, effectiveLast_eq]
    simp only [hs', false_or, Option.some.injEq, forall_eq']
    apply and_congr Iff.rfl
    constructor
    · intro h k h0 hk hm
      have := h (average (xs.take k)) ((mem_lastSlice _ _ _).2 ⟨k, h0, hk, hm, rfl⟩)
      rwa [nearMean_iff, average_cast] at this
    · intro h y hy
      obtain ⟨k, h0, hk, hm, rfl⟩ := (mem_lastSlice _ _ _).1 hy
      rw [nearMean_iff, average_cast]
      exact h k h0 hk hm

example : checkConverged [5, 1, 2, 3, 2] (some 1) (1/10000) (some 2) = some true := by
  decide +kernel
example : checkConverged [5, 1, 2, 3, 2] (some 1) (1/10000) (some 5) = some false := by
  decide +kernel

/-- An empty series raises. -/
theorem C70_empty_raises (tol : Option ℚ) (minStd : ℚ) (lastM : Option ℕ) :
    checkConverged [] tol minStd lastM = none := rfl

/-- **Finding.** With fewer than ten samples the default asks for *all* running means instead of
the last tenth (`a[-0:]` is the whole array), in particular for the first sample. -/
theorem C70_short_series (xs : List ℚ) (tol : Option ℚ) (minStd : ℚ) (h : xs.length < 10)
    (hc : checkConverged xs tol minStd none = some true) (hs : ¬ Spec.std xs < minStd) :
    ∀ x, xs.head? = some x → Spec.Near xs tol x := by
  intro x hx
  have hne : xs ≠ [] := by rintro rfl; simp at hx
  obtain ⟨b, hb, hiff⟩ := C70_converged_iff xs tol minStd none hne
  rw [hc] at hb
  obtain rfl := Option.some.inj hb
  rcases hiff.1 rfl with h' | ⟨_, h'⟩
  · exact absurd h' hs
  · have hp : 0 < xs.length := List.length_pos_iff.2 hne
    have := h' 1 (by omega) (by omega) (Or.inl (by unfold Spec.lastAsked; simp only; omega))
    obtain ⟨a, l, rfl⟩ := List.exists_cons_of_ne_nil hne
    simp only [List.head?_cons, Option.some.injEq] at hx
    subst hx
    simpa [Spec.mean] using this

/-- The ninth sample makes no difference, the tenth does: only the first sample is off. -/
example : checkConverged [9, 0, 1, 0, 1, 0, 1, 0, 1] none (1/10000) none = some false ∧
    checkConverged [9, 0, 1, 0, 1, 0, 1, 0, 1, 1] none (1/10000) none = some true := by
  decide +kernel

/-- Asking for the last running mean only is asking for nothing: it is the mean itself. -/
theorem C70_last_mean_trivial (xs : List ℚ) (tol : ℚ) (minStd : ℚ) (hne : xs ≠ [])
    (ht : 0 < tol) :
    checkConverged xs (some tol) minStd (some 1) = some true ↔
      Spec.std xs < minStd ∨ ∀ x, xs.getLast? = some x → Spec.Near xs (some tol) x := by
  obtain ⟨b, hb, hiff⟩ := C70_converged_iff xs (some tol) minStd (some 1) hne
  have hp : 0 < xs.length := List.length_pos_iff.2 hne
  rw [hb, Option.some.injEq, hiff]
  unfold Spec.Converged
  rw [show Spec.lastAsked xs.length (some 1) = 1 from if_pos (by omega)]
  apply or_congr Iff.rfl
  constructor
  · exact fun h => h.1
  · refine fun h => ⟨h, fun k h0 hk hm => ?_⟩
    have : k = xs.length := by omega
    subst this
    rw [List.take_length]
    simpa [Spec.Near] using ht

theorem average_affine (c d : ℚ) (xs : List ℚ) (hne : xs ≠ []) :
    average (xs.map fun x => c * x + d) = c * average xs + d := by
  have hp : (xs.length : ℚ) ≠ 0 := by
    have := List.length_pos_iff.2 hne
    exact_mod_cast this.ne'
  have hsum : ∀ l : List ℚ, (l.map fun x => c * x + d).sum = c * l.sum + l.length * d := by
    intro l
    induction l with
    | nil => simp
    | cons a l ih => simp only [List.map_cons, List.sum_cons, ih, List.length_cons]; push_cast; ring
  unfold average
  rw [hsum, List.length_map]
  field_simp

theorem variance_affine (c d : ℚ) (xs : List ℚ) (hne : xs ≠ []) :
    variance (xs.map fun x => c * x + d) = c ^ 2 * variance xs := by
  unfold variance
  rw [average_affine c d xs hne, List.map_map]
  have := average_affine (c ^ 2) 0 (xs.map fun x => (x - average xs) ^ 2) (by simpa using hne)
  rw [List.map_map] at this
  simp only [add_zero] at this
  rw [← this]
  congr 1
  apply List.map_congr_left
  intro x _
  simp only [Function.comp]
  ring

theorem nearMean_affine (c d : ℚ) (hc : c ≠ 0) (xs : List ℚ) (hne : xs ≠ []) (tol : Option ℚ)
    (x : ℚ) :
    nearMean (xs.map fun x => c * x + d) (tol.map fun t => |c| * t) (c * x + d)
      = nearMean xs tol x := by
  have hc2 : 0 < c ^ 2 := by positivity
  cases tol with
  | none =>
    simp only [nearMean, Option.map_none, average_affine c d xs hne, variance_affine c d xs hne,
      decide_eq_decide]
    rw [show (c * x + d - (c * average xs + d)) ^ 2 = c ^ 2 * (x - average xs) ^ 2 by ring]
    exact mul_lt_mul_iff_right₀ hc2
  | some t =>
    simp only [nearMean, Option.map_some, average_affine c d xs hne, decide_eq_decide]
    rcases lt_or_gt_of_ne hc with h | h
    · rw [abs_of_neg h]
      have e1 : c * x + d < c * average xs + d + -c * t ↔ average xs - x + -t < 0 + 0 ∨ False := by
        rw [or_false]
        constructor
        · intro h'; nlinarith
        · intro h'; nlinarith
      have e2 : c * average xs + d - -c * t < c * x + d ↔ x - average xs - t < 0 := by
        constructor
        · intro h'; nlinarith
        · intro h'; nlinarith
      rw [e1, e2]
      constructor
      · rintro ⟨h1, h2⟩
        rw [or_false] at h1
        constructor <;> linarith
      · rintro ⟨h1, h2⟩
        rw [or_false]
        constructor <;> linarith
    · rw [abs_of_pos h]
      constructor
      · rintro ⟨h1, h2⟩
        constructor <;> nlinarith
      · rintro ⟨h1, h2⟩
        constructor <;> nlinarith

theorem cumMeans_affine (c d : ℚ) (xs : List ℚ) :
    cumMeans 0 0 (xs.map fun x => c * x + d) = (cumMeans 0 0 xs).map fun x => c * x + d := by
  apply List.ext_getElem?
  intro j
  by_cases hj : j < xs.length
  · rw [cumMeans_zero _ _ (by simpa using hj), List.getElem?_map, cumMeans_zero _ _ hj,
      ← List.map_take, average_affine]
    · rfl
    · intro h
      have := congrArg List.length h
      rw [List.length_take, List.length_nil] at this
      omega
  · rw [List.getElem?_eq_none (by rw [cumMeans_length, List.length_map]; omega),
      List.getElem?_eq_none (by rw [List.length_map, cumMeans_length]; omega)]

/-- The decision does not depend on the zero of the property, nor on its unit or sign, provided
the tolerances are converted along. -/
theorem C70_affine (c d : ℚ) (hc : c ≠ 0) (xs : List ℚ) (tol : Option ℚ) (minStd : ℚ)
    (lastM : Option ℕ) :
    checkConverged (xs.map fun x => c * x + d) (tol.map fun t => |c| * t) (|c| * minStd) lastM
      = checkConverged xs tol minStd lastM := by
  by_cases hne : xs = []
  · subst hne; rfl
  have hstd : stdBelow (xs.map fun x => c * x + d) (|c| * minStd) = stdBelow xs minStd := by
    have hc1 : 0 < |c| := abs_pos.2 hc
    have hc2 : 0 < c ^ 2 := by positivity
    simp only [stdBelow, variance_affine c d xs hne, decide_eq_decide]
    rw [mul_pow, sq_abs]
    exact and_congr (mul_pos_iff_of_pos_left hc1) (mul_lt_mul_iff_right₀ hc2)
  unfold checkConverged
  rw [hstd, List.getLast?_map, List.length_map, cumMeans_affine]
  cases xs.getLast? with
  | none => rfl
  | some last =>
    simp only [Option.map_some]
    rw [nearMean_affine c d hc xs hne]
    split
    · rfl
    · congr 2
      unfold lastSlice
      have hall : ∀ l : List ℚ, (l.map fun x => c * x + d).all
          (nearMean (xs.map fun x => c * x + d) (tol.map fun t => |c| * t))
            = l.all (nearMean xs tol) := by
        intro l
        rw [List.all_map]
        congr 1
        funext x
        exact nearMean_affine c d hc xs hne tol x
      split
      · exact hall _
      · rw [List.length_map, ← List.map_drop]
        exact hall _

/-- **Finding.** The default minimum of the standard deviation is absolute, so the unit matters:
the same series converges when counted in a unit ten thousand times larger. -/
theorem C70_units_matter :
    ∃ xs : List ℚ, checkConverged xs none (1 / 10000) none = some false ∧
      checkConverged (xs.map fun x => 1 / 10000 * x) none (1 / 10000) none = some true :=
  ⟨[0, 0, 1, 1, 1], by decide +kernel, by decide +kernel⟩

/-- **Finding.** A series that alternates evenly between two values is never converged by the
default tolerance, however long: every sample is exactly one standard deviation off. -/
theorem C70_two_values_never (a b : ℚ) (xs : List ℚ) (minStd : ℚ) (lastM : Option ℕ)
    (h : ∀ x ∈ xs, x = a ∨ x = b) (heven : 2 * average xs = a + b) (hne : xs ≠ [])
    (hs : ¬ Spec.std xs < minStd) :
    checkConverged xs none minStd lastM = some false := by
  have hvar : variance xs = ((a - b) / 2) ^ 2 := by
    have hm : average xs = (a + b) / 2 := by linarith
    unfold variance
    have : (xs.map fun x => (x - average xs) ^ 2) = xs.map fun x => 0 * x + ((a - b) / 2) ^ 2 := by
      apply List.map_congr_left
      intro x hx
      rw [hm]
      rcases h x hx with rfl | rfl <;> ring
    rw [this, average_affine _ _ _ hne]
    ring
  obtain ⟨last, hlast⟩ : ∃ l, xs.getLast? = some l := by
    rw [← Option.isSome_iff_exists]; simpa using hne
  have hmem := List.mem_of_getLast? hlast
  unfold checkConverged
  rw [hlast]
  simp only
  rw [if_neg (fun h' => hs ((stdBelow_iff xs minStd).1 h'))]
  have : nearMean xs none last = false := by
    simp only [nearMean, decide_eq_false_iff_not, not_lt, hvar]
    have hm : average xs = (a + b) / 2 := by linarith
    rw [hm]
    rcases h last hmem with rfl | rfl
    · exact le_of_eq (by ring)
    · exact le_of_eq (by ring)
  rw [this, Bool.false_and]

example : checkConverged [0, 1, 0, 1, 0, 1, 0, 1, 0, 1, 0, 1] none (1/10000) none = some false ∧
    2 * average [0, 1, 0, 1, 0, 1, 0, 1, 0, 1, 0, 1] = 0 + 1 := by decide +kernel

/-! ## The number of samples to discard -/

namespace Spec

/-- Candidates: the initial number, and equal parts of the rest added to it, the last part never
left alone. -/
def Candidate (n init increment d i : ℕ) : Prop :=
  i + 1 < increment ∧ d = init + i * (n - init) / increment

/-- The initial number: a tenth if unspecified or too large. -/
def initial (n : ℕ) (init : Option ℕ) : ℕ :=
  match init with
  | some i => if i ≤ n then i else n / 10
  | none => n / 10

/-- What is left after discarding converges by the defaults. -/
def LeavesConverged (xs : List ℚ) (d : ℕ) : Prop :=
  Converged (xs.drop d) none (1 / 10000) ((xs.length - d) / 10)

end Spec

theorem discardGrid_eq (n init increment : ℕ) (h : 0 < increment) :
    discardGrid n init increment
      = (List.range (increment - 1)).map fun i => init + i * (n - init) / increment := by
  unfold discardGrid
  apply List.map_congr_left
  intro i _
  rw [← mul_div_assoc, add_comm, Nat.floor_add_natCast (by positivity), add_comm]
  congr 1
  rw [← Nat.cast_mul, ← Int.floor_toNat, Int.floor_div_natCast]
  simp only [Int.floor_natCast]
  exact_mod_cast Int.toNat_natCast _

theorem grid_lt (n init increment i : ℕ) (hi : i + 1 < increment) (hn : init < n) :
    init + i * (n - init) / increment < n := by
  have : i * (n - init) / increment < n - init := by
    rw [Nat.div_lt_iff_lt_mul (by omega), mul_comm]
    exact Nat.mul_lt_mul_of_pos_left (by omega) (by omega)
  omega

theorem check_default (xs : List ℚ) (d : ℕ) (hd : d < xs.length) :
    ∃ b, checkConverged (xs.drop d) none (1 / 10000) none = some b ∧
      (b = true ↔ Spec.LeavesConverged xs d) := by
  have hne : xs.drop d ≠ [] := by
    intro h
    have := congrArg List.length h
    rw [List.length_drop, List.length_nil] at this
    omega
  obtain ⟨b, hb, hiff⟩ := C70_converged_iff (xs.drop d) none (1 / 10000) none hne
  refine ⟨b, hb, hiff.trans ?_⟩
  unfold Spec.LeavesConverged
  rw [show Spec.lastAsked (xs.drop d).length none = (xs.length - d) / 10 by
    rw [List.length_drop]; rfl]

theorem firstConverged_spec (xs : List ℚ) (ds : List ℕ) (h : ∀ d ∈ ds, d < xs.length) :
    ∃ r, firstConverged xs ds = some r ∧
      ((∃ i : ℕ, ds[i]? = some r ∧ Spec.LeavesConverged xs r ∧
          ∀ j : ℕ, j < i → ∀ e, ds[j]? = some e → ¬ Spec.LeavesConverged xs e) ∨
        (r = 0 ∧ ∀ e ∈ ds, ¬ Spec.LeavesConverged xs e)) := by
  induction ds with
  | nil => exact ⟨0, rfl, Or.inr ⟨rfl, by simp⟩⟩
  | cons d ds ih =>
    obtain ⟨b, hb, hiff⟩ := check_default xs d (h d (by simp))
    unfold firstConverged
    rw [hb]
    cases b with
    | true => exact ⟨d, rfl, Or.inl ⟨0, rfl, hiff.1 rfl, by simp⟩⟩
    | false =>
      have hn : ¬ Spec.LeavesConverged xs d := fun h' => by simpa using hiff.2 h'
      obtain ⟨r, hr, hcase⟩ := ih fun e he => h e (by simp [he])
      refine ⟨r, hr, ?_⟩
      rcases hcase with ⟨i, hi, hc, hbefore⟩ | ⟨h0, hall⟩
      · refine Or.inl ⟨i + 1, by simpa using hi, hc, ?_⟩
        intro j hj e he
        cases j with
        | zero =>
          simp only [List.getElem?_cons_zero, Option.some.injEq] at he
          exact he ▸ hn
        | succ j => exact hbefore j (by omega) e (by simpa using he)
      · refine Or.inr ⟨h0, ?_⟩
        intro e he
        rcases List.mem_cons.1 he with rfl | he
        · exact hn
        · exact hall e he

theorem initDiscard_eq (n : ℕ) (init : Option ℕ) : initDiscard n init = Spec.initial n init := by
  cases init with
  | none => rfl
  | some i => simp only [initDiscard, Spec.initial]; split <;> split <;> omega

theorem discardNumber_eq (xs : List ℚ) (init : Option ℕ) (increment : ℕ) (hi : 0 < increment)
    (hn : Spec.initial xs.length init ≠ xs.length) :
    discardNumber xs init increment
      = firstConverged xs (discardGrid xs.length (Spec.initial xs.length init) increment) := by
  unfold discardNumber
  simp only [initDiscard_eq]
  rw [if_neg (by omega)]

theorem initial_le (n : ℕ) (init : Option ℕ) : Spec.initial n init ≤ n := by
  unfold Spec.initial
  cases init with
  | none => simp only; omega
  | some i => simp only; split <;> omega

/-- The number found leaves a converged series and is the first such candidate; if no candidate
does, the number is 0. -/
theorem C70_discard (xs : List ℚ) (init : Option ℕ) (increment : ℕ) (hi : 0 < increment)
    (hn : Spec.initial xs.length init ≠ xs.length) :
    ∃ r, discardNumber xs init increment = some r ∧
      ((∃ i, Spec.Candidate xs.length (Spec.initial xs.length init) increment r i ∧
          Spec.LeavesConverged xs r ∧
          ∀ j < i, ∀ e, Spec.Candidate xs.length (Spec.initial xs.length init) increment e j →
            ¬ Spec.LeavesConverged xs e) ∨
        (r = 0 ∧ ∀ e i, Spec.Candidate xs.length (Spec.initial xs.length init) increment e i →
          ¬ Spec.LeavesConverged xs e)) := by
  have hlt : Spec.initial xs.length init < xs.length := lt_of_le_of_ne (initial_le _ _) hn
  rw [discardNumber_eq xs init increment hi hn, discardGrid_eq _ _ _ hi]
  obtain ⟨r, hr, hcase⟩ := firstConverged_spec xs
    ((List.range (increment - 1)).map
      fun i => Spec.initial xs.length init + i * (xs.length - Spec.initial xs.length init) / increment)
    (by
      intro d hd
      simp only [List.mem_map, List.mem_range] at hd
      obtain ⟨i, hi', rfl⟩ := hd
      exact grid_lt _ _ _ _ (by omega) hlt)
  have hget : ∀ i e, ((List.range (increment - 1)).map fun i => Spec.initial xs.length init
      + i * (xs.length - Spec.initial xs.length init) / increment)[i]? = some e ↔
      Spec.Candidate xs.length (Spec.initial xs.length init) increment e i := by
    intro i e
    unfold Spec.Candidate
    rw [List.getElem?_map]
    by_cases h : i < increment - 1
    · rw [List.getElem?_range h]
      simp only [Option.map_some, Option.some.injEq]
      constructor
      · intro h'; exact ⟨by omega, h'.symm⟩
      · intro h'; exact h'.2.symm
    · rw [List.getElem?_eq_none (by simpa using h)]
      constructor
      · intro h'; simp at h'
      · intro h'; omega
  refine ⟨r, hr, ?_⟩
  rcases hcase with ⟨i, hi', hc, hb⟩ | ⟨h0, hall⟩
  · exact Or.inl ⟨i, (hget i r).1 hi', hc, fun j hj e he => hb j hj e ((hget j e).2 he)⟩
  · exact Or.inr ⟨h0, fun e i he => hall e (List.mem_of_getElem? ((hget i e).2 he))⟩

example : discardNumber [9, 9, 9, 9, 9, 9, 9, 9, 9, 9, 9, 1, 2, 1, 2, 2, 1, 2, 2, 1] none 6
    = some 5 := by decide +kernel

/-- The two cases in which it raises: no parts, or nothing left to divide. -/
theorem C70_discard_raises_iff (xs : List ℚ) (init : Option ℕ) (increment : ℕ) :
    discardNumber xs init increment = none ↔
      increment = 0 ∨ Spec.initial xs.length init = xs.length := by
  constructor
  · intro h
    by_contra hc
    push Not at hc
    obtain ⟨r, hr, _⟩ := C70_discard xs init increment (Nat.pos_of_ne_zero hc.1) hc.2
    rw [h] at hr
    exact absurd hr (by simp)
  · intro h
    unfold discardNumber
    simp only [initDiscard_eq]
    rw [if_pos h]

/-- With a positive initial number, 0 means that nothing was found; otherwise the number found is
at least the initial one. -/
theorem C70_zero_means_not_found (xs : List ℚ) (init : Option ℕ) (increment : ℕ)
    (h0 : 0 < Spec.initial xs.length init) (r : ℕ)
    (hr : discardNumber xs init increment = some r) :
    (r = 0 ↔ ∀ e i, Spec.Candidate xs.length (Spec.initial xs.length init) increment e i →
      ¬ Spec.LeavesConverged xs e) ∧ (r ≠ 0 → Spec.initial xs.length init ≤ r) := by
  have hc : ¬ (increment = 0 ∨ Spec.initial xs.length init = xs.length) := by
    rw [← C70_discard_raises_iff, hr]; simp
  push Not at hc
  obtain ⟨r', hr', hcase⟩ := C70_discard xs init increment (Nat.pos_of_ne_zero hc.1) hc.2
  rw [hr] at hr'
  obtain rfl := Option.some.inj hr'
  rcases hcase with ⟨i, hcand, hl, _⟩ | ⟨hz, hall⟩
  · have hle : Spec.initial xs.length init ≤ r := by
      rw [hcand.2]; exact Nat.le_add_right _ _
    exact ⟨⟨fun h => by omega, fun h => absurd hl (h r i hcand)⟩, fun _ => hle⟩
  · exact ⟨⟨fun _ => hall, fun _ => hz⟩, fun h => absurd hz h⟩

/-- **Finding.** Without an initial number 0 is ambiguous: it is returned for a converged series
and for a series no part of which converges. -/
theorem C70_zero_ambiguous :
    ∃ xs ys : List ℚ, discardNumber xs (some 0) 10 = some 0 ∧ discardNumber ys (some 0) 10 = some 0 ∧
      checkConverged xs none (1 / 10000) none = some true ∧
      checkConverged ys none (1 / 10000) none = some false :=
  ⟨[0, 0, 0, 0, 0, 0], [0, 1, 2, 4, 8, 16, 32, 64, 128, 256, 512, 1024],
    by decide +kernel, by decide +kernel, by decide +kernel, by decide +kernel⟩

/-- **Finding.** A single increment tries nothing: the answer is 0 for every series. -/
theorem C70_single_increment (xs : List ℚ) (init : Option ℕ)
    (hn : Spec.initial xs.length init ≠ xs.length) : discardNumber xs init 1 = some 0 := by
  rw [discardNumber_eq xs init 1 (by omega) hn]
  rfl

end Smol
