import Verif.Lemmas.Snf
import Verif.Lemmas.Ewald
import Verif.Spec.IntLinAlg

/-!
# C30, C31, C32 Extended gcd, Smith normal form, diophantine equations
-/

namespace Smol
open Spec

/-! ### C30 -/

/-- **C30**: `gcdex(a, b)` returns a Bézout identity for the greatest common divisor up to sign. -/
theorem C30_gcdex (a b : ℤ) :
    let r := gcdex a b
    r.1 * a + r.2.1 * b = r.2.2 ∧ r.2.2.natAbs = Int.gcd a b := gcdex_spec a b

/-- The recursion of the model is the one of the code. -/
theorem C30_recursion (a b : ℤ) : gcdex a b =
    if a = 0 then (0, 1, b)
    else ((gcdex (b.fmod a) a).2.1 - b.fdiv a * (gcdex (b.fmod a) a).1, (gcdex (b.fmod a) a).1,
      (gcdex (b.fmod a) a).2.2) := gcdex_eq a b

/-- The sign may be negative. -/
theorem C30_sign : (gcdex (-2) 0).2.2 = -2 ∧ (gcdex (-4) (-6)).2.2 = -2 := by decide +kernel

example : gcdex 12 18 = (-1, 1, 6) := by decide +kernel

/-! ### C31 -/

/-- **C31** (partial): `compute_snf` terminates on every integer matrix of every shape with
`m = s a t`, `s` and `t` unimodular and `m` diagonal with its nonzero entries first; every diagonal
entry divides the last one.  Missing: each entry dividing the *next*, which is false for three or
more entries (`C31_not_a_chain`) and true up to two (`C31_chain_of_two`). -/
theorem C31_smith_partial (p q : ℕ) (a : IMat) : ∃ x, computeSnf p q a = some x ∧
    asMatrix p q x.m = asMatrix p p x.s * asMatrix p q a * asMatrix q q x.t ∧
    IsUnit (asMatrix p p x.s).det ∧ IsUnit (asMatrix q q x.t).det ∧
    (∀ i < p, ∀ j < q, i ≠ j → x.m i j = 0) ∧
    (∃ k ≤ min p q, ∀ i < min p q, x.m i i ≠ 0 ↔ i < k) ∧
    (∀ i < min p q, x.m i i ∣ x.m (min p q - 1) (min p q - 1)) := by
  obtain ⟨x, h1, h2, k, hk, h3, h4⟩ := computeSnf_spec p q a
  refine ⟨x, h1, h2.eq, h2.su, h2.tu, h3.off, ⟨k, hk, fun i hi => ⟨fun h => ?_, h3.nz i⟩⟩, fun i hi => ?_⟩
  · by_contra hik
    exact h (h3.z i (by omega) (by omega) (by omega))
  · by_cases h : i + 1 < min p q
    · exact h4 i h
    · rw [show i = min p q - 1 by omega]

/-- With at most two diagonal entries the result is a divisor chain. -/
theorem C31_chain_of_two (p q : ℕ) (a : IMat) (h : min p q ≤ 2) : ∃ x, computeSnf p q a = some x ∧
    ∀ i, i + 1 < min p q → x.m i i ∣ x.m (i + 1) (i + 1) := by
  obtain ⟨x, h1, _, _, _, _, _, h2⟩ := C31_smith_partial p q a
  refine ⟨x, h1, fun i hi => ?_⟩
  have := h2 i (by omega)
  rwa [show min p q - 1 = i + 1 by omega] at this

/-- The matrix diag(2, 4, 3). -/
def snfWitness : IMat := fun i j => if i = j then (if i = 0 then 2 else if i = 1 then 4 else 3) else 0

/-- **C31** (violation): diag(2, 4, 3) is turned into diag(2, 1, 12), and 2 does not divide 1. -/
theorem C31_not_a_chain : ∃ x, computeSnf 3 3 snfWitness = some x ∧
    ¬ (∀ i, i + 1 < 3 → x.m i i ∣ x.m (i + 1) (i + 1)) := by
  obtain ⟨x, h1, _⟩ := C31_smith_partial 3 3 snfWitness
  refine ⟨x, h1, fun h => ?_⟩
  have h0 := h 0 (by norm_num)
  have e : (computeSnf 3 3 snfWitness).map (fun x => (x.m 0 0, x.m 1 1, x.m 2 2)) =
      some (2, 1, 12) := by decide +kernel
  rw [h1] at e
  simp only [Option.map_some, Option.some.injEq, Prod.mk.injEq] at e
  rw [e.1, e.2.1] at h0
  exact absurd h0 (by decide)

example : (computeSnf 2 3 fun i j => if i = 0 then 2 * j + 4 else 6 * j + 2).map
    (fun x => (x.m 0 0, x.m 1 1)) = some (2, 10) := by decide +kernel

/-! ### C32 -/

theorem asMatrix_eq (p q : ℕ) (m : IMat) : asMatrix p q m = toM p q m := rfl

theorem rank_le_of_diagForm {p q k : ℕ} {a : IMat} {x : Snf} (hg : x.Good p q a)
    (hd : DiagForm p q k x.m) : (toM p q a).rank ≤ k := by
  have hS := hg.su
  have hT := hg.tu
  have e : toM p q a = (toM p p x.s)⁻¹ * toM p q x.m * (toM q q x.t)⁻¹ := by
    rw [hg.eq, Matrix.mul_assoc, Matrix.mul_assoc, Matrix.mul_assoc, Matrix.mul_nonsing_inv _ hT,
      Matrix.mul_one, ← Matrix.mul_assoc, Matrix.nonsing_inv_mul _ hS, Matrix.one_mul]
  have e2 : toM p q x.m =
      (Matrix.of fun (r : Fin p) (j : Fin k) => if (r : ℕ) = j then x.m j j else 0) *
      (Matrix.of fun (j : Fin k) (c : Fin q) => if (j : ℕ) = c then (1 : ℤ) else 0) := by
    ext r c
    rw [Matrix.mul_apply]
    simp only [Matrix.of_apply]
    by_cases hrc : (r : ℕ) = c
    · by_cases hrk : (r : ℕ) < k
      · rw [Finset.sum_eq_single ⟨r, hrk⟩]
        · simp [toM, hrc]
        · intro j _ hj
          have : (r : ℕ) ≠ j := fun e => hj (Fin.ext e.symm)
          simp [this]
        · simp
      · rw [Finset.sum_eq_zero]
        · have := hd.z r (by omega) r.2 (by have := c.2; omega)
          simp only [toM]; rw [← hrc]; exact this
        · intro j _
          have : (r : ℕ) ≠ j := by have := j.2; omega
          simp [this]
    · rw [Finset.sum_eq_zero]
      · exact hd.off r r.2 c c.2 hrc
      · intro j _
        by_cases h : (r : ℕ) = j
        · have : (j : ℕ) ≠ c := by omega
          simp [this]
        · simp [h]
  calc (toM p q a).rank ≤ ((toM p p x.s)⁻¹ * toM p q x.m).rank := by
        rw [e]; exact Matrix.rank_mul_le_left _ _
    _ ≤ (toM p q x.m).rank := Matrix.rank_mul_le_right _ _
    _ ≤ _ := by rw [e2]; exact Matrix.rank_mul_le_left _ _
    _ ≤ k := Matrix.rank_le_width _

theorem lastZero_eq {n d k : ℕ} {m : IMat} (hd : DiagForm n d k m) (hk : k ≤ min n d) :
    lastZero n d m = if k = min n d then min n d else min n d - 1 := by
  unfold lastZero
  split_ifs with h
  · have : (List.range (min n d)).reverse.find? (fun i => decide (m i i = 0)) = none := by
      rw [List.find?_eq_none]
      intro i hi
      rw [List.mem_reverse, List.mem_range] at hi
      simpa using hd.nz i (by omega)
    rw [this]; rfl
  · obtain ⟨w, hw⟩ := Nat.exists_eq_succ_of_ne_zero (show min n d ≠ 0 by omega)
    rw [hw, Nat.succ_eq_add_one, List.range_succ, List.reverse_append]
    have := hd.z w (by omega) (by omega) (by omega)
    simp [this]

/-- Transformed right side. -/
def dioRhs (n : ℕ) (x : Snf) (b : ℕ → ℤ) (i : ℕ) : ℤ :=
  ((List.range n).map fun j => x.s i j * b j).sum

theorem dioRhs_eq (n : ℕ) (x : Snf) (b : ℕ → ℤ) (i : Fin n) :
    dioRhs n x b i = (toM n n x.s).mulVec (fun j => b j) i := by
  rw [dioRhs, list_range_sum, Finset.sum_range]
  rfl

/-- Solutions in the transformed variables. -/
theorem solves_iff {n d k : ℕ} {a : IMat} {x : Snf} (hg : x.Good n d a)
    (hd : DiagForm n d k x.m) (hk : k ≤ min n d) (b : ℕ → ℤ) (w : Fin d → ℤ) :
    (toM n d a).mulVec ((toM d d x.t).mulVec w) = (fun i : Fin n => b i) ↔
    (∀ i (h : i < k), x.m i i * w ⟨i, by omega⟩ = dioRhs n x b i) ∧
      (∀ i, k ≤ i → i < n → dioRhs n x b i = 0) := by
  have h1 : (toM n d a).mulVec ((toM d d x.t).mulVec w) = (fun i : Fin n => b i) ↔
      (toM n d x.m).mulVec w = (toM n n x.s).mulVec fun i : Fin n => b i := by
    rw [hg.eq, ← Matrix.mulVec_mulVec, ← Matrix.mulVec_mulVec]
    constructor
    · intro h; rw [h]
    · intro h
      have := congrArg ((toM n n x.s)⁻¹.mulVec) h
      rwa [Matrix.mulVec_mulVec, Matrix.nonsing_inv_mul _ hg.su, Matrix.one_mulVec,
        Matrix.mulVec_mulVec (fun i : Fin n => b i), Matrix.nonsing_inv_mul _ hg.su,
        Matrix.one_mulVec] at this
  have h2 : ∀ i : Fin n, (toM n d x.m).mulVec w i =
      if h : (i : ℕ) < k then x.m i i * w ⟨i, by omega⟩ else 0 := by
    intro i
    simp only [Matrix.mulVec, dotProduct]
    split_ifs with h
    · rw [Finset.sum_eq_single ⟨i, by omega⟩]
      · rfl
      · intro j _ hj
        have hne : (i : ℕ) ≠ j := fun e => hj (Fin.ext e.symm)
        have := hd.off i i.2 j j.2 hne
        simp [toM, this]
      · simp
    · apply Finset.sum_eq_zero
      intro j _
      by_cases hij : (i : ℕ) = j
      · have := hd.z i (by omega) i.2 (by have := j.2; omega)
        simp only [toM]; rw [← hij, this, zero_mul]
      · have := hd.off i i.2 j j.2 hij
        simp [toM, this]
  rw [h1]
  constructor
  · intro h
    refine ⟨fun i hi => ?_, fun i hi hin => ?_⟩
    · have := congrFun h ⟨i, by omega⟩
      rw [h2, ← dioRhs_eq, dif_pos hi] at this
      exact this
    · have := congrFun h ⟨i, hin⟩
      rw [h2, ← dioRhs_eq, dif_neg (by simpa using hi)] at this
      exact this.symm
  · rintro ⟨e1, e2⟩
    funext i
    rw [h2, ← dioRhs_eq]
    split_ifs with h
    · exact e1 i h
    · exact (e2 i (by omega) i.2).symm

/-- The combination of the returned vectors in the transformed variables. -/
def dioVec (m : IMat) (c : ℕ → ℤ) (k d : ℕ) (y : ℕ → ℤ) : Fin d → ℤ := fun i =>
  if (i : ℕ) < k then npDiv (c i) (m i i) else y (i - k)

theorem comb_eq {d k : ℕ} (x : Snf) (c : ℕ → ℤ) (hk : k ≤ d) (y : ℕ → ℤ) (r : Fin d) :
    ((List.range k).map fun i => x.t r i * npDiv (c i) (x.m i i)).sum +
      ∑ i ∈ Finset.range (d - k), y i * x.t r (k + i) =
    (toM d d x.t).mulVec (dioVec x.m c k d y) r := by
  have e : (toM d d x.t).mulVec (dioVec x.m c k d y) r =
      ∑ i ∈ Finset.range d, x.t r i * (if i < k then npDiv (c i) (x.m i i) else y (i - k)) := by
    rw [Finset.sum_range]; rfl
  rw [e, list_range_sum]
  obtain ⟨l, rfl⟩ := Nat.exists_eq_add_of_le hk
  rw [Finset.sum_range_add, Nat.add_sub_cancel_left]
  congr 1
  · apply Finset.sum_congr rfl
    intro i hi
    rw [if_pos (Finset.mem_range.1 hi)]
  · apply Finset.sum_congr rfl
    intro i _
    rw [if_neg (by omega), Nat.add_sub_cancel_left, mul_comm]

/-- The basis vectors returned. -/
def dioBasis (x : Snf) (k d : ℕ) : List (ℕ → ℤ) := (List.range' k (d - k)).map fun i r => x.t r i

/-- The base solution returned. -/
def dioBase (x : Snf) (c : ℕ → ℤ) (k : ℕ) : ℕ → ℤ := fun r =>
  ((List.range k).map fun i => x.t r i * npDiv (c i) (x.m i i)).sum

theorem solveDioph_eq {n d : ℕ} {a : IMat} {x : Snf} (h : computeSnf n d a = some x) (b : ℕ → ℤ) :
    solveDioph n d a b =
      if ∀ i < lastZero n d x.m, npMod (dioRhs n x b i) (x.m i i) = 0 then
        some (dioBase x (dioRhs n x b) (lastZero n d x.m), dioBasis x (lastZero n d x.m) d)
      else none := by
  rw [solveDioph, h, Option.bind_some]
  refine if_congr ?_ rfl rfl
  rw [List.all_eq_true]
  simp only [List.mem_range, decide_eq_true_eq]
  rfl

/-- The vectors as functions of the coordinates. -/
def restrict (d : ℕ) (v : ℕ → ℤ) : Fin d → ℤ := fun r => v r

theorem general_comb {d k : ℕ} (x : Snf) (c : ℕ → ℤ) (hk : k ≤ d) :
    ((dioBasis x k d).map (restrict d)).length = d - k ∧
    ∀ y : Fin ((dioBasis x k d).map (restrict d)).length → ℤ,
      (fun r => restrict d (dioBase x c k) r + ∑ i, y i * ((dioBasis x k d).map (restrict d))[i] r) =
      (toM d d x.t).mulVec (dioVec x.m c k d fun i =>
        if h : i < ((dioBasis x k d).map (restrict d)).length then y ⟨i, h⟩ else 0) := by
  have hlen : ((dioBasis x k d).map (restrict d)).length = d - k := by simp [dioBasis]
  refine ⟨hlen, fun y => ?_⟩
  funext r
  rw [← comb_eq x c hk]
  congr 1
  have : ∀ i : Fin ((dioBasis x k d).map (restrict d)).length,
      y i * ((dioBasis x k d).map (restrict d))[i] r =
      (fun i : ℕ => (if h : i < ((dioBasis x k d).map (restrict d)).length then y ⟨i, h⟩ else 0) *
        x.t r (k + i)) i := by
    intro i
    simp only [i.2, dif_pos]
    congr 1
    rw [Fin.getElem_fin, List.getElem_map]
    unfold dioBasis restrict
    rw [List.getElem_map, List.getElem_range']
    simp
  rw [Finset.sum_congr rfl fun i _ => this i, ← Finset.sum_range
    (f := fun i : ℕ => (if h : i < ((dioBasis x k d).map (restrict d)).length then y ⟨i, h⟩ else 0) *
        x.t r (k + i))]
  exact Finset.sum_congr (by rw [hlen]) fun _ _ => rfl

theorem npMod_of_mul {c m w : ℤ} (h : m * w = c) : npMod c m = 0 := by
  unfold npMod
  split_ifs with hm
  · rfl
  · exact Int.fmod_eq_zero_of_dvd ⟨w, h.symm⟩

theorem npDiv_mul {c m : ℤ} (hm : m ≠ 0) (h : npMod c m = 0) : m * npDiv c m = c := by
  unfold npMod at h
  rw [if_neg hm] at h
  have := Int.mul_fdiv_add_fmod c m
  rw [h, add_zero] at this
  exact this

/-- Every vector is a transformed one. -/
theorem exists_transformed {n d : ℕ} {a : IMat} {x : Snf} (hg : x.Good n d a) (v : Fin d → ℤ) :
    ∃ w, (toM d d x.t).mulVec w = v :=
  ⟨(toM d d x.t)⁻¹.mulVec v, by
    rw [Matrix.mulVec_mulVec, Matrix.mul_nonsing_inv _ hg.tu, Matrix.one_mulVec]⟩

theorem transformed_inj {n d : ℕ} {a : IMat} {x : Snf} (hg : x.Good n d a) {v w : Fin d → ℤ}
    (h : (toM d d x.t).mulVec v = (toM d d x.t).mulVec w) : v = w := by
  have := congrArg ((toM d d x.t)⁻¹.mulVec) h
  rwa [Matrix.mulVec_mulVec, Matrix.mulVec_mulVec, Matrix.nonsing_inv_mul _ hg.tu,
    Matrix.one_mulVec, Matrix.one_mulVec] at this

theorem solvable_checks {n d k : ℕ} {a : IMat} {x : Snf} (hg : x.Good n d a)
    (hd : DiagForm n d k x.m) (hk : k ≤ min n d) {b : ℕ → ℤ} {v : Fin d → ℤ}
    (hv : (asMatrix n d a).mulVec v = fun i : Fin n => b i) :
    (∀ i, k ≤ i → i < n → dioRhs n x b i = 0) ∧
    ∀ i < lastZero n d x.m, npMod (dioRhs n x b i) (x.m i i) = 0 := by
  obtain ⟨w, rfl⟩ := exists_transformed hg v
  obtain ⟨e1, e2⟩ := (solves_iff hg hd hk b w).1 hv
  refine ⟨e2, fun i hi => ?_⟩
  rw [lastZero_eq hd hk] at hi
  by_cases h : i < k
  · exact npMod_of_mul (e1 i h)
  · have hin : i < min n d := by split_ifs at hi <;> omega
    rw [npMod, if_pos (hd.z i (by omega) (by omega) (by omega))]

/-- **C32** (raising): if `solve_diophantines` raises then the system has no integer solution. -/
theorem C32_raises_only_if_unsolvable (n d : ℕ) (a : IMat) (b : ℕ → ℤ)
    (h : solveDioph n d a b = none) : ¬ ∃ v, (asMatrix n d a).mulVec v = fun i : Fin n => b i := by
  rintro ⟨v, hv⟩
  obtain ⟨x, h1, h2, k, hk, h3, -⟩ := computeSnf_spec n d a
  obtain ⟨-, hc⟩ := solvable_checks h2 h3 hk hv
  rw [solveDioph_eq h1, if_pos hc] at h
  exact absurd h (by simp)

/-- **C32** (soundness): for a solvable system everything generated by the result solves it,
whatever the rank. -/
theorem C32_generated_solve (n d : ℕ) (a : IMat) (b : ℕ → ℤ)
    (hs : ∃ v, (asMatrix n d a).mulVec v = fun i : Fin n => b i) :
    ∃ n0 vs, solveDioph n d a b = some (n0, vs) ∧
      ∀ y : Fin (vs.map (restrict d)).length → ℤ, (asMatrix n d a).mulVec
        (fun r => restrict d n0 r + ∑ i, y i * (vs.map (restrict d))[i] r) = fun i : Fin n => b i := by
  obtain ⟨v, hv⟩ := hs
  obtain ⟨x, h1, h2, k, hk, h3, -⟩ := computeSnf_spec n d a
  obtain ⟨hz, hc⟩ := solvable_checks h2 h3 hk hv
  refine ⟨_, _, by rw [solveDioph_eq h1, if_pos hc], fun y => ?_⟩
  have hl := lastZero_eq h3 hk
  have hld : lastZero n d x.m ≤ d := by rw [hl]; split_ifs <;> omega
  have hkl : k ≤ lastZero n d x.m := by rw [hl]; split_ifs <;> omega
  rw [(general_comb x _ hld).2 y]
  refine (solves_iff h2 h3 hk b _).2 ⟨fun i hi => ?_, hz⟩
  rw [dioVec, if_pos (show i < lastZero n d x.m by omega)]
  exact npDiv_mul (h3.nz i hi) (hc i (by omega))

/-- **C32** (partial): if the system is solvable and the matrix loses at most one rank, the result
is a general solution with unique coefficients.  Missing: matrices losing more than one rank, where
it is false (`C32_redundant_loses_solutions`). -/
theorem C32_solutions_partial (n d : ℕ) (a : IMat) (b : ℕ → ℤ)
    (hr : min n d ≤ (asMatrix n d a).rank + 1)
    (hs : ∃ v, (asMatrix n d a).mulVec v = fun i : Fin n => b i) :
    ∃ n0 vs, solveDioph n d a b = some (n0, vs) ∧
      IsGeneralSolution (asMatrix n d a) (fun i : Fin n => b i) (restrict d n0) (vs.map (restrict d)) := by
  obtain ⟨v, hv⟩ := hs
  obtain ⟨x, h1, h2, k, hk, h3, -⟩ := computeSnf_spec n d a
  obtain ⟨hz, hc⟩ := solvable_checks h2 h3 hk hv
  refine ⟨_, _, by rw [solveDioph_eq h1, if_pos hc], ?_⟩
  have hrk := rank_le_of_diagForm h2 h3
  rw [asMatrix_eq] at hr
  have hl : lastZero n d x.m = k := by rw [lastZero_eq h3 hk]; split_ifs <;> omega
  rw [hl] at hc ⊢
  have hkd : k ≤ d := by omega
  obtain ⟨hlen, hcomb⟩ := general_comb x (dioRhs n x b) hkd
  intro v
  constructor
  · intro hv
    obtain ⟨w, rfl⟩ := exists_transformed h2 v
    obtain ⟨e1, -⟩ := (solves_iff h2 h3 hk b w).1 hv
    refine ⟨fun i => w ⟨k + i, by have := i.2; omega⟩, ?_, ?_⟩
    · simp only
      rw [hcomb]
      congr 1
      funext i
      unfold dioVec
      split_ifs with hi
      · apply mul_left_cancel₀ (h3.nz i hi)
        rw [e1 i hi, npDiv_mul (h3.nz i hi) (hc i hi)]
      · have hi' : (i : ℕ) - k < ((dioBasis x k d).map (restrict d)).length := by
          have := i.2; omega
        simp only [hi', dif_pos]
        congr 1
        apply Fin.ext
        simp only; omega
    · intro y hy
      rw [hcomb] at hy
      have := transformed_inj h2 hy
      funext i
      have hi := congrFun this ⟨k + i, by have := i.2; omega⟩
      rw [hi, dioVec]
      simp only
      rw [if_neg (by omega)]
      simp only [Nat.add_sub_cancel_left, i.2, dif_pos]
  · rintro ⟨y, hy, -⟩
    rw [hy, hcomb]
    refine (solves_iff h2 h3 hk b _).2 ⟨fun i hi => ?_, hz⟩
    rw [dioVec, if_pos hi]
    exact npDiv_mul (h3.nz i hi) (hc i hi)

/-- **C32** (full row rank): with independent equations the solver raises exactly on the unsolvable
systems and otherwise returns the general solution. -/
theorem C32_full_row_rank (n d : ℕ) (a : IMat) (b : ℕ → ℤ)
    (hr : (asMatrix n d a).rank = n) :
    (solveDioph n d a b = none ↔ ¬ ∃ v, (asMatrix n d a).mulVec v = fun i : Fin n => b i) ∧
    ∀ n0 vs, solveDioph n d a b = some (n0, vs) →
      IsGeneralSolution (asMatrix n d a) (fun i : Fin n => b i) (restrict d n0) (vs.map (restrict d)) := by
  have key : ∀ r, solveDioph n d a b = some r → ∃ v, (asMatrix n d a).mulVec v = fun i : Fin n => b i := by
    intro r hr'
    obtain ⟨x, h1, h2, k, hk, h3, -⟩ := computeSnf_spec n d a
    have hrk := rank_le_of_diagForm h2 h3
    rw [← asMatrix_eq, hr] at hrk
    have hkn : k = n := by omega
    have hl : lastZero n d x.m = k := by rw [lastZero_eq h3 hk]; split_ifs <;> omega
    rw [solveDioph_eq h1] at hr'
    split_ifs at hr' with hc
    rw [hl] at hc
    refine ⟨(toM d d x.t).mulVec (dioVec x.m (dioRhs n x b) k d fun _ => 0), ?_⟩
    refine (solves_iff h2 h3 hk b _).2 ⟨fun i hi => ?_, fun i _ _ => by omega⟩
    rw [dioVec, if_pos hi]
    exact npDiv_mul (h3.nz i hi) (hc i hi)
  refine ⟨⟨C32_raises_only_if_unsolvable n d a b, fun h => ?_⟩, fun n0 vs h => ?_⟩
  · cases hh : solveDioph n d a b with
    | none => rfl
    | some r => exact absurd (key r hh) h
  · obtain ⟨n0', vs', h', hg⟩ := C32_solutions_partial n d a b (by omega) (key _ h)
    rw [h] at h'
    simp only [Option.some.injEq, Prod.mk.injEq] at h'
    rw [h'.1, h'.2]; exact hg

/-- **C32** (violation): an inconsistent redundant system, `x = 0` and `0 = 1`, is accepted. -/
theorem C32_inconsistent_accepted :
    (∃ r, solveDioph 2 2 (fun i j => if i = 0 ∧ j = 0 then 1 else 0) (fun i => if i = 1 then 1 else 0) =
      some r) ∧
    ¬ ∃ v, (asMatrix 2 2 fun i j => if i = 0 ∧ j = 0 then 1 else 0).mulVec v =
      fun i : Fin 2 => if (i : ℕ) = 1 then 1 else 0 := by
  constructor
  · have : (solveDioph 2 2 (fun i j => if i = 0 ∧ j = 0 then 1 else 0)
      (fun i => if i = 1 then 1 else 0)).isSome := by decide +kernel
    exact Option.isSome_iff_exists.1 this
  · rintro ⟨v, hv⟩
    have := congrFun hv 1
    simp [Matrix.mulVec, dotProduct, asMatrix] at this

/-- **C32** (violation): with two redundant equations basis vectors are lost; the zero 2 by 2 system
is solved by every vector but the result generates only the multiples of one vector. -/
theorem C32_redundant_loses_solutions : ∃ n0 v, solveDioph 2 2 (fun _ _ => 0) (fun _ => 0) =
      some (n0, [v]) ∧
    (asMatrix 2 2 fun _ _ => 0).mulVec ![1, 0] = (fun _ => 0) ∧
    ¬ ∃ y : ℤ, (![1, 0] : Fin 2 → ℤ) = fun r => restrict 2 n0 r + y * restrict 2 v r := by
  have e : (solveDioph 2 2 (fun _ _ => 0) (fun _ => 0)).map (fun r => (r.1 0, r.2.length,
      (r.2.getD 0 fun _ => 7) 0)) = some (0, 1, 0) := by decide +kernel
  cases h : solveDioph 2 2 (fun _ _ => 0) (fun _ => 0) with
  | none => rw [h] at e; exact absurd e (by simp)
  | some r =>
    obtain ⟨n0, vs⟩ := r
    rw [h] at e
    simp only [Option.map_some, Option.some.injEq, Prod.mk.injEq] at e
    obtain ⟨e1, e2, e3⟩ := e
    obtain ⟨v, rfl⟩ := List.length_eq_one_iff.1 e2
    refine ⟨n0, v, rfl, ?_, ?_⟩
    · funext i; simp [Matrix.mulVec, dotProduct, asMatrix]
    · rintro ⟨y, hy⟩
      have := congrFun hy 0
      simp only [List.getD_cons_zero] at e3
      simp [restrict, e1, e3] at this

/-- **C32** (default right side): without `b` the zero vector has the number of columns as length,
so the call raises for every system that is not square, although zero solves it. -/
theorem C32_default_raises (n d : ℕ) (a : IMat) (h : n ≠ d) :
    solveDiophDefault n d a = none ∧ (asMatrix n d a).mulVec (fun _ => 0) = fun _ => 0 := by
  refine ⟨if_neg h, ?_⟩
  funext i
  simp [Matrix.mulVec, dotProduct]

/-- Two independent equations in three unknowns. -/
example : (solveDioph 2 3 (fun i j => if i = 0 then 1 else (j : ℤ) - 1) (fun i => if i = 0 then 6 else 0)).map
    (fun r => ((List.range 3).map r.1, r.2.map fun v => (List.range 3).map v)) =
    some ([0, 6, 0], [[1, -2, 1]]) := by decide +kernel

/-- The single equation `2 x + 3 y = 7`. -/
def dioExample : IMat := fun _ j => j + 2

/-- The hypotheses of `C32_solutions_partial` and `C32_full_row_rank` hold for it. -/
example : (asMatrix 1 2 dioExample).rank = 1 ∧
    ∃ v, (asMatrix 1 2 dioExample).mulVec v = fun _ => 7 := by
  constructor
  · apply le_antisymm (Matrix.rank_le_height _)
    have h : asMatrix 1 2 dioExample * Matrix.of ![![-1], ![1]] = 1 := by decide +kernel
    have := Matrix.rank_mul_le_left (asMatrix 1 2 dioExample) (Matrix.of ![![-1], ![1]])
    rw [h, Matrix.rank_one] at this
    simpa using this
  · exact ⟨![2, 1], by decide +kernel⟩

end Smol
