import Verif.Model.CompositionSetup
import Verif.Spec.CompositionSetup
import Verif.Lemmas.CompositionSpace
import Verif.Lemmas.OrbitGen

/-!
# Lemmas about setting up composition spaces
-/

namespace Smol

open Spec

theorem ClosestFraction.exact {N : ℕ} {x f : ℚ} (h : ClosestFraction N x f) (hx : x.den ≤ N) : f = x := by
  have := h.2 x hx
  rw [sub_self, abs_zero] at this
  exact sub_eq_zero.1 (abs_eq_zero.1 (le_antisymm this (abs_nonneg _)))

/-- Different fractions with denominators at most `N` are at least `1 / N²` apart. -/
theorem fractions_apart {N : ℕ} {f q : ℚ} (hf : f.den ≤ N) (hq : q.den ≤ N) (hne : f ≠ q) :
    1 / ((N : ℚ) * N) ≤ |f - q| := by
  have hfd : (0 : ℚ) < f.den := by exact_mod_cast f.pos
  have hqd : (0 : ℚ) < q.den := by exact_mod_cast q.pos
  have hN : (0 : ℚ) < N := lt_of_lt_of_le hfd (by exact_mod_cast hf)
  have e : f - q = ((f.num * q.den - q.num * f.den : ℤ) : ℚ) / (f.den * q.den) := by
    rw [eq_div_iff (by positivity)]
    push_cast
    linear_combination (q.den : ℚ) * Rat.mul_den_eq_num f - (f.den : ℚ) * Rat.mul_den_eq_num q
  have hz : (f.num * q.den - q.num * f.den : ℤ) ≠ 0 := by
    intro h0
    rw [h0, Int.cast_zero, zero_div] at e
    exact hne (sub_eq_zero.1 e)
  rw [e, abs_div, abs_of_pos (mul_pos hfd hqd), div_le_div_iff₀ (mul_pos hN hN) (mul_pos hfd hqd), one_mul]
  have h1 : (1 : ℚ) ≤ |((f.num * q.den - q.num * f.den : ℤ) : ℚ)| := by
    rw [← Int.cast_abs]
    exact_mod_cast Int.one_le_abs hz
  have h2 : (f.den : ℚ) * q.den ≤ N * N := by
    have a : (f.den : ℚ) ≤ N := by exact_mod_cast hf
    have b : (q.den : ℚ) ≤ N := by exact_mod_cast hq
    exact mul_le_mul a b hqd.le hN.le
  nlinarith [mul_pos hN hN]

theorem ClosestFraction.near {N : ℕ} {x f q : ℚ} (h : ClosestFraction N x f) (hq : q.den ≤ N)
    (hx : |x - q| < 1 / (2 * ((N : ℚ) * N))) : f = q := by
  by_contra hne
  have h1 := fractions_apart h.1 hq hne
  have h2 := h.2 q hq
  have h3 : |f - q| ≤ |f - x| + |x - q| := abs_sub_le f x q
  rw [abs_sub_comm q x] at h2
  have : 1 / (2 * ((N : ℚ) * N)) = (1 / ((N : ℚ) * N)) / 2 := by
    rw [div_div]
    congr 1
    ring
  linarith

theorem round_div_le (x g : ℚ) : |(round (x * g.den) : ℚ) / g.den - x| ≤ |g - x| := by
  have hd : (0 : ℚ) < g.den := by exact_mod_cast g.pos
  have h := round_le (x * g.den) g.num
  have e1 : (round (x * g.den) : ℚ) / g.den - x = -((x * g.den - round (x * g.den)) / g.den) := by
    field_simp
    ring
  have e2 : g - x = -((x * g.den - g.num) / g.den) := by
    nth_rewrite 1 [← Rat.num_div_den g]
    field_simp
    ring
  rw [e1, e2, abs_neg, abs_neg, abs_div, abs_div]
  gcongr

theorem round_div_den (x : ℚ) (k : ℕ) : ((round (x * ((k : ℚ) + 1)) : ℚ) / ((k : ℚ) + 1)).den ≤ k + 1 := by
  have := Rat.den_dvd (round (x * ((k : ℚ) + 1))) ((k : ℤ) + 1)
  have e : ((round (x * ((k : ℚ) + 1)) : ℚ) / ((k : ℚ) + 1)) =
      ((round (x * ((k : ℚ) + 1)) : ℤ) : ℚ) / (((k : ℤ) + 1 : ℤ) : ℚ) := by push_cast; rfl
  rw [e, ← Rat.divInt_eq_div]
  exact_mod_cast Int.le_of_dvd (by positivity) this

theorem limitDenominator_fold (x : ℚ) : ∀ N : ℕ,
    let r := limitDenominator N x
    r.den ≤ max N 1 ∧ |r - x| ≤ |(round x : ℚ) - x| ∧
      ∀ k < N, |r - x| ≤ |(round (x * ((k : ℚ) + 1)) : ℚ) / ((k : ℚ) + 1) - x|
  | 0 => by simp [limitDenominator]
  | N + 1 => by
    obtain ⟨h1, h2, h3⟩ := limitDenominator_fold x N
    have e : limitDenominator (N + 1) x =
        (let y : ℚ := (round (x * ((N : ℚ) + 1)) : ℚ) / ((N : ℚ) + 1)
         if |y - x| < |limitDenominator N x - x| then y else limitDenominator N x) := by
      unfold limitDenominator
      rw [List.range_succ, List.foldl_append]
      rfl
    rw [e]
    dsimp only at h1 h2 h3 ⊢
    split_ifs with hc
    · refine ⟨(round_div_den x N).trans (le_max_left _ _), by linarith, fun k hk => ?_⟩
      rcases Nat.lt_succ_iff_lt_or_eq.1 hk with hk' | rfl
      · linarith [h3 k hk']
      · exact le_rfl
    · refine ⟨by omega, h2, fun k hk => ?_⟩
      rcases Nat.lt_succ_iff_lt_or_eq.1 hk with hk' | rfl
      · exact h3 k hk'
      · exact not_lt.1 hc

theorem limitDenominator_closest {N : ℕ} (hN : 1 ≤ N) (x : ℚ) : ClosestFraction N x (limitDenominator N x) := by
  obtain ⟨h1, _, h3⟩ := limitDenominator_fold x N
  refine ⟨by rwa [max_eq_left hN] at h1, fun g hg => ?_⟩
  have hp := g.pos
  have := h3 (g.den - 1) (by omega)
  have e : ((g.den - 1 : ℕ) : ℚ) + 1 = g.den := by
    rw [Nat.cast_sub hp]
    push_cast
    ring
  rw [e] at this
  exact this.trans (round_div_le x g)

/-! ### Rounding -/

theorem npRound_eq_round {x : ℚ} (h : ∃ z : ℤ, x = z) : npRound x = round x := by
  obtain ⟨z, rfl⟩ := h
  rw [npRound_intCast, round_intCast]

/-! ### Vectors -/

theorem rationalize_some {lim : ℕ → ℚ → ℚ} {N : ℕ} {dtol a : ℚ} {r : ℤ × ℕ}
    (h : rationalize lim N dtol a = some r) : |lim N a - a| ≤ dtol ∧ r = ((lim N a).num, (lim N a).den) := by
  unfold rationalize at h
  dsimp only at h
  split_ifs at h with hc
  rw [Rat.num_div_den, not_lt] at hc
  exact ⟨hc, (Option.some.inj h).symm⟩

theorem rationalize_of_lim {lim : ℕ → ℚ → ℚ} {N : ℕ} {dtol a : ℚ} (h : |lim N a - a| ≤ dtol) :
    rationalize lim N dtol a = some ((lim N a).num, (lim N a).den) := by
  unfold rationalize
  dsimp only
  rw [Rat.num_div_den, if_neg (not_lt.2 h)]

theorem lcm_foldl_map (w : List ℚ) : ∀ l : ℕ,
    (w.map fun q => (q.num, q.den)).foldl (fun l (r : ℤ × ℕ) => Nat.lcm l r.2) l =
      w.foldl (fun l q => Nat.lcm l q.den) l := by
  induction w with
  | nil => intro l; rfl
  | cons a t ih => intro l; exact ih _

/-- `v` is rationalized entry by entry to `w`. -/
theorem integerizeVector_of {lim : ℕ → ℚ → ℚ} {N : ℕ} {dtol : ℚ} {v w : List ℚ} (hv : v ≠ [])
    (h : List.Forall₂ (fun a q => lim N a = q ∧ |q - a| ≤ dtol) v w) :
    integerizeVector lim N dtol v = some (v.map fun c => npRound (c * (denLcm w : ℚ)), denLcm w) := by
  have hm : v.mapM (rationalize lim N dtol) = some (w.map fun q => (q.num, q.den)) := by
    clear hv
    induction h with
    | nil => rfl
    | cons hh ht ih =>
      rename_i a q l l'
      have : rationalize lim N dtol a = some (q.num, q.den) := by
        rw [rationalize_of_lim (by rw [hh.1]; exact hh.2), hh.1]
      rw [List.mapM_cons, this, ih]
      rfl
  have hw : w ≠ [] := by
    rintro rfl
    cases h
    exact hv rfl
  unfold integerizeVector
  rw [hm]
  have : (w.map fun q => (q.num, q.den)).isEmpty = false := by
    cases w with
    | nil => exact absurd rfl hw
    | cons _ _ => rfl
  simp only [Option.bind_some, this, Bool.false_eq_true, if_false]
  rw [lcm_foldl_map]
  rfl

theorem integerizeVector_exact {lim : ℕ → ℚ → ℚ} {N : ℕ} {dtol : ℚ}
    (hlim : ∀ x, ClosestFraction N x (lim N x)) (hd : 0 ≤ dtol) {v : List ℚ} (hv : v ≠ [])
    (hden : ∀ q ∈ v, q.den ≤ N) :
    integerizeVector lim N dtol v = some (v.map fun c => npRound (c * (denLcm v : ℚ)), denLcm v) := by
  refine integerizeVector_of hv (List.forall₂_same.2 fun q hq => ?_)
  have := ClosestFraction.exact (hlim q) (hden q hq)
  exact ⟨this, by rw [sub_self, abs_zero]; exact hd⟩

theorem mul_denLcm_integral {v : List ℚ} {q : ℚ} (hq : q ∈ v) : ∃ z : ℤ, q * (denLcm v : ℚ) = z := by
  obtain ⟨k, hk⟩ := den_dvd_denLcm hq
  refine ⟨q.num * k, ?_⟩
  rw [hk]
  push_cast
  linear_combination (k : ℚ) * Rat.mul_den_eq_num q

theorem den_dvd_of_integral {q : ℚ} {k : ℕ} (h : ∃ z : ℤ, q * k = z) : q.den ∣ k := by
  obtain ⟨z, hz⟩ := h
  have e : q.num * (k : ℤ) = z * q.den := by
    have hd : (q.den : ℚ) ≠ 0 := by exact_mod_cast q.den_nz
    have : (q.num : ℚ) * k = z * q.den := by
      rw [← hz]
      linear_combination -(k : ℚ) * Rat.mul_den_eq_num q
    exact_mod_cast this
  have h1 : (q.den : ℤ) ∣ q.num * k := ⟨z, by rw [e, mul_comm]⟩
  have h2 : q.den ∣ q.num.natAbs * k := by
    have := Int.natAbs_dvd_natAbs.2 h1
    rwa [Int.natAbs_mul, Int.natAbs_natCast, Int.natAbs_natCast] at this
  exact (Nat.Coprime.dvd_of_dvd_mul_left q.reduced.symm h2)

theorem denLcm_dvd_of {v : List ℚ} {k : ℕ} (h : ∀ q ∈ v, q.den ∣ k) : denLcm v ∣ k := by
  have : ∀ (v : List ℚ) (l : ℕ), l ∣ k → (∀ q ∈ v, q.den ∣ k) →
      v.foldl (fun l q => Nat.lcm l q.den) l ∣ k := by
    intro v
    induction v with
    | nil => intro l hl _; exact hl
    | cons a t ih =>
      intro l hl hv
      exact ih _ (Nat.lcm_dvd hl (hv a (by simp))) fun q hq => hv q (by simp [hq])
  exact this v 1 (one_dvd _) h

theorem denLcm_leastScale (v : List ℚ) : LeastScale v (denLcm v) :=
  ⟨denLcm_pos v, fun _ hq => mul_denLcm_integral hq, fun _ hk h =>
    Nat.le_of_dvd hk (denLcm_dvd_of fun q hq => den_dvd_of_integral (h q hq))⟩

theorem denLcm_int (v : List ℤ) : denLcm (v.map fun (x : ℤ) => (x : ℚ)) = 1 := by
  refine Nat.dvd_one.1 (denLcm_dvd_of fun q hq => ?_)
  obtain ⟨z, _, rfl⟩ := List.mem_map.1 hq
  simp

/-! ### Keys -/

theorem intOf_toDigits (n : ℕ) : intOf (Nat.toDigits 10 n) = some n := by
  unfold intOf
  rw [if_neg (by simp [List.isEmpty_iff, Nat.toDigits_ne_nil]), if_pos, Nat.ofDigitChars_ten_toDigits]
  rw [List.all_eq_true]
  exact fun c hc => Nat.isDigit_of_mem_toDigits (by norm_num) le_rfl hc

theorem decodeKey_encodeKey (k : ℕ × ℕ) : decodeKey (encodeKey k) = some k := by
  unfold decodeKey encodeKey
  rw [List.splitOn_append_cons_self, List.splitOn_eq_singleton Nat.underscore_not_in_toDigits,
    List.splitOn_eq_singleton Nat.underscore_not_in_toDigits]
  simp [intOf_toDigits]

/-! ### Constraints -/

theorem fileAll_append_eq (es : List (List ℚ × ℚ)) (st : List (List ℚ × ℚ) × List (List ℚ × ℚ)) :
    (es.map fun p => ((p.1, p.2, "eq") : ConTuple)).foldl fileTuple st = (st.1 ++ es, st.2) := by
  induction es generalizing st with
  | nil => simp
  | cons e t ih =>
    rw [List.map_cons, List.foldl_cons, ih]
    simp [fileTuple]

theorem fileAll_append_leq (es : List (List ℚ × ℚ)) (st : List (List ℚ × ℚ) × List (List ℚ × ℚ)) :
    (es.map fun p => ((p.1, p.2, "leq") : ConTuple)).foldl fileTuple st = (st.1, st.2 ++ es) := by
  induction es generalizing st with
  | nil => simp
  | cons e t ih =>
    rw [List.map_cons, List.foldl_cons, ih]
    simp [fileTuple]

/-- What the environment must satisfy. -/
structure SpaceEnv.Ok (env : SpaceEnv) : Prop where
  lim : ∀ x, ClosestFraction env.maxDen x (env.lim env.maxDen x)
  dtol : 0 ≤ env.dtol

theorem SpaceEnv.Ok.one_le {env : SpaceEnv} (h : env.Ok) : 1 ≤ env.maxDen :=
  le_trans (Rat.pos _) (h.lim 0).1

theorem eqRow_int {env : SpaceEnv} (h : env.Ok) {dims : ℕ} (hd : 0 < dims) {r : List ℤ × ℚ}
    (hr : r.1.length = dims) :
    env.eqRow dims (r.1.map fun (x : ℤ) => (x : ℚ), r.2) = some r := by
  unfold SpaceEnv.eqRow
  have hl : (r.1.map fun (x : ℤ) => (x : ℚ)).length = dims := by rw [List.length_map, hr]
  have hne : (r.1.map fun (x : ℤ) => (x : ℚ)) ≠ [] := by
    intro h0
    rw [h0, List.length_nil] at hl
    omega
  rw [if_neg (by rw [not_not]; exact hl), integerizeVector_exact h.lim h.dtol hne, denLcm_int]
  · simp only [Option.map_some, Nat.cast_one, mul_one, List.map_map]
    congr 1
    refine Prod.ext ?_ rfl
    show r.1.map (npRound ∘ fun (x : ℤ) => (x : ℚ)) = r.1
    conv_rhs => rw [← List.map_id r.1]
    exact List.map_congr_left fun z _ => npRound_intCast z
  · intro q hq
    obtain ⟨z, _, rfl⟩ := List.mem_map.1 hq
    simpa using h.one_le

theorem eqRow_length {env : SpaceEnv} {dims : ℕ} {e : List ℚ × ℚ} {r : List ℤ × ℚ}
    (h : env.eqRow dims e = some r) : r.1.length = dims := by
  unfold SpaceEnv.eqRow at h
  split_ifs at h with hc
  obtain ⟨x, _, rfl⟩ := Option.map_eq_some_iff.1 h
  rw [List.length_map]
  exact not_not.1 hc

theorem sizesOf_length {spaces : List (List ℕ)} {o : Option (List ℕ)} {sizes : List ℕ}
    (h : sizesOf spaces o = some sizes) : sizes.length = spaces.length := by
  cases o with
  | none =>
    rw [← Option.some.inj h, List.length_map]
  | some s =>
    simp only [sizesOf] at h
    split_ifs at h with hc
    rw [← Option.some.inj h, hc]

end Smol
