import Verif.Model.Select
import Mathlib.LinearAlgebra.LinearIndependent.Basic
import Mathlib.LinearAlgebra.Matrix.ToLin
import Mathlib.Data.Matrix.Mul
import Mathlib.LinearAlgebra.Matrix.Notation
import Mathlib.Tactic.FinCases

/-!
# C60, C64 Structure selection
-/

namespace Smol

/-! ### `composition_select` -/

/-- the ids after the passes `0, …, r` -/
def compIds (n : ℕ) (accept : ℕ → ℕ → Bool) : ℕ → List ℕ
  | 0 => (List.range n).filter (accept 0)
  | r + 1 => compPass n (accept (r + 1)) (compIds n accept r)

theorem mem_compPass {n : ℕ} {a : ℕ → Bool} {ids : List ℕ} {i : ℕ} :
    i ∈ compPass n a ids ↔ i ∈ ids ∨ (i < n ∧ a i = true) := by
  unfold compPass
  simp only [List.mem_append, List.mem_filter, List.mem_range, Bool.and_eq_true, decide_eq_true_eq]
  by_cases h : i ∈ ids <;> simp [h]

theorem mem_compIds {n : ℕ} {accept : ℕ → ℕ → Bool} {r i : ℕ} :
    i ∈ compIds n accept r ↔ i < n ∧ ∃ q ≤ r, accept q i = true := by
  induction r with
  | zero => simp [compIds]
  | succ r ih =>
    rw [compIds, mem_compPass, ih]
    constructor
    · rintro (⟨h, q, hq, ha⟩ | ⟨h, ha⟩)
      · exact ⟨h, q, by omega, ha⟩
      · exact ⟨h, r + 1, le_rfl, ha⟩
    · rintro ⟨h, q, hq, ha⟩
      rcases Nat.lt_or_ge q (r + 1) with h1 | h1
      · exact Or.inl ⟨h, q, by omega, ha⟩
      · have : q = r + 1 := by omega
        subst this
        exact Or.inr ⟨h, ha⟩

theorem compIds_nodup (n : ℕ) (accept : ℕ → ℕ → Bool) (r : ℕ) : (compIds n accept r).Nodup := by
  induction r with
  | zero => exact List.nodup_range.filter _
  | succ r ih =>
    rw [compIds, compPass]
    refine List.Nodup.append ih (List.nodup_range.filter _) ?_
    intro i h1 h2
    rw [List.mem_filter] at h2
    simp [h1] at h2

theorem compIds_length (n : ℕ) (accept : ℕ → ℕ → Bool) (r : ℕ) : (compIds n accept r).length =
    ((Finset.range n).filter fun i => ∃ q ≤ r, accept q i = true).card := by
  rw [← List.toFinset_card_of_nodup (compIds_nodup n accept r)]
  congr 1
  ext i
  rw [List.mem_toFinset, mem_compIds, Finset.mem_filter, Finset.mem_range]

/-- earlier in the list means accepted no later -/
theorem compIds_order (n : ℕ) (accept : ℕ → ℕ → Bool) (r : ℕ) :
    (compIds n accept r).Pairwise fun i j =>
      ∀ p, accept p j = true → ∃ q ≤ p, accept q i = true := by
  induction r with
  | zero =>
    rw [compIds]
    refine List.pairwise_of_forall_mem_list fun i hi j _ p _ => ⟨0, Nat.zero_le _, ?_⟩
    exact (List.mem_filter.1 hi).2
  | succ r ih =>
    have hlate : ∀ j ∈ (List.range n).filter (fun i => accept (r + 1) i &&
        decide (i ∉ compIds n accept r)), ∀ p, accept p j = true → r + 1 ≤ p := by
      intro j hj p hp
      by_contra hlt
      rw [List.mem_filter, List.mem_range] at hj
      have := (mem_compIds (n := n) (accept := accept) (r := r) (i := j)).2 ⟨hj.1, p, by omega, hp⟩
      simp [this] at hj
    rw [compIds, compPass, List.pairwise_append]
    refine ⟨ih, List.pairwise_of_forall_mem_list fun i hi j hj p hp => ⟨r + 1, hlate j hj p hp, ?_⟩,
      fun i hi j hj p hp => ?_⟩
    · have := (List.mem_filter.1 hi).2
      simp only [Bool.and_eq_true] at this
      exact this.1
    · obtain ⟨_, q, hq, ha⟩ := mem_compIds.1 hi
      exact ⟨q, by have := hlate j hj p hp; omega, ha⟩

theorem compLoop_none {n k : ℕ} {accept : ℕ → ℕ → Bool} : ∀ (fuel r : ℕ),
    compLoop n k accept fuel (r + 1) (compIds n accept r) = none ↔
      ∀ q, r ≤ q → q ≤ r + fuel → (compIds n accept q).length ≤ k := by
  intro fuel
  induction fuel with
  | zero =>
    intro r
    unfold compLoop
    by_cases h : (compIds n accept r).length ≤ k
    · simp only [h, if_true, true_iff]
      intro q h1 h2
      have : q = r := by omega
      rw [this]; exact h
    · simp only [h, if_false, reduceCtorEq, false_iff]
      intro hh
      exact h (hh r le_rfl (by omega))
  | succ fuel ih =>
    intro r
    unfold compLoop
    by_cases h : (compIds n accept r).length ≤ k
    · simp only [h, if_true]
      have := ih (r + 1)
      rw [compIds] at this
      rw [this]
      constructor
      · intro hh q h1 h2
        rcases Nat.lt_or_ge r q with h3 | h3
        · exact hh q (by omega) (by omega)
        · have : q = r := by omega
          rw [this]; exact h
      · intro hh q h1 h2
        exact hh q (by omega) (by omega)
    · simp only [h, if_false, reduceCtorEq, false_iff]
      intro hh
      exact h (hh r le_rfl (by omega))

theorem compLoop_some {n k : ℕ} {accept : ℕ → ℕ → Bool} {out : List ℕ} : ∀ (fuel r : ℕ),
    compLoop n k accept fuel (r + 1) (compIds n accept r) = some out →
      ∃ q ≤ r + fuel, k < (compIds n accept q).length ∧
        out = ((compIds n accept q).take k).insertionSort (· ≤ ·) := by
  intro fuel
  induction fuel with
  | zero =>
    intro r h
    unfold compLoop at h
    by_cases hk : (compIds n accept r).length ≤ k
    · simp only [hk, if_true, reduceCtorEq] at h
    · simp only [hk, if_false, Option.some.injEq] at h
      exact ⟨r, by omega, by omega, h.symm⟩
  | succ fuel ih =>
    intro r h
    unfold compLoop at h
    by_cases hk : (compIds n accept r).length ≤ k
    · simp only [hk, if_true] at h
      obtain ⟨q, hq, h1⟩ := ih (r + 1) h
      exact ⟨q, by omega, h1⟩
    · simp only [hk, if_false, Option.some.injEq] at h
      exact ⟨r, by omega, by omega, h.symm⟩

/-- C60. The call returns exactly when at some pass more than `num_samples` different structures have
been accepted. -/
theorem C60_returns_iff (n k : ℕ) (accept : ℕ → ℕ → Bool) :
    (∃ fuel out, compSelect n k accept fuel = some out) ↔
      ∃ R, k < ((Finset.range n).filter fun i => ∃ r ≤ R, accept r i = true).card := by
  have h0 : ∀ fuel, compSelect n k accept fuel = compLoop n k accept fuel (0 + 1) (compIds n accept 0) :=
    fun _ => rfl
  constructor
  · rintro ⟨fuel, out, h⟩
    rw [h0] at h
    obtain ⟨q, _, hq, _⟩ := compLoop_some _ _ h
    rw [compIds_length] at hq
    exact ⟨q, hq⟩
  · rintro ⟨R, hR⟩
    rw [← compIds_length] at hR
    refine ⟨R, ?_⟩
    cases h : compSelect n k accept R with
    | some out => exact ⟨out, rfl⟩
    | none =>
      rw [h0, compLoop_none] at h
      have := h R (by omega) (by omega)
      omega

/-- C60. Asking for as many samples as there are structures (or more) never returns, whatever the
draws. -/
theorem C60_never_returns (n k : ℕ) (accept : ℕ → ℕ → Bool) (h : n ≤ k) (fuel : ℕ) :
    compSelect n k accept fuel = none := by
  by_contra hne
  obtain ⟨out, ho⟩ := Option.ne_none_iff_exists'.1 hne
  obtain ⟨R, hR⟩ := (C60_returns_iff n k accept).1 ⟨fuel, out, ho⟩
  have := Finset.card_filter_le (Finset.range n) (fun i => ∃ r ≤ R, accept r i = true)
  rw [Finset.card_range] at this
  omega

/-- C60. What is returned: `num_samples` different structures in increasing order, each accepted in
one of the passes, and never a structure accepted later than one left out. -/
theorem C60_selected (n k : ℕ) (accept : ℕ → ℕ → Bool) (fuel : ℕ) (out : List ℕ)
    (h : compSelect n k accept fuel = some out) :
    out.length = k ∧ out.Pairwise (· < ·) ∧
      (∀ i ∈ out, i < n ∧ ∃ r ≤ fuel, accept r i = true) ∧
      ∀ i ∈ out, ∀ j < n, j ∉ out → ∀ r, accept r j = true → ∃ q ≤ r, accept q i = true := by
  obtain ⟨R, hR, hk, rfl⟩ := compLoop_some fuel 0 h
  have hm : ∀ i, i ∈ ((compIds n accept R).take k).insertionSort (· ≤ ·) ↔
      i ∈ (compIds n accept R).take k := fun i => List.mem_insertionSort _
  have hnd : ((compIds n accept R).take k).Nodup := (compIds_nodup n accept R).sublist (List.take_sublist _ _)
  refine ⟨?_, ?_, ?_, ?_⟩
  · rw [List.length_insertionSort, List.length_take]; omega
  · have h1 := List.pairwise_insertionSort (· ≤ ·) ((compIds n accept R).take k)
    have h2 : (((compIds n accept R).take k).insertionSort (· ≤ ·)).Nodup :=
      (List.perm_insertionSort (· ≤ ·) _).nodup_iff.2 hnd
    exact (h1.and h2).imp fun ⟨a, b⟩ => lt_of_le_of_ne a b
  · intro i hi
    obtain ⟨h1, q, hq, h2⟩ := mem_compIds.1 (List.mem_of_mem_take ((hm i).1 hi))
    exact ⟨h1, q, by omega, h2⟩
  · intro i hi j hj hjo r hr
    rw [hm] at hi hjo
    by_cases hjm : j ∈ compIds n accept R
    · have hd : j ∈ (compIds n accept R).drop k := by
        rw [← List.take_append_drop k (compIds n accept R), List.mem_append] at hjm
        exact hjm.resolve_left hjo
      have hp := compIds_order n accept R
      rw [← List.take_append_drop k (compIds n accept R), List.pairwise_append] at hp
      exact hp.2.2 i hi j hd r hr
    · obtain ⟨_, q, hq, h2⟩ := mem_compIds.1 (List.mem_of_mem_take hi)
      refine ⟨q, ?_, h2⟩
      by_contra hlt
      exact hjm (mem_compIds.2 ⟨hj, r, by omega, hr⟩)

/-- C60. With positive draws a structure of probability 0 is never selected, so the call never returns
when at most `num_samples` structures have a positive probability. -/
theorem C60_zero_probability (n k : ℕ) (pmf maxProb : ℕ → ℚ) (u : ℕ → ℕ → ℚ)
    (hu : ∀ r i, 0 < u r i) (hp : ∀ i < n, 0 ≤ pmf i ∧ 0 < maxProb i) (fuel : ℕ) :
    (∀ out, compSelect n k (compAccept pmf maxProb u) fuel = some out → ∀ i ∈ out, 0 < pmf i) ∧
      (((Finset.range n).filter fun i => 0 < pmf i).card ≤ k →
        compSelect n k (compAccept pmf maxProb u) fuel = none) := by
  have hacc : ∀ i < n, ∀ r, compAccept pmf maxProb u r i = true → 0 < pmf i := by
    intro i hi r h
    unfold compAccept at h
    exact lt_of_lt_of_le (mul_pos (hp i hi).2 (hu r i)) (of_decide_eq_true h)
  refine ⟨fun out h i hi => ?_, fun hc => ?_⟩
  · obtain ⟨h1, r, _, h2⟩ := (C60_selected _ _ _ _ _ h).2.2.1 i hi
    exact hacc i h1 r h2
  · by_contra hne
    obtain ⟨out, ho⟩ := Option.ne_none_iff_exists'.1 hne
    obtain ⟨R, hR⟩ := (C60_returns_iff n k _).1 ⟨fuel, out, ho⟩
    have : ((Finset.range n).filter fun i => ∃ r ≤ R, compAccept pmf maxProb u r i = true).card ≤
        ((Finset.range n).filter fun i => 0 < pmf i).card := by
      apply Finset.card_le_card
      intro i hi
      rw [Finset.mem_filter, Finset.mem_range] at hi ⊢
      obtain ⟨h1, r, _, h2⟩ := hi
      exact ⟨h1, hacc i h1 r h2⟩
    omega

/-- C60. Structures at the mode (or above) are accepted by every draw: with more than `num_samples` of
them the first pass suffices and only they and structures accepted by chance in that pass are
chosen. -/
theorem C60_mode_suffices (n k : ℕ) (pmf maxProb : ℕ → ℚ) (u : ℕ → ℕ → ℚ)
    (hu : ∀ r i, u r i ≤ 1) (hp : ∀ i < n, 0 ≤ maxProb i)
    (hc : k < ((Finset.range n).filter fun i => maxProb i ≤ pmf i).card) :
    ∃ out, compSelect n k (compAccept pmf maxProb u) 0 = some out := by
  cases h : compSelect n k (compAccept pmf maxProb u) 0 with
  | some out => exact ⟨out, rfl⟩
  | none =>
    have h' := (compLoop_none 0 0).1 h 0 le_rfl le_rfl
    rw [compIds_length] at h'
    have : ∀ R, ((Finset.range n).filter fun i => maxProb i ≤ pmf i).card ≤
        ((Finset.range n).filter fun i => ∃ r ≤ R, compAccept pmf maxProb u r i = true).card := by
      intro R
      apply Finset.card_le_card
      intro i hi
      rw [Finset.mem_filter, Finset.mem_range] at hi ⊢
      refine ⟨hi.1, 0, Nat.zero_le _, ?_⟩
      unfold compAccept
      refine decide_eq_true ?_
      have := mul_le_mul_of_nonneg_left (hu 0 i) (hp i hi.1)
      rw [mul_one] at this
      exact this.trans hi.2
    have := this 0
    omega

/-- Four structures, two samples: structures 1 and 3 in the first pass, 2 in the second, 0 never;
and three of three never returns though all are always accepted. -/
example : compSelect 4 2 (compAccept (fun i => [0, 1/2, 1/8, 1/4].getD i 0) (fun _ => 1/2)
      (fun r i => if r = 0 then 1/2 else if i = 2 then 1/4 else 1/2)) 3 = some [1, 3] ∧
    compSelect 4 2 (compAccept (fun i => [0, 1/2, 1/8, 1/4].getD i 0) (fun _ => 1/2)
      (fun r i => if r = 0 then 1/2 else if i = 2 then 1/4 else 1/2)) 0 = none ∧
    compSelect 3 3 (fun _ _ => true) 100 = none := by
  refine ⟨by decide +kernel, by decide +kernel, C60_never_returns 3 3 _ le_rfl 100⟩

/-! ### `gaussian_select` -/

theorem argmaxRow_eq_none {score : ℕ → ℚ} {l : List ℕ} : argmaxRow score l = none ↔ l = [] := by
  cases l with
  | nil => simp [argmaxRow]
  | cons a l =>
    unfold argmaxRow
    cases argmaxRow score l with
    | none => simp
    | some j => simp only; split <;> simp

theorem argmaxRow_spec {score : ℕ → ℚ} : ∀ {l : List ℕ} {i : ℕ}, argmaxRow score l = some i →
    l.Pairwise (· < ·) → i ∈ l ∧ ∀ j ∈ l, score j ≤ score i ∧ (score j = score i → i ≤ j) := by
  intro l
  induction l with
  | nil => intro i h; simp [argmaxRow] at h
  | cons a l ih =>
    intro i h hs
    rw [List.pairwise_cons] at hs
    unfold argmaxRow at h
    cases hm : argmaxRow score l with
    | none =>
      rw [hm] at h
      simp only [Option.some.injEq] at h
      rw [argmaxRow_eq_none] at hm
      subst hm h
      simp
    | some b =>
      rw [hm] at h
      obtain ⟨hb, hbm⟩ := ih hm hs.2
      simp only at h
      split at h
      · rename_i hlt
        simp only [Option.some.injEq] at h
        subst h
        refine ⟨List.mem_cons_of_mem _ hb, fun j hj => ?_⟩
        rcases List.mem_cons.1 hj with rfl | hj
        · exact ⟨hlt.le, fun e => absurd e (ne_of_lt hlt)⟩
        · exact hbm j hj
      · rename_i hge
        simp only [Option.some.injEq] at h
        subst h
        refine ⟨by simp, fun j hj => ?_⟩
        rcases List.mem_cons.1 hj with rfl | hj
        · exact ⟨le_rfl, fun _ => le_rfl⟩
        · exact ⟨(hbm j hj).1.trans (not_lt.1 hge), fun _ => (hs.1 j hj).le⟩

/-- the picks made by the loop from a list of remaining rows -/
theorem gaussLoop_spec (score : ℕ → ℕ → ℚ) : ∀ (m : ℕ) (ids compl : List ℕ) (t : ℕ),
    compl.Pairwise (· < ·) →
    (gaussLoop score m ids compl t = none ↔ compl.length < m) ∧
    ∀ out, gaussLoop score m ids compl t = some out → ∃ picks : List ℕ, out = ids ++ picks ∧
      picks.length = m ∧ picks.Nodup ∧ (∀ i ∈ picks, i ∈ compl) ∧
      ∀ s i : ℕ, picks[s]? = some i → ∀ j ∈ compl, j ∉ picks.take s →
        score (t + s) j ≤ score (t + s) i ∧ (score (t + s) j = score (t + s) i → i ≤ j) := by
  intro m
  induction m with
  | zero =>
    intro ids compl t _
    refine ⟨by simp [gaussLoop], fun out h => ⟨[], ?_⟩⟩
    simp only [gaussLoop, Option.some.injEq] at h
    simp [h]
  | succ m ih =>
    intro ids compl t hc
    unfold gaussLoop
    cases ha : argmaxRow (score t) compl with
    | none =>
      rw [argmaxRow_eq_none] at ha
      subst ha
      simp
    | some i =>
      obtain ⟨hi, him⟩ := argmaxRow_spec ha hc
      have hnd : compl.Nodup := hc.imp fun h => ne_of_lt h
      have hl : (compl.erase i).length + 1 = compl.length := by
        rw [List.length_erase_of_mem hi]
        have := List.length_pos_of_mem hi
        omega
      obtain ⟨h1, h2⟩ := ih (ids ++ [i]) (compl.erase i) (t + 1) (hc.sublist List.erase_sublist)
      rw [Option.bind_some]
      refine ⟨by rw [h1]; omega, fun out ho => ?_⟩
      obtain ⟨picks, e, hlen, hpn, hpm, hbest⟩ := h2 out ho
      have hni : i ∉ picks := fun h => by
        have := hpm i h
        rw [hnd.mem_erase_iff] at this
        exact this.1 rfl
      refine ⟨i :: picks, by rw [e]; simp, by simp [hlen], List.nodup_cons.2 ⟨hni, hpn⟩, ?_, ?_⟩
      · intro j hj
        rcases List.mem_cons.1 hj with rfl | hj
        · exact hi
        · exact List.mem_of_mem_erase (hpm j hj)
      · intro s a hs j hj hjn
        cases s with
        | zero =>
          simp only [List.getElem?_cons_zero, Option.some.injEq] at hs
          subst hs
          exact him j hj
        | succ s =>
          rw [List.getElem?_cons_succ] at hs
          rw [List.take_succ_cons, List.mem_cons, not_or] at hjn
          have := hbest s a hs j ((hnd.mem_erase_iff).2 ⟨hjn.1, hj⟩) hjn.2
          rw [show t + 1 + s = t + (s + 1) by omega] at this
          exact this

/-- C60. `gaussian_select` fails exactly for a single sample, a single column, vectors that cannot be
orthogonalised, or more samples than rows. -/
theorem C60_gaussian_raises_iff (rows cols numSamples : ℕ) (orthogonalize : Bool) (rank : ℕ)
    (score : ℕ → ℕ → ℚ) :
    gaussSelect rows cols numSamples orthogonalize rank score = none ↔
      numSamples = 1 ∨ cols = 1 ∨ (orthogonalize = true ∧ rank ≠ numSamples) ∨ rows < numSamples := by
  have h := (gaussLoop_spec score numSamples [] (List.range rows) 0 List.pairwise_lt_range).1
  rw [List.length_range] at h
  have hs : (rvsShape numSamples cols).length ≠ 2 ↔ numSamples = 1 ∨ cols = 1 := by
    unfold rvsShape
    by_cases h1 : numSamples = 1 <;> by_cases h2 : cols = 1 <;> simp [h1, h2]
  unfold gaussSelect
  by_cases h1 : (rvsShape numSamples cols).length ≠ 2
  · simp only [h1, not_false_eq_true, if_true, true_iff, ne_eq]
    rcases hs.1 h1 with h | h <;> simp [h]
  · rw [if_neg h1]
    rw [hs, not_or] at h1
    by_cases h2 : orthogonalize = true ∧ rank ≠ numSamples
    · rw [if_pos (by simpa using h2)]
      simp [h2]
    · rw [if_neg (by simpa using h2), Option.map_eq_none_iff, h]
      simp only [h1.1, h1.2, h2, false_or]

/-- C60. Otherwise it returns that many different rows in increasing order; in the order they were
picked, each aligns best with its vector among the rows left, ties going to the first row. -/
theorem C60_gaussian_greedy (rows cols numSamples : ℕ) (orthogonalize : Bool) (rank : ℕ)
    (score : ℕ → ℕ → ℚ) (out : List ℕ)
    (h : gaussSelect rows cols numSamples orthogonalize rank score = some out) :
    out.length = numSamples ∧ out.Pairwise (· < ·) ∧ (∀ i ∈ out, i < rows) ∧
      ∃ picks : List ℕ, picks.Perm out ∧ ∀ t i : ℕ, picks[t]? = some i →
        ∀ j < rows, j ∉ picks.take t →
          score t j ≤ score t i ∧ (score t j = score t i → i ≤ j) := by
  unfold gaussSelect at h
  split at h
  · simp at h
  split at h
  · simp at h
  rw [Option.map_eq_some_iff] at h
  obtain ⟨o, ho, rfl⟩ := h
  obtain ⟨picks, e, hlen, hnd, hm, hb⟩ :=
    (gaussLoop_spec score numSamples [] (List.range rows) 0 List.pairwise_lt_range).2 o ho
  rw [List.nil_append] at e
  subst e
  have hp := List.perm_insertionSort (· ≤ ·) o
  refine ⟨by rw [List.length_insertionSort, hlen], ?_, ?_, o, hp.symm, ?_⟩
  · have h1 := List.pairwise_insertionSort (· ≤ ·) o
    have h2 : (o.insertionSort (· ≤ ·)).Nodup := hp.nodup_iff.2 hnd
    exact (h1.and h2).imp fun ⟨a, b⟩ => lt_of_le_of_ne a b
  · intro i hi
    have := hm i ((List.mem_insertionSort _).1 hi)
    rwa [List.mem_range] at this
  · intro t i ht j hj hjn
    have := hb t i ht j (List.mem_range.2 hj) hjn
    rwa [Nat.zero_add] at this

/-- Three of four rows. -/
example : gaussSelect 4 2 3 false 0 (fun t i => [[1, 3, 2, 3], [0, 5, 4, 4], [7, 1, 1, 2]].getD t [] |>.getD i 0)
    = some [0, 1, 2] ∧ gaussSelect 4 2 1 false 0 (fun _ _ => 0) = none := by
  decide +kernel

/-! ### `full_row_rank_select` -/

theorem leadingCol_cases {K m : ℕ} (U : Matrix (Fin K) (Fin m) ℚ) (tol : ℚ) (i : Fin K) :
    (∃ j : Fin m, leadingCol U tol i = j ∧ tol < |U i j| ∧ ∀ j' < j, ¬ tol < |U i j'|) ∨
      (leadingCol U tol i = 0 ∧ ∀ j, ¬ tol < |U i j|) := by
  unfold leadingCol
  cases h : (List.finRange m).find? fun j => decide (tol < |U i j|) with
  | none =>
    rw [List.find?_eq_none] at h
    exact Or.inr ⟨rfl, fun j => by simpa using h j (List.mem_finRange j)⟩
  | some j =>
    refine Or.inl ⟨j, rfl, by simpa using List.find?_some h, fun j' hj' => ?_⟩
    rw [List.find?_eq_some_iff_getElem] at h
    obtain ⟨_, k, hk, hkj, hb⟩ := h
    rw [List.getElem_finRange] at hkj
    have hj : j.val = k := by rw [← hkj]; rfl
    have := hb j'.val (by rw [← hj]; exact hj')
    rw [List.getElem_finRange] at this
    simpa using this

/-- C64. The selected rows of the feature matrix are linearly independent: for every factorisation of
the transpose into an injective and a second factor (upper triangular in the code; the theorem does
not need it), if no entry of the latter is between 0 and the tolerance and the first structure's features are not all 0. -/
theorem C64_independent {K m n : ℕ} (hm : 0 < m) (A : Matrix (Fin m) (Fin n) ℚ)
    (Q : Matrix (Fin n) (Fin K) ℚ) (U : Matrix (Fin K) (Fin m) ℚ) (tol : ℚ) (nrows : ℕ)
    (hA : A.transpose = Q * U) (hQ : ∀ v, Q.mulVec v = 0 → v = 0)
    (htol : 0 ≤ tol) (hgap : ∀ i j, U i j = 0 ∨ tol < |U i j|) (h0 : A ⟨0, hm⟩ ≠ 0) :
    LinearIndependent ℚ (fun i : {i : Fin m // i.val ∈ rankSelect U tol nrows} => A i.1) := by
  classical
  -- every selected row has a witness row of `U`
  have hw : ∀ j : Fin m, j.val ∈ rankSelect U tol nrows →
      ∃ i, U i j ≠ 0 ∧ ∀ j' < j, U i j' = 0 := by
    have nz : ∀ {i j}, tol < |U i j| → U i j ≠ 0 := by
      intro i j h e
      rw [e, abs_zero] at h
      linarith
    have zz : ∀ {i j}, ¬ tol < |U i j| → U i j = 0 := fun {i j} h => (hgap i j).resolve_right h
    intro j hj
    have hj := List.mem_of_mem_take hj
    rw [List.mem_filter] at hj
    obtain ⟨i, hi⟩ := of_decide_eq_true hj.2
    rcases leadingCol_cases U tol i with ⟨j1, h1, h2, h3⟩ | ⟨h1, _⟩
    · have : j1 = j := Fin.ext (h1.symm.trans hi)
      subst this
      exact ⟨i, nz h2, fun j' hj' => zz (h3 j' hj')⟩
    · have hj0 : j = ⟨0, hm⟩ := Fin.ext (hi.symm.trans h1)
      subst hj0
      have hcol : ∃ i, U i ⟨0, hm⟩ ≠ 0 := by
        by_contra hno
        push Not at hno
        apply h0
        funext k
        have := congrFun (congrFun hA k) ⟨0, hm⟩
        rw [Matrix.transpose_apply, Matrix.mul_apply] at this
        rw [this, Pi.zero_apply]
        exact Finset.sum_eq_zero fun i _ => by rw [hno i, mul_zero]
      obtain ⟨i', hi'⟩ := hcol
      exact ⟨i', hi', fun j' hj' => absurd hj' (by simp [Fin.lt_def])⟩
  rw [Fintype.linearIndependent_iff]
  intro c hc
  -- combine the columns of `U`
  have hcol : ∀ r : Fin K, ∑ s : {i : Fin m // i.val ∈ rankSelect U tol nrows}, c s * U r s.1 = 0 := by
    have hz : Q.mulVec (fun r => ∑ s : {i : Fin m // i.val ∈ rankSelect U tol nrows}, c s * U r s.1) = 0 := by
      funext k
      have hk := congrFun hc k
      rw [Finset.sum_apply] at hk
      rw [Pi.zero_apply] at hk ⊢
      rw [← hk]
      unfold Matrix.mulVec dotProduct
      simp only [Finset.mul_sum]
      rw [Finset.sum_comm]
      apply Finset.sum_congr rfl
      intro s _
      have := congrFun (congrFun hA k) s.1
      rw [Matrix.transpose_apply, Matrix.mul_apply] at this
      rw [Pi.smul_apply, smul_eq_mul, this, Finset.mul_sum]
      apply Finset.sum_congr rfl
      intro r _
      ring
    exact fun r => congrFun (hQ _ hz) r
  by_contra hne
  push Not at hne
  obtain ⟨s0, hs0⟩ := hne
  obtain ⟨s, hs, hmax⟩ := Finset.exists_max_image
    (Finset.univ.filter fun s => c s ≠ 0) (fun s => s.1) ⟨s0, by simp [hs0]⟩
  rw [Finset.mem_filter] at hs
  obtain ⟨r, hr, hlt⟩ := hw s.1 s.2
  have := hcol r
  rw [Finset.sum_eq_single s] at this
  · rcases mul_eq_zero.1 this with h | h
    · exact hs.2 h
    · exact hr h
  · intro s' _ hne
    by_cases hz : c s' = 0
    · rw [hz, zero_mul]
    · have hle := hmax s' (by simp [hz])
      have : s'.1 ≠ s.1 := fun e => hne (Subtype.ext e)
      rw [hlt s'.1 (lt_of_le_of_ne hle this), mul_zero]
  · intro h; exact absurd (Finset.mem_univ s) h

/-- C64 fails in the other direction: the selection need not be maximal.  Three structures with
features (0,0), (1,1), (1,2): the factor of the transpose has a zero pivot, and only one structure is
selected though two are independent. -/
theorem C64_not_maximal :
    let A : Matrix (Fin 3) (Fin 2) ℚ := !![0, 0; 1, 1; 1, 2]
    let U : Matrix (Fin 2) (Fin 3) ℚ := !![0, 1, 1; 0, 1, 2]
    A.transpose = (1 : Matrix (Fin 2) (Fin 2) ℚ) * U ∧
    (∀ (i : Fin 2) (j : Fin 3), j.val < i.val → U i j = 0) ∧
    rankSelect U (1/10^15) 3 = [1] ∧
    LinearIndependent ℚ ![A 1, A 2] := by
  refine ⟨?_, ?_, by decide +kernel, ?_⟩
  · rw [Matrix.one_mul]; ext i j; fin_cases i <;> fin_cases j <;> rfl
  · intro i j h; fin_cases i <;> fin_cases j <;> first | rfl | (simp at h)
  · rw [LinearIndependent.pair_iff]
    intro s t h
    have h0 := congrFun h 0
    have h1 := congrFun h 1
    simp at h0 h1
    constructor <;> linarith

/-- C64. A structure whose features are all 0 is selected when it comes first and the data are rank
deficient: `argmax` of a row without entries is 0. -/
theorem C64_zero_first_selected :
    let A : Matrix (Fin 3) (Fin 2) ℚ := !![0, 0; 1, 0; 1, 0]
    let U : Matrix (Fin 2) (Fin 3) ℚ := !![0, 1, 1; 0, 0, 0]
    A.transpose = (1 : Matrix (Fin 2) (Fin 2) ℚ) * U ∧
    (∀ (i : Fin 2) (j : Fin 3), j.val < i.val → U i j = 0) ∧
    rankSelect U (1/10^15) 3 = [0, 1] ∧ A 0 = 0 := by
  refine ⟨?_, ?_, by decide +kernel, ?_⟩
  · rw [Matrix.one_mul]; ext i j; fin_cases i <;> fin_cases j <;> rfl
  · intro i j h; fin_cases i <;> fin_cases j <;> first | rfl | (simp at h)
  · ext j; fin_cases j <;> rfl

/-- A rank deficient matrix meeting the hypotheses of `C64_independent`: the second structure repeats
the first. -/
example :
    let A : Matrix (Fin 4) (Fin 3) ℚ := !![1, 2, 0; 1, 2, 0; 1, 0, 3; 1, 1, 1]
    let L : Matrix (Fin 3) (Fin 3) ℚ := !![1, 0, 0; 2, 1, 0; 0, 0, 1]
    let U : Matrix (Fin 3) (Fin 4) ℚ := !![1, 1, 1, 1; 0, 0, -2, -1; 0, 0, 3, 1]
    A.transpose = L * U ∧ (∀ (i : Fin 3) (j : Fin 4), j.val < i.val → U i j = 0) ∧
    (∀ i j, U i j = 0 ∨ (1/10^15 : ℚ) < |U i j|) ∧ A 0 ≠ 0 ∧
    rankSelect U (1/10^15) 4 = [0, 2] := by
  refine ⟨?_, ?_, ?_, ?_, by decide +kernel⟩
  · ext i j; fin_cases i <;> fin_cases j <;> decide +kernel
  · intro i j h; fin_cases i <;> fin_cases j <;> first | rfl | (simp at h)
  · intro i j; fin_cases i <;> fin_cases j <;> decide +kernel
  · intro h; have := congrFun h 0; revert this; decide +kernel

end Smol
