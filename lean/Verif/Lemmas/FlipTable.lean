import Verif.Model.FlipTable
import Verif.Spec.FlipTable
import Mathlib.LinearAlgebra.Matrix.Rank
import Mathlib.LinearAlgebra.Matrix.NonsingularInverse
import Mathlib.LinearAlgebra.LinearIndependent.Lemmas
import Mathlib.LinearAlgebra.Dimension.OrzechProperty
import Mathlib.LinearAlgebra.FiniteDimensional.Lemmas
import Mathlib.Tactic.Linarith
import Mathlib.Tactic.Ring
import Mathlib.Tactic.LinearCombination

/-! # Lemmas on flip tables -/

namespace Smol
open Spec

variable {d : ℕ}

/-- The rational vector of an integer one. -/
def ratVec (u : FVec d) : Fin d → ℚ := fun k => (u k : ℚ)

theorem fullRank_iff (V : List (FVec d)) : fullRank V = true ↔ Independent V := by
  unfold fullRank
  simp only [decide_eq_true_eq]
  set A : Matrix (Fin V.length) (Fin d) ℤ := fun i => V.get i with hA
  set B : Matrix (Fin V.length) (Fin d) ℚ := A.map (Int.cast) with hB
  have hdet : ((A * A.transpose).det : ℚ) = (B * B.transpose).det := by
    have h1 : B * B.transpose = (Int.castRingHom ℚ).mapMatrix (A * A.transpose) := by
      ext i j; simp [hB, Matrix.mul_apply]
    rw [h1, ← RingHom.map_det]; simp
  have h0 : (A * A.transpose).det ≠ 0 ↔ (B * B.transpose).det ≠ 0 := by
    rw [← hdet]; simp
  rw [h0]
  have hind : Independent V ↔ LinearIndependent ℚ B.row := Iff.rfl
  rw [hind, linearIndependent_iff_card_eq_finrank_span, ← isUnit_iff_ne_zero,
    ← Matrix.isUnit_iff_isUnit_det, ← Matrix.linearIndependent_rows_iff_isUnit,
    linearIndependent_iff_card_eq_finrank_span]
  unfold Set.finrank
  rw [← Matrix.rank_eq_finrank_span_row, ← Matrix.rank_eq_finrank_span_row,
    Matrix.rank_self_mul_transpose]

theorem ratVec_injective : Function.Injective (ratVec : FVec d → Fin d → ℚ) := by
  intro a b h
  funext k
  have := congrFun h k
  simpa [ratVec] using this

theorem independent_iff (V : List (FVec d)) :
    Independent V ↔ V.Nodup ∧ LinearIndepOn ℚ ratVec {v : FVec d | v ∈ V} := by
  constructor
  · intro h
    have hn : V.Nodup := by
      rw [List.nodup_iff_injective_get]
      intro i j hij
      exact h.injective (by simp only [hij])
    refine ⟨hn, ?_⟩
    have : (fun i : Fin V.length => ratVec (V.get i)) =
        (fun x : {v // v ∈ V} => ratVec x.1) ∘ (List.Nodup.getEquiv V hn) := by
      funext i; rfl
    have h' : LinearIndependent ℚ (fun i : Fin V.length => ratVec (V.get i)) := h
    rw [this, linearIndependent_equiv] at h'
    exact h'
  · rintro ⟨hn, h⟩
    have : (fun i : Fin V.length => ratVec (V.get i)) =
        (fun x : {v // v ∈ V} => ratVec x.1) ∘ (List.Nodup.getEquiv V hn) := by
      funext i; rfl
    show LinearIndependent ℚ (fun i : Fin V.length => ratVec (V.get i))
    rw [this, linearIndependent_equiv]
    exact h

theorem independent_nil : Independent ([] : List (FVec d)) := by
  rw [independent_iff]; simp

/-- A row that cannot be appended is spanned by the others. -/
theorem independent_append (V : List (FVec d)) (v : FVec d) (h : Independent V) :
    Independent (V ++ [v]) ↔ ratVec v ∉ Submodule.span ℚ (ratVec '' {w : FVec d | w ∈ V}) := by
  rw [independent_iff] at h
  rw [independent_iff]
  have hset : {w : FVec d | w ∈ V ++ [v]} = insert v {w : FVec d | w ∈ V} := by
    ext w; simp [or_comm]
  rw [hset]
  by_cases hv : v ∈ V
  · constructor
    · rintro ⟨hn, -⟩
      rw [List.nodup_append] at hn
      exact absurd rfl (hn.2.2 v hv v (by simp))
    · intro hns
      exact absurd (Submodule.subset_span (Set.mem_image_of_mem ratVec hv)) hns
  · rw [linearIndepOn_insert (by simpa using hv)]
    constructor
    · rintro ⟨-, -, h3⟩; exact h3
    · intro h3
      refine ⟨?_, h.2, h3⟩
      rw [List.nodup_append]
      refine ⟨h.1, by simp, ?_⟩
      intro a ha b hb hab
      simp at hb
      subst hb; subst hab
      exact hv ha

/-- Fewer independent rows than rows spanning them. -/
theorem length_le_of_span (V T : List (FVec d)) (hV : Independent V) (hT : Independent T)
    (h : ∀ v ∈ V, ratVec v ∈ Submodule.span ℚ (ratVec '' {w : FVec d | w ∈ T})) :
    V.length ≤ T.length := by
  set B : Submodule ℚ (Fin d → ℚ) := Submodule.span ℚ (ratVec '' {w : FVec d | w ∈ T}) with hB
  have hTs : Set.range (fun i : Fin T.length => ratVec (T.get i)) =
      ratVec '' {w : FVec d | w ∈ T} := by
    ext x
    simp only [Set.mem_range, Set.mem_image, Set.mem_ofPred_eq]
    constructor
    · rintro ⟨i, rfl⟩; exact ⟨_, List.get_mem _ _, rfl⟩
    · rintro ⟨w, hw, rfl⟩
      obtain ⟨i, hi⟩ := List.get_of_mem hw
      exact ⟨i, by rw [hi]⟩
  have hVs : Submodule.span ℚ (Set.range (fun i : Fin V.length => ratVec (V.get i))) ≤ B := by
    rw [Submodule.span_le]
    rintro x ⟨i, rfl⟩
    exact h _ (List.get_mem _ _)
  have h1 : V.length = Module.finrank ℚ
      (Submodule.span ℚ (Set.range (fun i : Fin V.length => ratVec (V.get i)))) := by
    have := linearIndependent_iff_card_eq_finrank_span.1
      (show LinearIndependent ℚ (fun i : Fin V.length => ratVec (V.get i)) from hV)
    simpa [Set.finrank] using this
  have h2 : T.length = Module.finrank ℚ B := by
    have := linearIndependent_iff_card_eq_finrank_span.1
      (show LinearIndependent ℚ (fun i : Fin T.length => ratVec (T.get i)) from hT)
    rw [hB, ← hTs]
    simpa [Set.finrank] using this
  rw [h1, h2]
  exact Submodule.finrank_mono hVs

theorem independent_filter (V : List (FVec d)) (p : FVec d → Bool) (h : Independent V) :
    Independent (V.filter p) := by
  rw [independent_iff] at h ⊢
  exact ⟨h.1.filter _, h.2.mono (fun v hv => (List.mem_filter.1 hv).1)⟩

/-! ## The selection -/

theorem pickFlip_spec (n : ℕ) (acc : List (FVec d)) (v : FVec d) (hacc : Independent acc)
    (hlen : acc.length ≤ n) :
    Independent (pickFlip n acc v) ∧ (pickFlip n acc v).length ≤ n ∧
    (acc <+: pickFlip n acc v) ∧ (∀ w ∈ pickFlip n acc v, w ∈ acc ∨ w = v) ∧
    ((pickFlip n acc v).length = n ∨
      ratVec v ∈ Submodule.span ℚ (ratVec '' {w : FVec d | w ∈ pickFlip n acc v})) := by
  unfold pickFlip
  split_ifs with h1 h2
  · exact ⟨hacc, hlen, List.prefix_rfl, fun w hw => Or.inl hw, Or.inl h1⟩
  · rw [fullRank_iff] at h2
    refine ⟨h2, by simp; omega, List.prefix_append _ _, by simp, Or.inr ?_⟩
    exact Submodule.subset_span ⟨v, by simp, rfl⟩
  · rw [fullRank_iff, independent_append _ _ hacc, not_not] at h2
    exact ⟨hacc, hlen, List.prefix_rfl, fun w hw => Or.inl hw, Or.inr h2⟩

theorem foldl_pickFlip (n : ℕ) (V : List (FVec d)) : ∀ acc : List (FVec d), Independent acc →
    acc.length ≤ n →
    Independent (V.foldl (pickFlip n) acc) ∧ (V.foldl (pickFlip n) acc).length ≤ n ∧
    (∃ T, V.foldl (pickFlip n) acc = acc ++ T ∧ ∀ w ∈ T, w ∈ V) ∧
    ((V.foldl (pickFlip n) acc).length = n ∨ ∀ v ∈ V,
      ratVec v ∈ Submodule.span ℚ (ratVec '' {w : FVec d | w ∈ V.foldl (pickFlip n) acc})) := by
  induction V with
  | nil => intro acc h1 h2; exact ⟨h1, h2, ⟨[], by simp⟩, Or.inr (by simp)⟩
  | cons v V ih =>
    intro acc h1 h2
    obtain ⟨p1, p2, ⟨t, p3⟩, p4, p5⟩ := pickFlip_spec n acc v h1 h2
    obtain ⟨i1, i2, ⟨T, i3, i3'⟩, i4⟩ := ih _ p1 p2
    simp only [List.foldl_cons]
    refine ⟨i1, i2, ⟨t ++ T, by rw [i3, ← p3, List.append_assoc], ?_⟩, ?_⟩
    · intro w hw
      rw [List.mem_append] at hw
      rcases hw with hw | hw
      · have hw' : w ∈ pickFlip n acc v := by rw [← p3]; simp [hw]
        rcases p4 w hw' with hwa | rfl
        · -- a repeated row would not be independent
          rw [← p3] at p1
          have := ((independent_iff _).1 p1).1
          rw [List.nodup_append] at this
          exact absurd rfl (this.2.2 w hwa w hw)
        · simp
      · simp [i3' w hw]
    · rcases i4 with i4 | i4
      · exact Or.inl i4
      · rcases p5 with p5 | p5
        · left
          have : (pickFlip n acc v).length ≤ (V.foldl (pickFlip n) (pickFlip n acc v)).length := by
            rw [i3]; simp
          omega
        · right
          intro w hw
          rcases List.mem_cons.1 hw with rfl | hw
          · refine Submodule.span_mono (Set.image_mono ?_) p5
            intro x hx
            simp only [Set.mem_ofPred_eq] at hx ⊢
            rw [i3]; simp [hx]
          · exact i4 w hw

theorem greedyFlips_mem (n : ℕ) (V : List (FVec d)) : ∀ w ∈ greedyFlips n V, w ∈ V := by
  obtain ⟨-, -, ⟨T, h, h'⟩, -⟩ := foldl_pickFlip n V [] independent_nil (by simp)
  intro w hw
  apply h'
  unfold greedyFlips at hw
  rw [h] at hw
  simpa using hw

theorem greedyFlips_independent (n : ℕ) (V : List (FVec d)) : Independent (greedyFlips n V) :=
  (foldl_pickFlip n V [] independent_nil (by simp)).1

/-- A list sorted by a size is its small part followed by its large part. -/
theorem sorted_split (f : FVec d → ℤ) (s : ℤ) (V : List (FVec d))
    (h : V.Pairwise fun a b => f a ≤ f b) :
    V = V.filter (fun v => decide (f v ≤ s)) ++ V.filter (fun v => !decide (f v ≤ s)) := by
  induction V with
  | nil => rfl
  | cons v V ih =>
    rw [List.pairwise_cons] at h
    by_cases hv : f v ≤ s
    · rw [List.filter_cons_of_pos (by simpa using hv),
        List.filter_cons_of_neg (by simpa using hv)]
      simpa using ih h.2
    · have h1 : (v :: V).filter (fun v => decide (f v ≤ s)) = [] := by
        rw [List.filter_eq_nil_iff]
        intro w hw
        rcases List.mem_cons.1 hw with rfl | hw
        · simpa using hv
        · have := h.1 w hw
          simp; omega
      have h2 : (v :: V).filter (fun v => !decide (f v ≤ s)) = v :: V := by
        rw [List.filter_eq_self]
        intro w hw
        rcases List.mem_cons.1 hw with rfl | hw
        · simpa using hv
        · have := h.1 w hw
          simp; omega
      rw [h1, h2]; rfl

/-- The selection from a sorted list has at least as many small rows as any independent choice of
rows from it. -/
theorem greedyFlips_small (n : ℕ) (f : FVec d → ℤ) (s : ℤ) (V vs : List (FVec d))
    (hsort : V.Pairwise fun a b => f a ≤ f b) (hvs : Independent vs) (hlen : vs.length ≤ n)
    (hsub : ∀ v ∈ vs, v ∈ V) :
    vs.countP (fun v => decide (f v ≤ s)) ≤ (greedyFlips n V).countP (fun v => decide (f v ≤ s)) := by
  set V1 := V.filter (fun v => decide (f v ≤ s)) with hV1
  have hsplit := sorted_split f s V hsort
  have hg : greedyFlips n V =
      (V.filter (fun v => !decide (f v ≤ s))).foldl (pickFlip n) (greedyFlips n V1) := by
    unfold greedyFlips
    conv_lhs => rw [hsplit]
    rw [List.foldl_append]
  obtain ⟨a1, a2, -, a4⟩ := foldl_pickFlip n V1 [] independent_nil (by simp)
  obtain ⟨-, -, ⟨T, b3, -⟩, -⟩ := foldl_pickFlip n
    (V.filter (fun v => !decide (f v ≤ s))) (greedyFlips n V1) a1 a2
  rw [hg, b3, List.countP_append]
  have hall : (greedyFlips n V1).countP (fun v => decide (f v ≤ s)) = (greedyFlips n V1).length := by
    rw [List.countP_eq_length]
    intro w hw
    exact (List.mem_filter.1 (greedyFlips_mem n V1 w hw)).2
  rw [hall, List.countP_eq_length_filter]
  have hle : (vs.filter fun v => decide (f v ≤ s)).length ≤ (greedyFlips n V1).length := by
    rcases a4 with a4 | a4
    · have : (vs.filter fun v => decide (f v ≤ s)).length ≤ vs.length := List.length_filter_le _ _
      unfold greedyFlips
      omega
    · refine length_le_of_span _ _ (independent_filter _ _ hvs) a1 ?_
      intro v hv
      rw [List.mem_filter] at hv
      exact a4 v (List.mem_filter.2 ⟨hsub v hv.1, hv.2⟩)
  omega

theorem greedyFlips_length (n : ℕ) (V vs : List (FVec d)) (hvs : Independent vs)
    (hlen : vs.length = n) (hsub : ∀ v ∈ vs, v ∈ V) : (greedyFlips n V).length = n := by
  obtain ⟨a1, a2, -, a4⟩ := foldl_pickFlip n V [] independent_nil (by simp)
  rcases a4 with a4 | a4
  · exact a4
  · have := length_le_of_span vs _ hvs a1 (fun v hv => a4 v (hsub v hv))
    unfold greedyFlips
    omega

/-! ## Sizes and sorting -/

theorem filter_pos_sum (l : List ℤ) :
    (l.filter fun x => 0 < x).sum = (l.map fun x => max x 0).sum := by
  induction l with
  | nil => rfl
  | cons x l ih =>
    by_cases hx : 0 < x
    · rw [List.filter_cons_of_pos (by simpa using hx)]
      simp only [List.sum_cons, List.map_cons, ih]
      rw [max_eq_left hx.le]
    · rw [List.filter_cons_of_neg (by simpa using hx)]
      simp only [List.sum_cons, List.map_cons, ih]
      rw [max_eq_right (by omega)]
      ring

theorem flipSize_eq (u : FVec d) :
    flipSize u = if ∑ k, u k = 0 then some (sitesChanged u) else none := by
  unfold flipSize
  simp only [filter_pos_sum, List.sum_ofFn, List.map_ofFn]
  by_cases h : ∑ k, u k = 0
  · simp [h, sitesChanged]
  · simp [h]

theorem flipSize_isSome (u : FVec d) : (flipSize u).isSome = true ↔ ∑ k, u k = 0 := by
  rw [flipSize_eq]; split_ifs with h <;> simp [h]

/-- A flip that conserves the number of sites changes half of what it moves. -/
theorem two_mul_sitesChanged (u : FVec d) (h : ∑ k, u k = 0) :
    2 * sitesChanged u = ∑ k, |u k| := by
  unfold sitesChanged
  have : ∀ k, 2 * max (u k) 0 = u k + |u k| := by
    intro k
    rcases le_total 0 (u k) with hk | hk
    · rw [max_eq_left hk, abs_of_nonneg hk]; ring
    · rw [max_eq_right hk, abs_of_nonpos hk]; ring
  rw [Finset.mul_sum, Finset.sum_congr rfl (fun k _ => this k), Finset.sum_add_distrib, h, zero_add]

theorem flipKeyLe_total (ns : List (FVec d)) (a b : FVec d) :
    flipKeyLe ns a b = true ∨ flipKeyLe ns b a = true := by
  simp only [flipKeyLe, Bool.or_eq_true, decide_eq_true_eq, Bool.and_eq_true]
  omega

theorem flipKeyLe_trans (ns : List (FVec d)) (a b c : FVec d) (h1 : flipKeyLe ns a b = true)
    (h2 : flipKeyLe ns b c = true) : flipKeyLe ns a c = true := by
  simp only [flipKeyLe, Bool.or_eq_true, decide_eq_true_eq, Bool.and_eq_true] at h1 h2 ⊢
  omega

theorem sortFlips_spec (ns V W : List (FVec d)) (h : sortFlips ns V = some W) :
    W.Perm V ∧ (∀ v ∈ V, ∑ k, v k = 0) ∧ W.Pairwise (fun a b => sitesChanged a ≤ sitesChanged b) := by
  unfold sortFlips at h
  split_ifs at h with hall
  simp only [Option.some.injEq] at h
  have hz : ∀ v ∈ V, ∑ k, v k = 0 := by
    intro v hv
    rw [← flipSize_isSome]
    exact List.all_eq_true.1 hall v hv
  have hperm : W.Perm V := by rw [← h]; exact List.perm_insertionSort _ V
  refine ⟨hperm, hz, ?_⟩
  have : Std.Total (fun a b : FVec d => flipKeyLe ns a b = true) := ⟨flipKeyLe_total ns⟩
  have : IsTrans (FVec d) (fun a b : FVec d => flipKeyLe ns a b = true) :=
    ⟨fun a b c => flipKeyLe_trans ns a b c⟩
  have hs := List.pairwise_insertionSort (fun a b : FVec d => flipKeyLe ns a b = true) V
  rw [h] at hs
  refine hs.imp_of_mem ?_
  intro a b ha hb hab
  have za := hz a (hperm.subset ha)
  have zb := hz b (hperm.subset hb)
  simp only [flipKeyLe, flipSize_eq, za, zb, if_true, Option.getD_some, Bool.or_eq_true,
    decide_eq_true_eq, Bool.and_eq_true] at hab
  omega

/-! ## The lattice -/

theorem mem_lattice {vs : List (FVec d)} {v : FVec d} (h : v ∈ vs) : v ∈ Lattice vs :=
  Submodule.subset_span h

theorem lattice_le {vs ws : List (FVec d)} (h : ∀ v ∈ vs, v ∈ Lattice ws) :
    Lattice vs ≤ Lattice ws := Submodule.span_le.2 h

theorem mem_rowPairs {vs : List (FVec d)} {p : FVec d × FVec d} (h : p ∈ rowPairs vs) :
    p.1 ∈ vs ∧ p.2 ∈ vs := by
  induction vs with
  | nil => simp [rowPairs] at h
  | cons v vs ih =>
    simp only [rowPairs, List.mem_append, List.mem_map] at h
    rcases h with ⟨w, hw, rfl⟩ | h
    · simp [hw]
    · have := ih h; simp [this.1, this.2]

theorem flipCandidates_lattice {vs : List (FVec d)} {u : FVec d} (h : u ∈ flipCandidates vs) :
    u ∈ Lattice vs := by
  simp only [flipCandidates, List.mem_append, List.mem_flatMap] at h
  rcases h with h | ⟨p, hp, hu⟩
  · exact mem_lattice h
  · obtain ⟨h1, h2⟩ := mem_rowPairs hp
    simp only [List.mem_cons, List.not_mem_nil, or_false] at hu
    rcases hu with rfl | rfl
    · exact Submodule.add_mem _ (mem_lattice h1) (mem_lattice h2)
    · exact Submodule.sub_mem _ (mem_lattice h1) (mem_lattice h2)

theorem sum_eq_zero_of_lattice {vs : List (FVec d)} (h : ∀ v ∈ vs, ∑ k, v k = 0) {u : FVec d}
    (hu : u ∈ Lattice vs) : ∑ k, u k = 0 := by
  unfold Spec.Lattice at hu
  induction hu using Submodule.span_induction with
  | mem x hx => exact h x hx
  | zero => simp
  | add x y _ _ hx hy => simp [Finset.sum_add_distrib, hx, hy]
  | smul a x _ hx => simp [← Finset.mul_sum, hx]

/-- An invariant of the optimisation: what one cycle does to a basis. -/
theorem optimizeLoop_induct (P : List (FVec d) → Prop) (n : ℕ) (ns : List (FVec d))
    (hstep : ∀ vs V, P vs → sortFlips ns (flipCandidates vs) = some V → P (greedyFlips n V)) :
    ∀ (k : ℕ) (vs T : List (FVec d)), P vs → optimizeLoop n ns k vs = some T → P T := by
  intro k
  induction k with
  | zero => intro vs T h h'; simp only [optimizeLoop, Option.some.injEq] at h'; rwa [← h']
  | succ k ih =>
    intro vs T h h'
    simp only [optimizeLoop, Option.bind_eq_bind, Option.bind_eq_some_iff] at h'
    obtain ⟨V, hV, h'⟩ := h'
    split_ifs at h' with hm
    · simp only [Option.some.injEq] at h'; rwa [← h']
    · exact ih _ _ (hstep vs V h hV) h'

/-- If the sum and the difference of two flips together are no larger than the flips, then the flips
agree up to signs. -/
theorem abs_eq_of_small (a b : FVec d) (ha : ∑ k, a k = 0) (hb : ∑ k, b k = 0)
    (h : sitesChanged (a + b) + sitesChanged (a - b) ≤ sitesChanged a + sitesChanged b) :
    ∀ k, |a k| = |b k| := by
  have e1 := two_mul_sitesChanged (a + b) (by simp [Finset.sum_add_distrib, ha, hb])
  have e2 := two_mul_sitesChanged (a - b) (by simp [Finset.sum_sub_distrib, ha, hb])
  have e3 := two_mul_sitesChanged a ha
  have e4 := two_mul_sitesChanged b hb
  have hpt : ∀ k, |a k| + |b k| + |(|a k| - |b k|)| = |(a + b) k| + |(a - b) k| := by
    intro k
    simp only [Pi.add_apply, Pi.sub_apply]
    rcases abs_cases (a k) with h1 | h1 <;> rcases abs_cases (b k) with h2 | h2 <;>
      rcases abs_cases (|a k| - |b k|) with h3 | h3 <;>
      rcases abs_cases (a k + b k) with h4 | h4 <;>
      rcases abs_cases (a k - b k) with h5 | h5 <;> omega
  have hsum : ∑ k, |(|a k| - |b k|)| ≤ 0 := by
    have : ∑ k, |a k| + ∑ k, |b k| + ∑ k, |(|a k| - |b k|)| =
        ∑ k, |(a + b) k| + ∑ k, |(a - b) k| := by
      rw [← Finset.sum_add_distrib, ← Finset.sum_add_distrib, ← Finset.sum_add_distrib]
      exact Finset.sum_congr rfl fun k _ => hpt k
    linarith
  intro k
  have hk : |(|a k| - |b k|)| ≤ ∑ k, |(|a k| - |b k|)| :=
    Finset.single_le_sum (f := fun k => |(|a k| - |b k|)|) (fun i _ => abs_nonneg _)
      (Finset.mem_univ k)
  have : |(|a k| - |b k|)| = 0 := le_antisymm (hk.trans hsum) (abs_nonneg _)
  exact sub_eq_zero.1 (abs_eq_zero.1 this)

/-- Two flips that generate all solutions of the constraints do not agree up to signs. -/
theorem not_abs_eq (A : List (Fin d → ℤ)) (a b : FVec d) (hind : Independent [a, b])
    (hker : GeneratesKernel A [a, b]) (h : ∀ k, |a k| = |b k|) : False := by
  have hdiv : ∀ k, ∃ c, a k + b k = 2 * c := by
    intro k
    rcases abs_eq_abs.1 (h k) with e | e
    · exact ⟨b k, by rw [e]; ring⟩
    · exact ⟨0, by rw [e]; ring⟩
  choose w hw using hdiv
  have hw2 : a + b = (2 : ℤ) • w := by funext k; simpa using hw k
  have hwk : w ∈ Spec.Lattice [a, b] := by
    rw [hker w]
    intro r hr
    have hab : a + b ∈ Spec.Lattice [a, b] :=
      Submodule.add_mem _ (mem_lattice (by simp)) (mem_lattice (by simp))
    have := (hker (a + b)).1 hab r hr
    rw [hw2, dotProduct_smul] at this
    simpa using this
  have hset : {v : FVec d | v ∈ [a, b]} = {a, b} := by ext; simp
  unfold Spec.Lattice at hwk
  rw [hset, Submodule.mem_span_pair] at hwk
  obtain ⟨x, y, hxy⟩ := hwk
  have hlin := linearIndependent_iff'.1 hind Finset.univ
    ![(1 - 2 * x : ℚ), (1 - 2 * y : ℚ)] (by
      funext k
      have e : a k + b k = 2 * (x * a k + y * b k) := by
        rw [hw k, ← hxy]; simp
      have e' : (a k : ℚ) + b k = 2 * (x * a k + y * b k) := by exact_mod_cast e
      have : ∑ i : Fin 2, (![(1 - 2 * x : ℚ), (1 - 2 * y : ℚ)] i) * (([a, b].get i k : ℤ) : ℚ) = 0 := by
        rw [Fin.sum_univ_two]
        simp
        linear_combination e'
      simpa [Finset.sum_apply] using this) 0 (Finset.mem_univ _)
  simp only [Matrix.cons_val_zero] at hlin
  have : (1 : ℤ) - 2 * x = 0 := by exact_mod_cast hlin
  omega

/-! ## Ergodic tables -/

theorem flipConnected_iff (n : FVec d) (vs ns : List (FVec d)) :
    flipConnected n vs ns = true ↔ ∃ u ∈ vs, n + u ∈ ns ∨ n - u ∈ ns := by
  simp only [flipConnected, List.any_eq_true, List.mem_append, List.mem_map, decide_eq_true_eq]
  constructor
  · rintro ⟨u, hu | ⟨w, hw, rfl⟩, h⟩
    · exact ⟨u, hu, Or.inl (by rwa [add_comm])⟩
    · exact ⟨w, hw, Or.inr (by rwa [sub_eq_neg_add])⟩
  · rintro ⟨u, hu, h | h⟩
    · exact ⟨u, Or.inl hu, by rwa [add_comm]⟩
    · exact ⟨-u, Or.inr ⟨u, hu, rfl⟩, by rwa [← sub_eq_neg_add]⟩

theorem flipConnected_oneFlip (n : FVec d) (vs ns : List (FVec d)) (hn : n ∈ ns) :
    flipConnected n vs ns = true ↔ ∃ b, OneFlip vs ns n b := by
  rw [flipConnected_iff]
  constructor
  · rintro ⟨u, hu, h | h⟩
    · exact ⟨n + u, hn, h, u, hu, Or.inl rfl⟩
    · exact ⟨n - u, hn, h, u, hu, Or.inr (by simp)⟩
  · rintro ⟨b, -, hb, u, hu, h | h⟩
    · exact ⟨u, hu, Or.inl (h ▸ hb)⟩
    · exact ⟨u, hu, Or.inr (by rw [h]; simpa using hb)⟩

theorem addCandidate_spec (c : List (FVec d)) (u : FVec d) :
    (∀ w ∈ c, w ∈ addCandidate c u) ∧ (u ∈ addCandidate c u ∨ -u ∈ addCandidate c u) ∧
    ∀ w ∈ addCandidate c u, w ∈ c ∨ w = u := by
  unfold addCandidate
  split_ifs with h
  · exact ⟨fun _ h => h, h, fun _ h => Or.inl h⟩
  · exact ⟨fun w hw => by simp [hw], Or.inl (by simp), by simp⟩

theorem foldl_addCandidate (n : FVec d) (ps : List (FVec d)) : ∀ c : List (FVec d),
    (∀ w ∈ c, w ∈ ps.foldl (fun c p => addCandidate c (p - n)) c) ∧
    (∀ p ∈ ps, p - n ∈ ps.foldl (fun c p => addCandidate c (p - n)) c ∨
      -(p - n) ∈ ps.foldl (fun c p => addCandidate c (p - n)) c) ∧
    ∀ w ∈ ps.foldl (fun c p => addCandidate c (p - n)) c, w ∈ c ∨ ∃ p ∈ ps, w = p - n := by
  induction ps with
  | nil => intro c; simp
  | cons q ps ih =>
    intro c
    obtain ⟨a1, a2, a3⟩ := addCandidate_spec c (q - n)
    obtain ⟨i1, i2, i3⟩ := ih (addCandidate c (q - n))
    simp only [List.foldl_cons]
    refine ⟨fun w hw => i1 w (a1 w hw), ?_, ?_⟩
    · intro p hp
      rcases List.mem_cons.1 hp with rfl | hp
      · exact a2.imp (i1 _) (i1 _)
      · exact i2 p hp
    · intro w hw
      rcases i3 w hw with hw | ⟨p, hp, rfl⟩
      · rcases a3 w hw with hw | rfl
        · exact Or.inl hw
        · exact Or.inr ⟨q, by simp, rfl⟩
      · exact Or.inr ⟨p, by simp [hp], rfl⟩

theorem ergodicCandidates_spec (near : FVec d → List (FVec d)) (disc : List (FVec d)) :
    (∀ n ∈ disc, ∀ p ∈ near n, p - n ∈ ergodicCandidates near disc ∨
      -(p - n) ∈ ergodicCandidates near disc) ∧
    ∀ w ∈ ergodicCandidates near disc, ∃ n ∈ disc, ∃ p ∈ near n, w = p - n := by
  have key : ∀ (disc c : List (FVec d)),
      let r := disc.foldl (fun c n => (near n).foldl (fun c p => addCandidate c (p - n)) c) c
      (∀ w ∈ c, w ∈ r) ∧ (∀ n ∈ disc, ∀ p ∈ near n, p - n ∈ r ∨ -(p - n) ∈ r) ∧
      ∀ w ∈ r, w ∈ c ∨ ∃ n ∈ disc, ∃ p ∈ near n, w = p - n := by
    intro disc
    induction disc with
    | nil => intro c; simp
    | cons m disc ih =>
      intro c
      obtain ⟨a1, a2, a3⟩ := foldl_addCandidate m (near m) c
      obtain ⟨i1, i2, i3⟩ := ih ((near m).foldl (fun c p => addCandidate c (p - m)) c)
      simp only [List.foldl_cons]
      refine ⟨fun w hw => i1 w (a1 w hw), ?_, ?_⟩
      · intro n hn p hp
        rcases List.mem_cons.1 hn with rfl | hn
        · exact (a2 p hp).imp (i1 _) (i1 _)
        · exact i2 n hn p hp
      · intro w hw
        rcases i3 w hw with hw | ⟨n, hn, p, hp, rfl⟩
        · rcases a3 w hw with hw | ⟨p, hp, rfl⟩
          · exact Or.inl hw
          · exact Or.inr ⟨m, by simp, p, hp, rfl⟩
        · exact Or.inr ⟨n, by simp [hn], p, hp, rfl⟩
  obtain ⟨-, h2, h3⟩ := key disc []
  refine ⟨h2, fun w hw => ?_⟩
  rcases h3 w hw with h | h
  · simp at h
  · exact h

theorem addUntilConnected_spec (ns : List (FVec d)) : ∀ us sel rem : List (FVec d),
    (∃ added, addUntilConnected ns us sel rem = sel ++ added ∧ ∀ u ∈ added, u ∈ us) ∧
    ((∀ u ∈ us, u ∈ addUntilConnected ns us sel rem) ∨
      ∀ n ∈ rem, flipConnected n (addUntilConnected ns us sel rem) ns = true) := by
  intro us
  induction us with
  | nil => intro sel rem; exact ⟨⟨[], by simp [addUntilConnected]⟩, Or.inl (by simp)⟩
  | cons u us ih =>
    intro sel rem
    simp only [addUntilConnected]
    split_ifs with h
    · refine ⟨⟨[u], rfl, by simp⟩, Or.inr ?_⟩
      intro n hn
      rw [List.filter_eq_nil_iff] at h
      simpa using h n hn
    · obtain ⟨⟨t, e, ht⟩, i2⟩ := ih (sel ++ [u]) (rem.filter fun n => !flipConnected n (sel ++ [u]) ns)
      refine ⟨⟨u :: t, by rw [e]; simp, ?_⟩, ?_⟩
      · intro w hw
        rcases List.mem_cons.1 hw with rfl | hw
        · simp
        · simp [ht w hw]
      · rcases i2 with i2 | i2
        · left
          intro w hw
          rcases List.mem_cons.1 hw with rfl | hw
          · rw [e]; simp
          · exact i2 w hw
        · right
          intro n hn
          by_cases hc : flipConnected n (sel ++ [u]) ns = true
          · rw [flipConnected_iff] at hc ⊢
            obtain ⟨x, hx, h'⟩ := hc
            exact ⟨x, by rw [e]; exact List.mem_append_left _ hx, h'⟩
          · exact i2 n (List.mem_filter.2 ⟨hn, by simpa using hc⟩)

theorem sortBySize_spec (V : List (FVec d)) :
    (∀ W, sortBySize V = some W → W.Perm V) ∧
    (sortBySize V = none ↔ ∃ v ∈ V, ∑ k, v k ≠ 0) := by
  unfold sortBySize
  constructor
  · intro W h
    split_ifs at h
    simp only [Option.some.injEq] at h
    rw [← h]; exact List.perm_insertionSort _ V
  · split_ifs with h
    · simp only [false_iff, not_exists, not_and, not_not]
      intro v hv
      rw [← flipSize_isSome]; exact List.all_eq_true.1 h v hv
    · simp only [true_iff]
      by_contra hc
      push Not at hc
      apply h
      rw [List.all_eq_true]
      intro v hv
      rw [flipSize_isSome]; exact hc v hv

end Smol
