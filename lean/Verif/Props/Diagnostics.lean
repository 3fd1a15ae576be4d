import Verif.Lemmas.Diagnostics

/-!
# C88: what the diagnostics of a feature matrix mean
-/

namespace Smol

variable {X M : List (List ℝ)} {rows cols : Option (List ℤ)} {c : List ℤ}

/-- The matrix described has the rows and the columns asked for, in the order asked for. -/
theorem C88_selection {K : Type*} {X M : List (List K)} {rows cols : Option (List ℤ)} {c : List ℤ}
    (hX : X ≠ []) (hc : selectedCols X cols = some c) :
    selectMatrix X rows cols = some M ↔
      ∃ R, List.Forall₂ (fun i r => Spec.indexes X i r)
          (rows.getD ((List.range X.length).map fun i : ℕ => (i : ℤ))) R ∧
        List.Forall₂ (fun r s => List.Forall₂ (fun j a => Spec.indexes r j a) c s) R M := by
  unfold selectMatrix
  rw [hc]
  simp only [Option.bind_some, if_neg hX, Option.bind_eq_some_iff, mapM_forall₂, npGet_indexes]

/-- Without columns asked for all features are described; without structures there are none. -/
theorem C88_columns {K : Type*} (X : List (List K)) (cols : Option (List ℤ)) :
    (selectedCols X cols = none ↔ cols = none ∧ X = []) ∧
    (∀ r X', cols = none → X = r :: X' → ∃ c, selectedCols X cols = some c ∧ c.length = r.length ∧
      ∀ j (h : j < c.length), c[j] = j) ∧
    ∀ c, cols = some c → selectedCols X cols = some c := by
  refine ⟨?_, ?_, ?_⟩
  · cases cols <;> cases X <;> simp [selectedCols, numFeatures]
  · rintro r X' rfl rfl
    exact ⟨_, rfl, by simp, fun j h => by simp⟩
  · rintro c rfl
    rfl

/-- The diagnostics are given exactly for the selections there are. -/
theorem C88_defined (nrm : Bool) (rtol : ℝ) :
    ((gramMatrix X rows cols nrm).isSome = (selectMatrix X rows cols).isSome) ∧
    ((featureRank X rows cols).isSome = (selectMatrix X rows cols).isSome) ∧
    ((similarityMatrix X rows cols rtol).isSome = (selectMatrix X rows cols).isSome) ∧
    ((constantFeatures X).isSome = true ↔ X ≠ []) := by
  have h0 : selectedCols X cols = none → selectMatrix X rows cols = none := by
    intro h; simp [selectMatrix, h]
  refine ⟨?_, ?_, ?_, ?_⟩
  · unfold gramMatrix
    cases h : selectedCols X cols with
    | none => simp [h0 h]
    | some c => simp
  · unfold featureRank
    cases h : selectedCols X cols with
    | none => simp [h0 h]
    | some c => simp
  · unfold similarityMatrix
    cases h : selectedCols X cols with
    | none => simp [h0 h]
    | some c => simp
  · cases X <;> simp [constantFeatures]

/-- A Gram matrix that is not normalized holds the inner products of the features. -/
theorem C88_gram_plain {G : List (List (Option ℝ))} (hc : selectedCols X cols = some c)
    (hM : selectMatrix X rows cols = some M) (hG : gramMatrix X rows cols false = some G) :
    G.length = c.length ∧ (∀ g ∈ G, g.length = c.length) ∧
    ∀ i j, i < c.length → j < c.length →
      (G[i]?.bind fun g => g[j]?) = some (some (Spec.innerSum (Spec.feature M i) (Spec.feature M j))) := by
  refine ⟨(gramMatrix_shape hc hM hG).1, (gramMatrix_shape hc hM hG).2, ?_⟩
  intro i j hi hj
  rw [gramMatrix_entry hc hM hG hi hj, dot_feature]
  congr 1
  apply nanSum_some
  simp

/-- The Gram matrix holds the cosines of the angles between the features, and NaN exactly for the
features that are zero on all the structures selected. -/
theorem C88_gram {G : List (List (Option ℝ))} (hc : selectedCols X cols = some c)
    (hM : selectMatrix X rows cols = some M) (hM0 : M ≠ [])
    (hG : gramMatrix X rows cols true = some G) :
    G.length = c.length ∧ (∀ g ∈ G, g.length = c.length) ∧
    ∀ i j, i < c.length → j < c.length →
      (G[i]?.bind fun g => g[j]?) = some
        (if (∀ a ∈ Spec.feature M i, a = 0) ∨ (∀ a ∈ Spec.feature M j, a = 0) then none
        else some (Spec.innerSum (Spec.feature M i) (Spec.feature M j) /
          (Spec.len (Spec.feature M i) * Spec.len (Spec.feature M j)))) := by
  classical
  refine ⟨(gramMatrix_shape hc hM hG).1, (gramMatrix_shape hc hM hG).2, ?_⟩
  intro i j hi hj
  rw [gramMatrix_entry hc hM hG hi hj, dot_feature]
  congr 1
  simp only [if_true]
  have hz : ∀ k, (∀ a ∈ Spec.feature M k, a = 0) ↔ Spec.len (Spec.feature M k) = 0 := by
    intro k
    rw [len_eq_norm, norm_eq_zero, featVec_eq_zero]
  by_cases h : Spec.len (Spec.feature M i) = 0 ∨ Spec.len (Spec.feature M j) = 0
  · rw [if_pos (by rw [hz, hz]; exact h)]
    apply nanSum_none
    obtain ⟨r, M', rfl⟩ := List.exists_cons_of_ne_nil hM0
    refine List.mem_map.2 ⟨r, by simp, ?_⟩
    rcases h with h | h
    · simp [h, nanDiv, nanMul]
    · rw [h]
      unfold nanDiv nanMul
      split <;> simp
  · rw [if_neg (by rw [hz, hz]; exact h)]
    obtain ⟨h1, h2⟩ := not_or.1 h
    rw [nanSum_some (l' := M.map fun r => r.getD i 0 * r.getD j 0 *
      (Spec.len (Spec.feature M i) * Spec.len (Spec.feature M j))⁻¹)]
    · rw [List.sum_map_mul_right, div_eq_mul_inv]
    · rw [List.map_map]
      apply List.map_congr_left
      intro r _
      simp only [nanDiv, if_neg h1, if_neg h2, nanMul, Option.bind_some, Option.map_some,
        Function.comp, Option.some.injEq]
      rw [div_mul_div_comm, div_eq_mul_inv]

/-- Every number of a normalized Gram matrix lies between -1 and 1, the matrix is symmetric with a
unit diagonal, and the entry of two features is 1 or -1 exactly if each is a multiple of the other.
What is missing of the documented claim that every entry lies between -1 and 1: a feature that is zero
on all the structures selected gives NaN, `C88_gram_nan_witness`. -/
theorem C88_gram_bounds_partial {G : List (List (Option ℝ))} (hc : selectedCols X cols = some c)
    (hM : selectMatrix X rows cols = some M) (hM0 : M ≠ [])
    (hG : gramMatrix X rows cols true = some G) {i j : ℕ} (hi : i < c.length) (hj : j < c.length)
    (hi0 : ∃ a ∈ Spec.feature M i, a ≠ 0) (hj0 : ∃ a ∈ Spec.feature M j, a ≠ 0) :
    ∃ g, (G[i]?.bind fun r => r[j]?) = some (some g) ∧ (G[j]?.bind fun r => r[i]?) = some (some g) ∧
      -1 ≤ g ∧ g ≤ 1 ∧ (i = j → g = 1) ∧
      (g = 1 ↔ ∃ t, 0 < t ∧ Spec.feature M j = (Spec.feature M i).map fun a => t * a) ∧
      (g = -1 ↔ ∃ t, t < 0 ∧ Spec.feature M j = (Spec.feature M i).map fun a => t * a) := by
  have hi1 : ¬ ∀ a ∈ Spec.feature M i, a = 0 := by push Not; exact hi0
  have hj1 : ¬ ∀ a ∈ Spec.feature M j, a = 0 := by push Not; exact hj0
  have hvi : featVec M i ≠ 0 := fun h => hi1 ((featVec_eq_zero M i).1 h)
  have hvj : featVec M j ≠ 0 := fun h => hj1 ((featVec_eq_zero M j).1 h)
  have hmul : ∀ t : ℝ, (Spec.feature M j = (Spec.feature M i).map fun a => t * a) ↔
      featVec M j = t • featVec M i := by
    intro t
    unfold Spec.feature
    rw [List.map_map]
    constructor
    · intro h
      ext k
      have := List.map_inj_left.1 h _ (List.getElem_mem k.2)
      simpa [featVec] using this
    · intro h
      apply List.map_congr_left
      intro r hr
      obtain ⟨k, hk, rfl⟩ := List.getElem_of_mem hr
      have := congrArg (fun v => v.ofLp ⟨k, hk⟩) h
      simpa [featVec] using this
  refine ⟨Spec.innerSum (Spec.feature M i) (Spec.feature M j) /
    (Spec.len (Spec.feature M i) * Spec.len (Spec.feature M j)), ?_, ?_, ?_, ?_, ?_, ?_, ?_⟩
  · rw [(C88_gram hc hM hM0 hG).2.2 i j hi hj, if_neg (by tauto)]
  · rw [(C88_gram hc hM hM0 hG).2.2 j i hj hi, if_neg (by tauto)]
    congr 2
    rw [dot_eq_inner, dot_eq_inner, real_inner_comm, mul_comm]
  · rw [dot_eq_inner, len_eq_norm, len_eq_norm]
    exact (abs_le.1 (abs_real_inner_div_norm_mul_norm_le_one _ _)).1
  · rw [dot_eq_inner, len_eq_norm, len_eq_norm]
    exact (abs_le.1 (abs_real_inner_div_norm_mul_norm_le_one _ _)).2
  · rintro rfl
    rw [dot_eq_inner, len_eq_norm, real_inner_self_eq_norm_mul_norm]
    exact div_self (mul_ne_zero (norm_ne_zero_iff.2 hvi) (norm_ne_zero_iff.2 hvi))
  · simp only [hmul]
    rw [dot_eq_inner, len_eq_norm, len_eq_norm, real_inner_div_norm_mul_norm_eq_one_iff]
    tauto
  · simp only [hmul]
    rw [dot_eq_inner, len_eq_norm, len_eq_norm, real_inner_div_norm_mul_norm_eq_neg_one_iff]
    tauto

/-- A feature that is zero for all structures makes the normalized Gram matrix hold NaN, although the
documentation says every entry lies between -1 and 1. -/
theorem C88_gram_nan_witness :
    ∃ G, gramMatrix [[1, 0], [1, 0]] none none true = some G ∧
      (G[0]?.bind fun g => g[1]?) = some none ∧ (G[1]?.bind fun g => g[1]?) = some none := by
  have hM : selectMatrix ([[1, 0], [1, 0]] : List (List ℝ)) none none = some [[1, 0], [1, 0]] := by
    simp [selectMatrix, selectedCols, numFeatures, List.range_succ, npGet]
  have hc : selectedCols ([[1, 0], [1, 0]] : List (List ℝ)) none = some [0, 1] := by
    simp [selectedCols, numFeatures, List.range_succ]
  obtain ⟨G, hG⟩ : ∃ G, gramMatrix ([[1, 0], [1, 0]] : List (List ℝ)) none none true = some G := by
    unfold gramMatrix
    rw [hc, hM]
    exact ⟨_, rfl⟩
  refine ⟨G, hG, ?_, ?_⟩
  · rw [(C88_gram hc hM (by simp) hG).2.2 0 1 (by simp) (by simp), if_pos (by simp [Spec.feature])]
  · rw [(C88_gram hc hM (by simp) hG).2.2 1 1 (by simp) (by simp), if_pos (by simp [Spec.feature])]

/-- The rank is at most the number of features and of structures selected, and is the number of
features exactly if a fit of them to the structures selected is unique. -/
theorem C88_rank {k : ℕ} (hc : selectedCols X cols = some c) (hM : selectMatrix X rows cols = some M)
    (hk : featureRank X rows cols = some k) :
    k ≤ c.length ∧ k ≤ M.length ∧ (k = c.length ↔ Spec.determined M c.length) := by
  unfold featureRank at hk
  rw [hc, hM] at hk
  simp only [Option.bind_some, Option.map_some, Option.some.injEq] at hk
  subst hk
  refine ⟨?_, ?_, rank_full_iff M c.length⟩
  · exact (Matrix.rank_le_width _)
  · exact (Matrix.rank_le_height _)

/-- The rank is the number of independent features: the dimension of the values that can be fitted. -/
theorem C88_rank_span {k : ℕ} (hc : selectedCols X cols = some c)
    (hM : selectMatrix X rows cols = some M) (hk : featureRank X rows cols = some k) :
    k = Module.finrank ℝ (Submodule.span ℝ (Set.range fun (j : Fin c.length) (i : Fin M.length) =>
      (Spec.feature M j).getD i 0)) := by
  unfold featureRank at hk
  rw [hc, hM] at hk
  simp only [Option.bind_some, Option.map_some, Option.some.injEq] at hk
  subst hk
  rw [Matrix.rank_eq_finrank_span_cols]
  have : (Matrix.of fun (i : Fin M.length) (j : Fin c.length) => (M[i]).getD j 0).col =
      fun (j : Fin c.length) (i : Fin M.length) => (Spec.feature M j).getD i 0 := by
    funext j i
    simp [Matrix.col, Spec.feature, List.getD_eq_getElem?_getD]
  rw [this]

/-- The rank of an orbit is that of the features of the orbit, in order. -/
theorem C88_orbit_rank (functionOrbitIds : List ℕ) (orbit : ℕ) :
    ∃ c : List ℕ, orbitRank X functionOrbitIds orbit rows =
        featureRank X rows (some (c.map fun j : ℕ => (j : ℤ))) ∧
      c.Pairwise (· < ·) ∧ ∀ j, j ∈ c ↔ functionOrbitIds[j]? = some orbit := by
  refine ⟨(functionOrbitIds.zipIdx.filter fun p => decide (p.1 = orbit)).map Prod.snd, ?_, ?_, ?_⟩
  · unfold orbitRank
    rw [List.map_map]
    rfl
  · have : (functionOrbitIds.zipIdx.map Prod.snd).Pairwise (· < ·) := by
      rw [List.zipIdx_map_snd]
      exact List.pairwise_lt_range'
    exact this.sublist (List.Sublist.map _ List.filter_sublist)
  · intro j
    constructor
    · intro h
      obtain ⟨⟨o, k⟩, h1, rfl⟩ := List.mem_map.1 h
      obtain ⟨h2, h3⟩ := List.mem_filter.1 h1
      simp only [decide_eq_true_eq] at h3
      subst h3
      exact List.mem_zipIdx_iff_getElem?.1 h2
    · intro h
      exact List.mem_map.2 ⟨(orbit, j), List.mem_filter.2 ⟨List.mem_zipIdx_iff_getElem?.2 h, by simp⟩, rfl⟩

/-- The constant features returned are, in order, all the features of one value but that of the empty
cluster. -/
theorem C88_constant {K : Type*} [DecidableEq K] [Zero K] {X : List (List K)} {m : ℕ} {l : List ℕ}
    (hm : 0 < m) (hX : ∀ r ∈ X, r.length = m) (h0 : Spec.isConstant (Spec.feature X 0))
    (hl : constantFeatures X = some l) :
    l.Pairwise (· < ·) ∧ ∀ j, j ∈ l ↔ 0 < j ∧ j < m ∧ Spec.isConstant (Spec.feature X j) := by
  cases X with
  | nil => cases hl
  | cons r X' =>
    have hr : r.length = m := hX r (by simp)
    have hp : ∀ j, ((r :: X').all fun s => decide (s.getD j 0 = r.getD j 0)) = true ↔
        Spec.isConstant (Spec.feature (r :: X') j) := by
      intro j
      rw [List.all_eq_true]
      unfold Spec.isConstant Spec.feature
      constructor
      · intro h a ha b hb
        obtain ⟨s, hs, rfl⟩ := List.mem_map.1 ha
        obtain ⟨t, ht, rfl⟩ := List.mem_map.1 hb
        rw [of_decide_eq_true (h s hs), of_decide_eq_true (h t ht)]
      · intro h s hs
        exact decide_eq_true (h _ (List.mem_map.2 ⟨s, hs, rfl⟩) _ (List.mem_map.2 ⟨r, by simp, rfl⟩))
    unfold constantFeatures at hl
    simp only [Option.some.injEq, hr] at hl
    obtain ⟨n, rfl⟩ : ∃ n, m = n + 1 := ⟨m - 1, by omega⟩
    rw [List.range_succ_eq_map, List.filter_cons, if_pos ((hp 0).2 h0), List.drop_succ_cons,
      List.drop_zero] at hl
    subst hl
    constructor
    · apply List.Pairwise.filter
      rw [List.pairwise_map]
      exact List.pairwise_lt_range.imp (fun h => by omega)
    · intro j
      rw [List.mem_filter, hp]
      constructor
      · rintro ⟨h1, h2⟩
        obtain ⟨k, hk, rfl⟩ := List.mem_map.1 h1
        have := List.mem_range.1 hk
        exact ⟨Nat.succ_pos _, by omega, h2⟩
      · rintro ⟨h1, h2, h3⟩
        exact ⟨List.mem_map.2 ⟨j - 1, List.mem_range.2 (by omega), by omega⟩, h3⟩

/-- With a constant feature beside the column of ones the features are not independent: no fit of all
the features is unique. -/
theorem C88_constant_deficient {m k : ℕ} {l : List ℕ} {j : ℕ} (hX : ∀ r ∈ X, r.length = m)
    (h1 : ∀ r ∈ X, r.getD 0 0 = 1) (hl : constantFeatures X = some l) (hj : j ∈ l)
    (hk : featureRank X none none = some k) : k < m := by
  classical
  have hXne : X ≠ [] := by rintro rfl; cases hl
  have hm : 0 < m := by
    obtain ⟨r, X', rfl⟩ := List.exists_cons_of_ne_nil hXne
    have h2 := hX r (by simp)
    have h3 := h1 r (by simp)
    cases r with
    | nil => simp at h3
    | cons a r => simp at h2; omega
  have h0 : Spec.isConstant (Spec.feature X 0) := by
    intro a ha b hb
    obtain ⟨s, hs, rfl⟩ := List.mem_map.1 ha
    obtain ⟨t, ht, rfl⟩ := List.mem_map.1 hb
    rw [h1 s hs, h1 t ht]
  obtain ⟨hj0, hjm, hjc⟩ := ((C88_constant hm hX h0 hl).2 j).1 hj
  obtain ⟨r, X', hrX⟩ := List.exists_cons_of_ne_nil hXne
  have hr : r.length = m := hX r (by simp [hrX])
  obtain ⟨c, hc, hcl, hci⟩ := (C88_columns X none).2.1 r X' rfl hrX
  -- the matrix selected is the whole
  have hM : selectMatrix X none none = some X := by
    rw [C88_selection hXne hc]
    refine ⟨X, ?_, ?_⟩
    · rw [List.forall₂_iff_get]
      refine ⟨by simp, ?_⟩
      intro i hi hi'
      refine ⟨i, Or.inl (by simp), ?_⟩
      simp [List.getElem?_eq_getElem hi']
    · rw [List.forall₂_same]
      intro s hs
      rw [List.forall₂_iff_get]
      refine ⟨by rw [hcl, hr, hX s hs], ?_⟩
      intro i hi hi'
      refine ⟨i, Or.inl (by simpa using hci i hi), ?_⟩
      simp [List.getElem?_eq_getElem hi']
  obtain ⟨hk1, -, hk2⟩ := C88_rank hc hM hk
  rw [hcl, hr] at hk1 hk2
  rcases Nat.lt_or_ge k m with h | h
  · exact h
  · exfalso
    have hdet := hk2.1 (by omega)
    -- the constant times the first feature and the feature itself
    have hval : ∀ s ∈ X, s.getD j 0 = r.getD j 0 := fun s hs =>
      hjc _ (List.mem_map.2 ⟨s, hs, rfl⟩) _ (List.mem_map.2 ⟨r, by simp [hrX], rfl⟩)
    let w : Fin m → ℝ := fun a => if a = ⟨0, hm⟩ then r.getD j 0 else 0
    let w' : Fin m → ℝ := fun a => if a = ⟨j, hjm⟩ then 1 else 0
    have : w = w' := by
      apply hdet
      unfold Spec.fitted
      apply List.map_congr_left
      intro s hs
      rw [← List.ofFn_eq_map, ← List.ofFn_eq_map, List.sum_ofFn, List.sum_ofFn]
      simp only [w, w', mul_ite, mul_one, mul_zero, Finset.sum_ite_eq', Finset.mem_univ, if_true]
      rw [h1 s hs, one_mul, hval s hs]
    have h2 := congrFun this ⟨j, hjm⟩
    simp only [w, w', if_true] at h2
    rw [if_neg (by intro h; have := Fin.mk.inj_iff.1 h; omega)] at h2
    exact zero_ne_one h2

/-- A similarity is the fraction of the structures selected whose values of the two features are
close, the feature that comes first being compared to the other; the matrix is symmetric with a unit
diagonal. -/
theorem C88_similarity {K : Type*} [Field K] [LinearOrder K] [IsStrictOrderedRing K] {X M S : List (List K)}
    {rows cols : Option (List ℤ)} {c : List ℤ} {rtol : K} (hc : selectedCols X cols = some c)
    (hM : selectMatrix X rows cols = some M) (hM0 : M ≠ [])
    (hS : similarityMatrix X rows cols rtol = some S) :
    S.length = c.length ∧ (∀ s ∈ S, s.length = c.length) ∧
    ∀ i j, i < j → j < c.length → ∃ s,
      (S[i]?.bind fun r => r[j]?) = some s ∧ (S[j]?.bind fun r => r[i]?) = some s ∧
      (S[i]?.bind fun r => r[i]?) = some 1 ∧ (S[j]?.bind fun r => r[j]?) = some 1 ∧
      s * M.length = ((M.filter fun r => decide
        (|r.getD i 0 - r.getD j 0| ≤ 1 / 100000000 + rtol * |r.getD j 0|)).length : K) ∧
      0 ≤ s ∧ s ≤ 1 ∧
      (s = 1 ↔ ∀ r ∈ M, |r.getD i 0 - r.getD j 0| ≤ 1 / 100000000 + rtol * |r.getD j 0|) ∧
      (s = 0 ↔ ∀ r ∈ M, 1 / 100000000 + rtol * |r.getD j 0| < |r.getD i 0 - r.getD j 0|) := by
  unfold similarityMatrix at hS
  rw [hc, hM] at hS
  simp only [Option.bind_some, Option.map_some, Option.some.injEq] at hS
  subst hS
  refine ⟨by simp, by simp, ?_⟩
  intro i j hij hj
  have hi : i < c.length := hij.trans hj
  have hn : (0 : K) < M.length := by
    have := List.length_pos_iff.2 hM0
    exact_mod_cast this
  have hcount : M.countP (fun r => isClose rtol (r.getD i 0) (r.getD j 0)) =
      (M.filter fun r => decide
        (|r.getD i 0 - r.getD j 0| ≤ 1 / 100000000 + rtol * |r.getD j 0|)).length := by
    rw [List.countP_eq_length_filter]; rfl
  have hle : M.countP (fun r => isClose rtol (r.getD i 0) (r.getD j 0)) ≤ M.length :=
    List.countP_le_length
  simp only [List.getElem?_map, List.getElem?_range hi, List.getElem?_range hj, Option.map_some,
    Option.bind_some, lt_irrefl, if_false, if_pos hij, if_neg (Nat.lt_asymm hij)]
  refine ⟨_, rfl, rfl, trivial, trivial, ?_, ?_, ?_, ?_, ?_⟩
  · rw [div_mul_cancel₀ _ hn.ne', hcount]
  · positivity
  · rw [div_le_one hn]
    exact_mod_cast hle
  · rw [div_eq_one_iff_eq hn.ne', Nat.cast_inj, List.countP_eq_length]
    simp [isClose]
  · rw [div_eq_zero_iff]
    constructor
    · rintro (h | h)
      · have h' := List.countP_eq_zero.1 (Nat.cast_eq_zero.1 h)
        intro r hr
        have := h' r hr
        simpa [isClose] using this
      · exact absurd h hn.ne'
    · intro h
      left
      rw [Nat.cast_eq_zero, List.countP_eq_zero]
      intro r hr
      have := h r hr
      simpa [isClose] using this

/-- Which of two features comes first matters: asked for in the other order, the same two features
are found not similar. -/
theorem C88_similarity_order_witness :
    similarityMatrix ([[1, 2]] : List (List ℚ)) none (some [0, 1]) (1 / 2) = some [[1, 1], [1, 1]] ∧
    similarityMatrix ([[1, 2]] : List (List ℚ)) none (some [1, 0]) (1 / 2) = some [[1, 0], [0, 1]] := by
  decide +kernel

/-! ### Examples -/

/-- Three structures and three features, the last of which is constant. -/
private def exX : List (List ℝ) := [[1, 1, 2], [1, -1, 2], [1, 3, 2]]

private theorem exX_sel : selectMatrix exX none (some [0, 1]) = some [[1, 1], [1, -1], [1, 3]] := by
  simp [selectMatrix, selectedCols, exX, List.range_succ, npGet]

example : ∃ G, gramMatrix exX none (some [0, 1]) true = some G := by
  have h := (C88_defined (X := exX) (rows := none) (cols := some [0, 1]) true 0).1
  rw [exX_sel] at h
  exact Option.isSome_iff_exists.1 h

example : ∃ a ∈ Spec.feature ([[1, 1], [1, -1], [1, 3]] : List (List ℝ)) 1, a ≠ 0 :=
  ⟨1, by simp [Spec.feature], one_ne_zero⟩

example : constantFeatures ([[1, 1, 2], [1, -1, 2], [1, 3, 2]] : List (List ℚ)) = some [2] := by
  decide +kernel

example : (∀ r ∈ exX, r.length = 3) ∧ (∀ r ∈ exX, r.getD 0 0 = 1) := by
  simp [exX]

example : ∃ l, constantFeatures exX = some l ∧ 2 ∈ l := by
  refine ⟨_, rfl, ?_⟩
  simp only [List.mem_iff_getElem?]
  refine ⟨0, ?_⟩
  norm_num [exX, List.range_succ, List.filter_cons]

example : selectMatrix ([[1, 1, 2], [1, -1, 2], [1, 3, 2]] : List (List ℚ)) (some [-1, 0]) (some [2, -2]) =
    some [[2, 3], [2, 1]] := by decide +kernel

example : similarityMatrix ([[1, 1, 2], [1, -1, 2], [1, 3, 3]] : List (List ℚ)) none none (1 / 100000) =
    some [[1, 1 / 3, 0], [1 / 3, 1, 1 / 3], [0, 1 / 3, 1]] := by decide +kernel

end Smol
