import Mathlib.Analysis.InnerProductSpace.PiL2
import Mathlib.Data.List.Forall2
import Verif.Model.Diagnostics
import Verif.Spec.Diagnostics

/-!
# Lemmas on the diagnostics of a feature matrix
-/

namespace Smol

theorem npGet_indexes {α : Type*} (l : List α) (i : ℤ) (x : α) :
    npGet l i = some x ↔ Spec.indexes l i x := by
  unfold npGet Spec.indexes
  constructor
  · intro h
    split at h
    · exact ⟨i.toNat, Or.inl (by omega), h⟩
    · split at h
      · exact ⟨_, Or.inr (by omega), h⟩
      · cases h
  · rintro ⟨n, h | h, hx⟩
    · have : i.toNat = n := by omega
      rw [if_pos (by omega), this, hx]
    · have hn := (List.getElem?_eq_some_iff.1 hx).1
      rw [if_neg (by omega), if_pos (by omega)]
      have : (i + l.length).toNat = n := by omega
      rw [this, hx]

theorem mapM_forall₂ {α β : Type*} {f : α → Option β} :
    ∀ {l : List α} {r : List β}, l.mapM f = some r ↔ List.Forall₂ (fun a b => f a = some b) l r
  | [], r => by
    simp [eq_comm]
  | a :: l, r => by
    rw [List.mapM_cons]
    constructor
    · intro h
      cases hf : f a with
      | none => simp [hf] at h
      | some b =>
        cases hl : l.mapM f with
        | none => simp [hf, hl] at h
        | some t =>
          simp only [hf, hl] at h
          have : r = b :: t := by simpa using h.symm
          subst this
          exact List.Forall₂.cons hf (mapM_forall₂.1 hl)
    · intro h
      cases h with
      | cons h1 h2 => simp [h1, mapM_forall₂.2 h2]

theorem selectMatrix_lengths {K : Type*} {X M : List (List K)} {rows cols : Option (List ℤ)} {c : List ℤ}
    (hc : selectedCols X cols = some c) (hM : selectMatrix X rows cols = some M) :
    ∀ r ∈ M, r.length = c.length := by
  unfold selectMatrix at hM
  rw [hc] at hM
  simp only [Option.bind_some] at hM
  split at hM
  · cases hM
  · obtain ⟨R, -, hR⟩ := Option.bind_eq_some_iff.1 hM
    have h := mapM_forall₂.1 hR
    intro r hr
    obtain ⟨i, hi, rfl⟩ := List.getElem_of_mem hr
    have := (List.forall₂_iff_get.1 h).2 i (by rw [h.length_eq]; exact hi) hi
    exact (mapM_forall₂.1 this).length_eq.symm

/-! ### The Gram matrix -/

/-- A feature as a vector. -/
noncomputable def featVec (M : List (List ℝ)) (j : ℕ) : EuclideanSpace ℝ (Fin M.length) :=
  WithLp.toLp 2 fun i => (M[i]).getD j 0

theorem dot_feature (M : List (List ℝ)) (i j : ℕ) :
    Spec.innerSum (Spec.feature M i) (Spec.feature M j) = (M.map fun r => r.getD i 0 * r.getD j 0).sum := by
  unfold Spec.innerSum Spec.feature
  rw [List.zipWith_map, List.zipWith_self]

theorem dot_eq_inner (M : List (List ℝ)) (i j : ℕ) :
    Spec.innerSum (Spec.feature M i) (Spec.feature M j) = inner ℝ (featVec M i) (featVec M j) := by
  rw [dot_feature, PiLp.inner_apply]
  rw [← Fin.sum_univ_fun_getElem]
  apply Finset.sum_congr rfl
  intro k _
  simp [featVec, mul_comm]

theorem len_eq_norm (M : List (List ℝ)) (j : ℕ) : Spec.len (Spec.feature M j) = ‖featVec M j‖ := by
  unfold Spec.len
  rw [dot_eq_inner, real_inner_self_eq_norm_sq, Real.sqrt_sq (norm_nonneg _)]

theorem squareSum_eq (M : List (List ℝ)) (j : ℕ) :
    squareSum M j = Spec.innerSum (Spec.feature M j) (Spec.feature M j) := by
  rw [dot_feature]; rfl

theorem featVec_eq_zero (M : List (List ℝ)) (j : ℕ) :
    featVec M j = 0 ↔ ∀ a ∈ Spec.feature M j, a = 0 := by
  unfold Spec.feature
  simp only [List.mem_map, forall_exists_index, and_imp, forall_apply_eq_imp_iff₂]
  constructor
  · intro h r hr
    obtain ⟨i, hi, rfl⟩ := List.getElem_of_mem hr
    have := congrArg (fun v => v.ofLp ⟨i, hi⟩) h
    simpa [featVec] using this
  · intro h
    ext i
    simpa [featVec] using h _ (List.getElem_mem i.2)

theorem nanSum_some {l : List (Option ℝ)} {l' : List ℝ} (h : l = l'.map some) : nanSum l = some l'.sum := by
  subst h
  induction l' with
  | nil => simp [nanSum]
  | cons a l ih => simp [nanSum, ih]

theorem nanSum_none {l : List (Option ℝ)} (h : none ∈ l) : nanSum l = none := by
  induction l with
  | nil => cases h
  | cons a l ih =>
    unfold nanSum
    cases a with
    | none => rfl
    | some x =>
      have : none ∈ l := by simpa using h
      simp [ih this]

/-- An entry of a Gram matrix before it is simplified. -/
theorem gramMatrix_entry {X M : List (List ℝ)} {rows cols : Option (List ℤ)} {c : List ℤ} {nrm : Bool}
    {G : List (List (Option ℝ))} (hc : selectedCols X cols = some c)
    (hM : selectMatrix X rows cols = some M) (hG : gramMatrix X rows cols nrm = some G) {i j : ℕ}
    (hi : i < c.length) (hj : j < c.length) :
    (G[i]?.bind fun g => g[j]?) = some (nanSum (M.map fun r =>
      if nrm then nanMul (nanDiv (r.getD i 0) (Spec.len (Spec.feature M i)))
        (nanDiv (r.getD j 0) (Spec.len (Spec.feature M j)))
      else some (r.getD i 0 * r.getD j 0))) := by
  unfold gramMatrix at hG
  rw [hc, hM] at hG
  simp only [Option.bind_some, Option.map_some, Option.some.injEq] at hG
  subst hG
  simp only [List.getElem?_map, List.getElem?_range hi, List.getElem?_range hj, Option.map_some,
    Option.bind_some]
  congr 2
  unfold gramInput
  rw [List.map_map]
  apply List.map_congr_left
  intro r _
  simp only [Function.comp]
  cases nrm
  · simp [List.getD_eq_getElem?_getD, List.getElem?_range hi, List.getElem?_range hj, nanMul]
  · simp [List.getD_eq_getElem?_getD, List.getElem?_range hi, List.getElem?_range hj, Spec.len,
      squareSum_eq]

theorem gramMatrix_shape {X M : List (List ℝ)} {rows cols : Option (List ℤ)} {c : List ℤ} {nrm : Bool}
    {G : List (List (Option ℝ))} (hc : selectedCols X cols = some c)
    (hM : selectMatrix X rows cols = some M) (hG : gramMatrix X rows cols nrm = some G) :
    G.length = c.length ∧ ∀ g ∈ G, g.length = c.length := by
  unfold gramMatrix at hG
  rw [hc, hM] at hG
  simp only [Option.bind_some, Option.map_some, Option.some.injEq] at hG
  subst hG
  simp

/-! ### Ranks -/

theorem fitted_eq_mulVec (M : List (List ℝ)) {m : ℕ} (w : Fin m → ℝ) :
    Spec.fitted M w = List.ofFn (Matrix.mulVec
      (Matrix.of fun (i : Fin M.length) (j : Fin m) => (M[i]).getD j 0) w) := by
  unfold Spec.fitted
  apply List.ext_getElem
  · simp
  · intro k h1 h2
    simp only [List.getElem_map, List.getElem_ofFn, Matrix.mulVec, dotProduct, Matrix.of_apply]
    rw [← List.ofFn_eq_map, List.sum_ofFn]
    rfl

theorem rank_full_iff (M : List (List ℝ)) (m : ℕ) :
    (Matrix.of fun (i : Fin M.length) (j : Fin m) => (M[i]).getD j 0).rank = m ↔ Spec.determined M m := by
  set A : Matrix (Fin M.length) (Fin m) ℝ :=
    Matrix.of fun (i : Fin M.length) (j : Fin m) => (M[i]).getD j 0 with hA
  have hker : A.rank + Module.finrank ℝ (LinearMap.ker A.mulVecLin) = m := by
    have := LinearMap.finrank_range_add_finrank_ker A.mulVecLin
    simpa [Matrix.rank] using this
  have hinj : Spec.determined M m ↔ Function.Injective A.mulVecLin := by
    unfold Spec.determined Function.Injective
    constructor
    · intro h w w' e
      apply h
      rw [fitted_eq_mulVec, fitted_eq_mulVec]
      exact congrArg _ e
    · intro h w w' e
      apply h
      rw [fitted_eq_mulVec, fitted_eq_mulVec] at e
      exact List.ofFn_injective e
  rw [hinj, ← LinearMap.ker_eq_bot, ← Submodule.finrank_eq_zero (R := ℝ)]
  omega

end Smol
