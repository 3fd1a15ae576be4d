import Verif.Lemmas.Supercell

/-!
# C35 Hermite normal forms, C36 supercell enumeration
-/

namespace Smol
open Spec Matrix

/-- **C35** (soundness): every yielded matrix has the determinant asked for. -/
theorem C35_determinant (n : ℕ) (m : Mat3) (h : m ∈ hermiteForms n) : m.det = n := by
  obtain ⟨a, b, c, d, e, f, rfl, -, rfl, -⟩ := mem_hermiteForms.1 h
  exact hnfOf_det a b c d e f

/-- **C35** (completeness and uniqueness): every integer matrix whose determinant is `n` up to sign
has the same column lattice as exactly one yielded matrix. -/
theorem C35_exactly_one (n : ℕ) (hn : 0 < n) (m : Mat3) (hm : m.det.natAbs = n) :
    ∃! h, h ∈ hermiteForms n ∧ columnLattice h = columnLattice m := by
  have hd : m.det ≠ 0 := by rw [← Int.natAbs_pos]; omega
  obtain ⟨a, b, c, d, e, f, hb, hdf, he, ha, hL⟩ :=
    exists_hnf (isLattice_column m) hd (column_full m)
  refine ⟨hnfOf a b c d e f, ⟨mem_hermiteForms.2 ⟨a, b, c, d, e, f, rfl, hn, ?_, hb, hdf, he⟩,
    hL.symm⟩, ?_⟩
  · have := natAbs_det_of_eq hL
    rw [hm, hnfOf_det, Int.natAbs_natCast] at this
    exact this.symm
  · rintro h ⟨h1, h2⟩
    obtain ⟨a', b', c', d', e', f', rfl, -, hdet, hb', hd', he'⟩ := mem_hermiteForms.1 h1
    refine hnf_unique ?_ hb' hd' he' ha hb hdf he (h2.trans hL)
    rcases Nat.eq_zero_or_pos a' with rfl | h
    · simp at hdet; omega
    · exact h

/-- **C35** (each once): no matrix is yielded twice. -/
theorem C35_each_once (n : ℕ) : (hermiteForms n).Nodup := by
  have step : ∀ {α : Type} (l : List α) (F : α → List Mat3), l.Nodup → (∀ x ∈ l, (F x).Nodup) →
      (∀ x y m, m ∈ F x → m ∈ F y → x = y) → (l.flatMap F).Nodup := by
    intro α l F h1 h2 h3
    rw [List.nodup_flatMap]
    exact ⟨h2, h1.imp fun {x y} hxy m hx hy => hxy (h3 x y m hx hy)⟩
  unfold hermiteForms
  refine step _ _ (nodup_divisorsOf n) (fun a _ => ?_) ?_
  · refine step _ _ (nodup_divisorsOf _) (fun c _ => ?_) ?_
    · refine step _ _ List.nodup_range (fun b _ => ?_) ?_
      · refine step _ _ List.nodup_range (fun d _ => ?_) ?_
        · exact List.nodup_range.map fun x y h => (hnfOf_inj h).2.2.2.2.1
        · intro d d' m h1 h2
          simp only [List.mem_map] at h1 h2
          obtain ⟨_, -, rfl⟩ := h1
          obtain ⟨_, -, h⟩ := h2
          exact (hnfOf_inj h).2.2.2.1.symm
      · intro b b' m h1 h2
        simp only [List.mem_map, List.mem_flatMap] at h1 h2
        obtain ⟨_, -, _, -, rfl⟩ := h1
        obtain ⟨_, -, _, -, h⟩ := h2
        exact (hnfOf_inj h).2.1.symm
    · intro c c' m h1 h2
      simp only [List.mem_map, List.mem_flatMap] at h1 h2
      obtain ⟨_, -, _, -, _, -, rfl⟩ := h1
      obtain ⟨_, -, _, -, _, -, h⟩ := h2
      exact (hnfOf_inj h).2.2.1.symm
  · intro a a' m h1 h2
    simp only [List.mem_map, List.mem_flatMap] at h1 h2
    obtain ⟨_, -, _, -, _, -, _, -, rfl⟩ := h1
    obtain ⟨_, -, _, -, _, -, _, -, h⟩ := h2
    exact (hnfOf_inj h).1.symm

/-- Seven forms of determinant two, as in the literature; thirty-five of determinant four. -/
example : (hermiteForms 2).length = 7 ∧ (hermiteForms 4).length = 35 := by decide +kernel

example : ((!![0, 2, 1; 1, 1, 0; 1, 0, 3] : Mat3).det).natAbs = 7 := by
  rw [det_fin_three]; rfl

/-! ### C36 -/

theorem equivalent_iff {tol : ℚ} {n : ℕ} (hn : 0 < n) (h0 : 0 < tol) (htol : n * tol ≤ 1)
    {h s r : Mat3} (hh : h.det = n) (hs : s.det = n) (hr : ∃ r' : Mat3, r * r' = 1) :
    nearIntegral tol (unimod h r s) = true ↔
      ∀ v, v ∈ superlattice hᵀ ↔ ∃ w ∈ superlattice s, v = r.mulVec w := by
  obtain ⟨r', hr'⟩ := hr
  have hrd : r.det.natAbs = 1 := by
    have := congrArg Matrix.det hr'
    rw [det_mul, det_one] at this
    exact Int.isUnit_iff_natAbs_eq.1 (IsUnit.of_mul_eq_one _ this)
  have hz : h.det ≠ 0 := by rw [hh]; exact_mod_cast hn.ne'
  have himg : ∀ v, (∃ w ∈ superlattice s, v = r.mulVec w) ↔ v ∈ columnLattice (r * sᵀ) := by
    intro v
    rw [superlattice_eq]
    constructor
    · rintro ⟨_, ⟨c, rfl⟩, rfl⟩; exact ⟨c, by rw [mulVec_mulVec]⟩
    · rintro ⟨c, rfl⟩; exact ⟨_, ⟨c, rfl⟩, by rw [mulVec_mulVec]⟩
  rw [nearIntegral_iff hn h0 htol hh]
  simp only [himg]
  rw [superlattice_eq, transpose_transpose]
  constructor
  · rintro ⟨u, hu⟩ v
    rw [lattice_eq_of_le hu ?_ hz]
    rw [det_mul, det_transpose, Int.natAbs_mul, hrd, one_mul, hs, hh]
  · intro H
    exact lattice_le_iff.1 fun v hv => (H v).2 hv

theorem addSupercell_inv {tol : ℚ} {n : ℕ} (hn : 0 < n) (h0 : 0 < tol) (htol : n * tol ≤ 1)
    {syms : List Mat3} (hsym : HasInverses syms) (hs : List Mat3) (hdet : ∀ h ∈ hs, h.det = n)
    (acc : List Mat3) (hacc : ∀ s ∈ acc, s.det = n)
    (hpw : acc.Pairwise fun s t => ¬ SymEquivalent syms t s) :
    (∀ s ∈ acc, s ∈ hs.foldl (addSupercell tol syms) acc) ∧
    (∀ s ∈ hs.foldl (addSupercell tol syms) acc, s.det = n ∧ (s ∈ acc ∨ sᵀ ∈ hs)) ∧
    ((hs.foldl (addSupercell tol syms) acc).Pairwise fun s t => ¬ SymEquivalent syms t s) ∧
    ∀ h ∈ hs, ∃ s ∈ hs.foldl (addSupercell tol syms) acc, SymEquivalent syms hᵀ s := by
  induction hs generalizing acc with
  | nil => exact ⟨fun _ h => h, fun s hs => ⟨hacc s hs, Or.inl hs⟩, hpw, fun _ h => absurd h (by simp)⟩
  | cons h hs ih =>
    have hh := hdet h (List.mem_cons_self ..)
    have htest : (syms.any fun r => acc.any fun scm => nearIntegral tol (unimod h r scm)) = true ↔
        ∃ s ∈ acc, SymEquivalent syms hᵀ s := by
      simp only [List.any_eq_true]
      constructor
      · rintro ⟨r, hr, s, hs', ht⟩
        obtain ⟨r', -, hrr⟩ := hsym.inv r hr
        exact ⟨s, hs', r, hr, (equivalent_iff hn h0 htol hh (hacc s hs') ⟨r', hrr⟩).1 ht⟩
      · rintro ⟨s, hs', r, hr, ht⟩
        obtain ⟨r', -, hrr⟩ := hsym.inv r hr
        exact ⟨r, hr, s, hs', (equivalent_iff hn h0 htol hh (hacc s hs') ⟨r', hrr⟩).2 ht⟩
    rw [List.foldl_cons]
    by_cases ht : (syms.any fun r => acc.any fun scm => nearIntegral tol (unimod h r scm)) = true
    · have e : addSupercell tol syms acc h = acc := if_pos ht
      rw [e]
      obtain ⟨i1, i2, i3, i4⟩ := ih (fun x hx => hdet x (List.mem_cons_of_mem _ hx)) acc hacc hpw
      refine ⟨i1, fun s hs' => ⟨(i2 s hs').1, (i2 s hs').2.imp_right (List.mem_cons_of_mem _)⟩, i3, ?_⟩
      intro x hx
      rcases List.mem_cons.1 hx with rfl | hx
      · obtain ⟨s, hs', he⟩ := htest.1 ht
        exact ⟨s, i1 s hs', he⟩
      · exact i4 x hx
    · have e : addSupercell tol syms acc h = acc ++ [hᵀ] := if_neg ht
      rw [e]
      obtain ⟨i1, i2, i3, i4⟩ := ih (fun x hx => hdet x (List.mem_cons_of_mem _ hx)) (acc ++ [hᵀ])
        (fun s hs' => by
          rcases List.mem_append.1 hs' with hs' | hs'
          · exact hacc s hs'
          · rw [List.mem_singleton] at hs'; rw [hs', det_transpose, hh])
        (by
          rw [List.pairwise_append]
          refine ⟨hpw, by simp, fun s hs' t ht' => ?_⟩
          rw [List.mem_singleton] at ht'
          subst ht'
          exact fun H => ht (htest.2 ⟨s, hs', H⟩))
      refine ⟨fun s hs' => i1 s (List.mem_append_left _ hs'), fun s hs' => ⟨(i2 s hs').1, ?_⟩, i3, ?_⟩
      · rcases (i2 s hs').2 with h1 | h1
        · rcases List.mem_append.1 h1 with h1 | h1
          · exact Or.inl h1
          · rw [List.mem_singleton] at h1
            exact Or.inr (by rw [h1, transpose_transpose]; exact List.mem_cons_self ..)
        · exact Or.inr (List.mem_cons_of_mem _ h1)
      · intro x hx
        rcases List.mem_cons.1 hx with rfl | hx
        · refine ⟨xᵀ, i1 _ (List.mem_append_right _ (List.mem_singleton.2 rfl)), 1, hsym.one, fun v => ?_⟩
          simp
        · exact i4 x hx

theorem symEquivalent_symm {syms : List Mat3} (hsym : HasInverses syms) {s t : Mat3}
    (h : SymEquivalent syms s t) : SymEquivalent syms t s := by
  obtain ⟨r, hr, H⟩ := h
  obtain ⟨r', hr', hrr⟩ := hsym.inv r hr
  have hrr' : r' * r = 1 := mul_eq_one_comm.1 hrr
  refine ⟨r', hr', fun v => ⟨fun hv => ⟨r.mulVec v, (H _).2 ⟨v, hv, rfl⟩, ?_⟩, ?_⟩⟩
  · rw [mulVec_mulVec, hrr', one_mulVec]
  · rintro ⟨w, hw, rfl⟩
    obtain ⟨x, hx, rfl⟩ := (H w).1 hw
    rw [mulVec_mulVec, hrr', one_mulVec]
    exact hx

/-- **C36**: with the identity and inverses among the (integer) operations and a tolerance not above
one over the size, the returned supercells have the size asked for and are in Hermite form, no two
of them are equivalent, and every supercell of that size is equivalent to one of them. -/
theorem C36_representatives (tol : ℚ) (n : ℕ) (hn : 0 < n) (h0 : 0 < tol) (htol : n * tol ≤ 1)
    (syms : List Mat3) (hsym : HasInverses syms) :
    (∀ s ∈ enumerateSupercells tol n syms, s.det = n ∧ sᵀ ∈ hermiteForms n) ∧
    ((enumerateSupercells tol n syms).Pairwise fun s t =>
      ¬ SymEquivalent syms s t ∧ ¬ SymEquivalent syms t s) ∧
    ∀ m : Mat3, m.det.natAbs = n → ∃ s ∈ enumerateSupercells tol n syms, SymEquivalent syms m s := by
  obtain ⟨-, h2, h3, h4⟩ := addSupercell_inv hn h0 htol hsym (hermiteForms n) (C35_determinant n) []
    (by simp) List.Pairwise.nil
  refine ⟨fun s hs => ?_, ?_, fun m hm => ?_⟩
  · obtain ⟨a, b⟩ := h2 s hs
    exact ⟨a, b.resolve_left (by simp)⟩
  · exact h3.imp fun {s t} h => ⟨fun h' => h (symEquivalent_symm hsym h'), h⟩
  · obtain ⟨h, ⟨g1, g2⟩, -⟩ := C35_exactly_one n hn mᵀ (by rwa [det_transpose])
    obtain ⟨s, hs, r, hr, H⟩ := h4 h g1
    refine ⟨s, hs, r, hr, fun v => ?_⟩
    rw [← H v, superlattice_eq, superlattice_eq, transpose_transpose, g2]

/-- Identity and inversion: all seven forms of size two stay. -/
example : (enumerateSupercells (1 / 100000) 2 [1, -1]).length = 7 := by decide +kernel

/-- With the exchange of the first two axes, two of them are redundant. -/
example : (enumerateSupercells (1 / 100000) 2 [1, !![0, 1, 0; 1, 0, 0; 0, 0, 1]]).length = 5 := by
  decide +kernel

example : HasInverses [1, !![0, 1, 0; 1, 0, 0; 0, 0, 1]] := by
  refine ⟨by simp, fun r hr => ?_⟩
  simp only [List.mem_cons, List.not_mem_nil, or_false] at hr
  rcases hr with rfl | rfl
  · exact ⟨1, by simp, by simp⟩
  · exact ⟨_, List.mem_cons_of_mem _ (List.mem_cons_self ..), by decide +kernel⟩

/-- The tolerance cannot be dropped: for sizes above one over it the loop confuses different
supercells. -/
example : (enumerateSupercells 1 2 [1]).length = 1 := by decide +kernel

end Smol
