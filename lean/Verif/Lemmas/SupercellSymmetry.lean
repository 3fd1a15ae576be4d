import Verif.Lemmas.SupercellRows
import Mathlib.Data.Fintype.EquivFin
import Mathlib.Algebra.BigOperators.Fin

/-!
# Lemmas on the symmetry of index arrays
-/

namespace Smol
open Spec

variable {tol atol : ℚ} {prim : List Vec3} {M : Mat3} {ops : List (SymmOp 3 ℚ)}

/-- an operation that keeps the lattice of the supercell moves its vectors uniformly -/
theorem op_superVec (G : SpaceGroup ops) {f : Vec3 → Vec3} (hf : IsOp ops f)
    (hM : ∀ x y, SameSite M (f x) (f y) ↔ SameSite M x y) (n : Fin 3 → ℤ) :
    ∃ m, ∀ x, f (shift (superVec M n) x) = shift (superVec M m) (f x) := by
  obtain ⟨g, hg, T, hT⟩ := hf
  obtain ⟨V, hV⟩ := operate_shift g (G.int g hg) (superVec M n)
  have hu : ∀ x, f (shift (superVec M n) x) = shift V (f x) := by
    intro x
    rw [hT, hT, hV, shift_shift, shift_shift]
    congr 1
    funext i
    ring
  obtain ⟨m, hm⟩ := (hM (shift (superVec M n) 0) 0).2 ⟨n, rfl⟩
  refine ⟨m, fun x => ?_⟩
  rw [hu]
  rw [hu] at hm
  congr 1
  funext i
  have := congrFun hm i
  simp only [Spec.shift] at this
  have := add_left_cancel this
  exact_mod_cast this

theorem SuperEq.map (G : SpaceGroup ops) {f : Vec3 → Vec3} (hf : IsOp ops f)
    (hM : ∀ x y, SameSite M (f x) (f y) ↔ SameSite M x y) {a b : List Vec3} (h : SuperEq M a b) :
    SuperEq M (a.map f) (b.map f) := by
  obtain ⟨n, h⟩ := h
  obtain ⟨m, hm⟩ := op_superVec G hf hM n
  refine ⟨m, ?_⟩
  have := h.map f
  rw [List.map_map] at this
  rw [List.map_map]
  have e : b.map (f ∘ shift (superVec M n)) = b.map (shift (superVec M m) ∘ f) :=
    List.map_congr_left fun x _ => hm x
  rwa [← e]

theorem permute_map (occ : ℕ → ℕ) {l q : List ℕ} (hq : ∀ j ∈ q, j < l.length) :
    (permute l q).map occ = permute (l.map occ) q := by
  unfold permute
  rw [List.map_map]
  apply List.map_congr_left
  intro j hj
  have := hq j hj
  simp [List.getD_eq_getElem?_getD, this]

/-- an operation permutes the rows of an index array, up to the order of the sites -/
theorem rows_permuted (F : SupercellFits tol atol prim M) (G : SpaceGroup ops) {base : List Vec3}
    (hne : base ≠ []) (hnd : base.Nodup) {rows : ClusterRows}
    (hrows : ListsClusters ops M (supercellCoords tol prim M) base rows) {f : Vec3 → Vec3}
    (hf : IsOp ops f) (hM : ∀ x y, SameSite M (f x) (f y) ↔ SameSite M x y) {π : ℕ → ℕ}
    (hπ : ∀ i x, LocatedAt M (supercellCoords tol prim M) i x →
      LocatedAt M (supercellCoords tol prim M) (π i) (f x)) :
    ∃ σ : Equiv.Perm (Fin rows.length), ∀ k, ∃ q ∈ clusterPermutations ops base,
      rows[k].length = base.length ∧ rows[σ k] = permute (rows[k].map π) q := by
  obtain ⟨imgs, hloc, himg, huniq⟩ := hrows
  have hlen := hloc.length_eq
  obtain ⟨f', hf', hff1, hff2⟩ := hf.inv G
  have hM' : ∀ x y, SameSite M (f' x) (f' y) ↔ SameSite M x y := by
    intro x y
    rw [← hM, hff2, hff2]
  have himg' : ∀ img ∈ imgs, ∃ h, IsOp ops h ∧ img = base.map h := by
    intro img h
    obtain ⟨g, hg, T, e⟩ := himg img h
    exact ⟨_, ⟨g, hg, T, fun _ => rfl⟩, e⟩
  have heq : ∀ {h : Vec3 → Vec3}, IsOp ops h → SymEquiv ops (base.map h) base := by
    rintro h ⟨g, hg, T, hT⟩
    refine ⟨g, hg, T, ?_⟩
    rw [List.map_map]
    have e : base.map h = base.map (shift T ∘ g.operate) := List.map_congr_left fun x _ => hT x
    rw [e]
  -- where each cluster goes
  have hto : ∀ k : Fin rows.length, ∃ k' : Fin rows.length,
      SuperEq M ((imgs[k.1]'(by rw [hlen]; exact k.2)).map f) (imgs[k'.1]'(by rw [hlen]; exact k'.2)) := by
    intro k
    have hk : k.1 < imgs.length := by rw [hlen]; exact k.2
    obtain ⟨h, hh, e⟩ := himg' _ (List.getElem_mem hk)
    have hs : SymEquiv ops (imgs[k.1].map f) base := by
      rw [e, List.map_map]
      exact heq (hf.comp G hh)
    obtain ⟨k', ⟨img, h1, h2⟩, -⟩ := huniq _ hs
    obtain ⟨hkl, rfl⟩ := List.getElem?_eq_some_iff.1 h1
    exact ⟨⟨k', by rw [← hlen]; exact hkl⟩, h2⟩
  choose σ hσ using hto
  have hinj : Function.Injective σ := by
    intro a b hab
    have ha := hσ a
    have hb := hσ b
    rw [hab] at ha
    have hc := (ha.trans hb.symm).map G hf' hM'
    rw [List.map_map, List.map_map] at hc
    have e : f' ∘ f = id := funext hff1
    rw [e, List.map_id, List.map_id] at hc
    have hal : a.1 < imgs.length := by rw [hlen]; exact a.2
    have hbl : b.1 < imgs.length := by rw [hlen]; exact b.2
    have hs : SymEquiv ops imgs[a.1] base := by
      obtain ⟨h, hh, e⟩ := himg' _ (List.getElem_mem hal)
      rw [e]
      exact heq hh
    have u := (huniq _ hs).unique ⟨_, List.getElem?_eq_getElem hal, SuperEq.refl M _⟩
      ⟨_, List.getElem?_eq_getElem hbl, hc⟩
    exact Fin.ext u
  refine ⟨Equiv.ofBijective σ (Finite.injective_iff_bijective.1 hinj), fun k => ?_⟩
  show ∃ q ∈ clusterPermutations ops base, rows[k].length = base.length ∧
    rows[σ k] = permute (rows[k].map π) q
  have hk : k.1 < imgs.length := by rw [hlen]; exact k.2
  have hk' : (σ k).1 < imgs.length := by rw [hlen]; exact (σ k).2
  obtain ⟨a, ha, hae⟩ := himg' _ (List.getElem_mem hk)
  obtain ⟨b, hb, hbe⟩ := himg' _ (List.getElem_mem hk')
  obtain ⟨n, hn⟩ := hσ k
  rw [hae, hbe, List.map_map, List.map_map] at hn
  have hb' : IsOp ops (fun x => shift (superVec M n) (b x)) := (IsOp.shift G _).comp G hb
  obtain ⟨c, hc, hc1, hc2⟩ := hb'.inv G
  have hw : IsOp ops (fun x => c (f (a x))) := hc.comp G (hf.comp G ha)
  have hperm : base.Perm (base.map fun x => c (f (a x))) := by
    have h1 := hn.map c
    rw [List.map_map, List.map_map] at h1
    have h2 : base.map (c ∘ (shift (superVec M n) ∘ b)) = base := by
      conv_rhs => rw [← List.map_id base]
      exact List.map_congr_left fun x _ => hc1 x
    rw [h2] at h1
    exact h1.symm
  have hq := mapsTo_of_perm G hne hnd hw hperm
  have hrk := (List.forall₂_iff_get.1 hloc).2 k.1 hk k.2
  have hrk' := (List.forall₂_iff_get.1 hloc).2 (σ k).1 hk' (σ k).2
  simp only [List.get_eq_getElem] at hrk hrk'
  rw [hae] at hrk
  rw [hbe] at hrk'
  have hl : rows[k].length = base.length := by
    have := hrk.length_eq
    rw [List.length_map] at this
    exact this.symm
  have hl' : rows[σ k].length = base.length := by
    have := hrk'.length_eq
    rw [List.length_map] at this
    exact this.symm
  refine ⟨_, hq, hl, ?_⟩
  apply List.ext_getElem
  · rw [hl']
    simp [permute, mapPerm_length]
  · intro i h1 h2
    have hi : i < base.length := by rw [← hl']; exact h1
    obtain ⟨j, hj, hjl, hje⟩ := mapPerm_get hperm hi
    have hgq : (permute (rows[k].map π) (mapPerm base fun x => c (f (a x))))[i] =
        π (rows[k][j]'(by rw [hl]; exact hjl)) := by
      have hjr : j < rows[k].length := by rw [hl]; exact hjl
      apply Option.some.inj
      rw [← List.getElem?_eq_getElem h2, permute, List.getElem?_map, hj, Option.map_some,
        List.getD_eq_getElem?_getD, List.getElem?_map, List.getElem?_eq_getElem hjr]
      rfl
    rw [hgq]
    have l1 := (List.forall₂_iff_get.1 hrk).2 j (by simpa using hjl) (by show j < rows[k].length; rw [hl]; exact hjl)
    have l2 := (List.forall₂_iff_get.1 hrk').2 i (by simpa using hi) h1
    simp only [List.get_eq_getElem, List.getElem_map] at l1 l2
    have l3 := hπ _ _ l1
    have e : f (a base[j]) = shift (superVec M n) (b base[i]) := by
      rw [← hje, hc2]
    rw [e] at l3
    exact locatedAt_unique F l2 (l3.same ⟨fun t => - n t, by rw [superVec_neg, shift_neg]⟩)

/-- sums over the rows do not change -/
theorem rows_sum_eq {K : Type*} [AddCommMonoid K] {n : ℕ} {perms : List (List ℕ)}
    (PG : PermGroup n perms) {rows : ClusterRows} {π : ℕ → ℕ}
    {σ : Equiv.Perm (Fin rows.length)} (h : ∀ k, ∃ q ∈ perms, rows[k].length = n ∧
      rows[σ k] = permute (rows[k].map π) q) (val : List ℕ → K)
    (hval : ∀ codes : List ℕ, codes.length = n → ∀ q ∈ perms, val (permute codes q) = val codes)
    (occ : Occ) : (rows.map fun row => val (row.map (occ ∘ π))).sum =
      (rows.map fun row => val (row.map occ)).sum := by
  have e1 := Fin.sum_univ_fun_getElem rows fun row => val (row.map (occ ∘ π))
  have e2 := Fin.sum_univ_fun_getElem rows fun row => val (row.map occ)
  rw [← e1, ← e2, ← Equiv.sum_comp σ fun k => val (rows[k.1].map occ)]
  apply Finset.sum_congr rfl
  intro k _
  obtain ⟨q, hq, hl, he⟩ := h k
  have : rows[(σ k).1] = permute (rows[k].map π) q := he
  rw [this, permute_map, List.map_map, hval _ (by rw [List.length_map]; exact hl) q hq]
  · rfl
  · intro j hj
    rw [List.length_map, hl]
    exact (PG.perm q hq).mem_iff.1 hj |> List.mem_range.1

end Smol
