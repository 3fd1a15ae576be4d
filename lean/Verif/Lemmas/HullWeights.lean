import Verif.Model.HullWeights
import Verif.Spec.HullWeights
import Mathlib.Analysis.Convex.Combination
import Mathlib.Analysis.Convex.Topology
import Mathlib.Topology.Algebra.Module.FiniteDimension
import Mathlib.Tactic.Linarith
import Mathlib.Tactic.Ring

namespace Smol

variable {m : ℕ}

theorem hullPoints_finite (l : List (HullEntry m)) : (hullPoints l).Finite := by
  have : hullPoints l = (fun e : HullEntry m => (e.frac, e.perAtom)) '' {e | e ∈ l} := by
    ext p
    simp only [hullPoints, Set.mem_ofPred_eq, Set.mem_image]
    exact ⟨fun ⟨e, h, q⟩ => ⟨e, h, q.symm⟩, fun ⟨e, h, q⟩ => ⟨e, h, q.symm⟩⟩
  rw [this]
  exact (List.finite_toSet l).image _

/-- The hull energy is attained. -/
theorem hullEnergy_isLeast (l : List (HullEntry m)) (x : Fin m → ℝ) (E : ℝ)
    (h : (x, E) ∈ convexHull ℝ (hullPoints l)) :
    IsLeast {E | (x, E) ∈ convexHull ℝ (hullPoints l)} (hullEnergy l x) := by
  have hK : IsCompact (convexHull ℝ (hullPoints l)) := Set.Finite.isCompact_convexHull (𝕜 := ℝ) (hullPoints_finite l)
  have hc : IsClosed {p : (Fin m → ℝ) × ℝ | p.1 = x} := isClosed_eq continuous_fst continuous_const
  have hS := (hK.inter_right hc).image continuous_snd
  have e : {E | (x, E) ∈ convexHull ℝ (hullPoints l)} =
      Prod.snd '' (convexHull ℝ (hullPoints l) ∩ {p | p.1 = x}) := by
    ext E'
    simp only [Set.mem_ofPred_eq, Set.mem_image, Set.mem_inter_iff]
    constructor
    · intro h; exact ⟨(x, E'), ⟨h, rfl⟩, rfl⟩
    · rintro ⟨⟨y, F⟩, ⟨h1, h2⟩, h3⟩
      simp only at h2 h3
      subst h2 h3
      exact h1
  unfold hullEnergy
  rw [e]
  exact hS.isLeast_sInf ⟨E, (x, E), ⟨h, rfl⟩, rfl⟩

/-- Shifting all points shifts the hull. -/
theorem hull_shift (S S' : Set ((Fin m → ℝ) × ℝ)) (c : ℝ) (h : ∀ p ∈ S, (p.1, p.2 + c) ∈ S')
    (x : Fin m → ℝ) (E : ℝ) (hx : (x, E) ∈ convexHull ℝ S) : (x, E + c) ∈ convexHull ℝ S' := by
  have : convexHull ℝ S ⊆ {p | (p.1, p.2 + c) ∈ convexHull ℝ S'} := by
    apply convexHull_min
    · exact fun p hp => subset_convexHull ℝ _ (h p hp)
    · intro p hp q hq s t hs ht hst
      have := convex_convexHull ℝ S' hp hq hs ht hst
      have e : (s • ((p.1, p.2 + c) : (Fin m → ℝ) × ℝ) + t • ((q.1, q.2 + c) : (Fin m → ℝ) × ℝ)) =
          ((s • p + t • q).1, (s • p + t • q).2 + c) := by
        refine Prod.ext rfl ?_
        simp only [Prod.snd_add, Prod.smul_snd, smul_eq_mul, Prod.smul_mk, Prod.mk_add_mk]
        linear_combination c * hst
      rw [e] at this
      exact this
  exact this hx

theorem frac_single (a : Fin m) (E : ℝ) : (⟨Pi.single a 1, E⟩ : HullEntry m).frac = Pi.single a 1 := by
  funext b
  simp [HullEntry.frac, HullEntry.atoms]

theorem perAtom_single (a : Fin m) (E : ℝ) : (⟨Pi.single a 1, E⟩ : HullEntry m).perAtom = E := by
  simp [HullEntry.perAtom, HullEntry.atoms]

/-- The points above a composition of the hull of structures and elements are the mixtures. -/
theorem mem_hull_iff (structs : List (HullEntry m)) (elems : List (Fin m)) (top : ℝ)
    (x : Fin m → ℝ) (E : ℝ) :
    (x, E) ∈ convexHull ℝ (hullPoints (structs ++
      elems.map fun a => (⟨Pi.single a 1, top + 1000⟩ : HullEntry m))) ↔
    Spec.HullMixture (fun i => (structs.get i).amt) (fun i => (structs.get i).energy)
      (· ∈ elems) top x E := by
  classical
  constructor
  · intro h
    have key : convexHull ℝ (hullPoints (structs ++
        elems.map fun a => (⟨Pi.single a 1, top + 1000⟩ : HullEntry m))) ⊆
        {p | Spec.HullMixture (fun i => (structs.get i).amt) (fun i => (structs.get i).energy)
          (· ∈ elems) top p.1 p.2} := by
      apply convexHull_min
      · rintro p ⟨e, he, rfl⟩
        rcases List.mem_append.1 he with he | he
        · obtain ⟨i, rfl⟩ := List.mem_iff_get.1 he
          refine ⟨Pi.single i 1, 0, fun j => ?_, fun a => le_refl _, fun a _ => rfl, by simp, ?_, ?_⟩
          · by_cases hj : j = i
            · subst hj; simp
            · simp [hj]
          · intro a
            rw [Finset.sum_eq_single i (fun j _ hj => by simp [hj]) (by simp)]
            simp [HullEntry.frac, HullEntry.atoms]
          · rw [Finset.sum_eq_single i (fun j _ hj => by simp [hj]) (by simp)]
            simp [HullEntry.perAtom, HullEntry.atoms]
        · obtain ⟨a, ha, rfl⟩ := List.mem_map.1 he
          refine ⟨0, Pi.single a 1, fun j => le_refl _, fun b => ?_, fun b hb => ?_, by simp, ?_, ?_⟩
          · by_cases hb : b = a
            · subst hb; simp
            · simp [hb]
          · have : b ≠ a := fun h => hb (h ▸ ha)
            simp [this]
          · intro b; simp [frac_single]
          · simp [perAtom_single]
      · rintro ⟨y, F⟩ ⟨w, u, h1, h2, h3, h4, h5, h6⟩ ⟨y', F'⟩ ⟨w', u', g1, g2, g3, g4, g5, g6⟩ s t hs ht hst
        simp only at h5 h6 g5 g6
        refine ⟨fun i => s * w i + t * w' i, fun a => s * u a + t * u' a,
          fun i => add_nonneg (mul_nonneg hs (h1 i)) (mul_nonneg ht (g1 i)),
          fun a => add_nonneg (mul_nonneg hs (h2 a)) (mul_nonneg ht (g2 a)),
          fun a ha => by simp [h3 a ha, g3 a ha], ?_, ?_, ?_⟩
        · simp only [Finset.sum_add_distrib, ← Finset.mul_sum]
          linear_combination s * h4 + t * g4 + hst
        · intro a
          simp only [add_mul, Finset.sum_add_distrib, mul_assoc, ← Finset.mul_sum]
          simp only [Prod.smul_mk, Prod.mk_add_mk, Pi.add_apply, Pi.smul_apply, smul_eq_mul]
          linear_combination s * h5 a + t * g5 a
        · simp only [add_mul, Finset.sum_add_distrib, mul_assoc, ← Finset.mul_sum]
          simp only [Prod.smul_mk, Prod.mk_add_mk, smul_eq_mul]
          linear_combination s * h6 + t * g6
    exact key h
  · rintro ⟨w, u, h1, h2, h3, h4, h5, h6⟩
    have hs : ∀ i, ((structs.get i).frac, (structs.get i).perAtom) ∈ hullPoints (structs ++
        elems.map fun a => (⟨Pi.single a 1, top + 1000⟩ : HullEntry m)) := fun i =>
      ⟨_, List.mem_append.2 (Or.inl (List.get_mem structs i)), rfl⟩
    have he : ∀ a ∈ elems, ((Pi.single a 1 : Fin m → ℝ), top + 1000) ∈ hullPoints (structs ++
        elems.map fun a => (⟨Pi.single a 1, top + 1000⟩ : HullEntry m)) := fun a ha =>
      ⟨_, List.mem_append.2 (Or.inr (List.mem_map.2 ⟨a, ha, rfl⟩)), by
        rw [frac_single, perAtom_single]⟩
    let W : Fin structs.length ⊕ Fin m → ℝ := Sum.elim w u
    let P : Fin structs.length ⊕ Fin m → (Fin m → ℝ) × ℝ := Sum.elim
      (fun i => ((structs.get i).frac, (structs.get i).perAtom))
      (fun a => ((Pi.single a 1 : Fin m → ℝ), top + 1000))
    let T : Finset (Fin structs.length ⊕ Fin m) := Finset.univ.filter fun k => W k ≠ 0
    have hsum : ∑ k ∈ T, W k = 1 := by
      rw [Finset.sum_filter_ne_zero, Fintype.sum_sum_type]
      exact h4
    have hP : ∑ k ∈ T, W k • P k = (x, E) := by
      have : ∑ k ∈ T, W k • P k = ∑ k, W k • P k := by
        apply Finset.sum_filter_of_ne
        intro k _ hk h0
        exact hk (by rw [h0, zero_smul])
      rw [this, Fintype.sum_sum_type]
      refine Prod.ext ?_ ?_
      · funext a
        change _ = x a
        rw [← h5 a]
        simp only [Prod.fst_add, Prod.fst_sum, Pi.add_apply, Finset.sum_apply, W, P, Sum.elim_inl,
          Sum.elim_inr, Prod.smul_mk, Pi.smul_apply, smul_eq_mul, HullEntry.frac, HullEntry.atoms]
        congr 1
        rw [Finset.sum_eq_single a (fun b _ hb => by simp [hb.symm]) (by simp)]
        simp
      · change _ = E
        rw [h6]
        simp only [Prod.snd_add, Prod.snd_sum, W, P, Sum.elim_inl, Sum.elim_inr, Prod.smul_mk,
          smul_eq_mul, HullEntry.perAtom, HullEntry.atoms, Finset.sum_mul]
    rw [← hP]
    refine (convex_convexHull ℝ _).sum_mem ?_ hsum ?_
    · rintro (i | a) _
      · exact h1 i
      · exact h2 a
    · rintro (i | a) hk
      · exact subset_convexHull ℝ _ (hs i)
      · refine subset_convexHull ℝ _ (he a ?_)
        by_contra hn
        exact (Finset.mem_filter.1 hk).2 (h3 a hn)

theorem hullEntries_some (structs : List (HullEntry m)) (elems : List (Fin m))
    (l : List (HullEntry m)) (h : hullEntries structs elems = some l) :
    ∃ top, (∃ i : Fin structs.length, (structs.get i).perAtom = top) ∧
      (∀ i : Fin structs.length, (structs.get i).perAtom ≤ top) ∧
      l = structs ++ elems.map fun a => ⟨Pi.single a 1, top + 1000⟩ := by
  unfold hullEntries at h
  obtain ⟨top, h1, h2⟩ := Option.map_eq_some_iff.1 h
  obtain ⟨h3, h4⟩ := List.max?_eq_some_iff.1 h1
  obtain ⟨e, he, q⟩ := List.mem_map.1 h3
  obtain ⟨i, rfl⟩ := List.mem_iff_get.1 he
  exact ⟨top, ⟨i, q⟩, fun i => h4 _ (List.mem_map_of_mem (List.get_mem structs i)), h2.symm⟩

/-- A structure is a mixture. -/
theorem mixture_self (structs : List (HullEntry m)) (elems : Fin m → Prop) (top : ℝ)
    (i : Fin structs.length) :
    Spec.HullMixture (fun i => (structs.get i).amt) (fun i => (structs.get i).energy)
      elems top (structs.get i).frac (structs.get i).perAtom := by
  refine ⟨Pi.single i 1, 0, fun j => ?_, fun a => le_refl _, fun a _ => rfl, by simp, ?_, ?_⟩
  · by_cases hj : j = i
    · subst hj; simp
    · simp [hj]
  · intro a
    rw [Finset.sum_eq_single i (fun j _ hj => by simp [hj]) (by simp)]
    simp [HullEntry.frac, HullEntry.atoms]
  · rw [Finset.sum_eq_single i (fun j _ hj => by simp [hj]) (by simp)]
    simp [HullEntry.perAtom, HullEntry.atoms]

/-- The energies returned, as the greatest lowering of the energy by a mixture. -/
theorem energiesAboveHull_some (structs : List (HullEntry m)) (elems : List (Fin m)) (es : List ℝ)
    (h : energiesAboveHull structs elems = some es) :
    es.length = structs.length ∧
    ∃ top, (∃ i : Fin structs.length, (structs.get i).perAtom = top) ∧
      (∀ i : Fin structs.length, (structs.get i).perAtom ≤ top) ∧
      ∀ (i : Fin structs.length) (e : ℝ), es[i.1]? = some e →
        IsLeast {E | Spec.HullMixture (fun i => (structs.get i).amt)
          (fun i => (structs.get i).energy) (· ∈ elems) top (structs.get i).frac E}
          ((structs.get i).perAtom - e) := by
  unfold energiesAboveHull at h
  obtain ⟨l, h1, h2⟩ := Option.bind_eq_some_iff.1 h
  obtain ⟨top, g1, g2, rfl⟩ := hullEntries_some structs elems l h1
  split_ifs at h2
  obtain rfl := Option.some.inj h2
  refine ⟨by simp, top, g1, g2, fun i e he => ?_⟩
  have hi := i.2
  simp only [List.getElem?_map, List.getElem?_eq_getElem hi, Option.map_some, Option.some.injEq] at he
  have := hullEnergy_isLeast _ _ _
    ((mem_hull_iff structs elems top _ _).2 (mixture_self structs (· ∈ elems) top i))
  rw [← he]
  simp only [List.get_eq_getElem, sub_sub_cancel] at this ⊢
  convert this using 2
  ext E
  exact (mem_hull_iff structs elems top _ E).symm

end Smol
