import Verif.Lemmas.SupercellIndex

/-!
# Lemmas on the rows of index arrays
-/

namespace Smol
open Spec

variable {tol atol : ℚ} {prim : List Vec3} {M : Mat3} {ops : List (SymmOp 3 ℚ)}

/-- clusters that are the same in the supercell -/
def SuperEq (M : Mat3) (a b : List Vec3) : Prop := ∃ n, a.Perm (b.map (shift (superVec M n)))

theorem SuperEq.refl (M : Mat3) (a : List Vec3) : SuperEq M a a :=
  ⟨fun _ => 0, by rw [superVec_zero, map_shift_zero]⟩

theorem SuperEq.symm {a b : List Vec3} (h : SuperEq M a b) : SuperEq M b a := by
  obtain ⟨n, h⟩ := h
  refine ⟨fun i => - n i, ?_⟩
  have := h.map (shift (superVec M fun i => - n i))
  rw [map_shift_shift, superVec_neg] at this
  simp only [add_neg_cancel, map_shift_zero] at this
  rw [superVec_neg]
  exact this.symm

theorem SuperEq.trans {a b c : List Vec3} (h : SuperEq M a b) (h' : SuperEq M b c) : SuperEq M a c := by
  obtain ⟨n, h⟩ := h
  obtain ⟨m, h'⟩ := h'
  refine ⟨fun i => m i + n i, ?_⟩
  have := h'.map (shift (superVec M n))
  rw [map_shift_shift] at this
  rw [superVec_add]
  exact h.trans this

theorem mapM_eq_map {α β : Type*} {f : α → Option β} {g : α → β} {l : List α}
    (h : ∀ a ∈ l, f a = some (g a)) : l.mapM f = some (l.map g) := by
  induction l with
  | nil => rfl
  | cons a l ih =>
    rw [List.mapM_cons, h a List.mem_cons_self, ih fun b hb => h b (List.mem_cons_of_mem _ hb)]
    rfl

/-- the images of the clusters of an orbit by the lattice points -/
def superImages (tol : ℚ) (M : Mat3) (clusters : List (List Vec3)) : List (List Vec3) :=
  clusters.flatMap fun c => (latticePoints tol M).map fun p => c.map fun x j => x j + superPoint M p j

/-- the number of the site at a point -/
def indexOf (tol atol : ℚ) (prim : List Vec3) (M : Mat3) (x : Vec3) : ℕ :=
  (siteAt atol (supercellCoords tol prim M) (fracOf M x)).getD 0

theorem indexOf_located (F : SupercellFits tol atol prim M) {x : Vec3} (hx : OfCell prim x) :
    LocatedAt M (supercellCoords tol prim M) (indexOf tol atol prim M x) x := by
  obtain ⟨i, hi, h⟩ := siteAt_located F hx
  unfold indexOf
  rw [hi]
  exact h

theorem superImages_mem (F : SupercellFits tol atol prim M) {clusters : List (List Vec3)}
    {img : List Vec3} (h : img ∈ superImages tol M clusters) :
    ∃ c ∈ clusters, ∃ p ∈ latticePoints tol M, ∃ v : Fin 3 → ℤ,
      p = (fracOf M fun j => (v j : ℚ)) ∧ img = c.map (shift v) := by
  unfold superImages at h
  simp only [List.mem_flatMap, List.mem_map] at h
  obtain ⟨c, hc, p, hp, rfl⟩ := h
  obtain ⟨v, h1, h2⟩ := latticePoints_superPoint F hp
  refine ⟨c, hc, p, hp, v, h1, ?_⟩
  simp only [h2]
  rfl

theorem genOrbitIndices_eq (F : SupercellFits tol atol prim M) {orbits : List (List (List Vec3))}
    (hs : ∀ o ∈ orbits, ∀ c ∈ o, ∀ x ∈ c, OfCell prim x) :
    genOrbitIndices tol atol prim orbits M =
      some (orbits.map fun o => (superImages tol M o).map fun img => img.map (indexOf tol atol prim M)) := by
  unfold genOrbitIndices
  apply mapM_eq_map
  intro o ho
  have e : (o.flatMap fun cluster => (latticePoints tol M).map fun p =>
      cluster.map fun x => (fun i => fracOf M x i + p i : Vec3)) =
      (superImages tol M o).map fun img => img.map (fracOf M) := by
    unfold superImages
    rw [List.map_flatMap]
    apply List.flatMap_congr
    intro c _
    rw [List.map_map]
    apply List.map_congr_left
    intro p _
    simp only [Function.comp_apply, List.map_map]
    apply List.map_congr_left
    intro x _
    simp only [Function.comp_apply]
    rw [fracOf_add, fracOf_superPoint F.det]
  rw [e, mapM_map_comp]
  apply mapM_eq_map
  intro img himg
  rw [mapM_map_comp]
  apply mapM_eq_map
  intro x hx
  obtain ⟨c, hc, p, hp, v, -, rfl⟩ := superImages_mem F himg
  obtain ⟨y, hy, rfl⟩ := List.mem_map.1 hx
  obtain ⟨i, hi, -⟩ := siteAt_located F ((hs o ho c hc y hy).shift v)
  unfold indexOf
  rw [hi, Option.getD_some]

theorem superImages_pairwise (F : SupercellFits tol atol prim M) {clusters : List (List Vec3)}
    (hne : ∀ c ∈ clusters, c ≠ []) (hp : clusters.Pairwise fun a b => ¬ Translated a b) :
    (superImages tol M clusters).Pairwise fun a b => ¬ SuperEq M a b := by
  unfold superImages
  rw [List.pairwise_flatMap]
  constructor
  · intro c hc
    rw [List.pairwise_map]
    refine (latticePoints_nodup F.det tol).imp_of_mem ?_
    rintro p q hp hq hpq ⟨n, h⟩
    apply hpq
    obtain ⟨v, hv, hv'⟩ := latticePoints_superPoint F hp
    obtain ⟨w, hw, hw'⟩ := latticePoints_superPoint F hq
    simp only [hv', hw'] at h
    have h1 : (c.map (shift v)).Perm ((c.map (shift w)).map (shift (superVec M n))) := h
    rw [map_shift_shift] at h1
    have h2 := shift_unique (by simpa using hne c hc) h1
    have e : ∀ i, v i = w i + superVec M n i := by
      intro i
      have := h2 i
      rw [centroid_shift v (hne c hc)] at this
      simp only [Spec.shift] at this
      have := add_left_cancel this
      exact_mod_cast this
    have hpi := ((mem_latticePoints F.det F.tol0 F.tolDet p).1 hp).2
    have hqi := ((mem_latticePoints F.det F.tol0 F.tolDet q).1 hq).2
    have h3 := fracOf_shift_superVec F.det n (fun j => (w j : ℚ))
    have h4 : shift (superVec M n) (fun j => (w j : ℚ)) = fun j => (v j : ℚ) := by
      funext j
      simp only [Spec.shift]
      rw [e j]
      push_cast
      rfl
    rw [h4, ← hv, ← hw] at h3
    funext i
    have := congrArg Int.fract (congrFun h3 i)
    rwa [Int.fract_add_intCast, Int.fract_eq_self.2 (hpi i), Int.fract_eq_self.2 (hqi i)] at this
  · refine hp.imp ?_
    rintro a b hab x hx y hy ⟨n, h⟩
    obtain ⟨p, hp, rfl⟩ := List.mem_map.1 hx
    obtain ⟨q, hq, rfl⟩ := List.mem_map.1 hy
    obtain ⟨v, -, hv'⟩ := latticePoints_superPoint F hp
    obtain ⟨w, -, hw'⟩ := latticePoints_superPoint F hq
    simp only [hv', hw'] at h
    have h1 : (a.map (shift v)).Perm ((b.map (shift w)).map (shift (superVec M n))) := h
    apply hab
    have t1 : Translated (a.map (shift v)) (b.map (shift w)) := ⟨_, h1⟩
    exact ((translated_map_shift v a).symm.trans t1).trans (translated_map_shift w b)

/-- the index arrays list the clusters -/
theorem superImages_lists (F : SupercellFits tol atol prim M) (G : SpaceGroup ops)
    (hops : ∀ g ∈ ops, ∀ x, OfCell prim x → OfCell prim (g.operate x)) {base : List Vec3}
    (hne : base ≠ []) (hnd : base.Nodup) (hb : ∀ x ∈ base, OfCell prim x) :
    ListsClusters ops M (supercellCoords tol prim M) base
      ((superImages tol M (orbitImages ops base)).map fun img => img.map (indexOf tol atol prim M)) := by
  obtain ⟨-, himg, hcov, hpw⟩ := orbitImages_spec G hne hnd
  have hord := orbitImages_ordered G base
  refine ⟨superImages tol M (orbitImages ops base), ?_, ?_, ?_⟩
  · rw [List.forall₂_map_right_iff, List.forall₂_same]
    intro img h
    rw [List.forall₂_map_right_iff, List.forall₂_same]
    intro x hx
    apply indexOf_located F
    obtain ⟨c, hc, p, hp, v, -, rfl⟩ := superImages_mem F h
    obtain ⟨y, hy, rfl⟩ := List.mem_map.1 hx
    obtain ⟨f, ⟨g, hg, T, hT⟩, rfl⟩ := hord c hc
    obtain ⟨z, hz, rfl⟩ := List.mem_map.1 hy
    rw [hT]
    exact ((hops g hg z (hb z hz)).shift T).shift v
  · intro img h
    obtain ⟨c, hc, p, hp, v, -, rfl⟩ := superImages_mem F h
    obtain ⟨f, ⟨g, hg, T, hT⟩, rfl⟩ := hord c hc
    refine ⟨g, hg, fun i => T i + v i, ?_⟩
    rw [List.map_map]
    apply List.map_congr_left
    intro x _
    simp only [Function.comp_apply, hT]
    rw [shift_shift]
  · intro a ha
    have hpw' := superImages_pairwise F (fun c hc => (himg c hc).1) hpw
    have hex : ∃ img ∈ superImages tol M (orbitImages ops base), SuperEq M a img := by
      obtain ⟨g, hg, hag⟩ := ha
      obtain ⟨c, hc, hcg⟩ := hcov g hg
      obtain ⟨T, hT⟩ := hag.trans hcg.symm
      obtain ⟨p, ⟨hp, n, h⟩, -⟩ := latticePoints_repr F.det F.tol0 F.tolDet T
      obtain ⟨v, hv, hv'⟩ := latticePoints_superPoint F hp
      refine ⟨c.map fun x j => x j + superPoint M p j,
        List.mem_flatMap.2 ⟨c, hc, List.mem_map.2 ⟨p, hp, rfl⟩⟩, n, ?_⟩
      simp only [hv']
      have e : shift (superVec M n) (fun j => (v j : ℚ)) = fun j => (T j : ℚ) := by
        apply fracOf_injective F.det
        rw [fracOf_shift_superVec F.det, ← hv]
        exact (funext h).symm
      have e2 : T = fun j => v j + superVec M n j := by
        funext j
        have := congrFun e j
        simp only [Spec.shift] at this
        exact_mod_cast this.symm
      have e3 : (c.map fun (x : Vec3) j => x j + (v j : ℚ)).map (shift (superVec M n)) = c.map (shift T) := by
        rw [e2]
        exact map_shift_shift (superVec M n) v c
      rw [e3]
      exact hT
    obtain ⟨img, him, haim⟩ := hex
    obtain ⟨k, hk, rfl⟩ := List.getElem_of_mem him
    refine ⟨k, ⟨_, List.getElem?_eq_getElem hk, haim⟩, ?_⟩
    rintro k' ⟨img', hk', hak'⟩
    obtain ⟨hkl', rfl⟩ := List.getElem?_eq_some_iff.1 hk'
    have P := List.pairwise_iff_getElem.1 hpw'
    have hak : SuperEq M a (superImages tol M (orbitImages ops base))[k'] := hak'
    rcases lt_trichotomy k' k with h | h | h
    · exact absurd (hak.symm.trans haim) (P k' k hkl' hk h)
    · exact h
    · exact absurd (haim.symm.trans hak) (P k k' hk hkl' h)

end Smol
