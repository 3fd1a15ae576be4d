import Verif.Model.SubOrbit
import Verif.Spec.SubOrbit
import Verif.Lemmas.OrbitPerms
import Verif.Lemmas.OrbitSearch
import Mathlib.Data.List.Perm.Subperm

/-!
# Lemmas on sub-orbits
-/

set_option linter.unusedSectionVars false

namespace Smol
open Spec

variable {d : ℕ} {K : Type*} [Field K] [LinearOrder K] [IsStrictOrderedRing K] [FloorRing K]
variable {ops : List (SymmOp d K)}

/-- operations with lattice vectors -/
def IsOp (ops : List (SymmOp d K)) (f : (Fin d → K) → (Fin d → K)) : Prop :=
  ∃ g ∈ ops, ∃ T : Fin d → ℤ, ∀ x, f x = shift T (g.operate x)

theorem IsOp.shift (G : SpaceGroup ops) (T : Fin d → ℤ) : IsOp ops (shift T : (Fin d → K) → _) := by
  obtain ⟨e, he, S, H⟩ := G.one
  refine ⟨e, he, fun i => - S i + T i, fun x => ?_⟩
  rw [H, ← shift_shift, shift_neg]

theorem IsOp.comp (G : SpaceGroup ops) {f g : (Fin d → K) → (Fin d → K)} (hf : IsOp ops f)
    (hg : IsOp ops g) : IsOp ops (fun x => f (g x)) := by
  obtain ⟨a, ha, S, hS⟩ := hf
  obtain ⟨b, hb, T, hT⟩ := hg
  obtain ⟨k, hk, U, hU⟩ := G.mul a ha b hb
  obtain ⟨V, hV⟩ := operate_shift a (G.int a ha) T
  refine ⟨k, hk, fun i => U i + V i + S i, fun x => ?_⟩
  simp only [hS, hT, hV, hU, shift_shift]

theorem IsOp.injective (G : SpaceGroup ops) {f : (Fin d → K) → (Fin d → K)} (hf : IsOp ops f)
    {x y : Fin d → K} (h : f x = f y) : x = y := by
  obtain ⟨a, ha, S, hS⟩ := hf
  rw [hS, hS] at h
  exact G.injective ha (shift_inj S h)

theorem IsOp.inv (G : SpaceGroup ops) {f : (Fin d → K) → (Fin d → K)} (hf : IsOp ops f) :
    ∃ g, IsOp ops g ∧ (∀ x, g (f x) = x) ∧ ∀ x, f (g x) = x := by
  have left : ∀ {f : (Fin d → K) → (Fin d → K)}, IsOp ops f → ∃ g, IsOp ops g ∧ ∀ x, g (f x) = x := by
    intro f hf
    obtain ⟨a, ha, S, hS⟩ := hf
    obtain ⟨k, hk, U, hU⟩ := G.inv a ha
    obtain ⟨V, hV⟩ := operate_shift k (G.int k hk) S
    refine ⟨fun x => Spec.shift (fun i => - (U i + V i)) (k.operate x),
      ⟨k, hk, _, fun x => rfl⟩, fun x => ?_⟩
    simp only [hS, hV, hU, shift_shift, add_neg_cancel, shift_zero]
  obtain ⟨g, hg, hgf⟩ := left hf
  refine ⟨g, hg, hgf, fun x => ?_⟩
  exact IsOp.injective G hg (hgf (g x))

/-- clusters of an orbit are images with the sites in order -/
theorem orbitImages_ordered (G : SpaceGroup ops) (base : List (Fin d → K)) :
    ∀ c ∈ orbitImages ops base, ∃ f, IsOp ops f ∧ c = base.map f := by
  have key : ∀ (l : List (SymmOp d K)) (acc : List (List (Fin d → K))), (∀ g ∈ l, g ∈ ops) →
      (∀ c ∈ acc, ∃ f, IsOp ops f ∧ c = base.map f) →
      ∀ c ∈ l.foldl (fun equiv g =>
        let c := mkCluster (base.map g.operate)
        if equiv.any fun e => clusterEq e c then equiv else equiv ++ [c]) acc,
        ∃ f, IsOp ops f ∧ c = base.map f := by
    intro l
    induction l with
    | nil => intro acc _ h; simpa using h
    | cons g l ih =>
      intro acc hl h
      rw [List.foldl_cons]
      apply ih _ (fun k hk => hl k (List.mem_cons_of_mem _ hk))
      dsimp only
      split
      · exact h
      · intro c hc
        rcases List.mem_append.1 hc with hc | hc
        · exact h c hc
        · rw [List.mem_singleton] at hc
          refine ⟨fun x => Spec.shift (fun i => - ⌊centroid (base.map g.operate) i⌋) (g.operate x),
            ⟨g, hl g List.mem_cons_self, _, fun x => rfl⟩, ?_⟩
          rw [hc, mkCluster_eq, List.map_map]
          rfl
  apply key ops [base] (fun g hg => hg)
  intro c hc
  rw [List.mem_singleton] at hc
  refine ⟨_, IsOp.shift G (fun _ => 0), ?_⟩
  rw [hc, map_shift_zero]

theorem occurs_iff {base sub : List (Fin d → K)} {m : List ℕ} :
    Occurs ops base sub m ↔ ∃ f, IsOp ops f ∧
      List.Forall₂ (fun j x => base[j]? = some (f x)) m sub := by
  constructor
  · rintro ⟨g, hg, T, h⟩
    exact ⟨_, ⟨g, hg, T, fun x => rfl⟩, h⟩
  · rintro ⟨f, ⟨g, hg, T, hf⟩, h⟩
    exact ⟨g, hg, T, h.imp fun j x h => by rw [h, hf]⟩

theorem mapsTo_of_perm (G : SpaceGroup ops) {base : List (Fin d → K)} (hne : base ≠ [])
    (hnd : base.Nodup) {f : (Fin d → K) → (Fin d → K)} (hf : IsOp ops f)
    (h : base.Perm (base.map f)) : mapPerm base f ∈ clusterPermutations ops base := by
  obtain ⟨g, hg, T, hT⟩ := hf
  obtain rfl : f = Spec.shift T ∘ g.operate := funext hT
  exact (mem_clusterPermutations G hne hnd _).2 ⟨g, hg, T, h, rfl⟩

/-- following a permutation of the cluster -/
theorem Occurs.left (G : SpaceGroup ops) {base sub : List (Fin d → K)} {m p : List ℕ}
    (hne : base ≠ []) (hnd : base.Nodup) (h : Occurs ops base sub m)
    (hp : p ∈ clusterPermutations ops base) : Occurs ops base sub (permute p m) := by
  obtain ⟨f, hf, h⟩ := occurs_iff.1 h
  obtain ⟨g, hg, T, hs⟩ := clusterPermutations_sites G hne hnd p hp
  have PG := clusterPermutations_group G hne hnd
  obtain ⟨k, hk, hk1, -⟩ := IsOp.inv G (f := fun x => Spec.shift T (g.operate x)) ⟨g, hg, T, fun _ => rfl⟩
  refine occurs_iff.2 ⟨_, hk.comp G hf, ?_⟩
  unfold permute
  rw [List.forall₂_map_left_iff]
  refine h.imp fun j x hj => ?_
  have hjl := (List.getElem?_eq_some_iff.1 hj).1
  have hjp : j < p.length := by rw [PG.length hp]; exact hjl
  obtain ⟨a, b, ha, hb, hab⟩ := hs j p[j] (List.getElem?_eq_getElem hjp)
  rw [List.getD_eq_getElem?_getD, List.getElem?_eq_getElem hjp, Option.getD_some, hb]
  rw [hj, Option.some.injEq] at ha
  rw [ha, hab, hk1]

/-- following a permutation of the sub-cluster -/
theorem Occurs.right (G : SpaceGroup ops) {base sub : List (Fin d → K)} {m q : List ℕ}
    (hne : sub ≠ []) (hnd : sub.Nodup) (h : Occurs ops base sub m)
    (hq : q ∈ clusterPermutations ops sub) : Occurs ops base sub (permute m q) := by
  obtain ⟨f, hf, h⟩ := occurs_iff.1 h
  obtain ⟨g, hg, T, hs⟩ := clusterPermutations_sites G hne hnd q hq
  have PG := clusterPermutations_group G hne hnd
  obtain ⟨k, hk, hk1, -⟩ := IsOp.inv G (f := fun x => Spec.shift T (g.operate x)) ⟨g, hg, T, fun _ => rfl⟩
  refine occurs_iff.2 ⟨_, hf.comp G hk, ?_⟩
  unfold permute
  rw [List.forall₂_iff_get]
  have hl := h.length_eq
  refine ⟨by rw [List.length_map, PG.length hq], ?_⟩
  intro i hi hi'
  rw [List.length_map] at hi
  obtain ⟨a, b, ha, hb, hab⟩ := hs i q[i] (List.getElem?_eq_getElem hi)
  obtain ⟨hbl, hb'⟩ := List.getElem?_eq_some_iff.1 hb
  obtain ⟨hal, ha'⟩ := List.getElem?_eq_some_iff.1 ha
  have hm : q[i] < m.length := by rw [hl]; exact hbl
  simp only [List.get_eq_getElem, List.getElem_map]
  rw [List.getD_eq_getElem?_getD, List.getElem?_eq_getElem hm, Option.getD_some]
  have := (List.forall₂_iff_get.1 h).2 q[i] hm hbl
  simp only [List.get_eq_getElem] at this
  rw [this, ha', hab, hk1, hb']

theorem _root_.Smol.Spec.Occurs.lt {base sub : List (Fin d → K)} {m : List ℕ} (h : Occurs ops base sub m) :
    ∀ j ∈ m, j < base.length := by
  obtain ⟨g, hg, T, h⟩ := h
  intro j hj
  obtain ⟨i, hi, rfl⟩ := List.getElem_of_mem hj
  have := (List.forall₂_iff_get.1 h).2 i hi (h.length_eq ▸ hi)
  exact (List.getElem?_eq_some_iff.1 this).1

theorem _root_.Smol.Spec.Occurs.length {base sub : List (Fin d → K)} {m : List ℕ} (h : Occurs ops base sub m) :
    m.length = sub.length := by
  obtain ⟨g, hg, T, h⟩ := h
  exact h.length_eq

theorem forall₂_permute {a m b : List ℕ} (hm : ∀ j ∈ m, j < a.length) :
    List.Forall₂ (fun j x => a[j]? = some x) m b ↔ permute a m = b := by
  unfold permute
  constructor
  · intro h
    induction h with
    | nil => rfl
    | cons h1 _ ih =>
      rw [List.map_cons, ih fun j hj => hm j (List.mem_cons_of_mem _ hj), List.getD_eq_getElem?_getD,
        h1, Option.getD_some]
  · rintro rfl
    rw [List.forall₂_map_right_iff, List.forall₂_same]
    intro j hj
    rw [List.getD_eq_getElem?_getD, List.getElem?_eq_getElem (hm j hj), Option.getD_some]

/-! ## The mappings -/

theorem mem_mappingsAt {sub c : List (Fin d → K)} {subs : List (List (Fin d → K))} {inds m : List ℕ} :
    m ∈ mappingsAt sub subs c inds ↔ ∃ s ∈ subs,
      (∀ x ∈ s.map (Spec.shift fun i => npRound (centroid (inds.map fun j => c.getD j 0) i -
        centroid sub i)), x ∈ c) ∧
      (s.map (Spec.shift fun i => npRound (centroid (inds.map fun j => c.getD j 0) i -
        centroid sub i))).map (fun x => c.idxOf x) = m := by
  unfold mappingsAt
  simp only [List.mem_filterMap, Option.ite_none_right_eq_some, List.all_eq_true,
    decide_eq_true_eq, Option.some.injEq]
  rfl

theorem mappingsAt_sound (G : SpaceGroup ops) {base sub c : List (Fin d → K)} {inds m : List ℕ}
    (hc : c ∈ orbitImages ops base) (hm : m ∈ mappingsAt sub (orbitImages ops sub) c inds) :
    Occurs ops base sub m := by
  obtain ⟨s, hs, h1, rfl⟩ := mem_mappingsAt.1 hm
  obtain ⟨f, hf, rfl⟩ := orbitImages_ordered G base c hc
  obtain ⟨k, hk, rfl⟩ := orbitImages_ordered G sub s hs
  generalize (fun i => npRound (centroid (inds.map fun j => (base.map f).getD j 0) i -
    centroid sub i)) = T at h1
  obtain ⟨f', hf', hff, -⟩ := hf.inv G
  refine occurs_iff.2 ⟨_, hf'.comp G ((IsOp.shift G T).comp G hk), ?_⟩
  rw [List.forall₂_map_left_iff, List.forall₂_map_left_iff, List.forall₂_map_left_iff,
    List.forall₂_same]
  intro x hx
  have hmem := h1 (Spec.shift T (k x)) (List.mem_map_of_mem (List.mem_map_of_mem hx))
  have hlt := List.idxOf_lt_length_iff.2 hmem
  have hlt' : (base.map f).idxOf (Spec.shift T (k x)) < base.length := by simpa using hlt
  have hget := List.getElem_idxOf hlt
  rw [List.getElem_map] at hget
  have hget' := congrArg f' hget
  rw [hff] at hget'
  rw [List.getElem?_eq_getElem hlt', Option.some.injEq, hget']

theorem mappings_complete (G : SpaceGroup ops) {base sub : List (Fin d → K)} (hne : base ≠ [])
    (hnd : base.Nodup) (hsne : sub ≠ []) (hsnd : sub.Nodup) {m : List ℕ}
    (h : Occurs ops base sub m) :
    ∃ c ∈ orbitImages ops base, ∃ q ∈ clusterPermutations ops base,
      (permute q m).Nodup ∧ ∀ inds : List ℕ, inds.Perm (permute q m) →
        permute q m ∈ mappingsAt sub (orbitImages ops sub) c inds := by
  have PG := clusterPermutations_group G hne hnd
  obtain ⟨f, hf, hfm⟩ := occurs_iff.1 h
  obtain ⟨r, ⟨g, hg, T, hr⟩, hrf, -⟩ := hf.inv G
  obtain ⟨-, himg, hcov, -⟩ := orbitImages_spec G hne hnd
  obtain ⟨c, hc, S, hS⟩ := hcov g hg
  obtain ⟨k, hk, hck⟩ := orbitImages_ordered G base c hc
  obtain ⟨k', hk', hkk, hkk2⟩ := hk.inv G
  -- the operation that exchanges the sites of the cluster
  have hrS : IsOp ops fun x => Spec.shift S (g.operate x) := ⟨g, hg, S, fun _ => rfl⟩
  have hw : IsOp ops fun x => k' (Spec.shift S (g.operate x)) := hk'.comp G hrS
  obtain ⟨w, hwop, hw1, hw2⟩ := hw.inv G
  have hperm : base.Perm (base.map fun x => k' (Spec.shift S (g.operate x))) := by
    have h1 := hS.map k'
    rw [hck, List.map_map, List.map_map, List.map_map] at h1
    have h2 : base.map (k' ∘ k) = base := by
      conv_rhs => rw [← List.map_id base]
      apply List.map_congr_left
      intro x _
      exact hkk x
    rwa [h2] at h1
  have hperm' : base.Perm (base.map w) := by
    have h1 := hperm.map w
    rw [List.map_map] at h1
    have h2 : base.map (w ∘ fun x => k' (Spec.shift S (g.operate x))) = base := by
      conv_rhs => rw [← List.map_id base]
      apply List.map_congr_left
      intro x _
      exact hw1 x
    rw [h2] at h1
    exact h1.symm
  have hq := mapsTo_of_perm G hne hnd hwop hperm'
  set q := mapPerm base w with hqdef
  -- images of the sub-cluster
  have hU : ∀ x, Spec.shift S (g.operate (f x)) = Spec.shift (fun i => - T i + S i) x := by
    intro x
    have := hrf x
    rw [hr] at this
    have h2 : g.operate (f x) = Spec.shift (fun i => - T i) x := by
      conv_rhs => rw [← this]
      rw [shift_neg]
    rw [h2, shift_shift]
  have hsite : List.Forall₂ (fun j x => c[j]? = some (Spec.shift (fun i => - T i + S i) x))
      (permute q m) sub := by
    unfold permute
    rw [List.forall₂_map_left_iff]
    refine hfm.imp fun j x hj => ?_
    obtain ⟨hjl, hj'⟩ := List.getElem?_eq_some_iff.1 hj
    obtain ⟨i, hi, hil, hie⟩ := mapPerm_get hperm' hjl
    rw [List.getD_eq_getElem?_getD, hi, Option.getD_some, hck, List.getElem?_map,
      List.getElem?_eq_getElem hil, Option.map_some, Option.some.injEq]
    have h3 : base[i] = k' (Spec.shift S (g.operate base[j])) := by
      rw [← hie]; exact (hw2 base[i]).symm
    rw [h3, hkk2, hj', hU]
  have hcnd : c.Nodup := (himg c hc).2.1
  have hnodup : (permute q m).Nodup := by
    rw [List.nodup_iff_injective_get]
    intro i j hij
    have hl := hsite.length_eq
    have hi := (List.forall₂_iff_get.1 hsite).2 i i.2 (hl ▸ i.2)
    have hj := (List.forall₂_iff_get.1 hsite).2 j j.2 (hl ▸ j.2)
    have hij' : (permute q m).get ⟨i, i.2⟩ = (permute q m).get ⟨j, j.2⟩ := hij
    rw [hij'] at hi
    rw [hi, Option.some.injEq] at hj
    have := shift_inj _ hj
    rw [List.get_eq_getElem, List.get_eq_getElem, hsnd.getElem_inj_iff] at this
    exact Fin.ext this
  refine ⟨c, hc, q, hq, hnodup, fun inds hinds => ?_⟩
  have hpts : (permute q m).map (fun j => c.getD j 0) =
      sub.map (Spec.shift fun i => - T i + S i) := by
    apply List.ext_get (by simpa using hsite.length_eq)
    intro i h1 h2
    have := (List.forall₂_iff_get.1 hsite).2 i (by simpa using h1) (by simpa using h2)
    simp only [List.get_eq_getElem, List.getElem_map] at this ⊢
    rw [List.getD_eq_getElem?_getD, this, Option.getD_some]
  have hround : (fun i => npRound (centroid (inds.map fun j => c.getD j 0) i - centroid sub i)) =
      fun i => - T i + S i := by
    funext i
    rw [centroid_perm (hinds.map fun j => c.getD j 0), hpts, centroid_shift _ hsne]
    simp only [Spec.shift]
    rw [add_sub_cancel_left, npRound_intCast]
  refine mem_mappingsAt.2 ⟨sub, (orbitImages_spec G hsne hsnd).1, ?_, ?_⟩
  · rw [hround]
    intro x hx
    obtain ⟨i, hi, rfl⟩ := List.getElem_of_mem hx
    have hi' : i < sub.length := by simpa using hi
    have := (List.forall₂_iff_get.1 hsite).2 i (hsite.length_eq ▸ hi') hi'
    simp only [List.get_eq_getElem] at this
    rw [List.getElem_map]
    exact List.mem_of_getElem? this
  · rw [hround]
    apply List.ext_get (by simpa using hsite.length_eq.symm)
    intro i h1 h2
    have := (List.forall₂_iff_get.1 hsite).2 i h2 (by simpa using h1)
    simp only [List.get_eq_getElem, List.getElem_map] at this ⊢
    obtain ⟨hl, he⟩ := List.getElem?_eq_some_iff.1 this
    rw [← he, List.Nodup.idxOf_getElem hcnd]

/-! ## Sub-clusters -/

theorem isSubOrbit_iff (G : SpaceGroup ops) {base sub : List (Fin d → K)} (hsne : sub ≠ [])
    (hsnd : sub.Nodup) :
    ∃ b, isSubOrbit ops base sub = .ok b ∧ (b = true ↔ IsSubCluster ops base sub) := by
  unfold isSubOrbit IsSubCluster
  split
  · rename_i h
    refine ⟨false, rfl, ?_⟩
    simp only [Bool.false_eq_true, false_iff, not_and]
    intro h'
    omega
  · rename_i h
    rw [orbitClusters_ok G hsne hsnd]
    refine ⟨_, rfl, ?_⟩
    rw [List.any_eq_true]
    constructor
    · rintro ⟨b, hb, hbs⟩
      rw [List.mem_sublistsLen] at hb
      have h1 := (any_clusterEq_iff G hsne hsnd).1 hbs
      refine ⟨by omega, b, hb.1.subperm, ?_⟩
      exact SymEquiv.trans G (SymEquiv.of_translated G (mkCluster_translated b).symm) h1
    · rintro ⟨-, b, ⟨b', hp, hs⟩, hbs⟩
      have h1 : SymEquiv ops b' sub :=
        SymEquiv.trans G (SymEquiv.of_translated G (Translated.of_perm hp)) hbs
      refine ⟨b', List.mem_sublistsLen.2 ⟨hs, h1.length⟩, ?_⟩
      exact (any_clusterEq_iff G hsne hsnd).2
        (SymEquiv.trans G (SymEquiv.of_translated G (mkCluster_translated b')) h1)

theorem exists_positions {α : Type*} {base b : List α} (hb : b ⊆ base) :
    ∃ m : List ℕ, List.Forall₂ (fun j x => base[j]? = some x) m b := by
  induction b with
  | nil => exact ⟨[], List.Forall₂.nil⟩
  | cons x b ih =>
    obtain ⟨m, hm⟩ := ih fun y hy => hb (List.mem_cons_of_mem _ hy)
    obtain ⟨j, hj⟩ := List.mem_iff_getElem?.1 (hb List.mem_cons_self)
    exact ⟨j :: m, List.Forall₂.cons hj hm⟩

/-- sub-clusters occur -/
theorem isSubCluster_iff (G : SpaceGroup ops) {base sub : List (Fin d → K)} (hsnd : sub.Nodup) :
    IsSubCluster ops base sub ↔ sub.length < base.length ∧ ∃ m, Occurs ops base sub m := by
  unfold IsSubCluster
  apply and_congr_right
  intro _
  constructor
  · rintro ⟨b, hb, g, hg, T, hT⟩
    rw [List.map_map] at hT
    obtain ⟨m, hm⟩ := exists_positions (base := base)
      (b := sub.map (Spec.shift T ∘ g.operate)) (fun x hx => hb.subset (hT.mem_iff.2 hx))
    rw [List.forall₂_map_right_iff] at hm
    exact ⟨m, g, hg, T, hm⟩
  · rintro ⟨m, g, hg, T, h⟩
    refine ⟨sub.map (Spec.shift T ∘ g.operate), ?_, g, hg, T, ?_⟩
    · apply List.subperm_of_subset
      · exact hsnd.map (shift_comp_inj G hg T)
      · intro x hx
        obtain ⟨y, hy, rfl⟩ := List.mem_map.1 hx
        obtain ⟨i, hi, rfl⟩ := List.getElem_of_mem hy
        have := (List.forall₂_iff_get.1 h).2 i (h.length_eq ▸ hi) hi
        exact List.mem_of_getElem? this
    · rw [List.map_map]

end Smol

namespace Smol
open Spec

variable {d : ℕ} {K : Type*} [Field K] [LinearOrder K] [IsStrictOrderedRing K] [FloorRing K]
variable {lattice : Fin d → Fin d → K} {ops : List (SymmOp d K)} {sites : List ((Fin d → K) × ℕ)}

theorem getElem?_of_forall₂ {α β : Type*} {R : α → β → Prop} {l : List α} {l' : List β}
    (h : List.Forall₂ R l l') {i : ℕ} {x : α} (hx : l[i]? = some x) : ∃ y, l'[i]? = some y ∧ R x y := by
  obtain ⟨hi, rfl⟩ := List.getElem?_eq_some_iff.1 hx
  have hi' : i < l'.length := h.length_eq ▸ hi
  exact ⟨_, List.getElem?_eq_getElem hi', (List.forall₂_iff_get.1 h).2 i hi hi'⟩

/-- sites that correspond have the same space -/
theorem Occurs.space (X : Crystal lattice ops sites) {base sub : List (Fin d → K)}
    {spaces subSpaces m : List ℕ} (hb : List.Forall₂ (IsSite sites) base spaces)
    (hs : List.Forall₂ (IsSite sites) sub subSpaces) (h : Occurs ops base sub m) :
    ∀ j ∈ m, ∃ n ∈ subSpaces, spaces[j]? = some n := by
  obtain ⟨g, hg, T, h⟩ := h
  intro j hj
  obtain ⟨i, hi⟩ := List.mem_iff_getElem?.1 hj
  obtain ⟨x, hx, hjx⟩ := getElem?_of_forall₂ h hi
  obtain ⟨n, hn, hxn⟩ := getElem?_of_forall₂ hs hx
  obtain ⟨n', hn', hxn'⟩ := getElem?_of_forall₂ hb hjx
  refine ⟨n, List.mem_of_getElem? hn, ?_⟩
  rw [hn', X.number_unique hxn' (IsSite.shift (X.maps g hg x n hxn) T)]

theorem exists_inds {l m : List ℕ} (hl : l.Nodup) (hm : m.Nodup) (h : ∀ j ∈ m, j ∈ l) :
    ∃ I ∈ l.sublistsLen m.length, I.Perm m := by
  have hp : (l.filter fun j => decide (j ∈ m)).Perm m := by
    rw [List.perm_ext_iff_of_nodup (hl.filter _) hm]
    intro j
    rw [List.mem_filter, decide_eq_true_iff]
    exact ⟨fun h => h.2, fun hj => ⟨h j hj, hj⟩⟩
  exact ⟨_, List.mem_sublistsLen.2 ⟨List.filter_sublist, hp.length_eq⟩, hp⟩

theorem subOrbitMappings_spec (X : Crystal lattice ops sites) {spaceEq : ℕ → ℕ → Bool}
    (hrefl : ∀ n, spaceEq n n = true) {base sub : List (Fin d → K)} {spaces subSpaces : List ℕ}
    (hne : base ≠ []) (hnd : base.Nodup) (hsne : sub ≠ []) (hsnd : sub.Nodup)
    (hb : List.Forall₂ (IsSite sites) base spaces) (hs : List.Forall₂ (IsSite sites) sub subSpaces) :
    ∃ r, subOrbitMappings spaceEq ops base spaces sub subSpaces = .ok r ∧
      (∀ m ∈ r, Occurs ops base sub m) ∧
      ∀ m, Occurs ops base sub m → ∃ q ∈ clusterPermutations ops base, permute q m ∈ r := by
  have G := X.group
  obtain ⟨b, hb1, hb2⟩ := isSubOrbit_iff G (base := base) hsne hsnd
  unfold subOrbitMappings
  rw [orbitClusters_ok G hne hnd, orbitClusters_ok G hsne hsnd, hb1]
  simp only
  set maps := (orbitImages ops base).flatMap fun c =>
    (((List.range spaces.length).filter fun i =>
      subSpaces.any fun s => spaceEq (spaces.getD i 0) s).sublistsLen subSpaces.length).flatMap
      fun I => mappingsAt sub (orbitImages ops sub) c I with hmaps
  have hsound : ∀ m ∈ maps, Occurs ops base sub m := by
    intro m hm
    rw [hmaps, List.mem_flatMap] at hm
    obtain ⟨c, hc, hm⟩ := hm
    obtain ⟨I, _, hm⟩ := List.mem_flatMap.1 hm
    exact mappingsAt_sound G hc hm
  have hcomp : ∀ m, Occurs ops base sub m →
      ∃ q ∈ clusterPermutations ops base, permute q m ∈ maps := by
    intro m hm
    obtain ⟨c, hc, q, hq, hqnd, h⟩ := mappings_complete G hne hnd hsne hsnd hm
    have hm' := Occurs.left G hne hnd hm hq
    obtain ⟨I, hI, hIp⟩ := exists_inds (l := (List.range spaces.length).filter fun i =>
      subSpaces.any fun s => spaceEq (spaces.getD i 0) s) (List.nodup_range.filter _) hqnd (by
        intro j hj
        obtain ⟨n, hn, hjn⟩ := Occurs.space X hb hs hm' j hj
        rw [List.mem_filter, List.mem_range, List.any_eq_true]
        refine ⟨(List.getElem?_eq_some_iff.1 hjn).1, n, hn, ?_⟩
        rw [List.getD_eq_getElem?_getD, hjn, Option.getD_some]
        exact hrefl n)
    rw [hm'.length, hs.length_eq] at hI
    refine ⟨q, hq, ?_⟩
    rw [hmaps]
    exact List.mem_flatMap.2 ⟨c, hc, List.mem_flatMap.2 ⟨I, hI, h I hIp⟩⟩
  have hno : (maps.isEmpty && b) = false := by
    cases hbv : b with
    | false => simp
    | true =>
      obtain ⟨m, hm⟩ := ((isSubCluster_iff G hsnd).1 (hb2.1 hbv)).2
      obtain ⟨q, _, hq⟩ := hcomp m hm
      rw [Bool.and_true, List.isEmpty_eq_false_iff]
      exact List.ne_nil_of_mem hq
  rw [hno, if_neg (by simp)]
  refine ⟨_, rfl, ?_, ?_⟩
  · intro m hm
    exact hsound m ((mem_uniqueRows _ _).1 hm)
  · intro m hm
    obtain ⟨q, hq, h⟩ := hcomp m hm
    exact ⟨q, hq, (mem_uniqueRows _ _).2 h⟩

/-- the factors found along the mappings -/
theorem subFunctions_factor (G : SpaceGroup ops) {base sub : List (Fin d → K)}
    {bits subBits : List (List ℕ)} (hne : base ≠ []) (hnd : base.Nodup) (hsne : sub ≠ [])
    (hsnd : sub.Nodup) (hbl : bits.length = base.length) (hsl : subBits.length = sub.length)
    {r : List (List ℕ)} (h1 : ∀ m ∈ r, Occurs ops base sub m)
    (h2 : ∀ m, Occurs ops base sub m → ∃ q ∈ clusterPermutations ops base, permute q m ∈ r)
    {cl : List (List ℕ)} (hcl : cl ∈ bitCombos bits (clusterPermutations ops base)) {a : List ℕ}
    (ha : a ∈ cl) (i : ℕ) :
    i ∈ subFunctions cl r (bitCombos subBits (clusterPermutations ops sub)) ↔
      ∃ cl', (bitCombos subBits (clusterPermutations ops sub))[i]? = some cl' ∧
        ∀ b ∈ cl', IsFactor ops base sub a b := by
  have PG := clusterPermutations_group G hne hnd
  have PS := clusterPermutations_group G hsne hsnd
  obtain ⟨c0, hc0, rfl⟩ := (bitCombos_inv (bits := bits) (by rw [hbl]; exact PG)).cls cl hcl
  have hal : a.length = base.length := by
    obtain ⟨p, hp, rfl⟩ := (mem_classOf _ _ _).1 ha
    rw [permute, List.length_map, PG.length hp]
  unfold subFunctions
  simp only [List.mem_filter, List.mem_range, List.any_eq_true, beq_iff_eq]
  constructor
  · rintro ⟨hlt, row, hr, m, hm, he⟩
    refine ⟨_, List.getElem?_eq_getElem hlt, fun b hb => ?_⟩
    obtain ⟨c1, hc1, hcl1⟩ := (bitCombos_inv (bits := subBits) (by rw [hsl]; exact PS)).cls _
      (List.getElem_mem hlt)
    rw [List.getD_eq_getElem?_getD, List.getElem?_eq_getElem hlt, Option.getD_some] at he
    have hhd : (bitCombos subBits (clusterPermutations ops sub))[i].headD [] ∈
        (bitCombos subBits (clusterPermutations ops sub))[i] := by
      cases hc : (bitCombos subBits (clusterPermutations ops sub))[i] with
      | nil => rw [hc] at hb; simp at hb
      | cons a l => simp
    rw [← he] at hhd
    rw [hcl1] at hb hhd
    obtain ⟨q, hq, rfl⟩ := (mem_classOf_of_mem PS hhd b).1 hb
    obtain ⟨p, hp, rfl⟩ := (mem_classOf_of_mem PG ha row).1 hr
    have ho := h1 m hm
    have ho1 := Occurs.left G hne hnd ho hp
    have ho2 := Occurs.right G hsne hsnd ho1 hq
    refine ⟨_, ho2, (forall₂_permute fun j hj => by rw [hal]; exact ho2.lt j hj).2 ?_⟩
    rw [permute_permute a p m fun j hj => by rw [PG.length hp]; exact ho.lt j hj,
      permute_permute a _ q fun j hj => by rw [ho1.length]; exact PS.lt hq j hj]
  · rintro ⟨cl', hcl', hall⟩
    obtain ⟨hlt, rfl⟩ := List.getElem?_eq_some_iff.1 hcl'
    obtain ⟨c1, hc1, hcl1⟩ := (bitCombos_inv (bits := subBits) (by rw [hsl]; exact PS)).cls _
      (List.getElem_mem hlt)
    have hne1 := List.ne_nil_of_mem (classOf_self PS c1 (by rw [hc1.length, hsl]))
    have hhd : (bitCombos subBits (clusterPermutations ops sub))[i].headD [] ∈
        (bitCombos subBits (clusterPermutations ops sub))[i] := by
      rw [hcl1]
      cases hc : classOf (clusterPermutations ops sub) c1 with
      | nil => exact absurd hc hne1
      | cons a l => simp
    obtain ⟨m, hm, hf⟩ := hall _ hhd
    obtain ⟨q, hq, hqr⟩ := h2 m hm
    obtain ⟨s, hs, -, hsq⟩ := PG.inv_permute hq
    refine ⟨hlt, permute a s, (mem_classOf_of_mem PG ha _).2 ⟨s, hs, rfl⟩, _, hqr, ?_⟩
    rw [List.getD_eq_getElem?_getD, List.getElem?_eq_getElem hlt, Option.getD_some,
      ← (forall₂_permute fun j hj => by rw [hal]; exact hm.lt j hj).1 hf,
      permute_permute a s _ ?_, ← permute_permute s q m ?_, hsq]
    · congr 1
      unfold permute
      conv_rhs => rw [← List.map_id m]
      apply List.map_congr_left
      intro j hj
      simp [List.getD_eq_getElem?_getD, hm.lt j hj]
    · intro j hj
      rw [PG.length hq]; exact hm.lt j hj
    · intro j hj
      rw [PG.length hs]; exact (Occurs.left G hne hnd hm hq).lt j hj

end Smol
