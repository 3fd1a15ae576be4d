import Verif.Spec.OrbitGen
import Verif.Lemmas.Rounding
import Mathlib.Algebra.BigOperators.Group.List.Basic
import Mathlib.Tactic.Ring
import Mathlib.Tactic.LinearCombination
import Mathlib.Tactic.Linarith
import Mathlib.Tactic.FieldSimp

/-!
# Lemmas on clusters and orbits
-/

set_option linter.unusedSectionVars false

namespace Smol.Spec

section field
variable {d : ℕ} {K : Type*} [Field K]

theorem shift_shift (S T : Fin d → ℤ) (x : Fin d → K) :
    shift S (shift T x) = shift (fun i => T i + S i) x := by
  funext i; simp [shift, add_assoc]

theorem shift_zero (x : Fin d → K) : shift (fun _ => 0) x = x := by
  funext i; simp [shift]

theorem shift_neg (T : Fin d → ℤ) (x : Fin d → K) : shift (fun i => - T i) (shift T x) = x := by
  funext i; simp [shift]

theorem shift_inj (T : Fin d → ℤ) {x y : Fin d → K} (h : shift T x = shift T y) : x = y := by
  rw [← shift_neg T x, h, shift_neg]

theorem map_shift_shift (S T : Fin d → ℤ) (xs : List (Fin d → K)) :
    (xs.map (shift T)).map (shift S) = xs.map (shift fun i => T i + S i) := by
  rw [List.map_map]; apply List.map_congr_left; intro x _; exact shift_shift S T x

theorem map_shift_zero (xs : List (Fin d → K)) : xs.map (shift fun _ => 0) = xs := by
  conv_rhs => rw [← List.map_id xs]
  apply List.map_congr_left; intro x _; exact shift_zero x

/-! ## Translated clusters -/

theorem Translated.refl (a : List (Fin d → K)) : Translated a a :=
  ⟨fun _ => 0, by rw [map_shift_zero]⟩

theorem Translated.symm {a b : List (Fin d → K)} (h : Translated a b) : Translated b a := by
  obtain ⟨T, h⟩ := h
  refine ⟨fun i => - T i, ?_⟩
  have := (h.map (shift fun i => - T i)).symm
  rw [map_shift_shift] at this
  simpa [map_shift_zero] using this

theorem Translated.trans {a b c : List (Fin d → K)} (h : Translated a b) (h' : Translated b c) :
    Translated a c := by
  obtain ⟨T, h⟩ := h
  obtain ⟨S, h'⟩ := h'
  refine ⟨fun i => S i + T i, h.trans ?_⟩
  rw [← map_shift_shift]
  exact h'.map _

theorem Translated.of_perm {a b : List (Fin d → K)} (h : a.Perm b) : Translated a b :=
  ⟨fun _ => 0, by rwa [map_shift_zero]⟩

theorem Translated.length {a b : List (Fin d → K)} (h : Translated a b) : a.length = b.length := by
  obtain ⟨T, h⟩ := h
  simpa using h.length_eq

theorem translated_map_shift (T : Fin d → ℤ) (a : List (Fin d → K)) :
    Translated (a.map (shift T)) a := ⟨T, List.Perm.refl _⟩

theorem nodup_map_shift (T : Fin d → ℤ) {a : List (Fin d → K)} (h : a.Nodup) :
    (a.map (shift T)).Nodup := h.map fun _ _ => shift_inj T

theorem Translated.nodup {a b : List (Fin d → K)} (h : Translated a b) (hb : b.Nodup) :
    a.Nodup := by
  obtain ⟨T, h⟩ := h
  exact h.nodup_iff.2 (nodup_map_shift T hb)

/-! ## Operations -/

theorem operate_shift (g : SymmOp d K) (hg : ∀ i j, ∃ z : ℤ, g.rot i j = z) (T : Fin d → ℤ) :
    ∃ S : Fin d → ℤ, ∀ x, g.operate (shift T x) = shift S (g.operate x) := by
  choose z hz using hg
  refine ⟨fun i => ∑ j, z i j * T j, fun x => ?_⟩
  funext i
  simp only [SymmOp.operate, shift, hz]
  push_cast
  have : ∑ j, (z i j : K) * (x j + T j) = ∑ j, (z i j : K) * x j + ∑ j, (z i j : K) * T j := by
    rw [← Finset.sum_add_distrib]
    exact Finset.sum_congr rfl fun j _ => by ring
  rw [this]
  ring

theorem Translated.map_operate {a b : List (Fin d → K)} (g : SymmOp d K)
    (hg : ∀ i j, ∃ z : ℤ, g.rot i j = z) (h : Translated a b) :
    Translated (a.map g.operate) (b.map g.operate) := by
  obtain ⟨T, h⟩ := h
  obtain ⟨S, hS⟩ := operate_shift g hg T
  refine ⟨S, (h.map g.operate).trans ?_⟩
  rw [List.map_map, List.map_map]
  apply List.Perm.of_eq
  apply List.map_congr_left
  intro x _
  exact hS x

theorem SpaceGroup.injective {ops : List (SymmOp d K)} (G : SpaceGroup ops) {g : SymmOp d K}
    (hg : g ∈ ops) {x y : Fin d → K} (h : g.operate x = g.operate y) : x = y := by
  obtain ⟨k, _, T, hk⟩ := G.inv g hg
  have := hk x
  rw [h, hk y] at this
  exact (shift_inj T this).symm

theorem SpaceGroup.nodup_map {ops : List (SymmOp d K)} (G : SpaceGroup ops) {g : SymmOp d K}
    (hg : g ∈ ops) {a : List (Fin d → K)} (h : a.Nodup) : (a.map g.operate).Nodup :=
  h.map fun _ _ => G.injective hg

theorem SameOp.symm {g h : SymmOp d K} (H : SameOp g h) : SameOp h g := by
  obtain ⟨T, H⟩ := H
  exact ⟨fun i => - T i, fun x => by rw [H, shift_neg]⟩

theorem SameOp.trans {g h k : SymmOp d K} (H : SameOp g h) (H' : SameOp h k) : SameOp g k := by
  obtain ⟨T, H⟩ := H
  obtain ⟨S, H'⟩ := H'
  exact ⟨fun i => S i + T i, fun x => by rw [H, H', shift_shift]⟩

theorem SameOp.translated {g h : SymmOp d K} (H : SameOp g h) (a : List (Fin d → K)) :
    Translated (a.map g.operate) (a.map h.operate) := by
  obtain ⟨T, H⟩ := H
  refine ⟨T, List.Perm.of_eq ?_⟩
  rw [List.map_map]
  apply List.map_congr_left
  intro x _
  exact H x

theorem pair_sublist {α : Type*} {l : List α} {g h : α} (hg : g ∈ l) (hh : h ∈ l) (hne : g ≠ h) :
    [g, h].Sublist l ∨ [h, g].Sublist l := by
  induction l with
  | nil => simp at hg
  | cons a l ih =>
    rcases List.mem_cons.1 hg with rfl | hg'
    · rcases List.mem_cons.1 hh with rfl | hh'
      · exact absurd rfl hne
      · exact Or.inl (List.cons_sublist_cons.2 (List.singleton_sublist.2 hh'))
    · rcases List.mem_cons.1 hh with rfl | hh'
      · exact Or.inr (List.cons_sublist_cons.2 (List.singleton_sublist.2 hg'))
      · rcases ih hg' hh' with h' | h'
        · exact Or.inl (h'.cons a)
        · exact Or.inr (h'.cons a)

theorem SpaceGroup.eq_of_same {ops : List (SymmOp d K)} (G : SpaceGroup ops) {g h : SymmOp d K}
    (hg : g ∈ ops) (hh : h ∈ ops) (H : SameOp g h) : g = h := by
  by_contra hne
  have hp := G.distinct
  rw [List.pairwise_iff_forall_sublist] at hp
  have hsub := pair_sublist hg hh hne
  rcases hsub with h' | h'
  · exact hp h' H
  · exact hp h' H.symm

theorem SpaceGroup.nodup {ops : List (SymmOp d K)} (G : SpaceGroup ops) : ops.Nodup := by
  refine G.distinct.imp ?_
  rintro g _ h rfl
  exact h ⟨fun _ => 0, fun x => by rw [shift_zero]⟩

/-! ## Equivalence of clusters -/

theorem translated_comp {g h k : SymmOp d K} {T : Fin d → ℤ}
    (H : ∀ x, g.operate (h.operate x) = shift T (k.operate x)) (a : List (Fin d → K)) :
    Translated ((a.map h.operate).map g.operate) (a.map k.operate) := by
  refine ⟨T, List.Perm.of_eq ?_⟩
  rw [List.map_map, List.map_map]
  apply List.map_congr_left
  intro x _
  exact H x

theorem translated_id {g h : SymmOp d K} {T : Fin d → ℤ}
    (H : ∀ x, h.operate (g.operate x) = shift T x) (a : List (Fin d → K)) :
    Translated ((a.map g.operate).map h.operate) a := by
  refine ⟨T, List.Perm.of_eq ?_⟩
  rw [List.map_map]
  apply List.map_congr_left
  intro x _
  exact H x

theorem translated_one {e : SymmOp d K} {T : Fin d → ℤ} (H : ∀ x, e.operate x = shift T x)
    (a : List (Fin d → K)) : Translated (a.map e.operate) a := by
  refine ⟨T, List.Perm.of_eq ?_⟩
  apply List.map_congr_left
  intro x _
  exact H x

variable {ops : List (SymmOp d K)}

theorem SymEquiv.of_translated (G : SpaceGroup ops) {a b : List (Fin d → K)}
    (h : Translated a b) : SymEquiv ops a b := by
  obtain ⟨e, he, T, H⟩ := G.one
  exact ⟨e, he, h.trans (translated_one H b).symm⟩

theorem SymEquiv.refl (G : SpaceGroup ops) (a : List (Fin d → K)) : SymEquiv ops a a :=
  SymEquiv.of_translated G (Translated.refl a)

theorem SymEquiv.symm (G : SpaceGroup ops) {a b : List (Fin d → K)} (h : SymEquiv ops a b) :
    SymEquiv ops b a := by
  obtain ⟨g, hg, h⟩ := h
  obtain ⟨k, hk, T, H⟩ := G.inv g hg
  exact ⟨k, hk, ((h.map_operate k (G.int k hk)).trans (translated_id H b)).symm⟩

theorem SymEquiv.trans (G : SpaceGroup ops) {a b c : List (Fin d → K)} (h : SymEquiv ops a b)
    (h' : SymEquiv ops b c) : SymEquiv ops a c := by
  obtain ⟨g, hg, h⟩ := h
  obtain ⟨g', hg', h'⟩ := h'
  obtain ⟨k, hk, T, H⟩ := G.mul g hg g' hg'
  exact ⟨k, hk, h.trans ((h'.map_operate g (G.int g hg)).trans (translated_comp H c))⟩

theorem SymEquiv.length {a b : List (Fin d → K)} (h : SymEquiv ops a b) :
    a.length = b.length := by
  obtain ⟨g, _, h⟩ := h
  simpa using h.length

theorem SymEquiv.nodup (G : SpaceGroup ops) {a b : List (Fin d → K)} (h : SymEquiv ops a b)
    (hb : b.Nodup) : a.Nodup := by
  obtain ⟨g, hg, h⟩ := h
  exact h.nodup (G.nodup_map hg hb)

/-! ## Counting operations -/

/-- Multiplying by an operation from the left loses none. -/
theorem SpaceGroup.count_le (G : SpaceGroup ops) {g : SymmOp d K} (hg : g ∈ ops)
    (P Q : SymmOp d K → Bool)
    (h : ∀ s ∈ ops, P s = true → ∀ k ∈ ops,
      (∃ T : Fin d → ℤ, ∀ x, g.operate (s.operate x) = shift T (k.operate x)) → Q k = true) :
    (ops.filter P).length ≤ (ops.filter Q).length := by
  classical
  choose! f hf using fun s (hs : s ∈ ops) => G.mul g hg s hs
  rw [← List.toFinset_card_of_nodup (G.nodup.filter _),
    ← List.toFinset_card_of_nodup (G.nodup.filter _)]
  apply Finset.card_le_card_of_injOn f
  · intro s hs
    simp only [List.coe_toFinset, List.mem_filter, Set.mem_ofPred_eq] at hs ⊢
    exact ⟨(hf s hs.1).1, h s hs.1 hs.2 _ (hf s hs.1).1 (hf s hs.1).2⟩
  · intro s hs t ht hst
    simp only [List.coe_toFinset, List.mem_filter, Set.mem_ofPred_eq] at hs ht
    obtain ⟨S, hS⟩ := (hf s hs.1).2
    obtain ⟨T, hT⟩ := (hf t ht.1).2
    obtain ⟨k, hk, R, hR⟩ := G.inv g hg
    obtain ⟨S', hS'⟩ := operate_shift k (G.int k hk) S
    obtain ⟨T', hT'⟩ := operate_shift k (G.int k hk) T
    apply G.eq_of_same hs.1 ht.1
    have e1 : ∀ x, shift R (s.operate x) = shift S' (k.operate ((f s).operate x)) := fun x => by
      rw [← hR, hS, hS']
    have e2 : ∀ x, shift R (t.operate x) = shift T' (k.operate ((f s).operate x)) := fun x => by
      rw [← hR, hT, hT', hst]
    refine ⟨fun i => S' i - T' i, fun x => ?_⟩
    have h1 := e1 x
    have h2 := e2 x
    funext i
    have h1 := congrFun h1 i
    have h2 := congrFun h2 i
    simp only [shift] at h1 h2 ⊢
    push_cast
    linear_combination h1 - h2

end field

end Smol.Spec

namespace Smol
open Spec

variable {d : ℕ} {K : Type*} [Field K] [LinearOrder K] [IsStrictOrderedRing K] [FloorRing K]

/-! ## Centroids -/

theorem centroid_perm {a b : List (Fin d → K)} (h : a.Perm b) : centroid a = centroid b := by
  funext i
  unfold centroid
  rw [(h.map fun x => x i).sum_eq, h.length_eq]

theorem centroid_shift (T : Fin d → ℤ) {a : List (Fin d → K)} (ha : a ≠ []) :
    centroid (a.map (shift T)) = shift T (centroid a) := by
  have hp : (a.length : K) ≠ 0 := by
    have := List.length_pos_iff.2 ha
    exact_mod_cast this.ne'
  funext i
  simp only [centroid, List.map_map, List.length_map]
  rw [show shift T (centroid a) i
    = (a.map fun x => x i).sum / (a.length : K) + T i from rfl]
  have : ∀ l : List (Fin d → K), (l.map ((fun x => x i) ∘ shift T)).sum
      = (l.map fun x => x i).sum + l.length * T i := by
    intro l
    induction l with
    | nil => simp
    | cons x l ih =>
      rw [List.map_cons, List.sum_cons, ih]
      simp only [List.map_cons, List.sum_cons, Function.comp, List.length_cons, shift]
      push_cast
      ring
  rw [this a]
  field_simp

/-- The centroid is in the cell. -/
def InCell (a : List (Fin d → K)) : Prop := ∀ i, 0 ≤ centroid a i ∧ centroid a i < 1

theorem mkCluster_eq (a : List (Fin d → K)) :
    mkCluster a = a.map (shift fun i => - ⌊centroid a i⌋) := by
  unfold mkCluster
  apply List.map_congr_left
  intro x _
  funext i
  simp [shift, sub_eq_add_neg]

theorem mkCluster_translated (a : List (Fin d → K)) : Translated (mkCluster a) a := by
  rw [mkCluster_eq]; exact translated_map_shift _ a

theorem mkCluster_length (a : List (Fin d → K)) : (mkCluster a).length = a.length := by
  simp [mkCluster]

theorem mkCluster_inCell {a : List (Fin d → K)} (ha : a ≠ []) : InCell (mkCluster a) := by
  intro i
  rw [mkCluster_eq, centroid_shift _ ha]
  simp only [shift, Int.cast_neg]
  have h1 := Int.floor_le (centroid a i)
  have h2 := Int.lt_floor_add_one (centroid a i)
  constructor <;> linarith

theorem recentered_eq (a b : List (Fin d → K)) :
    recentered a b = b.map (shift fun i => npRound (centroid a i - centroid b i)) := rfl

theorem shift_unique {a b : List (Fin d → K)} (ha : a ≠ []) {T : Fin d → ℤ}
    (h : a.Perm (b.map (shift T))) : ∀ i, centroid a i = centroid b i + T i := by
  intro i
  have hb : b ≠ [] := by
    rintro rfl
    simp only [List.map_nil, List.perm_nil] at h
    exact ha h
  rw [centroid_perm h, centroid_shift T hb]
  rfl

theorem recentered_of_perm {a b : List (Fin d → K)} (ha : a ≠ []) {T : Fin d → ℤ}
    (h : a.Perm (b.map (shift T))) : recentered a b = b.map (shift T) := by
  rw [recentered_eq]
  have : (fun i => npRound (centroid a i - centroid b i)) = T := by
    funext i
    rw [shift_unique ha h i, add_sub_cancel_left, npRound_intCast]
  rw [this]

/-- Two clusters are equal for the code iff they differ by a lattice vector. -/
theorem clusterEq_iff {a b : List (Fin d → K)} (ha : a ≠ []) (hnd : a.Nodup) :
    clusterEq a b = true ↔ Translated a b := by
  unfold clusterEq
  simp only [Bool.and_eq_true, decide_eq_true_iff, List.all_eq_true]
  constructor
  · rintro ⟨hl, hs⟩
    refine ⟨fun i => npRound (centroid a i - centroid b i), ?_⟩
    rw [← recentered_eq]
    apply List.Subperm.perm_of_length_le (hnd.subperm hs)
    rw [recentered_eq, List.length_map, hl]
  · intro h
    refine ⟨h.length, ?_⟩
    obtain ⟨T, h⟩ := h
    rw [recentered_of_perm ha h]
    intro x hx
    exact h.mem_iff.1 hx

/-! ## The clusters of an orbit -/

variable {ops : List (SymmOp d K)}

theorem orbitImages_inv (G : SpaceGroup ops) {base : List (Fin d → K)} (hne : base ≠ [])
    (hnd : base.Nodup) (l : List (SymmOp d K)) (hl : ∀ g ∈ l, g ∈ ops)
    (acc : List (List (Fin d → K)))
    (h0 : ∀ c ∈ acc, c ≠ [] ∧ c.Nodup) (h1 : acc.Pairwise fun a b => ¬ Translated a b) :
    let r := l.foldl (fun equiv g =>
      let c := mkCluster (base.map g.operate)
      if equiv.any fun e => clusterEq e c then equiv else equiv ++ [c]) acc
    (∀ c ∈ r, c ∈ acc ∨ ∃ g ∈ l, c = mkCluster (base.map g.operate)) ∧
    (∀ c ∈ acc, c ∈ r) ∧
    (∀ g ∈ l, ∃ c ∈ r, Translated c (base.map g.operate)) ∧
    r.Pairwise fun a b => ¬ Translated a b := by
  induction l generalizing acc with
  | nil =>
    simp only [List.foldl_nil]
    exact ⟨fun c hc => Or.inl hc, fun c hc => hc, by simp, h1⟩
  | cons g l ih =>
    simp only [List.foldl_cons]
    have hg : g ∈ ops := hl g (by simp)
    have hcl := mkCluster_translated (base.map g.operate)
    have hcnd : (mkCluster (base.map g.operate)).Nodup := hcl.nodup (G.nodup_map hg hnd)
    have hcne : mkCluster (base.map g.operate) ≠ [] := by
      intro h
      have := congrArg List.length h
      rw [mkCluster_length, List.length_map, List.length_nil] at this
      exact hne (List.length_eq_zero_iff.1 this)
    split
    · next hany =>
      obtain ⟨e, he, hec⟩ := List.any_eq_true.1 hany
      have hec := (clusterEq_iff (h0 e he).1 (h0 e he).2).1 hec
      obtain ⟨i1, i2, i3, i4⟩ := ih (fun k hk => hl k (by simp [hk])) acc h0 h1
      refine ⟨?_, i2, ?_, i4⟩
      · intro c hc
        rcases i1 c hc with h | ⟨k, hk, rfl⟩
        · exact Or.inl h
        · exact Or.inr ⟨k, by simp [hk], rfl⟩
      · intro k hk
        rcases List.mem_cons.1 hk with rfl | hk
        · exact ⟨e, i2 e he, hec.trans hcl⟩
        · exact i3 k hk
    · next hany =>
      have hnot : ∀ e ∈ acc, ¬ Translated e (mkCluster (base.map g.operate)) := by
        intro e he ht
        apply hany
        rw [List.any_eq_true]
        exact ⟨e, he, (clusterEq_iff (h0 e he).1 (h0 e he).2).2 ht⟩
      obtain ⟨i1, i2, i3, i4⟩ := ih (fun k hk => hl k (by simp [hk]))
        (acc ++ [mkCluster (base.map g.operate)])
        (by
          intro c hc
          rcases List.mem_append.1 hc with h | h
          · exact h0 c h
          · rw [List.mem_singleton] at h; subst h; exact ⟨hcne, hcnd⟩)
        (by
          rw [List.pairwise_append]
          refine ⟨h1, by simp, ?_⟩
          intro e he c hc
          rw [List.mem_singleton] at hc
          subst hc
          exact hnot e he)
      refine ⟨?_, fun c hc => i2 c (by simp [hc]), ?_, i4⟩
      · intro c hc
        rcases i1 c hc with h | ⟨k, hk, rfl⟩
        · rcases List.mem_append.1 h with h | h
          · exact Or.inl h
          · rw [List.mem_singleton] at h
            exact Or.inr ⟨g, by simp, h⟩
        · exact Or.inr ⟨k, by simp [hk], rfl⟩
      · intro k hk
        rcases List.mem_cons.1 hk with rfl | hk
        · exact ⟨_, i2 _ (by simp), hcl⟩
        · exact i3 k hk

theorem orbitImages_spec (G : SpaceGroup ops) {base : List (Fin d → K)} (hne : base ≠ [])
    (hnd : base.Nodup) :
    base ∈ orbitImages ops base ∧
    (∀ c ∈ orbitImages ops base, c ≠ [] ∧ c.Nodup ∧ SymEquiv ops c base) ∧
    (∀ g ∈ ops, ∃ c ∈ orbitImages ops base, Translated c (base.map g.operate)) ∧
    (orbitImages ops base).Pairwise fun a b => ¬ Translated a b := by
  obtain ⟨i1, i2, i3, i4⟩ := orbitImages_inv G hne hnd ops (fun _ h => h) [base]
    (by simp [hne, hnd]) (by simp)
  refine ⟨i2 base (by simp), ?_, i3, i4⟩
  intro c hc
  rcases i1 c hc with h | ⟨g, hg, rfl⟩
  · rw [List.mem_singleton] at h
    subst h
    exact ⟨hne, hnd, SymEquiv.refl G _⟩
  · refine ⟨?_, (mkCluster_translated _).nodup (G.nodup_map hg hnd),
      g, hg, mkCluster_translated _⟩
    intro h
    have := congrArg List.length h
    rw [mkCluster_length, List.length_map, List.length_nil] at this
    exact hne (List.length_eq_zero_iff.1 this)

theorem clusterSymops_iff (G : SpaceGroup ops) {base : List (Fin d → K)} (hne : base ≠ [])
    (hnd : base.Nodup) (g : SymmOp d K) :
    g ∈ clusterSymops ops base ↔ g ∈ ops ∧ Translated (base.map g.operate) base := by
  unfold clusterSymops
  rw [List.mem_filter]
  apply and_congr_right
  intro hg
  have hcl := mkCluster_translated (base.map g.operate)
  rw [clusterEq_iff _ (hcl.nodup (G.nodup_map hg hnd))]
  · exact ⟨fun h => hcl.symm.trans h, fun h => hcl.trans h⟩
  · intro h
    have := congrArg List.length h
    rw [mkCluster_length, List.length_map, List.length_nil] at this
    exact hne (List.length_eq_zero_iff.1 this)

/-- As many operations lead to one cluster of an orbit as to any other. -/
theorem fiber_card (G : SpaceGroup ops) {base c : List (Fin d → K)} {g : SymmOp d K}
    (hg : g ∈ ops) (hc : Translated c (base.map g.operate)) (P Q : SymmOp d K → Bool)
    (hP : ∀ s ∈ ops, P s = true ↔ Translated (base.map s.operate) base)
    (hQ : ∀ s ∈ ops, Q s = true ↔ Translated c (base.map s.operate)) :
    (ops.filter Q).length = (ops.filter P).length := by
  apply le_antisymm
  · obtain ⟨h, hh, T, H⟩ := G.inv g hg
    apply G.count_le hh
    rintro s hs hQs k hk ⟨S, hS⟩
    rw [hP k hk]
    have h1 := ((hQ s hs).1 hQs).symm.trans hc
    have h2 := h1.map_operate h (G.int h hh)
    exact (translated_comp hS base).symm.trans (h2.trans (translated_id H base))
  · apply G.count_le hg
    rintro s hs hPs k hk ⟨S, hS⟩
    rw [hQ k hk]
    have h1 := ((hP s hs).1 hPs).map_operate g (G.int g hg)
    exact hc.trans (h1.symm.trans (translated_comp hS base))

/-- Orbit and stabiliser. -/
theorem orbit_card (G : SpaceGroup ops) {base : List (Fin d → K)} (hne : base ≠ [])
    (hnd : base.Nodup) :
    (orbitImages ops base).length * (clusterSymops ops base).length = ops.length := by
  classical
  obtain ⟨hb, hmem, hcov, hpw⟩ := orbitImages_spec G hne hnd
  have hcnd : (orbitImages ops base).Nodup := by
    refine hpw.imp ?_
    rintro a _ h rfl
    exact h (Translated.refl a)
  choose! f hf using hcov
  have huniq : ∀ a ∈ orbitImages ops base, ∀ b ∈ orbitImages ops base, Translated a b → a = b := by
    intro a ha b hb' hab
    by_contra hne'
    have hp := hpw
    rw [List.pairwise_iff_forall_sublist] at hp
    rcases pair_sublist ha hb' hne' with h | h
    · exact hp h hab
    · exact hp h hab.symm
  have hsum := Finset.card_eq_sum_card_fiberwise (s := ops.toFinset)
    (t := (orbitImages ops base).toFinset) (f := f)
    (by intro g hg; simp only [List.coe_toFinset, Set.mem_ofPred_eq] at hg ⊢; exact (hf g hg).1)
  rw [List.toFinset_card_of_nodup G.nodup] at hsum
  have hfib : ∀ c ∈ (orbitImages ops base).toFinset,
      (ops.toFinset.filter fun g => f g = c).card = (clusterSymops ops base).length := by
    intro c hc
    rw [List.mem_toFinset] at hc
    obtain ⟨g, hg, hcg⟩ := (hmem c hc).2.2
    have key := fiber_card G hg hcg
      (fun s => decide (Translated (base.map s.operate) base))
      (fun s => decide (Translated c (base.map s.operate)))
      (fun s _ => by simp) (fun s _ => by simp)
    have e1 : ops.toFinset.filter (fun g => f g = c)
        = (ops.filter fun s => decide (Translated c (base.map s.operate))).toFinset := by
      ext s
      simp only [Finset.mem_filter, List.mem_toFinset, List.mem_filter, decide_eq_true_iff]
      apply and_congr_right
      intro hs
      constructor
      · rintro rfl; exact (hf s hs).2
      · intro h
        exact huniq _ (hf s hs).1 c hc ((hf s hs).2.trans h.symm)
    rw [e1, List.toFinset_card_of_nodup (G.nodup.filter _), key]
    congr 1
    unfold clusterSymops
    apply List.filter_congr
    intro s hs
    rw [Bool.eq_iff_iff, decide_eq_true_iff]
    have := clusterSymops_iff G hne hnd s
    unfold clusterSymops at this
    rw [List.mem_filter] at this
    constructor
    · intro h; exact (this.2 ⟨hs, h⟩).2
    · intro h; exact (this.1 ⟨hs, h⟩).2
  rw [Finset.sum_congr rfl hfib, Finset.sum_const, List.toFinset_card_of_nodup hcnd] at hsum
  rw [hsum]
  rfl

theorem orbitClusters_ok (G : SpaceGroup ops) {base : List (Fin d → K)} (hne : base ≠ [])
    (hnd : base.Nodup) : orbitClusters ops base = .ok (orbitImages ops base) := by
  unfold orbitClusters
  rw [if_pos (orbit_card G hne hnd)]

/-- Membership in an orbit, as the code tests it. -/
theorem any_clusterEq_iff (G : SpaceGroup ops) {base b : List (Fin d → K)} (hne : base ≠ [])
    (hnd : base.Nodup) :
    ((orbitImages ops base).any fun c => clusterEq c b) = true ↔ SymEquiv ops b base := by
  obtain ⟨_, hmem, hcov, _⟩ := orbitImages_spec G hne hnd
  rw [List.any_eq_true]
  constructor
  · rintro ⟨c, hc, h⟩
    obtain ⟨h1, h2, h3⟩ := hmem c hc
    exact SymEquiv.trans G (SymEquiv.of_translated G ((clusterEq_iff h1 h2).1 h).symm) h3
  · rintro ⟨g, hg, h⟩
    obtain ⟨c, hc, hcg⟩ := hcov g hg
    exact ⟨c, hc, (clusterEq_iff (hmem c hc).1 (hmem c hc).2.1).2 (hcg.trans h.symm)⟩

end Smol
