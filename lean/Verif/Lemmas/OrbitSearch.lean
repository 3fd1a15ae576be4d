import Verif.Lemmas.OrbitPerms
import Mathlib.Algebra.Order.Chebyshev
import Mathlib.Tactic.Positivity

/-!
# Lemmas on the search for clusters
-/

set_option linter.unusedSectionVars false

namespace Smol
open Spec

variable {d : ℕ} {K : Type*} [Field K] [LinearOrder K] [IsStrictOrderedRing K] [FloorRing K]
variable {lattice : Fin d → Fin d → K} {ops : List (SymmOp d K)} {sites : List ((Fin d → K) × ℕ)}

/-! ## Distances -/

theorem dist2_eq (x y : Fin d → K) : dist2 lattice x y = sqDist lattice x y := by
  unfold dist2 sqDist cart
  refine Finset.sum_congr rfl fun k _ => ?_
  rw [← Finset.sum_sub_distrib]
  congr 1
  exact Finset.sum_congr rfl fun j _ => by ring

theorem sqDist_nonneg (x y : Fin d → K) : 0 ≤ sqDist lattice x y :=
  Finset.sum_nonneg fun _ _ => sq_nonneg _

theorem sqDist_self (x : Fin d → K) : sqDist lattice x x = 0 := by
  simp [sqDist]

theorem sqDist_comm (x y : Fin d → K) : sqDist lattice x y = sqDist lattice y x :=
  Finset.sum_congr rfl fun k _ => by ring

theorem sqDist_shift (T : Fin d → ℤ) (x y : Fin d → K) :
    sqDist lattice (shift T x) (shift T y) = sqDist lattice x y := by
  refine Finset.sum_congr rfl fun k _ => ?_
  congr 1
  simp only [cart, shift, add_mul, Finset.sum_add_distrib]
  ring

/-- The triangle inequality, with squares. -/
theorem sqDist_triangle {x y z : Fin d → K} {a b : K} (ha : 0 ≤ a) (hb : 0 ≤ b)
    (h1 : sqDist lattice x y ≤ a ^ 2) (h2 : sqDist lattice y z ≤ b ^ 2) :
    sqDist lattice x z ≤ (a + b) ^ 2 := by
  set u : Fin d → K := fun k => cart lattice x k - cart lattice y k with hu
  set v : Fin d → K := fun k => cart lattice y k - cart lattice z k with hv
  have e1 : sqDist lattice x y = ∑ k, u k ^ 2 := rfl
  have e2 : sqDist lattice y z = ∑ k, v k ^ 2 := rfl
  have e3 : sqDist lattice x z = ∑ k, (u k + v k) ^ 2 :=
    Finset.sum_congr rfl fun k _ => by simp only [hu, hv]; ring
  rw [e1] at h1
  rw [e2] at h2
  rw [e3]
  have hcs := Finset.sum_mul_sq_le_sq_mul_sq Finset.univ u v
  have hbound : (∑ k, u k * v k) ^ 2 ≤ (a * b) ^ 2 := by
    refine hcs.trans ?_
    rw [mul_pow]
    exact mul_le_mul h1 h2 (Finset.sum_nonneg fun k _ => sq_nonneg _) (sq_nonneg a)
  have hle : ∑ k, u k * v k ≤ a * b := le_of_abs_le (abs_le_of_sq_le_sq hbound (mul_nonneg ha hb))
  have : ∑ k, (u k + v k) ^ 2 = ∑ k, u k ^ 2 + 2 * ∑ k, u k * v k + ∑ k, v k ^ 2 := by
    rw [Finset.mul_sum, ← Finset.sum_add_distrib, ← Finset.sum_add_distrib]
    exact Finset.sum_congr rfl fun k _ => by ring
  rw [this]
  nlinarith

/-- A point near all sites of a cluster is near its centroid. -/
theorem sqDist_centroid {y : Fin d → K} {xs : List (Fin d → K)} (hne : xs ≠ []) {c : K}
    (h : ∀ x ∈ xs, sqDist lattice y x ≤ c) : sqDist lattice y (centroid xs) ≤ c := by
  have hp : (0 : K) < xs.length := by exact_mod_cast List.length_pos_iff.2 hne
  set w : Fin d → Fin xs.length → K := fun k i => cart lattice y k - cart lattice xs[i] k with hw
  have e1 : ∀ k, (cart lattice y k - cart lattice (centroid xs) k) * xs.length = ∑ i, w k i := by
    intro k
    simp only [hw, Finset.sum_sub_distrib, Finset.sum_const, Finset.card_univ, Fintype.card_fin,
      nsmul_eq_mul]
    have : cart lattice (centroid xs) k * xs.length = ∑ i : Fin xs.length, cart lattice xs[i] k := by
      unfold cart
      rw [Finset.sum_comm, Finset.sum_mul]
      refine Finset.sum_congr rfl fun j _ => ?_
      rw [← Finset.sum_mul]
      have : ∑ i : Fin xs.length, xs[i] j = (xs.map fun x => x j).sum := by
        rw [← Fin.sum_univ_fun_getElem]
        rfl
      rw [this]
      unfold centroid
      field_simp
    rw [sub_mul, this]
    ring
  have e2 : ∀ k, (cart lattice y k - cart lattice (centroid xs) k) ^ 2 * xs.length
      ≤ ∑ i, w k i ^ 2 := by
    intro k
    have hcs := sq_sum_le_card_mul_sum_sq (s := Finset.univ) (f := w k)
    rw [← e1 k, Finset.card_univ, Fintype.card_fin] at hcs
    have h2 : (cart lattice y k - cart lattice (centroid xs) k) ^ 2 * xs.length * xs.length
        ≤ (∑ i, w k i ^ 2) * xs.length := by
      calc _ = ((cart lattice y k - cart lattice (centroid xs) k) * xs.length) ^ 2 := by ring
        _ ≤ _ := hcs
        _ = _ := by ring
    exact le_of_mul_le_mul_right h2 hp
  have e3 : sqDist lattice y (centroid xs) * xs.length
      ≤ ∑ i : Fin xs.length, sqDist lattice y xs[i] := by
    unfold sqDist
    rw [Finset.sum_mul, Finset.sum_comm]
    exact Finset.sum_le_sum fun k _ => e2 k
  have e4 : ∑ i : Fin xs.length, sqDist lattice y xs[i] ≤ xs.length * c := by
    calc _ ≤ ∑ _i : Fin xs.length, c := Finset.sum_le_sum fun i _ => h _ (List.getElem_mem i.2)
      _ = _ := by simp
  have : sqDist lattice y (centroid xs) * xs.length ≤ c * xs.length := by
    rw [mul_comm c]
    exact e3.trans e4
  exact le_of_mul_le_mul_right this hp

theorem foldr_max_le_iff {c : K} (hc : 0 ≤ c) (l : List K) :
    l.foldr max 0 ≤ c ↔ ∀ x ∈ l, x ≤ c := by
  induction l with
  | nil => simpa using hc
  | cons a l ih => simp [List.foldr_cons, ih]

theorem diam2_le_iff {c : K} (hc : 0 ≤ c) (xs : List (Fin d → K)) :
    diam2 lattice xs ≤ c ↔ ∀ x ∈ xs, ∀ y ∈ xs, sqDist lattice x y ≤ c := by
  unfold diam2
  rw [foldr_max_le_iff hc]
  simp only [List.mem_flatMap, List.mem_map, dist2_eq]
  constructor
  · intro h x hx y hy
    exact h _ ⟨x, hx, y, hy, rfl⟩
  · rintro h _ ⟨x, hx, y, hy, rfl⟩
    exact h x hx y hy

theorem exceeds_eq_false {d2 cut : K} : exceeds d2 cut = false ↔ 0 ≤ cut ∧ d2 ≤ cut ^ 2 := by
  simp [exceeds]

theorem within_iff {D : K} {xs : List (Fin d → K)} :
    Within lattice D xs ↔ exceeds (diam2 lattice xs) D = false := by
  rw [exceeds_eq_false]
  unfold Within
  apply and_congr_right
  intro _
  exact (diam2_le_iff (sq_nonneg D) xs).symm

theorem _root_.Smol.Spec.Within.mono {D D' : K} {xs : List (Fin d → K)} (h : Within lattice D xs) (hD : D ≤ D') :
    Within lattice D' xs := by
  refine ⟨h.1.trans hD, fun x hx y hy => (h.2 x hx y hy).trans ?_⟩
  have := h.1
  nlinarith

theorem _root_.Smol.Spec.Within.subset {D : K} {xs ys : List (Fin d → K)} (h : Within lattice D xs)
    (hs : ∀ y ∈ ys, y ∈ xs) : Within lattice D ys :=
  ⟨h.1, fun x hx y hy => h.2 x (hs x hx) y (hs y hy)⟩

theorem _root_.Smol.Spec.Within.translated {D : K} {xs ys : List (Fin d → K)} (h : Within lattice D xs)
    (ht : Translated ys xs) : Within lattice D ys := by
  obtain ⟨T, ht⟩ := ht
  refine ⟨h.1, fun x hx y hy => ?_⟩
  obtain ⟨x', hx', rfl⟩ := List.mem_map.1 (ht.mem_iff.1 hx)
  obtain ⟨y', hy', rfl⟩ := List.mem_map.1 (ht.mem_iff.1 hy)
  rw [sqDist_shift]
  exact h.2 x' hx' y' hy'

theorem _root_.Smol.Spec.Within.map (X : Crystal lattice ops sites) {D : K} {xs : List (Fin d → K)}
    (h : Within lattice D xs) {g : SymmOp d K} (hg : g ∈ ops) :
    Within lattice D (xs.map g.operate) := by
  refine ⟨h.1, fun x hx y hy => ?_⟩
  obtain ⟨x', hx', rfl⟩ := List.mem_map.1 hx
  obtain ⟨y', hy', rfl⟩ := List.mem_map.1 hy
  rw [X.isometry g hg]
  exact h.2 x' hx' y' hy'

theorem _root_.Smol.Spec.Within.equiv (X : Crystal lattice ops sites) {D : K} {xs ys : List (Fin d → K)}
    (h : Within lattice D xs) (he : SymEquiv ops ys xs) : Within lattice D ys := by
  obtain ⟨g, hg, ht⟩ := he
  exact (h.map X hg).translated ht

/-! ## Sites -/

theorem _root_.Smol.Spec.IsSite.shift {x : Fin d → K} {n : ℕ} (h : IsSite sites x n) (T : Fin d → ℤ) :
    IsSite sites (shift T x) n := by
  obtain ⟨s, hs, hn, S, rfl⟩ := h
  exact ⟨s, hs, hn, _, shift_shift T S s.1⟩

theorem _root_.Smol.Spec.Crystal.number_unique (X : Crystal lattice ops sites) {x : Fin d → K} {n m : ℕ}
    (h : IsSite sites x n) (h' : IsSite sites x m) : n = m := by
  obtain ⟨s, hs, rfl, S, hS⟩ := h
  obtain ⟨t, ht, rfl, T, hT⟩ := h'
  by_cases he : s = t
  · rw [he]
  · exfalso
    have hp := X.distinct
    rw [List.pairwise_iff_forall_sublist] at hp
    rw [hS] at hT
    have h1 : ∃ R : Fin d → ℤ, s.1 = Spec.shift R t.1 := by
      refine ⟨fun i => T i + - S i, ?_⟩
      rw [← shift_shift, ← hT, shift_neg]
    have h2 : ∃ R : Fin d → ℤ, t.1 = Spec.shift R s.1 := by
      refine ⟨fun i => S i + - T i, ?_⟩
      rw [← shift_shift, hT, shift_neg]
    rcases pair_sublist hs ht he with h | h
    · exact hp h h1
    · exact hp h h2

theorem _root_.Smol.Spec.IsCluster.translated {xs ys : List (Fin d → K)} (h : IsCluster sites xs)
    (ht : Translated ys xs) : IsCluster sites ys := by
  refine ⟨ht.nodup h.1, fun y hy => ?_⟩
  obtain ⟨T, ht⟩ := ht
  obtain ⟨x, hx, rfl⟩ := List.mem_map.1 (ht.mem_iff.1 hy)
  obtain ⟨n, hn⟩ := h.2 x hx
  exact ⟨n, IsSite.shift hn T⟩

theorem _root_.Smol.Spec.IsCluster.equiv (X : Crystal lattice ops sites) {xs ys : List (Fin d → K)}
    (h : IsCluster sites xs) (he : SymEquiv ops ys xs) : IsCluster sites ys := by
  obtain ⟨g, hg, ht⟩ := he
  refine IsCluster.translated ⟨X.group.nodup_map hg h.1, ?_⟩ ht
  intro y hy
  obtain ⟨x, hx, rfl⟩ := List.mem_map.1 hy
  obtain ⟨n, hn⟩ := h.2 x hx
  exact ⟨n, X.maps g hg x n hn⟩

/-! ## Listing orbits -/

/-- What is true of every listed orbit. -/
structure GoodOrbit (sites : List ((Fin d → K) × ℕ)) (n : ℕ) (o : GenOrbit d K) : Prop where
  length : o.coords.length = n
  nodup : o.coords.Nodup
  inCell : InCell o.coords
  site : List.Forall₂ (IsSite sites) o.coords o.bits

theorem GoodOrbit.ne_nil {n : ℕ} {o : GenOrbit d K} (h : GoodOrbit sites n o) (hn : 0 < n) :
    o.coords ≠ [] := by
  intro he
  have := h.length
  rw [he] at this
  simp at this
  omega

theorem GoodOrbit.isCluster {n : ℕ} {o : GenOrbit d K} (h : GoodOrbit sites n o) :
    IsCluster sites o.coords := by
  refine ⟨h.nodup, fun x hx => ?_⟩
  obtain ⟨i, hi, rfl⟩ := List.getElem_of_mem hx
  have hi' : i < o.bits.length := by rw [← h.site.length_eq]; exact hi
  exact ⟨o.bits[i], (List.forall₂_iff_get.1 h.site).2 i hi hi'⟩

theorem addOrbits_spec (G : SpaceGroup ops) (cands : List (GenOrbit d K))
    (hc : ∀ c ∈ cands, c.coords ≠ [] ∧ c.coords.Nodup) (acc : List (GenOrbit d K))
    (h1 : acc.Pairwise fun a b => ¬ SymEquiv ops a.coords b.coords) :
    ∃ r, cands.foldlM (addOrbit ops) acc = .ok r ∧
      (∀ o ∈ r, o ∈ acc ∨ o ∈ cands) ∧ (∀ o ∈ acc, o ∈ r) ∧
      (∀ c ∈ cands, ∃ o ∈ r, SymEquiv ops c.coords o.coords) ∧
      r.Pairwise fun a b => ¬ SymEquiv ops a.coords b.coords := by
  induction cands generalizing acc with
  | nil => exact ⟨acc, rfl, fun o h => Or.inl h, fun o h => h, by simp, h1⟩
  | cons c cs ih =>
    have hcc := hc c (by simp)
    have hstep : addOrbit ops acc c = .ok
        (if (acc.any fun p => (orbitImages ops c.coords).any fun e => clusterEq e p.coords) = true
          then acc else acc ++ [c]) := by
      unfold addOrbit
      rw [orbitClusters_ok G hcc.1 hcc.2]
      simp only [bind, Except.bind, pure, Except.pure]
      split <;> rfl
    rw [List.foldlM_cons, hstep]
    simp only [bind, Except.bind]
    split
    · next hany =>
      obtain ⟨p, hp, hpe⟩ := List.any_eq_true.1 hany
      have hpe := (any_clusterEq_iff G hcc.1 hcc.2).1 hpe
      obtain ⟨r, hr, i1, i2, i3, i4⟩ := ih (fun e he => hc e (by simp [he])) acc h1
      refine ⟨r, hr, ?_, i2, ?_, i4⟩
      · intro o ho
        rcases i1 o ho with h | h
        · exact Or.inl h
        · exact Or.inr (by simp [h])
      · intro e he
        rcases List.mem_cons.1 he with rfl | he
        · exact ⟨p, i2 p hp, SymEquiv.symm G hpe⟩
        · exact i3 e he
    · next hany =>
      have hnot : ∀ p ∈ acc, ¬ SymEquiv ops p.coords c.coords := by
        intro p hp hs
        apply hany
        rw [List.any_eq_true]
        exact ⟨p, hp, (any_clusterEq_iff G hcc.1 hcc.2).2 hs⟩
      obtain ⟨r, hr, i1, i2, i3, i4⟩ := ih (fun e he => hc e (by simp [he])) (acc ++ [c])
        (by
          rw [List.pairwise_append]
          refine ⟨h1, by simp, ?_⟩
          intro p hp e he
          rw [List.mem_singleton] at he
          subst he
          exact hnot p hp)
      refine ⟨r, hr, ?_, fun o ho => i2 o (by simp [ho]), ?_, i4⟩
      · intro o ho
        rcases i1 o ho with h | h
        · rcases List.mem_append.1 h with h | h
          · exact Or.inl h
          · rw [List.mem_singleton] at h; exact Or.inr (by simp [h])
        · exact Or.inr (by simp [h])
      · intro e he
        rcases List.mem_cons.1 he with rfl | he
        · exact ⟨e, i2 e (by simp), SymEquiv.refl G _⟩
        · exact i3 e he

theorem sort_inequivalent (G : SpaceGroup ops) (le : GenOrbit d K → GenOrbit d K → Prop)
    [DecidableRel le] {r : List (GenOrbit d K)}
    (h : r.Pairwise fun a b => ¬ SymEquiv ops a.coords b.coords) :
    (r.insertionSort le).Pairwise fun a b => ¬ SymEquiv ops a.coords b.coords := by
  refine (List.Perm.pairwise_iff ?_ (List.perm_insertionSort le r)).2 h
  intro a b hab hba
  exact hab (SymEquiv.symm G hba)

/-! ## Candidates -/

theorem candidates_good {eps cut : K} {neighbors : List ((Fin d → K) × ℕ)}
    (hn : ∀ y n, (y, n) ∈ neighbors → IsSite sites y n) {prev : List (GenOrbit d K)} {n : ℕ}
    (hprev : ∀ o ∈ prev, GoodOrbit sites n o) :
    ∀ c ∈ candidates lattice eps cut neighbors prev,
      GoodOrbit sites (n + 1) c ∧ Within lattice (cut + eps) c.coords := by
  intro c hc
  unfold candidates at hc
  obtain ⟨o, ho, hc⟩ := List.mem_flatMap.1 hc
  split at hc
  · simp at hc
  · obtain ⟨⟨y, m⟩, hy, hc⟩ := List.mem_filterMap.1 hc
    simp only at hc
    split at hc
    · simp at hc
    · next hnot =>
      split at hc
      · simp at hc
      · next hex =>
        simp only [Option.some.injEq] at hc
        subst hc
        have hg := hprev o ho
        have hnd : (o.coords ++ [y]).Nodup := by
          rw [List.nodup_append]
          refine ⟨hg.nodup, by simp, ?_⟩
          intro a ha b hb
          rw [List.mem_singleton] at hb
          subst hb
          rintro rfl
          exact hnot ha
        refine ⟨⟨?_, (mkCluster_translated _).nodup hnd, mkCluster_inCell (by simp), ?_⟩, ?_⟩
        · rw [mkCluster_length, List.length_append, hg.length]; rfl
        · simp only
          rw [mkCluster_eq, List.forall₂_map_left_iff]
          have h2 : List.Forall₂ (IsSite sites) (o.coords ++ [y]) (o.bits ++ [m]) :=
            List.rel_append hg.site (by simpa using hn y m hy)
          exact h2.imp fun x b hxb => IsSite.shift hxb _
        · rw [within_iff]
          simpa using hex

theorem mem_candidates {eps cut : K} {neighbors : List ((Fin d → K) × ℕ)}
    {prev : List (GenOrbit d K)} {o : GenOrbit d K} (ho : o ∈ prev) (hw : Within lattice cut o.coords)
    {y : Fin d → K} {m : ℕ} (hy : (y, m) ∈ neighbors) (hnot : y ∉ o.coords)
    (hw' : Within lattice (cut + eps) (o.coords ++ [y])) :
    (⟨mkCluster (o.coords ++ [y]), o.bits ++ [m]⟩ : GenOrbit d K) ∈
      candidates lattice eps cut neighbors prev := by
  unfold candidates
  rw [List.mem_flatMap]
  refine ⟨o, ho, ?_⟩
  rw [within_iff.1 hw]
  simp only [Bool.false_eq_true, if_false, List.mem_filterMap]
  refine ⟨(y, m), hy, ?_⟩
  simp only
  rw [if_neg hnot, within_iff.1 (hw'.translated (mkCluster_translated _))]
  simp

theorem of_mem_candidates {eps cut : K} {neighbors : List ((Fin d → K) × ℕ)}
    {prev : List (GenOrbit d K)} {c : GenOrbit d K}
    (hc : c ∈ candidates lattice eps cut neighbors prev) :
    ∃ o ∈ prev, ∃ y m, (y, m) ∈ neighbors ∧ y ∉ o.coords ∧
      c.coords = mkCluster (o.coords ++ [y]) := by
  unfold candidates at hc
  obtain ⟨o, ho, hc⟩ := List.mem_flatMap.1 hc
  split at hc
  · simp at hc
  · obtain ⟨⟨y, m⟩, hy, hc⟩ := List.mem_filterMap.1 hc
    simp only at hc
    split at hc
    · simp at hc
    · next hnot =>
      split at hc
      · simp at hc
      · simp only [Option.some.injEq] at hc
        subst hc
        exact ⟨o, ho, y, m, hy, hnot, rfl⟩

/-- Every cluster within the cutoff is equivalent to a candidate. -/
theorem candidates_complete (X : Crystal lattice ops sites) {eps cut margin : K} (heps : 0 ≤ eps)
    {sphere : K → List ((Fin d → K) × ℕ)} (hs : SphereSearch lattice sites margin sphere)
    (hm : 0 ≤ margin)
    (hcov : ∀ x : Fin d → K, (∀ i, 0 ≤ x i ∧ x i < 1) →
      sqDist lattice x (fun _ => 1 / 2) ≤ margin ^ 2)
    {prev : List (GenOrbit d K)} {n : ℕ} (hn : 0 < n) (hprev : ∀ o ∈ prev, GoodOrbit sites n o)
    (hall : ∀ A : List (Fin d → K), IsCluster sites A → A.length = n → Within lattice cut A →
      ∃ o ∈ prev, SymEquiv ops A o.coords)
    (A : List (Fin d → K)) (hA : IsCluster sites A) (hl : A.length = n + 1)
    (hw : Within lattice cut A) :
    ∃ c ∈ candidates lattice eps cut (sphere cut) prev, SymEquiv ops A c.coords := by
  have G := X.group
  obtain ⟨B, x, rfl⟩ : ∃ B x, A = B ++ [x] := by
    refine ⟨A.dropLast, A.getLast (by rintro rfl; simp at hl), ?_⟩
    exact (List.dropLast_append_getLast _).symm
  have hlB : B.length = n := by simpa using hl
  have hB : IsCluster sites B :=
    ⟨(List.nodup_append.1 hA.1).1, fun y hy => hA.2 y (by simp [hy])⟩
  have hwB : Within lattice cut B := hw.subset fun y hy => by simp [hy]
  obtain ⟨o, ho, hBo⟩ := hall B hB hlB hwB
  have hgo := hprev o ho
  have hone := hgo.ne_nil hn
  obtain ⟨g, hg, T, hT⟩ := SymEquiv.symm G hBo
  -- the last site, moved along
  set y := shift T (g.operate x) with hy
  have hyx : ∀ z ∈ o.coords, ∃ b ∈ B, z = shift T (g.operate b) := by
    intro z hz
    obtain ⟨z', hz', rfl⟩ := List.mem_map.1 (hT.mem_iff.1 hz)
    obtain ⟨b, hb, rfl⟩ := List.mem_map.1 hz'
    exact ⟨b, hb, rfl⟩
  have hnew : Translated (o.coords ++ [y]) ((B ++ [x]).map g.operate) := by
    refine ⟨T, ?_⟩
    rw [List.map_append, List.map_append]
    exact hT.append (by simp [hy])
  have hynot : y ∉ o.coords := by
    intro h
    obtain ⟨b, hb, he⟩ := hyx y h
    have : x = b := G.injective hg (shift_inj T he)
    subst this
    have := (List.nodup_append.1 hA.1).2.2 x hb x (by simp)
    exact this rfl
  have hdist : ∀ z ∈ o.coords, sqDist lattice y z ≤ cut ^ 2 := by
    intro z hz
    obtain ⟨b, hb, rfl⟩ := hyx z hz
    rw [hy, sqDist_shift, X.isometry g hg]
    exact hw.2 x (by simp) b (by simp [hb])
  have hcent := sqDist_centroid (lattice := lattice) hone hdist
  have hsph := sqDist_triangle hw.1 hm hcent (hcov _ hgo.inCell)
  obtain ⟨m, hm'⟩ := hA.2 x (by simp)
  have hmem : (y, m) ∈ sphere cut := by
    rw [hs]
    exact ⟨IsSite.shift (X.maps g hg x m hm') T, add_nonneg hw.1 hm, hsph⟩
  have hwo : Within lattice cut (o.coords ++ [y]) := (hw.map X hg).translated hnew
  exact ⟨_, mem_candidates ho (hwo.subset fun z hz => by simp [hz]) hmem hynot
    (hwo.mono (by linarith)),
    SymEquiv.symm G ⟨g, hg, (mkCluster_translated _).trans hnew⟩⟩

/-! ## Whole runs -/

theorem genPointOrbits_spec (G : SpaceGroup ops) (sites : List ((Fin d → K) × ℕ)) :
    ∃ r, genPointOrbits ops sites = .ok r ∧ (∀ o ∈ r, GoodOrbit sites 1 o) ∧
      (∀ A : List (Fin d → K), IsCluster sites A → A.length = 1 →
        ∃ o ∈ r, SymEquiv ops A o.coords) ∧
      r.Pairwise fun a b => ¬ SymEquiv ops a.coords b.coords := by
  have hcand : ∀ c ∈ sites.map fun s =>
      (⟨mkCluster [fun i => Int.fract (s.1 i)], [s.2]⟩ : GenOrbit d K), GoodOrbit sites 1 c := by
    intro c hc
    obtain ⟨s, hs, rfl⟩ := List.mem_map.1 hc
    refine ⟨by simp [mkCluster_length], (mkCluster_translated _).nodup (by simp),
      mkCluster_inCell (by simp), ?_⟩
    simp only
    rw [mkCluster_eq, List.forall₂_map_left_iff]
    refine List.Forall₂.cons (IsSite.shift ⟨s, hs, rfl, fun i => - ⌊s.1 i⌋, ?_⟩ _) .nil
    funext i
    simp only [shift, Int.fract]
    push_cast
    ring
  obtain ⟨r, hr, i1, -, i3, i4⟩ := addOrbits_spec G _ (fun c hc =>
    ⟨(hcand c hc).ne_nil (by omega), (hcand c hc).nodup⟩) [] List.Pairwise.nil
  refine ⟨r.insertionSort fun a b => pointLE ops a b = true, ?_, ?_, ?_, sort_inequivalent G _ i4⟩
  · unfold genPointOrbits
    rw [hr]
    rfl
  · intro o ho
    rcases i1 o ((List.mem_insertionSort _).1 ho) with h | h
    · simp at h
    · exact hcand o h
  · intro A hA hl
    obtain ⟨x, rfl⟩ := List.length_eq_one_iff.1 hl
    obtain ⟨n, s, hs, rfl, T, rfl⟩ := hA.2 x (by simp)
    obtain ⟨o, ho, he⟩ := i3 _ (List.mem_map.2 ⟨s, hs, rfl⟩)
    refine ⟨o, (List.mem_insertionSort _).2 ho, SymEquiv.trans G (SymEquiv.of_translated G ?_) he⟩
    refine Translated.trans ?_ (mkCluster_translated _).symm
    refine ⟨fun i => T i + ⌊s.1 i⌋, ?_⟩
    have : shift T s.1 = shift (fun i => T i + ⌊s.1 i⌋) fun i => Int.fract (s.1 i) := by
      funext i
      simp only [shift, Int.fract]
      push_cast
      ring
    rw [this]
    simp

theorem multiLE_trans (a b c : GenOrbit d K) (h1 : multiLE lattice ops a b = true)
    (h2 : multiLE lattice ops b c = true) : multiLE lattice ops a c = true := by
  simp only [multiLE, pointLE, Bool.or_eq_true, Bool.and_eq_true, decide_eq_true_eq] at *
  rcases h1 with h1 | ⟨h1, h1'⟩ <;> rcases h2 with h2 | ⟨h2, h2'⟩
  · exact Or.inl (h1.trans h2)
  · exact Or.inl (h2 ▸ h1)
  · exact Or.inl (h1 ▸ h2)
  · refine Or.inr ⟨h1.trans h2, ?_⟩
    omega

theorem multiLE_total (a b : GenOrbit d K) :
    multiLE lattice ops a b = true ∨ multiLE lattice ops b a = true := by
  simp only [multiLE, pointLE, Bool.or_eq_true, Bool.and_eq_true, decide_eq_true_eq]
  rcases lt_trichotomy (diam2 lattice a.coords) (diam2 lattice b.coords) with h | h | h
  · exact Or.inl (Or.inl h)
  · have : ∀ p q r s : ℕ, (q < p ∨ (p = q ∧ r ≤ s)) ∨ (p < q ∨ (q = p ∧ s ≤ r)) := by
      intros; omega
    rcases this (orbitImages ops a.coords).length (orbitImages ops b.coords).length
      (a.numFunctions ops) (b.numFunctions ops) with h' | h'
    · exact Or.inl (Or.inr ⟨h, h'⟩)
    · exact Or.inr (Or.inr ⟨h.symm, h'⟩)
  · exact Or.inr (Or.inl h)

theorem multiLE_diam {a b : GenOrbit d K} (h : multiLE lattice ops a b = true) :
    diam2 lattice a.coords ≤ diam2 lattice b.coords := by
  simp only [multiLE, Bool.or_eq_true, Bool.and_eq_true, decide_eq_true_eq] at h
  rcases h with h | h
  · exact h.le
  · exact h.1.le

theorem genSize_spec (G : SpaceGroup ops) {eps : K} {sphere : K → List ((Fin d → K) × ℕ)}
    {cutoff : ℕ × K} (hs : ∀ y n, (y, n) ∈ sphere cutoff.2 → IsSite sites y n)
    {orbits : List (ℕ × List (GenOrbit d K))} {prev : List (GenOrbit d K)} {n : ℕ}
    (hn : cutoff.1 = n + 1) (hl : orbits.lookup n = some prev)
    (hprev : ∀ o ∈ prev, GoodOrbit sites n o) :
    ∃ new, genSize lattice eps ops sphere orbits cutoff =
        .ok (if new.isEmpty then orbits else orbits ++ [(n + 1, new)]) ∧
      (∀ o ∈ new, GoodOrbit sites (n + 1) o ∧ Within lattice (cutoff.2 + eps) o.coords) ∧
      (∀ o ∈ new, o ∈ candidates lattice eps cutoff.2 (sphere cutoff.2) prev) ∧
      (∀ c ∈ candidates lattice eps cutoff.2 (sphere cutoff.2) prev,
        ∃ o ∈ new, SymEquiv ops c.coords o.coords) ∧
      (new.Pairwise fun a b => ¬ SymEquiv ops a.coords b.coords) ∧
      new.Pairwise fun a b => diam2 lattice a.coords ≤ diam2 lattice b.coords := by
  have hcand := candidates_good (lattice := lattice) (eps := eps) (cut := cutoff.2) hs hprev
  obtain ⟨r, hr, i1, -, i3, i4⟩ := addOrbits_spec G _ (fun c hc =>
    ⟨(hcand c hc).1.ne_nil (by omega), (hcand c hc).1.nodup⟩) [] List.Pairwise.nil
  refine ⟨r.insertionSort fun a b => multiLE lattice ops a b = true, ?_, ?_, ?_, ?_,
    sort_inequivalent G _ i4, ?_⟩
  · unfold genSize
    rw [hn, Nat.add_sub_cancel, hl]
    simp only
    rw [hr]
    simp only [bind, Except.bind, pure, Except.pure]
    have : (r.insertionSort fun a b => multiLE lattice ops a b = true).isEmpty = r.isEmpty := by
      rw [Bool.eq_iff_iff, List.isEmpty_iff_length_eq_zero, List.isEmpty_iff_length_eq_zero,
        List.length_insertionSort]
    rw [this]
    split <;> rfl
  · intro o ho
    rcases i1 o ((List.mem_insertionSort _).1 ho) with h | h
    · simp at h
    · exact hcand o h
  · intro o ho
    rcases i1 o ((List.mem_insertionSort _).1 ho) with h | h
    · simp at h
    · exact h
  · intro c hc
    obtain ⟨o, ho, he⟩ := i3 c hc
    exact ⟨o, (List.mem_insertionSort _).2 ho, he⟩
  · have : Std.Total fun a b : GenOrbit d K => multiLE lattice ops a b = true :=
      ⟨multiLE_total⟩
    have : IsTrans (GenOrbit d K) fun a b => multiLE lattice ops a b = true :=
      ⟨multiLE_trans⟩
    exact (List.pairwise_insertionSort (fun a b : GenOrbit d K => multiLE lattice ops a b = true)
      r).imp fun h => multiLE_diam h

theorem lookup_append_of_some {α β : Type*} [BEq α] {l l' : List (α × β)} {a : α} {b : β}
    (h : l.lookup a = some b) : (l ++ l').lookup a = some b := by
  rw [List.lookup_append, h]
  rfl

theorem mem_of_lookup {α β : Type*} [BEq α] [LawfulBEq α] {l : List (α × β)} {a : α} {b : β}
    (h : l.lookup a = some b) : (a, b) ∈ l := by
  rw [List.lookup_eq_some_iff] at h
  obtain ⟨l1, l2, rfl, -⟩ := h
  simp

/-- What is true of the dictionary of orbits at any time. -/
structure GoodEntry (lattice : Fin d → Fin d → K) (eps : K) (ops : List (SymmOp d K))
    (sites : List ((Fin d → K) × ℕ)) (sphere : K → List ((Fin d → K) × ℕ))
    (cutoffs : List (ℕ × K)) (e : ℕ × List (GenOrbit d K)) : Prop where
  pos : 1 ≤ e.1
  good : ∀ o ∈ e.2, GoodOrbit sites e.1 o
  within : e.1 = 1 ∨ ∃ D, (e.1, D) ∈ cutoffs ∧ ∀ o ∈ e.2, Within lattice (D + eps) o.coords
  distinct : e.2.Pairwise fun a b => ¬ SymEquiv ops a.coords b.coords
  sorted : e.1 = 1 ∨ e.2.Pairwise fun a b => diam2 lattice a.coords ≤ diam2 lattice b.coords
  nonempty : e.1 = 1 ∨ e.2 ≠ []
  origin : e.1 = 1 ∨ ∃ D prev, (e.1, D) ∈ cutoffs ∧ (∀ p ∈ prev, GoodOrbit sites (e.1 - 1) p) ∧
    ∀ o ∈ e.2, o ∈ candidates lattice eps D (sphere D) prev

theorem genSize_good (G : SpaceGroup ops) {eps : K} {sphere : K → List ((Fin d → K) × ℕ)}
    (hs : ∀ D y n, (y, n) ∈ sphere D → IsSite sites y n) {cutoffs : List (ℕ × K)}
    {c : ℕ × K} (hc : c ∈ cutoffs) {r : List (ℕ × List (GenOrbit d K))}
    (hr : ∀ e ∈ r, GoodEntry lattice eps ops sites sphere cutoffs e) :
    (genSize lattice eps ops sphere r c = .error .key ∧ r.lookup (c.1 - 1) = none) ∨
    ∃ prev new, r.lookup (c.1 - 1) = some prev ∧ c.1 = c.1 - 1 + 1 ∧
      genSize lattice eps ops sphere r c =
        .ok (if new.isEmpty then r else r ++ [(c.1, new)]) ∧
      (∀ e ∈ (if new.isEmpty then r else r ++ [(c.1, new)]),
        GoodEntry lattice eps ops sites sphere cutoffs e) ∧
      (∀ o ∈ new, GoodOrbit sites c.1 o) ∧
      (∀ e ∈ candidates lattice eps c.2 (sphere c.2) prev,
        ∃ o ∈ new, SymEquiv ops e.coords o.coords) := by
  rcases hl : r.lookup (c.1 - 1) with _ | prev
  · left
    refine ⟨?_, rfl⟩
    unfold genSize
    rw [hl]
  · right
    have hmem := mem_of_lookup hl
    have hge := hr _ hmem
    have hpos : 1 ≤ c.1 - 1 := hge.pos
    have hn : c.1 = c.1 - 1 + 1 := by omega
    obtain ⟨new, h1, h2, h2', h3, h4, h5⟩ := genSize_spec (lattice := lattice) (eps := eps) G
      (fun y n => hs c.2 y n) hn hl hge.good
    rw [← hn] at h1 h2
    refine ⟨prev, new, rfl, hn, h1, ?_, fun o ho => (h2 o ho).1, h3⟩
    intro e he
    split at he
    · exact hr e he
    · next hne =>
      rcases List.mem_append.1 he with he | he
      · exact hr e he
      · rw [List.mem_singleton] at he
        subst he
        refine ⟨by simp only; omega, fun o ho => (h2 o ho).1,
          Or.inr ⟨c.2, hc, fun o ho => (h2 o ho).2⟩, h4, Or.inr h5, Or.inr ?_,
          Or.inr ⟨c.2, prev, hc, hge.good, h2'⟩⟩
        intro h0
        simp only at h0
        rw [h0] at hne
        simp at hne

theorem genSizes_good (G : SpaceGroup ops) {eps : K} {sphere : K → List ((Fin d → K) × ℕ)}
    (hs : ∀ D y n, (y, n) ∈ sphere D → IsSite sites y n) {cutoffs : List (ℕ × K)}
    (l : List (ℕ × K)) (hc : ∀ c ∈ l, c ∈ cutoffs) (r : List (ℕ × List (GenOrbit d K)))
    (hr : ∀ e ∈ r, GoodEntry lattice eps ops sites sphere cutoffs e) :
    l.foldlM (genSize lattice eps ops sphere) r = .error .key ∨
    ∃ r', l.foldlM (genSize lattice eps ops sphere) r = .ok r' ∧
      (∀ e ∈ r', GoodEntry lattice eps ops sites sphere cutoffs e) ∧
      (r'.map Prod.fst).Sublist (r.map Prod.fst ++ l.map Prod.fst) ∧
      (∀ n os, r.lookup n = some os → r'.lookup n = some os) ∧
      ∀ c ∈ l, ∃ os, r'.lookup (c.1 - 1) = some os := by
  induction l generalizing r with
  | nil => exact Or.inr ⟨r, rfl, hr, by simp, fun n os h => h, by simp⟩
  | cons c cs ih =>
    rw [List.foldlM_cons]
    rcases genSize_good G hs (hc c (by simp)) hr with ⟨h, -⟩ | ⟨prev, new, hl, -, h1, h2, -, -⟩
    · left
      rw [h]
      rfl
    · rw [h1]
      simp only [bind, Except.bind]
      rcases ih (fun c hc' => hc c (by simp [hc'])) _ h2 with h | ⟨r', h3, h4, h5, h6, h7⟩
      · exact Or.inl h
      · right
        have hkeep : ∀ n os, r.lookup n = some os →
            (if new.isEmpty then r else r ++ [(c.1, new)]).lookup n = some os := by
          intro n os h
          split
          · exact h
          · exact lookup_append_of_some h
        refine ⟨r', h3, h4, h5.trans ?_, fun n os h => h6 n os (hkeep n os h), ?_⟩
        · split
          · exact List.Sublist.append (List.Sublist.refl _) (by simp)
          · rw [List.map_append, List.append_assoc]
            exact List.Sublist.append (List.Sublist.refl _) (by simp)
        · intro e he
          rcases List.mem_cons.1 he with rfl | he
          · exact ⟨prev, h6 _ _ (hkeep _ _ hl)⟩
          · exact h7 e he

/-- The whole run, for any cutoffs. -/
theorem genFromCutoffs_good (G : SpaceGroup ops) {eps : K}
    {sphere : K → List ((Fin d → K) × ℕ)} (hs : ∀ D y n, (y, n) ∈ sphere D → IsSite sites y n)
    {point : Option (Option K)} (hp : point ≠ some none) (cutoffs : List (ℕ × K)) :
    genFromCutoffs lattice eps ops sites sphere point cutoffs = .error .key ∨
    ∃ r, genFromCutoffs lattice eps ops sites sphere point cutoffs = .ok r ∧
      (∀ e ∈ r, GoodEntry lattice eps ops sites sphere cutoffs e) ∧
      (r.map Prod.fst).Sublist (1 :: cutoffs.map Prod.fst) ∧
      (∃ os, r.lookup 1 = some os) ∧
      ∀ c ∈ cutoffs, ∃ os, r.lookup (c.1 - 1) = some os := by
  obtain ⟨pts, h1, h2, -, h4⟩ := genPointOrbits_spec G sites
  have hrun : genFromCutoffs lattice eps ops sites sphere point cutoffs =
      cutoffs.foldlM (genSize lattice eps ops sphere) [(1, pts)] := by
    unfold genFromCutoffs
    split
    · exact absurd rfl hp
    · rw [h1]
      rfl
  rw [hrun]
  rcases genSizes_good (lattice := lattice) (eps := eps) (cutoffs := cutoffs) G hs cutoffs
      (fun c hc => hc) [(1, pts)] (by
        intro e he
        rw [List.mem_singleton] at he
        subst he
        exact ⟨le_refl _, h2, Or.inl rfl, h4, Or.inl rfl, Or.inl rfl, Or.inl rfl⟩) with h | ⟨r, g1, g2, g3, g4, g5⟩
  · exact Or.inl h
  · exact Or.inr ⟨r, g1, g2, by simpa using g3, ⟨pts, g4 1 pts (by simp)⟩, g5⟩

theorem ofSize_of_lookup {r : List (ℕ × List (GenOrbit d K))} {n : ℕ} {os : List (GenOrbit d K)}
    (h : r.lookup n = some os) : ofSize r n = os := by
  unfold ofSize
  rw [h]
  rfl

/-- Runs with consecutive sizes and falling cutoffs are complete. -/
theorem genSizes_complete (X : Crystal lattice ops sites) {eps margin : K} (heps : 0 ≤ eps)
    {sphere : K → List ((Fin d → K) × ℕ)} (hs : SphereSearch lattice sites margin sphere)
    (hm : 0 ≤ margin)
    (hcov : ∀ x : Fin d → K, (∀ i, 0 ≤ x i ∧ x i < 1) →
      sqDist lattice x (fun _ => 1 / 2) ≤ margin ^ 2)
    (D : ℕ → K) (hD : ∀ n, 2 ≤ n → D (n + 1) ≤ D n) (cutoffs : List (ℕ × K)) (N : ℕ)
    (hc : ∀ k < N, (k + 2, D (k + 2)) ∈ cutoffs) (pts : List (GenOrbit d K))
    (h2 : ∀ o ∈ pts, GoodOrbit sites 1 o)
    (h3 : ∀ A : List (Fin d → K), IsCluster sites A → A.length = 1 →
        ∃ o ∈ pts, SymEquiv ops A o.coords)
    (h4 : pts.Pairwise fun a b => ¬ SymEquiv ops a.coords b.coords) :
    (((List.range N).map fun k => (k + 2, D (k + 2))).foldlM (genSize lattice eps ops sphere)
        [(1, pts)] = .error .key ∧
      ∃ n, 2 ≤ n ∧ n ≤ N ∧ ¬ ∃ A, IsCluster sites A ∧ A.length = n ∧ Within lattice (D n) A) ∨
    ∃ r, ((List.range N).map fun k => (k + 2, D (k + 2))).foldlM (genSize lattice eps ops sphere)
        [(1, pts)] = .ok r ∧
      (∀ e ∈ r, GoodEntry lattice eps ops sites sphere cutoffs e) ∧
      (∀ n, N + 1 < n → r.lookup n = none) ∧
      ∀ n, 1 ≤ n → n ≤ N + 1 → ∀ A : List (Fin d → K), IsCluster sites A → A.length = n →
        (n = 1 ∨ Within lattice (D n) A) → ∃ o ∈ ofSize r n, SymEquiv ops A o.coords := by
  have G := X.group
  have hss : ∀ D y n, (y, n) ∈ sphere D → IsSite sites y n := fun D y n h => ((hs D y n).1 h).1
  induction N with
  | zero =>
    right
    refine ⟨[(1, pts)], rfl, ?_, ?_, ?_⟩
    · intro e he
      rw [List.mem_singleton] at he
      subst he
      exact ⟨le_refl _, h2, Or.inl rfl, h4, Or.inl rfl, Or.inl rfl, Or.inl rfl⟩
    · intro n hn
      have : (n == 1) = false := by simp; omega
      simp [List.lookup, this]
    · intro n h1 h1' A hA hl _
      have : n = 1 := by omega
      subst this
      rw [ofSize_of_lookup (os := pts) (by simp)]
      exact h3 A hA hl
  | succ N ih =>
    rw [List.range_succ, List.map_append, List.foldlM_append]
    rcases ih (fun k hk => hc k (by omega)) with ⟨h, n, hn1, hn2, hn3⟩ | ⟨r, g1, g2, g3, g4⟩
    · left
      rw [h]
      exact ⟨rfl, n, hn1, by omega, hn3⟩
    · rw [g1]
      simp only [bind, Except.bind, List.map_cons, List.map_nil, List.foldlM_cons, List.foldlM_nil]
      rcases genSize_good (lattice := lattice) (eps := eps) G hss (hc N (by omega)) g2 with
        ⟨h, hl⟩ | ⟨prev, new, hl, -, k1, k2, k3, k4⟩
      · left
        rw [h]
        refine ⟨rfl, N + 1, ?_, le_refl _, ?_⟩
        · -- size 1 is always there
          by_contra hlt
          have hN : N = 0 := by omega
          subst hN
          simp only [List.range_zero, List.map_nil, List.foldlM_nil, pure, Except.pure,
            Except.ok.injEq] at g1
          subst g1
          simp at hl
        · rintro ⟨A, hA, hlA, hw⟩
          obtain ⟨o, ho, -⟩ := g4 (N + 1) (by omega) (le_refl _) A hA hlA (Or.inr hw)
          unfold ofSize at ho
          have : N + 2 - 1 = N + 1 := by omega
          simp only [this] at hl
          rw [hl] at ho
          simp at ho
      · right
        have e1 : N + 2 - 1 = N + 1 := by omega
        simp only [e1] at hl
        rw [k1]
        simp only [pure, Except.pure]
        refine ⟨_, rfl, k2, ?_, ?_⟩
        · intro n hn
          have hr := g3 n (by omega)
          split
          · exact hr
          · rw [List.lookup_append, hr]
            have : (n == N + 2) = false := by simp; omega
            simp [List.lookup, this]
        · intro n hn1 hn2 A hA hlA hw
          by_cases hlast : n = N + 2
          · subst hlast
            have hw' : Within lattice (D (N + 2)) A := by
              rcases hw with h | h
              · omega
              · exact h
            have hnew : ofSize (if new.isEmpty then r else r ++ [(N + 2, new)]) (N + 2) = new := by
              have hr := g3 (N + 2) (by omega)
              unfold ofSize
              split
              · next he =>
                rw [hr, List.isEmpty_iff.1 he]
                rfl
              · rw [List.lookup_append, hr]
                simp
            rw [hnew]
            have hgp := g2 _ (mem_of_lookup hl)
            obtain ⟨c, hcm, hce⟩ := candidates_complete X heps hs hm hcov (cut := D (N + 2))
              (n := N + 1) (by omega) hgp.good (by
                intro B hB hlB hwB
                rw [← ofSize_of_lookup hl]
                refine g4 (N + 1) (by omega) (le_refl _) B hB hlB ?_
                by_cases h1 : N + 1 = 1
                · exact Or.inl h1
                · exact Or.inr (hwB.mono (hD (N + 1) (by omega)))) A hA hlA hw'
            obtain ⟨o, ho, hoe⟩ := k4 c hcm
            exact ⟨o, ho, SymEquiv.trans G hce hoe⟩
          · obtain ⟨o, ho, he⟩ := g4 n hn1 (by omega) A hA hlA hw
            refine ⟨o, ?_, he⟩
            unfold ofSize at ho ⊢
            rcases hln : r.lookup n with _ | os
            · rw [hln] at ho
              simp at ho
            · rw [hln] at ho
              split
              · rw [hln]
                exact ho
              · rw [lookup_append_of_some hln]
                exact ho

end Smol
