import Verif.Lemmas.OrbitWitness
import Mathlib.Algebra.Order.Archimedean.Basic

/-!
# C71, C72: orbits are symmetry classes; the subspace made from cutoffs

Models: `Verif/Model/OrbitGen.lean` (smol/cofe/space/cluster.py, smol/cofe/space/orbit.py,
`_gen_orbits_from_cutoffs` of smol/cofe/space/clusterspace.py).
-/

set_option linter.unusedSectionVars false

namespace Smol
open Spec

variable {d : ℕ} {K : Type*} [Field K] [LinearOrder K] [IsStrictOrderedRing K] [FloorRing K]
variable {lattice : Fin d → Fin d → K} {ops : List (SymmOp d K)} {sites : List ((Fin d → K) × ℕ)}

/-! ## C71 -/

/-- **C71.** The clusters of an orbit are the images of its base cluster: each is equivalent to it,
and every cluster of the crystal equivalent to it is, up to a lattice vector, exactly one of them. -/
theorem C71_classes (G : SpaceGroup ops) {base : List (Fin d → K)} (hne : base ≠ [])
    (hnd : base.Nodup) :
    ∃ cl, orbitClusters ops base = .ok cl ∧ base ∈ cl ∧ (∀ c ∈ cl, SymEquiv ops c base) ∧
      ∀ b, SymEquiv ops b base → ∃! c, c ∈ cl ∧ Translated b c := by
  obtain ⟨h1, h2, h3, h4⟩ := orbitImages_spec G hne hnd
  refine ⟨_, orbitClusters_ok G hne hnd, h1, fun c hc => (h2 c hc).2.2, ?_⟩
  rintro b ⟨g, hg, hb⟩
  obtain ⟨c, hc, hcg⟩ := h3 g hg
  refine ⟨c, ⟨hc, hb.trans hcg.symm⟩, ?_⟩
  rintro c' ⟨hc', hbc'⟩
  by_contra hcc
  have ht : Translated c' c := hbc'.symm.trans (hb.trans hcg.symm)
  rw [List.pairwise_iff_forall_sublist] at h4
  rcases pair_sublist hc' hc hcc with h | h
  · exact h4 h ht
  · exact h4 h ht.symm

/-- **C71.** The multiplicity of an orbit times the number of operations that map its base cluster
to itself (up to a lattice vector) is the number of operations: the consistency check of the code
never fails. -/
theorem C71_multiplicity (G : SpaceGroup ops) {base : List (Fin d → K)} (hne : base ≠ [])
    (hnd : base.Nodup) :
    ∃ cl, orbitClusters ops base = .ok cl ∧
      cl.length * (clusterSymops ops base).length = ops.length ∧
      (clusterSymops ops base).Nodup ∧
      ∀ g, g ∈ clusterSymops ops base ↔ g ∈ ops ∧ Translated (base.map g.operate) base :=
  ⟨_, orbitClusters_ok G hne hnd, orbit_card G hne hnd, G.nodup.filter _,
    clusterSymops_iff G hne hnd⟩

/-- Lists of representatives of the same classes. -/
theorem length_le_of_classes {α : Type*} {R : α → α → Prop} (hsymm : ∀ a b, R a b → R b a)
    (htrans : ∀ a b c, R a b → R b c → R a c) {l l' : List α} (hl : l.Pairwise fun a b => ¬ R a b)
    (h : ∀ a ∈ l, ∃ b ∈ l', R a b) : l.length ≤ l'.length := by
  have h' : ∀ i : Fin l.length, ∃ j : Fin l'.length, R l[i] l'[j] := by
    intro i
    obtain ⟨b, hb, hr⟩ := h _ (List.getElem_mem i.2)
    obtain ⟨j, hj, rfl⟩ := List.getElem_of_mem hb
    exact ⟨⟨j, hj⟩, hr⟩
  choose f hf using h'
  have hinj : Function.Injective f := by
    intro i j hij
    by_contra hne
    have hr : R l[i] l[j] := htrans _ _ _ (hf i) (hij ▸ hsymm _ _ (hf j))
    rw [List.pairwise_iff_getElem] at hl
    rcases lt_or_gt_of_ne (fun h => hne (Fin.ext h)) with h | h
    · exact hl i j i.2 j.2 h hr
    · exact hl j i j.2 i.2 h (hsymm _ _ hr)
  have := Fintype.card_le_of_injective f hinj
  simpa using this

/-- **C71.** The multiplicity does not depend on the cluster that represents the orbit, nor on the
order of its sites. -/
theorem C71_multiplicity_class (G : SpaceGroup ops) {a b : List (Fin d → K)} (hne : b ≠ [])
    (hnd : b.Nodup) (h : SymEquiv ops a b) :
    ∃ ca cb, orbitClusters ops a = .ok ca ∧ orbitClusters ops b = .ok cb ∧
      ca.length = cb.length := by
  have hane : a ≠ [] := by
    intro h0
    have := h.length
    rw [h0] at this
    exact hne (List.length_eq_zero_iff.1 this.symm)
  have hand := SymEquiv.nodup G h hnd
  have key : ∀ {a b : List (Fin d → K)}, a ≠ [] → a.Nodup → b ≠ [] → b.Nodup → SymEquiv ops a b →
      (orbitImages ops a).length ≤ (orbitImages ops b).length := by
    intro a b ha ha' hb hb' h
    obtain ⟨_, a2, _, a4⟩ := orbitImages_spec G ha ha'
    obtain ⟨_, _, b3, _⟩ := orbitImages_spec G hb hb'
    refine length_le_of_classes (fun _ _ h => h.symm) (fun _ _ _ h h' => h.trans h') a4 ?_
    intro c hc
    obtain ⟨g, hg, hcg⟩ := SymEquiv.trans G (a2 c hc).2.2 h
    obtain ⟨e, he, heg⟩ := b3 g hg
    exact ⟨e, he, hcg.trans heg.symm⟩
  exact ⟨_, _, orbitClusters_ok G hane hand, orbitClusters_ok G hne hnd,
    le_antisymm (key hane hand hne hnd h) (key hne hnd hane hand (SymEquiv.symm G h))⟩

/-- **C71.** The test for an orbit that is listed already finds exactly the equivalent ones. -/
theorem C71_listed (G : SpaceGroup ops) {orbits : List (GenOrbit d K)} {o : GenOrbit d K}
    (hne : o.coords ≠ []) (hnd : o.coords.Nodup) :
    ((∃ p ∈ orbits, SymEquiv ops p.coords o.coords) → addOrbit ops orbits o = .ok orbits) ∧
    ((¬ ∃ p ∈ orbits, SymEquiv ops p.coords o.coords) →
      addOrbit ops orbits o = .ok (orbits ++ [o])) := by
  have hany : (orbits.any fun p => (orbitImages ops o.coords).any fun c => clusterEq c p.coords) = true
      ↔ ∃ p ∈ orbits, SymEquiv ops p.coords o.coords := by
    rw [List.any_eq_true]
    exact exists_congr fun p => and_congr_right fun _ => any_clusterEq_iff G hne hnd
  unfold addOrbit
  rw [orbitClusters_ok G hne hnd]
  simp only [bind, Except.bind, pure, Except.pure]
  constructor
  · intro h
    rw [if_pos (hany.2 h)]
  · intro h
    rw [if_neg (fun h' => h (hany.1 h'))]

/-- **C71.** The site permutations of an orbit form a group, and each comes from an operation that
maps the cluster to itself.  (This is what C45, C46 and C66 assume.) -/
theorem C71_permutations (G : SpaceGroup ops) {base : List (Fin d → K)} (hne : base ≠ [])
    (hnd : base.Nodup) :
    PermGroup base.length (clusterPermutations ops base) ∧
    ∀ p ∈ clusterPermutations ops base, ∃ g ∈ ops, ∃ T : Fin d → ℤ, ∀ (i j : ℕ), p[i]? = some j →
      ∃ x y, base[i]? = some x ∧ base[j]? = some y ∧ x = shift T (g.operate y) :=
  ⟨clusterPermutations_group G hne hnd, clusterPermutations_sites G hne hnd⟩

/-- **C71.** Permuted sites have as many functions: the permutations respect the numbers of
functions of the sites. -/
theorem C71_respects (X : Crystal lattice ops sites) {base : List (Fin d → K)} {bits : List ℕ}
    (hne : base ≠ []) (hnd : base.Nodup) (hsite : List.Forall₂ (IsSite sites) base bits) :
    Respects (clusterPermutations ops base) bits := by
  intro p hp i j hij
  obtain ⟨g, hg, T, h⟩ := clusterPermutations_sites X.group hne hnd p hp
  obtain ⟨x, y, hx, hy, hxy⟩ := h i j hij
  obtain ⟨hi, rfl⟩ := List.getElem?_eq_some_iff.1 hx
  obtain ⟨hj, rfl⟩ := List.getElem?_eq_some_iff.1 hy
  have hl := hsite.length_eq
  have hi' : i < bits.length := hl ▸ hi
  have hj' : j < bits.length := hl ▸ hj
  have h1 : IsSite sites base[i] bits[i] := (List.forall₂_iff_get.1 hsite).2 i hi hi'
  have h2 : IsSite sites base[j] bits[j] := (List.forall₂_iff_get.1 hsite).2 j hj hj'
  rw [List.getElem?_eq_getElem hi', List.getElem?_eq_getElem hj']
  have h3 : IsSite sites base[i] bits[j] := by
    rw [hxy]
    exact IsSite.shift (X.maps g hg _ _ h2) T
  rw [X.number_unique h1 h3]

/-! ## C72 -/

/-- **C72.** Whatever the cutoffs, every orbit made has as many different sites of the crystal as its
size says, with their numbers of functions, a centroid in the cell and distances within the cutoff
of its size (with the tolerance); no two orbits of a size are equivalent; orbits are listed by
diameter; sizes are those asked for, in order. -/
theorem C72_sound (G : SpaceGroup ops) {eps : K} {sphere : K → List ((Fin d → K) × ℕ)}
    (hs : ∀ D y n, (y, n) ∈ sphere D → IsSite sites y n) {point : Option (Option K)}
    (hp : point ≠ some none) {cutoffs : List (ℕ × K)} {r : List (ℕ × List (GenOrbit d K))}
    (hr : genFromCutoffs lattice eps ops sites sphere point cutoffs = .ok r) :
    (r.map Prod.fst).Sublist (1 :: cutoffs.map Prod.fst) ∧
    ∀ n os, (n, os) ∈ r →
      (∀ o ∈ os, o.coords.length = n ∧ o.coords.Nodup ∧
        (∀ i, 0 ≤ centroid o.coords i ∧ centroid o.coords i < 1) ∧
        List.Forall₂ (IsSite sites) o.coords o.bits) ∧
      (n = 1 ∨ ∃ D, (n, D) ∈ cutoffs ∧ (∀ o ∈ os, Within lattice (D + eps) o.coords) ∧
        os ≠ [] ∧ os.Pairwise fun a b => diam2 lattice a.coords ≤ diam2 lattice b.coords) ∧
      os.Pairwise fun a b => ¬ SymEquiv ops a.coords b.coords := by
  rcases genFromCutoffs_good (lattice := lattice) (eps := eps) G hs hp cutoffs with
    h | ⟨r', h1, h2, h3, -, -⟩
  · rw [h] at hr
    exact absurd hr (by simp)
  · rw [h1] at hr
    obtain rfl : r' = r := by simpa using hr
    refine ⟨h3, ?_⟩
    intro n os hmem
    have hg := h2 _ hmem
    refine ⟨fun o ho => ⟨(hg.good o ho).length, (hg.good o ho).nodup, (hg.good o ho).inCell,
      (hg.good o ho).site⟩, ?_, hg.distinct⟩
    by_cases h1 : n = 1
    · exact Or.inl h1
    · obtain ⟨D, hD, hw⟩ := hg.within.resolve_left h1
      exact Or.inr ⟨D, hD, hw, hg.nonempty.resolve_left h1, hg.sorted.resolve_left h1⟩

/-- **C72 (partial).** With cutoffs for the sizes 2 to `N + 1` that do not grow with the size, every
cluster of the crystal within the cutoff of its size belongs to exactly one orbit — provided that the
margin of the search for neighbouring sites covers the cell.  The code takes as margin the distance
of the farthest *site* from the middle of the cell, which need not cover it:
`C72_cubic_incomplete`. -/
theorem C72_complete_partial (X : Crystal lattice ops sites) {eps margin : K} (heps : 0 ≤ eps)
    {sphere : K → List ((Fin d → K) × ℕ)} (hs : SphereSearch lattice sites margin sphere)
    (hm : 0 ≤ margin)
    (hcov : ∀ x : Fin d → K, (∀ i, 0 ≤ x i ∧ x i < 1) →
      sqDist lattice x (fun _ => 1 / 2) ≤ margin ^ 2)
    {D : ℕ → K} (hD : ∀ n, 2 ≤ n → D (n + 1) ≤ D n) {N : ℕ} {point : Option (Option K)}
    (hp : point ≠ some none) {r : List (ℕ × List (GenOrbit d K))}
    (hr : genFromCutoffs lattice eps ops sites sphere point
      ((List.range N).map fun k => (k + 2, D (k + 2))) = .ok r)
    {n : ℕ} (hn1 : 1 ≤ n) (hn2 : n ≤ N + 1) {A : List (Fin d → K)} (hA : IsCluster sites A)
    (hl : A.length = n) (hw : n = 1 ∨ Within lattice (D n) A) :
    ∃! o, o ∈ ofSize r n ∧ SymEquiv ops A o.coords := by
  have G := X.group
  obtain ⟨pts, p1, p2, p3, p4⟩ := genPointOrbits_spec G sites
  have hrun : genFromCutoffs lattice eps ops sites sphere point
      ((List.range N).map fun k => (k + 2, D (k + 2))) =
      ((List.range N).map fun k => (k + 2, D (k + 2))).foldlM (genSize lattice eps ops sphere)
        [(1, pts)] := by
    unfold genFromCutoffs
    split
    · exact absurd rfl hp
    · rw [p1]
      rfl
  rw [hrun] at hr
  rcases genSizes_complete X heps hs hm hcov D hD ((List.range N).map fun k => (k + 2, D (k + 2))) N
      (fun k hk => List.mem_map.2 ⟨k, List.mem_range.2 hk, rfl⟩) pts p2 p3 p4 with
    ⟨h, -⟩ | ⟨r', h1, h2, -, h4⟩
  · rw [h] at hr
    exact absurd hr (by simp)
  · rw [h1] at hr
    obtain rfl : r' = r := by simpa using hr
    obtain ⟨o, ho, he⟩ := h4 n hn1 hn2 A hA hl hw
    refine ⟨o, ⟨ho, he⟩, ?_⟩
    rintro o' ⟨ho', he'⟩
    by_contra hne
    unfold ofSize at ho ho'
    rcases hlk : r'.lookup n with _ | os
    · rw [hlk] at ho
      simp at ho
    · rw [hlk] at ho ho'
      simp only [Option.getD_some] at ho ho'
      have hd := (h2 _ (mem_of_lookup hlk)).distinct
      rw [List.pairwise_iff_forall_sublist] at hd
      have hoo := SymEquiv.trans G (SymEquiv.symm G he') he
      rcases pair_sublist ho' ho hne with h | h
      · exact hd h hoo
      · exact hd h (SymEquiv.symm G hoo)

/-- **C72.** The crystal of one site in the middle of a cubic cell (a perovskite with disorder on one
site, the origin on the other) and cutoffs of 1.5 lattice constants for pairs, triplets and
quadruplets: whatever symmetry operations are used and in whatever order the neighbours are found,
the run returns without an orbit for the regular tetrahedron of face diagonals, whose diameter 1.41
is within the cutoff. -/
theorem C72_cubic_incomplete {ops : List (SymmOp 3 ℚ)} (X : Crystal cubic ops midSite)
    {sphere : ℚ → List ((Fin 3 → ℚ) × ℕ)}
    (hs : SphereSearch cubic midSite (1 / 10 ^ 6) sphere) :
    (IsCluster midSite tetra ∧ tetra.length = 4 ∧ Within cubic (3 / 2) tetra) ∧
    ∃ r, genFromCutoffs cubic (1 / 10 ^ 8) ops midSite sphere none
        [(2, 3 / 2), (3, 3 / 2), (4, 3 / 2)] = .ok r ∧
      ∀ o ∈ ofSize r 4, ¬ SymEquiv ops tetra o.coords := by
  refine ⟨⟨⟨?_, ?_⟩, rfl, ?_⟩, cubic_run X hs⟩
  · have : tetra = [![0, 0, 0], ![0, 1, 1], ![1, 0, 1], ![1, 1, 0]].map pos := rfl
    rw [this]
    exact List.Nodup.map (fun _ _ => pos_inj) (by decide)
  · intro x hx
    refine ⟨1, isSite_mid.2 ⟨rfl, ?_⟩⟩
    simp only [tetra, List.mem_cons, List.not_mem_nil, or_false] at hx
    rcases hx with rfl | rfl | rfl | rfl <;> exact ⟨_, rfl⟩
  · refine within_pos (ms := [![0, 0, 0], ![0, 1, 1], ![1, 0, 1], ![1, 1, 0]]) (by norm_num) ?_
    simp [Fin.sum_univ_three]
    norm_num

/-- **C72.** A run returns only if for every size asked for there are orbits of the size below;
otherwise it raises `KeyError`. -/
theorem C72_size_below (G : SpaceGroup ops) {eps : K} {sphere : K → List ((Fin d → K) × ℕ)}
    (hs : ∀ D y n, (y, n) ∈ sphere D → IsSite sites y n) {point : Option (Option K)}
    (hp : point ≠ some none) (cutoffs : List (ℕ × K)) :
    genFromCutoffs lattice eps ops sites sphere point cutoffs = .error .key ∨
    ∃ r, genFromCutoffs lattice eps ops sites sphere point cutoffs = .ok r ∧
      ∀ n D, (n, D) ∈ cutoffs → 2 ≤ n ∧ (n = 2 ∨ ofSize r (n - 1) ≠ []) := by
  rcases genFromCutoffs_good (lattice := lattice) (eps := eps) G hs hp cutoffs with
    h | ⟨r, h1, h2, -, -, h5⟩
  · exact Or.inl h
  · refine Or.inr ⟨r, h1, ?_⟩
    intro n D hn
    obtain ⟨os, hos⟩ := h5 _ hn
    have hg := h2 _ (mem_of_lookup hos)
    have hpos : 1 ≤ n - 1 := hg.pos
    refine ⟨by omega, ?_⟩
    by_cases hn2 : n = 2
    · exact Or.inl hn2
    · right
      rw [ofSize_of_lookup hos]
      exact hg.nonempty.resolve_left (by simp only; omega)

/-- **C72.** A size without the one below, for instance `{2: 5, 4: 3}`, raises `KeyError`. -/
theorem C72_gap_raises (G : SpaceGroup ops) {eps : K} {sphere : K → List ((Fin d → K) × ℕ)}
    (hs : ∀ D y n, (y, n) ∈ sphere D → IsSite sites y n) {point : Option (Option K)}
    (hp : point ≠ some none) {cutoffs : List (ℕ × K)} {n : ℕ} {D : K} (hn : (n, D) ∈ cutoffs)
    (hn2 : n ≠ 2) (hgap : ∀ D, (n - 1, D) ∉ cutoffs) :
    genFromCutoffs lattice eps ops sites sphere point cutoffs = .error .key := by
  rcases genFromCutoffs_good (lattice := lattice) (eps := eps) G hs hp cutoffs with
    h | ⟨r, h1, h2, -, -, h5⟩
  · exact h
  · exfalso
    obtain ⟨os, hos⟩ := h5 _ hn
    have hg := h2 _ (mem_of_lookup hos)
    have hpos : 1 ≤ n - 1 := hg.pos
    obtain ⟨D', hD', -⟩ := hg.within.resolve_left (by simp only; omega)
    exact hgap D' hD'

/-- **C72.** Cutoffs that leave no cluster of some size, while a larger size is asked for, raise
`KeyError` instead of giving no orbits of these sizes. -/
theorem C72_no_clusters_raises (X : Crystal lattice ops sites) {eps : K}
    {sphere : K → List ((Fin d → K) × ℕ)} (hs : ∀ D y n, (y, n) ∈ sphere D → IsSite sites y n)
    {point : Option (Option K)} (hp : point ≠ some none) {D : ℕ → K} {N n : ℕ} (hn : 2 ≤ n)
    (hnN : n < N + 1)
    (hnone : ¬ ∃ A, IsCluster sites A ∧ A.length = n ∧ Within lattice (D n + eps) A) :
    genFromCutoffs lattice eps ops sites sphere point
      ((List.range N).map fun k => (k + 2, D (k + 2))) = .error .key := by
  rcases genFromCutoffs_good (lattice := lattice) (eps := eps) X.group hs hp
      ((List.range N).map fun k => (k + 2, D (k + 2))) with h | ⟨r, h1, h2, -, -, h5⟩
  · exact h
  · exfalso
    obtain ⟨os, hos⟩ := h5 (n + 1, D (n + 1)) (List.mem_map.2 ⟨n - 1, List.mem_range.2 (by omega), by
      have : n - 1 + 2 = n + 1 := by omega
      rw [this]⟩)
    have hg := h2 _ (mem_of_lookup hos)
    have e : n + 1 - 1 = n := by omega
    obtain ⟨o, ho⟩ := List.exists_mem_of_ne_nil _ (hg.nonempty.resolve_left (by simp only; omega))
    obtain ⟨D', hD', hw⟩ := hg.within.resolve_left (by simp only; omega)
    simp only [e] at hD'
    obtain ⟨k, -, hk⟩ := List.mem_map.1 hD'
    simp only [Prod.mk.injEq] at hk
    obtain ⟨hk1, hk2⟩ := hk
    subst hk2
    rw [hk1] at hw
    refine hnone ⟨o.coords, (hg.good o ho).isCluster, ?_, hw o ho⟩
    rw [(hg.good o ho).length]
    simp only
    omega

/-- **C72.** An entry for points other than `None` has no effect; in particular `{1: 0}` does not
exclude the point terms, as the documentation says it does. -/
theorem C72_point_entry_ignored (eps : K) (sphere : K → List ((Fin d → K) × ℕ))
    (D : K) (cutoffs : List (ℕ × K)) :
    genFromCutoffs lattice eps ops sites sphere (some (some D)) cutoffs
      = genFromCutoffs lattice eps ops sites sphere none cutoffs := rfl

/-- **C72.** Without cutoffs for larger sizes there are only the points: every site of the crystal
belongs to exactly one of the orbits. -/
theorem C72_points (G : SpaceGroup ops) (eps : K) (sphere : K → List ((Fin d → K) × ℕ))
    {point : Option (Option K)} (hp : point ≠ some none) :
    ∃ os, genFromCutoffs lattice eps ops sites sphere point [] = .ok [(1, os)] ∧
      ∀ x n, IsSite sites x n → ∃! o, o ∈ os ∧ SymEquiv ops [x] o.coords := by
  obtain ⟨pts, p1, p2, p3, p4⟩ := genPointOrbits_spec G sites
  refine ⟨pts, ?_, ?_⟩
  · unfold genFromCutoffs
    split
    · exact absurd rfl hp
    · rw [p1]
      rfl
  · intro x n hx
    obtain ⟨o, ho, he⟩ := p3 [x] ⟨by simp, by simpa using ⟨n, hx⟩⟩ rfl
    refine ⟨o, ⟨ho, he⟩, ?_⟩
    rintro o' ⟨ho', he'⟩
    by_contra hne
    have hoo := SymEquiv.trans G (SymEquiv.symm G he') he
    rw [List.pairwise_iff_forall_sublist] at p4
    rcases pair_sublist ho' ho hne with h | h
    · exact p4 h hoo
    · exact p4 h (SymEquiv.symm G hoo)

/-- **C72.** `{1: None}` alone gives no orbits; with any other entry it raises `ValueError`. -/
theorem C72_points_excluded (eps : K) (sphere : K → List ((Fin d → K) × ℕ))
    (cutoffs : List (ℕ × K)) :
    genFromCutoffs lattice eps ops sites sphere (some none) cutoffs
      = if cutoffs = [] then .ok [] else .error .value := by
  unfold genFromCutoffs
  simp only [List.isEmpty_iff]

/-! ## Examples -/

/-- The reversals of axes. -/
def reversals : List (Fin 3 → Fin 3 → ℤ) :=
  [![![1, 0, 0], ![0, 1, 0], ![0, 0, 1]], ![![1, 0, 0], ![0, 1, 0], ![0, 0, -1]],
   ![![1, 0, 0], ![0, -1, 0], ![0, 0, 1]], ![![1, 0, 0], ![0, -1, 0], ![0, 0, -1]],
   ![![-1, 0, 0], ![0, 1, 0], ![0, 0, 1]], ![![-1, 0, 0], ![0, 1, 0], ![0, 0, -1]],
   ![![-1, 0, 0], ![0, -1, 0], ![0, 0, 1]], ![![-1, 0, 0], ![0, -1, 0], ![0, 0, -1]]]

theorem reversals_group : SpaceGroup (intOps ℚ reversals) :=
  intOps_group (by decide +kernel) (by decide +kernel) (by decide +kernel) (by decide +kernel)

theorem reversals_diag : ∀ M ∈ reversals, ∀ i, (M i i) ^ 2 = 1 ∧ ∀ j, j ≠ i → M i j = 0 := by
  decide +kernel

theorem reversals_operate {M : Fin 3 → Fin 3 → ℤ} (hM : M ∈ reversals) (x : Fin 3 → ℚ) (i : Fin 3) :
    SymmOp.operate (⟨fun i j => (M i j : ℚ), fun _ => 0⟩ : SymmOp 3 ℚ) x i = M i i * x i := by
  simp only [SymmOp.operate, add_zero]
  rw [Finset.sum_eq_single i]
  · intro j _ hj
    rw [(reversals_diag M hM i).2 j hj]
    simp
  · simp

/-- The cubic crystal with these operations. -/
theorem cubic_crystal : Crystal cubic (intOps ℚ reversals) midSite := by
  refine ⟨reversals_group, ?_, ?_, by simp [midSite]⟩
  · intro g hg x y
    obtain ⟨M, hM, rfl⟩ := List.mem_map.1 hg
    simp only [sqDist, cart_cubic]
    refine Finset.sum_congr rfl fun i _ => ?_
    rw [reversals_operate hM, reversals_operate hM]
    have : (M i i : ℚ) ^ 2 = 1 := by exact_mod_cast (reversals_diag M hM i).1
    calc _ = (M i i : ℚ) ^ 2 * (x i - y i) ^ 2 := by ring
      _ = _ := by rw [this, one_mul]
  · intro g hg x n hx
    obtain ⟨M, hM, rfl⟩ := List.mem_map.1 hg
    obtain ⟨rfl, m, rfl⟩ := isSite_mid.1 hx
    refine isSite_mid.2 ⟨rfl, fun i => M i i * m i + (M i i - 1) / 2, ?_⟩
    funext i
    rw [reversals_operate hM]
    have h1 := (reversals_diag M hM i).1
    have h2 : (M i i - 1) * (M i i + 1) = 0 := by ring_nf; omega
    rcases mul_eq_zero.1 h2 with h | h
    · have : M i i = 1 := by omega
      simp [pos, this]
    · have : M i i = -1 := by omega
      simp only [pos, this]
      norm_num
      ring

/-- There is a search that finds what it should. -/
theorem sphere_exists (margin : ℚ) : ∃ sphere, SphereSearch cubic midSite margin sphere := by
  have hfin : ∀ D : ℚ, ∃ l : List ((Fin 3 → ℚ) × ℕ), ∀ y n, (y, n) ∈ l ↔ IsSite midSite y n ∧
      0 ≤ D + margin ∧ sqDist cubic y (fun _ => 1 / 2) ≤ (D + margin) ^ 2 := by
    intro D
    obtain ⟨B, hB⟩ : ∃ B : ℕ, (D + margin) ^ 2 ≤ B := exists_nat_ge _
    classical
    refine ⟨((Finset.univ : Finset (Fin 3 → Fin (2 * B + 1))).toList.map fun k =>
      (pos fun i => ((k i : ℕ) : ℤ) - B, 1)).filter fun p =>
        0 ≤ D + margin ∧ sqDist cubic p.1 (fun _ => 1 / 2) ≤ (D + margin) ^ 2, ?_⟩
    intro y n
    rw [List.mem_filter, isSite_mid]
    simp only [List.mem_map, Finset.mem_toList, Finset.mem_univ, true_and, Prod.mk.injEq,
      decide_eq_true_eq]
    constructor
    · rintro ⟨⟨k, rfl, rfl⟩, h⟩
      exact ⟨⟨rfl, _, rfl⟩, h⟩
    · rintro ⟨⟨rfl, m, rfl⟩, h⟩
      refine ⟨?_, h⟩
      have hb : ∀ i, m i ^ 2 ≤ B := by
        intro i
        have h1 := h.2
        rw [sqDist_centre] at h1
        have h2 : ((∑ i, (m i) ^ 2 : ℤ) : ℚ) ≤ ((B : ℤ) : ℚ) := by
          push_cast at h1 ⊢
          linarith
        have h3 := Int.cast_le.1 h2
        have h4 : (m i) ^ 2 ≤ ∑ i, (m i) ^ 2 :=
          Finset.single_le_sum (f := fun i => (m i) ^ 2) (fun j _ => sq_nonneg _)
            (Finset.mem_univ i)
        omega
      have hb' : ∀ i, -(B : ℤ) ≤ m i ∧ m i ≤ B := by
        intro i
        have := hb i
        constructor
        · nlinarith
        · nlinarith
      refine ⟨fun i => ⟨(m i + B).toNat, by have := hb' i; omega⟩, ?_, rfl⟩
      congr 1
      funext i
      have := hb' i
      simp only
      omega
  choose sphere hsphere using hfin
  exact ⟨sphere, hsphere⟩

/-- Margins that cover the cell exist: here half of the diagonal is less than 1. -/
theorem cubic_covered (x : Fin 3 → ℚ) (hx : ∀ i, 0 ≤ x i ∧ x i < 1) :
    sqDist cubic x (fun _ => 1 / 2) ≤ 1 ^ 2 := by
  simp only [sqDist, cart_cubic, Fin.sum_univ_three]
  have h0 := hx 0
  have h1 := hx 1
  have h2 := hx 2
  nlinarith

/-- The hypotheses of the theorems are met, those of completeness with the margin 1. -/
example : ∃ sphere, Crystal cubic (intOps ℚ reversals) midSite ∧
    SphereSearch cubic midSite 1 sphere ∧
    (∀ x : Fin 3 → ℚ, (∀ i, 0 ≤ x i ∧ x i < 1) → sqDist cubic x (fun _ => 1 / 2) ≤ 1 ^ 2) := by
  obtain ⟨sphere, h⟩ := sphere_exists 1
  exact ⟨sphere, cubic_crystal, h, cubic_covered⟩

/-- And those of incompleteness with the margin of the code. -/
example : ∃ sphere r, genFromCutoffs cubic (1 / 10 ^ 8) (intOps ℚ reversals) midSite sphere none
    [(2, 3 / 2), (3, 3 / 2), (4, 3 / 2)] = .ok r ∧
    ∀ o ∈ ofSize r 4, ¬ SymEquiv (intOps ℚ reversals) tetra o.coords := by
  obtain ⟨sphere, h⟩ := sphere_exists (1 / 10 ^ 6)
  obtain ⟨-, r, h⟩ := C72_cubic_incomplete cubic_crystal h
  exact ⟨sphere, r, h⟩

/-- The pair of neighbours along the first axis: one cluster per cell, kept by all
operations. -/
example : (orbitImages (intOps ℚ reversals) [pos ![0, 0, 0], pos ![1, 0, 0]]).length = 1 ∧
    (clusterSymops (intOps ℚ reversals) [pos ![0, 0, 0], pos ![1, 0, 0]]).length = 8 := by
  decide +kernel

/-- A pair along a face diagonal: two clusters per cell, each kept by four operations. -/
example : (orbitImages (intOps ℚ reversals) [pos ![0, 0, 0], pos ![1, 1, 0]]).length = 2 ∧
    (clusterSymops (intOps ℚ reversals) [pos ![0, 0, 0], pos ![1, 1, 0]]).length = 4 ∧
    clusterPermutations (intOps ℚ reversals) [pos ![0, 0, 0], pos ![1, 1, 0]] = [[0, 1], [1, 0]] := by
  decide +kernel

/-- Cutoffs of half a lattice constant leave no pairs; a cutoff for triplets then raises. -/
example {sphere : ℚ → List ((Fin 3 → ℚ) × ℕ)} (hs : SphereSearch cubic midSite (1 / 10 ^ 6) sphere) :
    genFromCutoffs cubic (1 / 10 ^ 8) (intOps ℚ reversals) midSite sphere none
      [(2, 1 / 2), (3, 1 / 2)] = .error .key := by
  refine C72_no_clusters_raises cubic_crystal (fun D y n h => ((hs D y n).1 h).1) (by simp)
    (D := fun _ => 1 / 2) (N := 2) (n := 2) (le_refl _) (by omega) ?_
  rintro ⟨A, hA, hl, hw⟩
  obtain ⟨x, y, rfl⟩ := List.length_eq_two.1 hl
  obtain ⟨n, hx⟩ := hA.2 x (by simp)
  obtain ⟨n', hy⟩ := hA.2 y (by simp)
  obtain ⟨-, a, rfl⟩ := isSite_mid.1 hx
  obtain ⟨-, b, rfl⟩ := isSite_mid.1 hy
  have hd := hw.2 (pos a) (by simp) (pos b) (by simp)
  rw [sqDist_pos] at hd
  have h1 : ((∑ i, (a i - b i) ^ 2 : ℤ) : ℚ) < ((1 : ℤ) : ℚ) := lt_of_le_of_lt hd (by norm_num)
  have h2 := Int.cast_lt.1 h1
  have hab : a = b := by
    funext i
    have h4 : (a i - b i) ^ 2 ≤ ∑ i, (a i - b i) ^ 2 :=
      Finset.single_le_sum (f := fun i => (a i - b i) ^ 2) (fun j _ => sq_nonneg _)
        (Finset.mem_univ i)
    have h5 : (a i - b i) ^ 2 = 0 := le_antisymm (by omega) (sq_nonneg _)
    have := pow_eq_zero_iff (by norm_num) |>.1 h5
    omega
  subst hab
  simpa using hA.1

end Smol
