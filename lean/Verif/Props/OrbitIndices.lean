import Verif.Model.OrbitIndices
import Mathlib.Tactic.FinCases
import Mathlib.Data.List.Lex
import Mathlib.Data.List.Permutation

/-!
# C59 The supercell cache
-/

namespace Smol

/-- the six orders of three rows -/
def rowOrders : List (Fin 3 → Fin 3) :=
  [![0, 1, 2], ![1, 0, 2], ![1, 2, 0], ![0, 2, 1], ![2, 0, 1], ![2, 1, 0]]

theorem rowOrders_bijective : ∀ s ∈ rowOrders, Function.Bijective s := by decide

theorem mem_rowOrders_cases {P : (Fin 3 → Fin 3) → Prop} (h0 : P ![0, 1, 2]) (h1 : P ![1, 0, 2])
    (h2 : P ![1, 2, 0]) (h3 : P ![0, 2, 1]) (h4 : P ![2, 0, 1]) (h5 : P ![2, 1, 0]) :
    ∀ s ∈ rowOrders, P s := by
  intro s hs
  unfold rowOrders at hs
  simp only [List.mem_cons, List.not_mem_nil, or_false] at hs
  rcases hs with rfl | rfl | rfl | rfl | rfl | rfl <;> assumption

theorem perm_of_cacheKey {M M' : Mat3} (h : cacheKey M = cacheKey M') :
    ∃ s ∈ rowOrders, M' = fun i j => M (s i) j := by
  have hp : List.Perm ([[M' 0 0, M' 0 1, M' 0 2], [M' 1 0, M' 1 1, M' 1 2], [M' 2 0, M' 2 1, M' 2 2]])
      ([[M 0 0, M 0 1, M 0 2], [M 1 0, M 1 1, M 1 2], [M 2 0, M 2 1, M 2 2]]) := by
    have h1 := List.perm_insertionSort (· ≤ ·) (([0, 1, 2] : List (Fin 3)).map fun i => [M i 0, M i 1, M i 2])
    have h2 := List.perm_insertionSort (· ≤ ·) (([0, 1, 2] : List (Fin 3)).map fun i => [M' i 0, M' i 1, M' i 2])
    unfold cacheKey at h
    rw [h] at h1
    exact h2.symm.trans h1
  rw [← List.mem_permutations'] at hp
  simp only [List.permutations', List.permutations'Aux, List.flatMap_cons, List.flatMap_nil,
    List.map_cons, List.map_nil, List.mem_cons, List.not_mem_nil, List.append_nil, List.cons_append,
    List.nil_append, or_false, List.cons.injEq, and_true] at hp
  have key : ∀ s : Fin 3 → Fin 3, (∀ i j, M' i j = M (s i) j) → M' = fun i j => M (s i) j :=
    fun s h => by funext i j; exact h i j
  rcases hp with h | h | h | h | h | h
  · refine ⟨![0, 1, 2], by simp [rowOrders], key _ fun i j => ?_⟩
    fin_cases i <;> fin_cases j <;> simp [h]
  · refine ⟨![1, 0, 2], by simp [rowOrders], key _ fun i j => ?_⟩
    fin_cases i <;> fin_cases j <;> simp [h]
  · refine ⟨![1, 2, 0], by simp [rowOrders], key _ fun i j => ?_⟩
    fin_cases i <;> fin_cases j <;> simp [h]
  · refine ⟨![0, 2, 1], by simp [rowOrders], key _ fun i j => ?_⟩
    fin_cases i <;> fin_cases j <;> simp [h]
  · refine ⟨![2, 0, 1], by simp [rowOrders], key _ fun i j => ?_⟩
    fin_cases i <;> fin_cases j <;> simp [h]
  · refine ⟨![2, 1, 0], by simp [rowOrders], key _ fun i j => ?_⟩
    fin_cases i <;> fin_cases j <;> simp [h]

/-- Reordered rows give reordered fractional coordinates. -/
theorem fracOf_perm (M : Mat3) (x : Vec3) : ∀ s ∈ rowOrders,
    fracOf (fun i j => M (s i) j) x = fun i => fracOf M x (s i) := by
  have key : ∀ (s : Fin 3 → Fin 3) (e : ℤ), e ≠ 0 → det3 (fun i j => M (s i) j) = e * det3 M →
      (∀ j i, adj3 (fun i j => M (s i) j) j i = e * adj3 M j (s i)) →
      fracOf (fun i j => M (s i) j) x = fun i => fracOf M x (s i) := by
    intro s e he hd ha
    funext i
    unfold fracOf
    rw [hd, ha, ha, ha]
    have he' : (e : ℚ) ≠ 0 := by exact_mod_cast he
    push_cast
    rw [← mul_div_mul_left (x 0 * (adj3 M 0 (s i) : ℚ) + x 1 * (adj3 M 1 (s i) : ℚ) +
      x 2 * (adj3 M 2 (s i) : ℚ)) (det3 M : ℚ) he']
    congr 1
    ring
  apply mem_rowOrders_cases
  · refine key _ 1 (by norm_num) ?_ ?_
    · simp [det3]
    · intro j i; fin_cases i <;> fin_cases j <;> simp [adj3]
  · refine key _ (-1) (by norm_num) ?_ ?_
    · simp [det3]; ring
    · intro j i; fin_cases i <;> fin_cases j <;> simp [adj3] <;> ring
  · refine key _ 1 (by norm_num) ?_ ?_
    · simp [det3]; ring
    · intro j i; fin_cases i <;> fin_cases j <;> simp [adj3] <;> ring
  · refine key _ (-1) (by norm_num) ?_ ?_
    · simp [det3]; ring
    · intro j i; fin_cases i <;> fin_cases j <;> simp [adj3] <;> ring
  · refine key _ 1 (by norm_num) ?_ ?_
    · simp [det3]; ring
    · intro j i; fin_cases i <;> fin_cases j <;> simp [adj3] <;> ring
  · refine key _ (-1) (by norm_num) ?_ ?_
    · simp [det3]; ring
    · intro j i; fin_cases i <;> fin_cases j <;> simp [adj3] <;> ring

theorem foldr_min_le {l : List ℤ} : ∀ a ∈ l, l.foldr min 0 ≤ a := by
  induction l with
  | nil => simp
  | cons b l ih =>
    intro a ha
    rw [List.foldr_cons]
    rcases List.mem_cons.1 ha with rfl | ha
    · exact min_le_left _ _
    · exact (min_le_right _ _).trans (ih a ha)

theorem le_foldr_min {l : List ℤ} {c : ℤ} (h0 : c ≤ 0) (h : ∀ a ∈ l, c ≤ a) : c ≤ l.foldr min 0 := by
  induction l with
  | nil => simpa using h0
  | cons b l ih =>
    rw [List.foldr_cons]
    exact le_min (h b (by simp)) (ih fun a ha => h a (List.mem_cons_of_mem _ ha))

theorem foldr_min_le_zero (l : List ℤ) : l.foldr min 0 ≤ 0 := by
  induction l with
  | nil => simp
  | cons b l ih => rw [List.foldr_cons]; exact (min_le_right _ _).trans ih

theorem le_foldr_max {l : List ℤ} : ∀ a ∈ l, a ≤ l.foldr max 0 := by
  induction l with
  | nil => simp
  | cons b l ih =>
    intro a ha
    rw [List.foldr_cons]
    rcases List.mem_cons.1 ha with rfl | ha
    · exact le_max_left _ _
    · exact (ih a ha).trans (le_max_right _ _)

theorem foldr_max_le {l : List ℤ} {c : ℤ} (h0 : 0 ≤ c) (h : ∀ a ∈ l, a ≤ c) : l.foldr max 0 ≤ c := by
  induction l with
  | nil => simpa using h0
  | cons b l ih =>
    rw [List.foldr_cons]
    exact max_le (h b (by simp)) (ih fun a ha => h a (List.mem_cons_of_mem _ ha))

theorem zero_le_foldr_max (l : List ℤ) : 0 ≤ l.foldr max 0 := by
  induction l with
  | nil => simp
  | cons b l ih => rw [List.foldr_cons]; exact ih.trans (le_max_right _ _)

theorem mem_cornerCoords (M : Mat3) (j : Fin 3) (v : ℤ) : v ∈ cornerCoords M j ↔
    v = 0 ∨ v = M 2 j ∨ v = M 1 j ∨ v = M 1 j + M 2 j ∨ v = M 0 j ∨ v = M 0 j + M 2 j ∨
      v = M 0 j + M 1 j ∨ v = M 0 j + M 1 j + M 2 j := by
  simp [cornerCoords]

theorem boxRange_perm (M : Mat3) (j : Fin 3) : ∀ s ∈ rowOrders,
    boxRange (fun i j => M (s i) j) j = boxRange M j := by
  intro s hs
  have hc : ∀ v, v ∈ cornerCoords (fun i j => M (s i) j) j ↔ v ∈ cornerCoords M j := by
    intro v
    have e := mem_cornerCoords (fun i j => M (s i) j) j v
    rw [e, mem_cornerCoords]
    clear e
    revert s
    apply mem_rowOrders_cases
    all_goals
      simp only [Matrix.cons_val_zero, Matrix.cons_val_one, Matrix.cons_val]
      try (constructor <;> intro h <;> omega)
  have h1 : (cornerCoords (fun i j => M (s i) j) j).foldr min 0 = (cornerCoords M j).foldr min 0 :=
    le_antisymm (le_foldr_min (foldr_min_le_zero _) fun a ha => foldr_min_le a ((hc a).2 ha))
      (le_foldr_min (foldr_min_le_zero _) fun a ha => foldr_min_le a ((hc a).1 ha))
  have h2 : (cornerCoords (fun i j => M (s i) j) j).foldr max 0 = (cornerCoords M j).foldr max 0 :=
    le_antisymm (foldr_max_le (zero_le_foldr_max _) fun a ha => le_foldr_max a ((hc a).1 ha))
      (foldr_max_le (zero_le_foldr_max _) fun a ha => le_foldr_max a ((hc a).2 ha))
  unfold boxRange
  rw [h1, h2]

theorem forall_perm {s : Fin 3 → Fin 3} (hs : s ∈ rowOrders) (P : Fin 3 → Prop) :
    (∀ i, P (s i)) ↔ ∀ i, P i := by
  constructor
  · intro h i
    obtain ⟨k, rfl⟩ := (rowOrders_bijective s hs).2 i
    exact h k
  · intro h i; exact h _

theorem latticePoints_perm (tol : ℚ) (M : Mat3) (s : Fin 3 → Fin 3) (hs : s ∈ rowOrders) :
    latticePoints tol (fun i j => M (s i) j) = (latticePoints tol M).map fun f i => f (s i) := by
  have hb : boxPoints (fun i j => M (s i) j) = boxPoints M := by
    unfold boxPoints
    rw [boxRange_perm M 0 s hs, boxRange_perm M 1 s hs, boxRange_perm M 2 s hs]
  unfold latticePoints
  have hf : fracOf (fun i j => M (s i) j) = fun x i => fracOf M x (s i) := by
    funext x; exact fracOf_perm M x s hs
  rw [hb, hf, List.filter_map, List.filter_map, List.map_map]
  refine congrArg (List.map _) (List.filter_congr fun p _ => ?_)
  simp only [Function.comp_apply]
  apply decide_eq_decide.2
  rw [forall_perm hs (fun i => fracOf M p i < 1 - tol), forall_perm hs (fun i => -tol ≤ fracOf M p i)]

theorem supercellCoords_perm (tol : ℚ) (prim : List Vec3) (M : Mat3) (s : Fin 3 → Fin 3)
    (hs : s ∈ rowOrders) : supercellCoords tol prim (fun i j => M (s i) j) =
      (supercellCoords tol prim M).map fun f i => f (s i) := by
  unfold supercellCoords
  rw [latticePoints_perm tol M s hs, List.map_flatMap]
  apply List.flatMap_congr
  intro x _
  rw [List.map_map, List.map_map]
  apply List.map_congr_left
  intro p _
  funext i
  simp only [Function.comp_apply, fracOf_perm M x s hs]

theorem siteAt_perm (atol : ℚ) (sites : List Vec3) (x : Vec3) (s : Fin 3 → Fin 3)
    (hs : s ∈ rowOrders) :
    siteAt atol (sites.map fun f i => f (s i)) (fun i => x (s i)) = siteAt atol sites x := by
  unfold siteAt
  rw [List.findIdx?_map]
  congr 1
  funext y
  unfold pbcClose
  simp only [Function.comp_apply]
  apply decide_eq_decide.2
  exact forall_perm hs fun i => |x i - y i - round (x i - y i)| ≤ atol

theorem mapM_congr_all {α β : Type*} {f g : α → Option β} (h : ∀ a, f a = g a) (l : List α) :
    l.mapM f = l.mapM g := by rw [funext h]

theorem mapM_map_comp {α β γ : Type*} (f : α → β) (g : β → Option γ) (l : List α) :
    (l.map f).mapM g = l.mapM fun a => g (f a) := by
  induction l with
  | nil => rfl
  | cons a l ih => rw [List.map_cons, List.mapM_cons, List.mapM_cons, ih]

/-- C59. Supercell matrices with the same key have the same cluster indices. -/
theorem C59_key_sound (tol atol : ℚ) (prim : List Vec3) (orbits : List (List (List Vec3)))
    (M M' : Mat3) (h : cacheKey M = cacheKey M') :
    genOrbitIndices tol atol prim orbits M' = genOrbitIndices tol atol prim orbits M := by
  obtain ⟨s, hs, rfl⟩ := perm_of_cacheKey h
  unfold genOrbitIndices
  rw [supercellCoords_perm tol prim M s hs, latticePoints_perm tol M s hs]
  apply mapM_congr_all
  intro orbit
  have e : (orbit.flatMap fun cluster => ((latticePoints tol M).map fun f i => f (s i)).map fun p =>
      cluster.map fun x => (fun i => fracOf (fun i j => M (s i) j) x i + p i : Vec3)) =
      (orbit.flatMap fun cluster => (latticePoints tol M).map fun p =>
        cluster.map fun x => (fun i => fracOf M x i + p i : Vec3)).map
          (fun coords => coords.map fun f i => f (s i)) := by
    rw [List.map_flatMap]
    apply List.flatMap_congr
    intro cluster _
    rw [List.map_map, List.map_map]
    apply List.map_congr_left
    intro p _
    simp only [Function.comp_apply, List.map_map]
    apply List.map_congr_left
    intro x _
    funext i
    simp only [Function.comp_apply, fracOf_perm M x s hs]
  rw [e, mapM_map_comp]
  apply mapM_congr_all
  intro coords
  rw [mapM_map_comp]
  apply mapM_congr_all
  intro x
  exact siteAt_perm atol _ x s hs

/-- C59. So the cache is transparent: whatever was asked before, every request is answered as if the
indices were generated for the given matrix. -/
theorem C59_cache_transparent (tol atol : ℚ) (prim : List Vec3) (orbits : List (List (List Vec3)))
    (Ms : List Mat3) :
    orbitRequests (genOrbitIndices tol atol prim orbits) [] Ms =
      Ms.map (genOrbitIndices tol atol prim orbits) := by
  have key : ∀ (Ms : List Mat3) (cache : OrbitCache (List (List (List ℕ)))),
      (∀ M r, cache.lookup (cacheKey M) = some r → genOrbitIndices tol atol prim orbits M = some r) →
      orbitRequests (genOrbitIndices tol atol prim orbits) cache Ms =
        Ms.map (genOrbitIndices tol atol prim orbits) := by
    intro Ms
    induction Ms with
    | nil => intro cache _; rfl
    | cons M Ms ih =>
      intro cache hc
      unfold orbitRequests getOrbitIndices
      rw [List.map_cons]
      cases hl : cache.lookup (cacheKey M) with
      | some r => simp only; rw [hc M r hl, ih cache hc]
      | none =>
        cases hg : genOrbitIndices tol atol prim orbits M with
        | none => simp only; rw [ih cache hc]
        | some r =>
          simp only
          rw [ih]
          intro M' r' h'
          rw [List.lookup_cons] at h'
          by_cases hk : cacheKey M' = cacheKey M
          · rw [show (cacheKey M' == cacheKey M) = true by simpa using hk] at h'
            rw [C59_key_sound tol atol prim orbits M M' hk.symm, hg]
            exact h'
          · rw [show (cacheKey M' == cacheKey M) = false by simpa using hk] at h'
            exact hc M' r' h'
  exact key Ms [] (fun M r h => by simp at h)

/-- Swapped rows share a key; a supercell of four cells. -/
example : cacheKey !![2, 0, 0; 0, 1, 1; 0, -1, 1] = cacheKey !![0, 1, 1; 2, 0, 0; 0, -1, 1] ∧
    cacheKey !![2, 0, 0; 0, 1, 1; 0, -1, 1] ≠ cacheKey !![2, 0, 0; 0, 1, 1; 0, 1, -1] ∧
    genOrbitIndices 0 0 [![0, 0, 0], ![1/2, 1/2, 1/2]]
      [[[![0, 0, 0]]], [[![0, 0, 0], ![1/2, 1/2, 1/2]], [![0, 0, 0], ![1/2, 1/2, -1/2]]]]
      !![2, 0, 0; 0, 1, 1; 0, -1, 1] =
    some [[[0], [1], [2], [3]],
      [[0, 4], [1, 5], [2, 6], [3, 7], [0, 5], [1, 4], [2, 7], [3, 6]]] := by
  refine ⟨by decide +kernel, by decide +kernel, by decide +kernel⟩

end Smol
