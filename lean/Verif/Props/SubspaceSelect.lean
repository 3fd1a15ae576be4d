import Verif.Lemmas.SubspaceSelect
import Mathlib.Algebra.Order.Ring.Rat

/-!
# C92 Selecting orbits and correlation functions by size and diameter
-/

namespace Smol

variable {K : Type*} [LinearOrder K]

/-- A subspace reached by removing orbits and functions from one whose dictionary has each size
once, with at least one orbit, every orbit under its size and with at least one function. -/
def Selectable (size : ℕ → ℕ) (S : OrbitSpace) : Prop :=
  ∃ d ops, (d.map Prod.fst).Nodup ∧ (∀ p ∈ d, p.2 ≠ []) ∧
    (∀ p ∈ d, ∀ o ∈ p.2, size o.tag = p.1 ∧ o.combos ≠ []) ∧
    S = (OrbitSpace.assigned d).run ops

theorem Selectable.ok {size : ℕ → ℕ} {S : OrbitSpace} (h : Selectable size S) : SelOk size S := by
  obtain ⟨d, ops, h1, h2, h3, rfl⟩ := h
  exact ⟨run_ok (assigned_ok d (dictOrbits_nonempty fun p hp o ho => (h3 p hp o ho).2)) ops,
    keyed_run (keyed_assigned ⟨h1, h2, fun p hp o ho => (h3 p hp o ho).1⟩) ops⟩

/-- three points (two functions on the first), two pairs and a triplet -/
def selDict : List (ℕ × List Orb) :=
  [(1, [⟨0, 1, [(0, 1), (1, 1)], 0, 0⟩, ⟨1, 1, [(0, 1)], 0, 0⟩]),
   (2, [⟨2, 3, [(0, 1), (1, 2)], 0, 0⟩, ⟨3, 6, [(0, 1)], 0, 0⟩]),
   (3, [⟨4, 8, [(0, 1), (1, 3)], 0, 0⟩])]

/-- sizes and diameters of these orbits -/
def selSize (t : ℕ) : ℕ := if t < 2 then 1 else if t < 4 then 2 else 3
def selDiam (t : ℕ) : ℚ := if t < 2 then 0 else if t = 2 then 3 else if t = 3 then 4 else 4

theorem selectable_example (ops : List SpaceOp) :
    Selectable selSize ((OrbitSpace.assigned selDict).run ops) :=
  ⟨selDict, ops, by decide, by decide, by decide, rfl⟩

/-- C92. `cutoffs` never raises and is tight: it lists each size present in the subspace except 1,
with the largest diameter of the orbits of that size, and nothing else, also after removals. -/
theorem C92_cutoffs {size : ℕ → ℕ} {S : OrbitSpace} (h : Selectable size S) (diam : ℕ → K) :
    ∃ out, S.cutoffs diam = some out ∧ (out.map Prod.fst).Pairwise (· < ·) ∧
      ∀ s D, (s, D) ∈ out ↔ s ≠ 1 ∧ (∃ o ∈ S.orbits, size o.tag = s ∧ diam o.tag = D) ∧
        ∀ o ∈ S.orbits, size o.tag = s → diam o.tag ≤ D := by
  have h' := h.ok
  unfold OrbitSpace.cutoffs
  obtain ⟨out, ho⟩ := mapM_total (fun p : ℕ × List Orb =>
      (maxOf (p.2.map fun o => diam o.tag)).map fun m => (p.1, m))
    (S.dict.filter fun p => decide (p.1 ≠ 1)) (by
      intro p hp
      obtain ⟨m, hm⟩ := maxOf_isSome (p.2.map fun o => diam o.tag) (by
        simpa using h'.keyed.nonempty p (List.mem_of_mem_filter hp))
      exact ⟨(p.1, m), by rw [hm]; rfl⟩)
  refine ⟨out, ho, ?_, ?_⟩
  · have hk : out.map Prod.fst = (S.dict.filter fun p => decide (p.1 ≠ 1)).map Prod.fst := by
      generalize S.dict.filter (fun p => decide (p.1 ≠ 1)) = d at ho
      induction d generalizing out with
      | nil =>
        simp only [List.mapM_nil] at ho
        cases ho; rfl
      | cons p d ih =>
        simp only [List.mapM_cons, Option.bind_eq_bind, Option.bind_eq_some_iff] at ho
        obtain ⟨c, hc, t, ht, e⟩ := ho
        cases e
        rw [List.map_cons, List.map_cons, ih t ht]
        obtain ⟨m, -, rfl⟩ := Option.map_eq_some_iff.1 hc
        rfl
    rw [hk]
    exact (keys_lt h').sublist (List.filter_sublist.map _)
  · intro s D
    rw [mapM_option_mem ho]
    constructor
    · rintro ⟨p, hp, e⟩
      obtain ⟨hp, h1⟩ := List.mem_filter.1 hp
      obtain ⟨m, hm, e⟩ := Option.map_eq_some_iff.1 e
      cases e
      obtain ⟨ha, hb⟩ := maxOf_spec _ _ hm
      refine ⟨by simpa using h1, ?_, ?_⟩
      · obtain ⟨o, hop, e⟩ := List.mem_map.1 ha
        have := (mem_entry h' hp o).1 hop
        exact ⟨o, this.1, this.2, e⟩
      · intro o ho hs
        exact hb _ (List.mem_map.2 ⟨o, (mem_entry h' hp o).2 ⟨ho, hs⟩, rfl⟩)
    · rintro ⟨h1, ⟨o, ho, rfl, rfl⟩, h3⟩
      obtain ⟨p, hp, e, hop⟩ := entry_of_orbit h' ho
      refine ⟨p, List.mem_filter.2 ⟨hp, by simpa [e] using h1⟩, ?_⟩
      obtain ⟨m, hm⟩ := maxOf_isSome (p.2.map fun o => diam o.tag) (by
        simpa using h'.keyed.nonempty p hp)
      obtain ⟨ha, hb⟩ := maxOf_spec _ _ hm
      rw [hm, Option.map_some, Option.some.injEq, e]
      refine Prod.ext rfl (le_antisymm ?_ ?_)
      · obtain ⟨o', hop', e'⟩ := List.mem_map.1 ha
        have := (mem_entry h' hp o').1 hop'
        dsimp only
        rw [← e']
        exact h3 o' this.1 (this.2.trans e)
      · exact hb _ (List.mem_map.2 ⟨o, hop, rfl⟩)

example : ((OrbitSpace.assigned selDict).cutoffs selDiam = some [(2, 4), (3, 4)]) ∧
    (((OrbitSpace.assigned selDict).run [.orbits [4]]).cutoffs selDiam = some [(2, 3), (3, 4)]) := by
  decide +kernel

/-- C92. `function_inds_by_size` never raises: its lists put together are the ids of all functions
but the constant in order, and the list of a size consists of the functions of the orbits of that
size. -/
theorem C92_by_size {size : ℕ → ℕ} {S : OrbitSpace} (h : Selectable size S) :
    ∃ out, S.indsBySize = some out ∧ (out.map Prod.fst).Pairwise (· < ·) ∧
      out.flatMap Prod.snd = List.range' 1 (S.numCorr - 1) ∧
      (∀ s, s ∈ out.map Prod.fst ↔ ∃ o ∈ S.orbits, size o.tag = s) ∧
      ∀ s l, (s, l) ∈ out → ∀ j, j ∈ l ↔
        ∃ o ∈ S.orbits, size o.tag = s ∧ S.functionOrbitIds[j]? = some o.id := by
  have h' := h.ok
  refine ⟨_, indsBySize_eq h', ?_, ?_, ?_, ?_⟩
  · rw [List.map_map]
    exact keys_lt h'
  · rw [List.flatMap_map, ← List.flatMap_assoc, ← orbits_of_sorted h'.ok.sorted,
      blocks_flat S.orbits 1 fun j o hj => (h'.ok.get j o hj).2, h'.ok.numCorr]
    congr 1
    omega
  · intro s
    rw [List.map_map]
    constructor
    · intro hs
      obtain ⟨p, hp, rfl⟩ := List.mem_map.1 hs
      obtain ⟨o, ho⟩ := List.exists_mem_of_ne_nil _ (h'.keyed.nonempty p hp)
      exact ⟨o, (mem_entry h' hp o).1 ho⟩
    · rintro ⟨o, ho, rfl⟩
      obtain ⟨p, hp, e, _⟩ := entry_of_orbit h' ho
      exact List.mem_map.2 ⟨p, hp, e⟩
  · intro s l hsl j
    obtain ⟨p, hp, e⟩ := List.mem_map.1 hsl
    cases e
    rw [mem_blocks]
    constructor
    · rintro ⟨o, ho, hj⟩
      have := (mem_entry h' hp o).1 ho
      exact ⟨o, this.1, this.2, (owner_iff h'.ok this.1 j).2 hj⟩
    · rintro ⟨o, ho, hs, hj⟩
      exact ⟨o, (mem_entry h' hp o).2 ⟨ho, hs⟩, (owner_iff h'.ok ho j).1 hj⟩

example : (OrbitSpace.assigned selDict).indsBySize =
      some [(1, [1, 2, 3]), (2, [4, 5, 6]), (3, [7, 8])] ∧
    ((OrbitSpace.assigned selDict).run [.functions [2, 6]]).indsBySize =
      some [(1, [1, 2]), (2, [3, 4]), (3, [5, 6])] := by
  decide +kernel

/-- C92. `orbits_from_cutoffs` with one upper cutoff for all sizes: it raises exactly if the lower
cutoffs are a dictionary without some size of the subspace; otherwise it returns, in order, exactly
the orbits whose diameter is between the bounds, both included. -/
theorem C92_from_cutoffs {size : ℕ → ℕ} {S : OrbitSpace} (h : Selectable size S) (diam : ℕ → K)
    (u : K) (lower : Bound K) (os : List Orb) :
    S.fromCutoffs diam (.all u) lower = some os ↔
      (∀ o ∈ S.orbits, (boundAt lower (size o.tag)).isSome) ∧
      os = S.orbits.filter fun o => decide (diam o.tag ≤ u) &&
        (boundAt lower (size o.tag)).any fun l => decide (l ≤ diam o.tag) := by
  have h' := h.ok
  rw [fromCutoffs_some h']
  have e : (Bound.all u).dict S = S.dict.map fun p => (p.1, u) := rfl
  rw [e, List.flatMap_map, flatMap_entries S.dict h'.keyed
    (fun o => decide (diam o.tag ≤ u) &&
      (boundAt lower (size o.tag)).any fun l => decide (l ≤ diam o.tag))
    (fun s o => decide (diam o.tag ≤ u) &&
      (boundAt lower s).any fun l => decide (l ≤ diam o.tag))
    (fun p hp o ho => by rw [h'.keyed.size p hp o ho]) S.orbits (orbits_of_sorted h'.ok.sorted)]
  refine and_congr_left fun _ => ?_
  constructor
  · intro hq o ho
    obtain ⟨p, hp, e, _⟩ := entry_of_orbit h' ho
    rw [← e]
    exact (hq (p.1, u) (List.mem_map.2 ⟨p, hp, rfl⟩)).2
  · intro hq q hmem
    obtain ⟨p, hp, rfl⟩ := List.mem_map.1 hmem
    obtain ⟨o, ho⟩ := List.exists_mem_of_ne_nil _ (h'.keyed.nonempty p hp)
    have := (mem_entry h' hp o).1 ho
    refine ⟨⟨o, this⟩, ?_⟩
    dsimp only
    rw [← this.2]
    exact hq o this.1

/-- C92. With numbers for both cutoffs it never raises. -/
theorem C92_from_cutoffs_numbers {size : ℕ → ℕ} {S : OrbitSpace} (h : Selectable size S)
    (diam : ℕ → K) (u l : K) :
    S.fromCutoffs diam (.all u) (.all l) =
      some (S.orbits.filter fun o => decide (l ≤ diam o.tag ∧ diam o.tag ≤ u)) := by
  rw [C92_from_cutoffs h]
  refine ⟨fun _ _ => rfl, List.filter_congr fun o _ => ?_⟩
  by_cases h1 : l ≤ diam o.tag <;> by_cases h2 : diam o.tag ≤ u <;> simp [boundAt, h1, h2]

/-- C92. `orbits_from_cutoffs` with a dictionary of upper cutoffs: it raises exactly if a size of
that dictionary is not in the subspace, or has no lower cutoff; otherwise it returns, size by size
in the order of the dictionary, exactly the orbits of these sizes whose diameter is between the
bounds of their size. -/
theorem C92_from_cutoffs_sizes {size : ℕ → ℕ} {S : OrbitSpace} (h : Selectable size S)
    (diam : ℕ → K) (us : List (ℕ × K)) (lower : Bound K) (os : List Orb) :
    S.fromCutoffs diam (.bySize us) lower = some os ↔
      (∀ q ∈ us, (∃ o ∈ S.orbits, size o.tag = q.1) ∧ (boundAt lower q.1).isSome) ∧
      os = us.flatMap fun q => S.orbits.filter fun o =>
        decide (size o.tag = q.1) && (decide (diam o.tag ≤ q.2) &&
          (boundAt lower q.1).any fun l => decide (l ≤ diam o.tag)) :=
  fromCutoffs_some h.ok diam (.bySize us) lower os

example : let S := OrbitSpace.assigned selDict
    (S.fromCutoffs selDiam (.all 3) (.all 3)).map (·.map Orb.tag) = some [2] ∧
    (S.fromCutoffs selDiam (.bySize [(3, 4), (2, 4)]) (.all 0)).map (·.map Orb.tag) =
      some [4, 2, 3] ∧
    S.fromCutoffs selDiam (.bySize [(2, 4), (4, 4)]) (.all 0) = none ∧
    S.fromCutoffs selDiam (.bySize [(2, 4)]) (.bySize [(3, 4)]) = none ∧
    (S.fromCutoffs selDiam (.bySize [(2, 4)]) (.bySize [(2, 4)])).map (·.map Orb.tag) =
      some [3] := by
  decide +kernel

/-- C92. `function_inds_from_cutoffs` raises exactly if `orbits_from_cutoffs` does; otherwise its
entries are the functions of the selected orbits, orbit by orbit. -/
theorem C92_function_inds {size : ℕ → ℕ} {S : OrbitSpace} (h : Selectable size S) (diam : ℕ → K)
    (upper lower : Bound K) :
    (S.indsFromCutoffs diam upper lower = none ↔ S.fromCutoffs diam upper lower = none) ∧
    ∀ os, S.fromCutoffs diam upper lower = some os →
      ∃ inds, S.indsFromCutoffs diam upper lower = some inds ∧
        inds.map (fun j => S.functionOrbitIds[j]?) =
          os.flatMap (fun o => List.replicate o.combos.length (some o.id)) ∧
        ∀ j, j ∈ inds ↔ ∃ o ∈ os, S.functionOrbitIds[j]? = some o.id := by
  have h' := h.ok
  unfold OrbitSpace.indsFromCutoffs
  constructor
  · cases S.fromCutoffs diam upper lower <;> simp
  · intro os hos
    have hsub : ∀ o ∈ os, o ∈ S.orbits := by
      intro o ho
      rw [((fromCutoffs_some h' diam upper lower os).1 hos).2, List.mem_flatMap] at ho
      obtain ⟨q, -, hq⟩ := ho
      exact List.mem_of_mem_filter hq
    rw [hos]
    refine ⟨_, rfl, ?_, ?_⟩
    · dsimp only
      rw [foldl_blocks, List.nil_append, List.map_flatMap]
      apply List.flatMap_congr
      intro o ho
      rw [List.eq_replicate_iff]
      refine ⟨by simp, ?_⟩
      intro x hx
      obtain ⟨j, hj, rfl⟩ := List.mem_map.1 hx
      rw [List.mem_range'_1] at hj
      exact (owner_iff h'.ok (hsub o ho) j).2 hj
    · intro j
      dsimp only
      rw [foldl_blocks, List.nil_append, mem_blocks]
      constructor
      · rintro ⟨o, ho, hj⟩
        exact ⟨o, ho, (owner_iff h'.ok (hsub o ho) j).2 hj⟩
      · rintro ⟨o, ho, hj⟩
        exact ⟨o, ho, (owner_iff h'.ok (hsub o ho) j).1 hj⟩

/-- C92. With one upper cutoff for all sizes the indices are increasing, so that none is given
twice. -/
theorem C92_function_inds_increasing {size : ℕ → ℕ} {S : OrbitSpace} (h : Selectable size S)
    (diam : ℕ → K) (u : K) (lower : Bound K) (inds : List ℕ)
    (hi : S.indsFromCutoffs diam (.all u) lower = some inds) : inds.Pairwise (· < ·) := by
  have h' := h.ok
  unfold OrbitSpace.indsFromCutoffs at hi
  obtain ⟨os, hos, rfl⟩ := Option.map_eq_some_iff.1 hi
  rw [((C92_from_cutoffs h diam u lower os).1 hos).2, foldl_blocks, List.nil_append]
  have hfull : (S.orbits.flatMap fun o => List.range' o.bitId o.combos.length).Pairwise (· < ·) := by
    rw [blocks_flat S.orbits 1 fun j o hj => (h'.ok.get j o hj).2]
    exact List.pairwise_lt_range'
  refine hfull.sublist ?_
  generalize (fun o : Orb => _) = f
  generalize S.orbits = l
  induction l with
  | nil => exact List.Sublist.refl _
  | cons o l ih =>
    rw [List.filter_cons]
    split_ifs
    · exact (List.Sublist.refl _).append ih
    · exact ih.trans (List.sublist_append_right _ _)

example : let S := (OrbitSpace.assigned selDict).run [.functions [5]]
    S.indsFromCutoffs selDiam (.all 4) (.all 1) = some [4, 5, 6, 7] ∧
    S.indsFromCutoffs selDiam (.all 3) (.all 0) = some [1, 2, 3, 4] ∧
    S.indsFromCutoffs selDiam (.bySize [(3, 4), (2, 3)]) (.all 0) = some [6, 7, 4] := by
  decide +kernel

/-- C92. After any history of removals of orbits and functions and of reads of it, reading
`orbits_by_diameter` gives the orbits the subspace has then: an entry for each diameter (rounded to
six decimals) that occurs, in increasing order, with exactly the orbits of that diameter in the
order of `orbits`. -/
theorem C92_by_diameter (d : List (ℕ × List Orb))
    (hd : ∀ p ∈ d, ∀ o ∈ p.2, o.combos ≠ []) (rdiam : ℕ → K) (ops : List SelOp) :
    let s := SelState.run rdiam ⟨OrbitSpace.assigned d, none⟩ ops
    let out := (s.read rdiam).1
    (out.map Prod.fst).Pairwise (· < ·) ∧
    ∀ k g, (k, g) ∈ out ↔
      g ≠ [] ∧ g = (s.space.orbits.map Orb.tag).filter fun t => decide (rdiam t = k) := by
  intro s out
  have hs : s.Ok rdiam := selRun_ok rdiam
    ⟨assigned_ok d (dictOrbits_nonempty hd), by simp⟩ ops
  have hout : out = s.space.computeByDiameter rdiam := read_eq rdiam hs
  obtain ⟨h1, h2, h3, -⟩ := runsByKey_sorted rdiam
    ((s.space.orbits.map Orb.tag).insertionSort (keyBelow rdiam)) (insertionSort_keyBelow rdiam _)
  rw [hout]
  refine ⟨h1, ?_⟩
  intro k g
  constructor
  · intro hg
    obtain ⟨ha, hb⟩ := h2 _ hg
    refine ⟨ha, ?_⟩
    rw [filter_insertionSort] at hb
    exact hb
  · rintro ⟨ha, hb⟩
    obtain ⟨t, ht⟩ := List.exists_mem_of_ne_nil _ ha
    rw [hb, List.mem_filter] at ht
    obtain ⟨q, hq, e⟩ := h3 t ((List.perm_insertionSort _ _).mem_iff.2 ht.1)
    have hk : q.1 = k := by rw [e]; simpa using ht.2
    have := (h2 q hq).2
    rw [filter_insertionSort, hk, ← hb] at this
    have : (k, g) = q := Prod.ext hk.symm this.symm
    rw [this]
    exact hq

example : let s := (SelState.run selDiam ⟨OrbitSpace.assigned selDict, none⟩
        [.read, .functions [5], .read, .orbits [3]])
    (s.read selDiam).1 = [(0, [0, 1]), (4, [3, 4])] ∧ s.cache = none ∧
    ((SelState.run selDiam ⟨OrbitSpace.assigned selDict, none⟩ [.read, .functions [5]]).cache =
      some [(0, [0, 1]), (3, [2]), (4, [3, 4])]) := by
  decide +kernel

/-- C92, partial. Subspaces that `==` finds equal and that have equally many orbits have, place by
place, equal orbits, and equally many functions and external terms of the same types.  What is
missing: that they have equally many orbits, and the same functions of these orbits; see
`C92_eq_more_orbits` and `C92_eq_other_functions`. -/
theorem C92_eq_partial (same : ℕ → ℕ → Bool) (S T : OrbitSpace) (extS extT : List ℕ)
    (hlen : S.orbits.length = T.orbits.length) :
    spaceEq same S T extS extT = true ↔ S.numCorr = T.numCorr ∧ extS = extT ∧
      List.Forall₂ (fun o p => same o p = true) (T.orbits.map Orb.tag) (S.orbits.map Orb.tag) := by
  have hz : ∀ (a b : List ℕ), a.length = b.length →
      ((b.zip a).all (fun q => decide (q.1 = q.2)) = true ↔ a = b) := by
    intro a b hab
    induction a generalizing b with
    | nil => cases b <;> simp_all
    | cons x a ih =>
      cases b with
      | nil => simp at hab
      | cons y b =>
        rw [List.zip_cons_cons, List.all_cons, Bool.and_eq_true, ih b (by simpa using hab)]
        simp only [decide_eq_true_eq, List.cons.injEq]
        exact and_congr_left fun _ => eq_comm
  have ho : ∀ (a b : List Orb), a.length = b.length →
      ((b.zip a).all (fun q => same q.1.tag q.2.tag) = true ↔
        List.Forall₂ (fun o p => same o p = true) (b.map Orb.tag) (a.map Orb.tag)) := by
    intro a b hab
    induction a generalizing b with
    | nil => cases b <;> simp_all
    | cons x a ih =>
      cases b with
      | nil => simp at hab
      | cons y b =>
        rw [List.zip_cons_cons, List.all_cons, Bool.and_eq_true, ih b (by simpa using hab)]
        simp
  unfold spaceEq
  split_ifs with h1 h2 h3
  · simp only [false_iff]
    rintro ⟨h, -⟩
    exact h1 h.symm
  · simp only [false_iff]
    rintro ⟨-, rfl, -⟩
    exact h2 rfl
  · simp only [false_iff]
    rintro ⟨-, h, -⟩
    push Not at h2
    rw [(hz extS extT h2).2 h] at h3
    simp at h3
  · push Not at h1 h2
    have h3' : (extT.zip extS).all (fun q => decide (q.1 = q.2)) = true := by simpa using h3
    rw [ho _ _ hlen]
    have := (hz extS extT h2).1 h3'
    simp [h1, this]

/-- C92, counterexample. Orbits are compared in pairs until one of the lists ends: a subspace with
one more orbit is equal to one with as many functions in fewer orbits. -/
theorem C92_eq_more_orbits : ∃ (S T : OrbitSpace) (same : ℕ → ℕ → Bool),
    Selectable selSize S ∧ Selectable selSize T ∧ (∀ a b, same a b = true ↔ a = b) ∧
    spaceEq same S T [] [] = true ∧ S.orbits.length ≠ T.orbits.length :=
  ⟨(OrbitSpace.assigned selDict).run [.orbits [5], .functions [1]],
    (OrbitSpace.assigned selDict).run [.orbits [4, 5]], fun a b => decide (a = b),
    selectable_example _, selectable_example _, by simp, by decide +kernel, by decide +kernel⟩

/-- C92, counterexample. Which functions of the orbits are kept is not compared: of two copies of
a subspace one loses one function of an orbit, the other another one, and the copies are equal. -/
theorem C92_eq_other_functions : ∃ (S T : OrbitSpace) (same : ℕ → ℕ → Bool),
    Selectable selSize S ∧ Selectable selSize T ∧ (∀ a b, same a b = true ↔ a = b) ∧
    spaceEq same S T [] [] = true ∧ S.orbits.map Orb.combos ≠ T.orbits.map Orb.combos :=
  ⟨(OrbitSpace.assigned selDict).run [.functions [1]],
    (OrbitSpace.assigned selDict).run [.functions [2]], fun a b => decide (a = b),
    selectable_example _, selectable_example _, by simp, by decide +kernel, by decide +kernel⟩

example : let S := (OrbitSpace.assigned selDict).run [.orbits [4]]
    spaceEq (fun a b => decide (a = b)) S S [7] [7] = true ∧
    spaceEq (fun a b => decide (a = b)) S S [7] [8] = false ∧
    spaceEq (fun a b => decide (a = b)) S ((OrbitSpace.assigned selDict).run [.orbits [2]]) [] [] =
      false := by
  decide +kernel

end Smol
