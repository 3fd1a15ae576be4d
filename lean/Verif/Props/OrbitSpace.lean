import Verif.Lemmas.OrbitSpace

/-!
# C43 Ids of orbits and correlation functions
-/

namespace Smol
open Spec

/-- C43. After ids have been assigned and any sequence of `remove_orbits` and
`remove_corr_functions` requests (including ones that raise), orbits are numbered 1, 2, … in the
order of `orbits`, the ids of their functions are consecutive blocks starting from 1, and the
counts are one more than the numbers of orbits, functions and clusters. -/
theorem C43_ids (d : List (ℕ × List Orb)) (hne : ∀ p ∈ d, ∀ o ∈ p.2, o.combos ≠ [])
    (ops : List SpaceOp) :
    let S := (OrbitSpace.assigned d).run ops
    Numbered (S.orbits.map Orb.block) ∧ S.numOrbits = 1 + S.orbits.length ∧
      S.numCorr = 1 + (funsOf S.orbits).length ∧
      S.numClusters = 1 + (S.orbits.map Orb.mult).sum := by
  intro S
  have hS : S.Ok := run_ok (assigned_ok d (dictOrbits_nonempty hne)) ops
  refine ⟨?_, hS.numOrbits, ?_, hS.numClusters⟩
  · intro j b hb
    rw [List.getElem?_map] at hb
    cases ho : S.orbits[j]? with
    | none => simp [ho] at hb
    | some o =>
      simp only [ho, Option.map_some, Option.some.injEq] at hb
      subst hb
      obtain ⟨h1, h2⟩ := hS.get j o ho
      refine ⟨by simp only [Orb.block]; omega, ?_, ?_⟩
      · simp only [Orb.block, h2, nFuns]
        rw [← List.map_take, List.map_map]; rfl
      · exact List.length_pos_of_ne_nil (hS.nonempty o (List.mem_of_getElem? ho))
  · rw [hS.numCorr, length_funsOf]

/-- C43. `function_orbit_ids` has one entry per function id; the entry of the constant is 0 and
the entry of a function with id in the block of an orbit is the id of that orbit; the function's
place in the list of all functions is its id. -/
theorem C43_function_orbit_ids (d : List (ℕ × List Orb))
    (hne : ∀ p ∈ d, ∀ o ∈ p.2, o.combos ≠ []) (ops : List SpaceOp) :
    let S := (OrbitSpace.assigned d).run ops
    S.functionOrbitIds.length = S.numCorr ∧ S.functionOrbitIds[0]? = some 0 ∧
      ∀ o ∈ S.orbits, ∀ (i : ℕ) (c : ℕ × ℕ), o.combos[i]? = some c →
        S.functionOrbitIds[o.bitId + i]? = some o.id ∧
        (funsOf S.orbits)[o.bitId + i - 1]? = some (o.tag, c) := by
  intro S
  have hS : S.Ok := run_ok (assigned_ok d (dictOrbits_nonempty hne)) ops
  have hfi : S.functionOrbitIds =
      0 :: S.orbits.flatMap fun o => List.replicate o.combos.length o.id := by
    unfold OrbitSpace.functionOrbitIds; rw [foldl_replicate]; rfl
  refine ⟨?_, by rw [hfi]; rfl, ?_⟩
  · rw [hfi, List.length_cons, length_flatMap_replicate, hS.numCorr]; omega
  · intro o ho i c hc
    obtain ⟨j, hj, rfl⟩ := List.getElem_of_mem ho
    have hget := List.getElem?_eq_getElem hj
    obtain ⟨-, h2⟩ := hS.get j _ hget
    have hi := (List.getElem?_eq_some_iff.1 hc).1
    constructor
    · rw [hfi, h2, show 1 + nFuns (List.take j S.orbits) + i =
        (nFuns (List.take j S.orbits) + i) + 1 by omega, List.getElem?_cons_succ]
      exact get_flatMap_replicate _ _ _ hget i hi
    · rw [h2, show 1 + nFuns (List.take j S.orbits) + i - 1 =
        nFuns (List.take j S.orbits) + i by omega]
      exact get_funsOf _ _ _ hget i c hc

/-- C43. `remove_corr_functions` never raises; afterwards exactly the functions with the given ids
are gone, the others are in the same order (ids that no function has, also 0 and negative ones,
are ignored), and an orbit is gone iff it has lost all its functions. -/
theorem C43_remove_functions (d : List (ℕ × List Orb))
    (hne : ∀ p ∈ d, ∀ o ∈ p.2, o.combos ≠ []) (ops : List SpaceOp) (ids : List ℤ) :
    let S := (OrbitSpace.assigned d).run ops
    ∃ S', S.removeCorr ids = some S' ∧ S'.Ok ∧
      funsOf S'.orbits = without ids (funsOf S.orbits) ∧
      S'.orbits.map (fun o => (o.tag, o.mult)) =
        (S.orbits.filter fun o => decide (∃ i < o.combos.length,
          ((o.bitId + i : ℕ) : ℤ) ∉ ids)).map fun o => (o.tag, o.mult) := by
  intro S
  have hS : S.Ok := run_ok (assigned_ok d (dictOrbits_nonempty hne)) ops
  obtain ⟨d', h1, h2⟩ := removeCorr_some hS ids
  have hc := assigned_content d'
  refine ⟨_, h1, assigned_ok d' (by
    rw [h2]; intro o ho; simpa using (List.mem_filter.1 ho).2), ?_, ?_⟩
  · rw [(content_of_eq hc).1, h2, funsOf_filter_nonempty]
    unfold without
    rw [without_funs S.orbits 1 ids fun j o hj => (hS.get j o hj).2]
  · have htm : ∀ l : List Orb, l.map (fun o => (o.tag, o.mult)) =
        (l.map Orb.content).map fun p => (p.1, p.2.1) := by
      intro l; rw [List.map_map]; rfl
    rw [htm, hc, ← htm, h2, List.filter_map, List.map_map]
    have : (fun o : Orb => (o.tag, o.mult)) ∘ (fun o : Orb => o.removeCorr ids) =
        fun o : Orb => (o.tag, o.mult) := by
      funext o
      simp only [Function.comp_apply, (removeCorr_fixed o ids).2.1, (removeCorr_fixed o ids).2.2]
    rw [this]
    congr 1
    apply List.filter_congr
    intro o _
    simp only [Function.comp_apply]
    refine decide_eq_decide.2 ?_
    rw [removeCorr_combos, ← List.length_pos_iff_ne_nil, List.length_map, List.length_pos_iff_exists_mem]
    constructor
    · rintro ⟨p, hp⟩
      obtain ⟨hp1, hp2⟩ := List.mem_filter.1 hp
      have ha := List.le_snd_of_mem_zipIdx hp1
      have hb := List.snd_lt_add_of_mem_zipIdx hp1
      refine ⟨p.2 - o.bitId, by omega, ?_⟩
      rw [show o.bitId + (p.2 - o.bitId) = p.2 by omega]
      simpa using hp2
    · rintro ⟨i, hi, hn⟩
      refine ⟨(o.combos[i], o.bitId + i), List.mem_filter.2 ⟨?_, by simpa using hn⟩⟩
      rw [List.mem_zipIdx_iff_le_and_getElem?_sub]
      simp [hi]

/-- C43. `remove_orbits` raises, changing nothing, exactly when no id or an id outside 1 … number
of orbits is given; otherwise exactly the orbits with these ids are gone and the others are in the
same order with all their functions. -/
theorem C43_remove_orbits (d : List (ℕ × List Orb))
    (hne : ∀ p ∈ d, ∀ o ∈ p.2, o.combos ≠ []) (ops : List SpaceOp) (ids : List ℤ) :
    let S := (OrbitSpace.assigned d).run ops
    (S.removeOrbits ids = none ↔
      ids = [] ∨ ∃ i ∈ ids, i < 1 ∨ (S.orbits.length : ℤ) < i) ∧
    ∀ S', S.removeOrbits ids = some S' → S'.Ok ∧
      S'.orbits.map Orb.content = without ids (S.orbits.map Orb.content) := by
  intro S
  have hS : S.Ok := run_ok (assigned_ok d (dictOrbits_nonempty hne)) ops
  have hcond : (ids = [] ∨ (∃ i ∈ ids, i < 0) ∨ (0 : ℤ) ∈ ids ∨
      (∃ i ∈ ids, (S.numOrbits : ℤ) - 1 < i)) ↔
      (ids = [] ∨ ∃ i ∈ ids, i < 1 ∨ (S.orbits.length : ℤ) < i) := by
    rw [hS.numOrbits]
    constructor
    · rintro (h | ⟨i, hi, h⟩ | h | ⟨i, hi, h⟩)
      · exact Or.inl h
      · exact Or.inr ⟨i, hi, Or.inl (by omega)⟩
      · exact Or.inr ⟨0, h, Or.inl (by omega)⟩
      · exact Or.inr ⟨i, hi, Or.inr (by push_cast at h; omega)⟩
    · rintro (h | ⟨i, hi, h | h⟩)
      · exact Or.inl h
      · rcases lt_or_ge i 0 with h0 | h0
        · exact Or.inr (Or.inl ⟨i, hi, h0⟩)
        · have : i = 0 := by omega
          subst this; exact Or.inr (Or.inr (Or.inl hi))
      · exact Or.inr (Or.inr (Or.inr ⟨i, hi, by push_cast; omega⟩))
  constructor
  · rw [← hcond]
    unfold OrbitSpace.removeOrbits
    split <;> rename_i h
    · simp only [true_iff]; exact h
    · simp only [reduceCtorEq, false_iff]; exact h
  · intro S' hS'
    have hn : ¬ (ids = [] ∨ (∃ i ∈ ids, i < 0) ∨ (0 : ℤ) ∈ ids ∨
        (∃ i ∈ ids, (S.numOrbits : ℤ) - 1 < i)) := by
      intro h
      unfold OrbitSpace.removeOrbits at hS'
      rw [if_pos h] at hS'; cases hS'
    obtain ⟨d', h1, h2⟩ := removeOrbits_some hS.sorted hn
    rw [h1, Option.some.injEq] at hS'
    subst hS'
    refine ⟨assigned_ok d' (by
      rw [h2]; intro o ho; exact hS.nonempty o (List.mem_filter.1 ho).1), ?_⟩
    rw [assigned_content, h2]
    unfold without
    rw [zipIdx_map_filter S.orbits Orb.content 1 (fun n => decide ((n : ℤ) ∉ ids))]
    congr 1
    have aux : ∀ (l : List Orb) (b : ℕ), (∀ (j : ℕ) (o : Orb), l[j]? = some o → o.id = b + j) →
        (l.filter fun o => decide ((o.id : ℤ) ∉ ids)) =
          ((l.zipIdx b).filter fun p => decide ((p.2 : ℤ) ∉ ids)).map Prod.fst := by
      intro l
      induction l with
      | nil => intro b _; rfl
      | cons o l ih =>
        intro b h
        have h0 : o.id = b := by simpa using h 0 o rfl
        have h1 := ih (b + 1) (fun j o' hj => by
          have := h (j + 1) o' (by simpa using hj); omega)
        simp only [List.zipIdx_cons, List.filter_cons, h0]
        split
        · rw [List.map_cons, h1]
        · exact h1
    exact aux S.orbits 1 fun j o hj => (hS.get j o hj).1

/-- two sizes, three orbits, five functions -/
def sampleDict : List (ℕ × List Orb) :=
  [(2, [⟨30, 3, [(300, 1), (301, 2)], 0, 0⟩, ⟨31, 6, [(310, 1)], 0, 0⟩]),
    (1, [⟨20, 1, [(200, 1), (201, 1)], 0, 0⟩])]

example : (∀ p ∈ sampleDict, ∀ o ∈ p.2, o.combos ≠ []) ∧
    (OrbitSpace.assigned sampleDict).orbits.map Orb.block = [(1, 1, 2), (2, 3, 2), (3, 5, 1)] ∧
    ((OrbitSpace.assigned sampleDict).run [.functions [1, 5, 9], .orbits [7], .orbits [1]]).orbits.map
      Orb.block = [(1, 1, 2)] ∧
    ((OrbitSpace.assigned sampleDict).run [.functions [1, 5, 9]]).functionOrbitIds = [0, 1, 2, 2] := by
  decide

end Smol
