import Verif.Lemmas.Hierarchy
import Verif.Lemmas.Orbit

/-!
# C48, C49: hierarchies and coinciding orbits
-/

namespace Smol
open Spec

/-! ## C48 -/

/-- C48. `invert_mapping` raises exactly when a number outside the table is listed. -/
theorem C48_invert_raises (m : List (List ℕ)) : invertMapping m = none ↔ ¬ Closed m := by
  unfold invertMapping
  constructor
  · intro h hc
    obtain ⟨inv, h1, -⟩ := invertLoop_some m m.length (List.replicate m.length [])
      (by simpa using (closed_iff m).1 hc) (decFrom_replicate _ _)
    rw [h1] at h
    exact absurd h (by simp)
  · intro h
    rw [closed_iff] at h
    push Not at h
    exact invertLoop_none m m.length _ (decFrom_replicate _ _) (by simpa using h)

/-- C48. Otherwise it returns a table of the same length that lists `j` in entry `i` exactly when
the table lists `i` in entry `j`; no number is listed twice. -/
theorem C48_invert (m inv : List (List ℕ)) (h : invertMapping m = some inv) :
    inv.length = m.length ∧ (∀ i j, Edge inv i j ↔ Edge m j i) ∧ ∀ l ∈ inv, l.Nodup := by
  have hc : Closed m := by
    by_contra hc
    rw [(C48_invert_raises m).2 hc] at h
    exact absurd h (by simp)
  unfold invertMapping at h
  obtain ⟨inv', h1, h2, h3, h4⟩ := invertLoop_some m m.length (List.replicate m.length [])
    (by simpa using (closed_iff m).1 hc) (decFrom_replicate _ _)
  rw [h] at h1
  obtain rfl := Option.some.inj h1
  refine ⟨by simpa using h2, fun i j => ?_, fun l hl => ?_⟩
  · rw [edge_iff, h4]
    have hrep : (List.replicate m.length ([] : List ℕ)).getD i [] = [] := by
      have := decFrom_replicate 0 m.length i
      rw [List.getD_eq_getElem?_getD]
      cases h : (List.replicate m.length ([] : List ℕ))[i]? with
      | none => rfl
      | some l => exact List.eq_of_mem_replicate (List.mem_of_getElem? h)
    rw [hrep]
    simp only [List.not_mem_nil, false_or]
    rw [← edge_iff]
    exact ⟨fun h => h.2, fun h => ⟨edge_lt h, h⟩⟩
  · obtain ⟨u, hu, rfl⟩ := List.getElem_of_mem hl
    have := (h3 u).1
    rw [List.getD_eq_getElem?_getD, List.getElem?_eq_getElem hu, Option.getD_some] at this
    exact this.imp fun h => Nat.ne_of_gt h

/-- C48. Inverting twice gives back the relation of the table (not necessarily its order). -/
theorem C48_invert_twice (m inv : List (List ℕ)) (h : invertMapping m = some inv) :
    ∃ m', invertMapping inv = some m' ∧ ∀ i j, Edge m' i j ↔ Edge m i j := by
  obtain ⟨h1, h2, -⟩ := C48_invert m inv h
  have hc : Closed inv := fun i j hij => by
    rw [h1]; exact edge_lt ((h2 i j).1 hij)
  cases hi : invertMapping inv with
  | none => exact absurd hc ((C48_invert_raises inv).1 hi)
  | some m' => exact ⟨m', rfl, fun i j => by rw [(C48_invert inv m' hi).2.1, h2]⟩

example : invertMapping [[], [0], [0, 1, 1], [1]] = some [[2, 1], [3, 2], [], []] := by decide
example : invertMapping [[], [3]] = none := by decide

/-- C48. For tables without cycles `get_complete_mapping` ends, after at most as many rounds per
entry as there are entries, and lists `j` in entry `i` exactly when `j` is reached from `i`. -/
theorem C48_complete (m : List (List ℕ)) (hc : Closed m) (ha : Acyclic m) (fuel : ℕ)
    (hf : m.length ≤ fuel) :
    ∃ r, completeMapping m fuel = .done r ∧ r.length = m.length ∧
      ∀ i j, Edge r i j ↔ Relation.TransGen (Edge m) i j := by
  have hdone : ∀ i, ∃ r, closeEntry m fuel (m.getD i []) (m.getD i []) = .done r ∧
      ∀ x, x ∈ r ↔ x ∈ m.getD i [] ∨ ∃ t, 0 ≤ t ∧ Walk m (t + 1) i x := by
    intro i
    refine closeEntry_done hc i fuel 0 _ _ (fun x => walk_one i x) fun x hx => ?_
    exact no_long_walk ha hf (i := i) (j := x) (by rwa [show 0 + 1 + fuel = fuel + 1 by omega] at hx)
  obtain ⟨rs, h1, h2, h3⟩ := completeLoop_done m fuel m.length []
    fun i _ => (hdone i).imp fun _ h => h.1
  refine ⟨rs, by unfold completeMapping; rw [h1, List.append_nil], h2, fun i j => ?_⟩
  rw [edge_iff]
  by_cases hi : i < m.length
  · obtain ⟨r, g1, g2⟩ := hdone i
    rw [h3 i hi] at g1
    injection g1 with g1
    rw [g1, g2]
    constructor
    · rintro (h | ⟨t, -, h⟩)
      · exact .single ((edge_iff m i j).2 h)
      · exact walk_transGen h
    · intro h
      obtain ⟨k, hk⟩ := transGen_walk h
      exact Or.inr ⟨k, Nat.zero_le _, hk⟩
  · constructor
    · intro h
      rw [List.getD_eq_getElem?_getD, List.getElem?_eq_none (by omega)] at h
      simp at h
    · intro h
      obtain ⟨k, hk⟩ := transGen_walk h
      obtain ⟨f, h0, -, hs⟩ := walk_vertices hk
      have := edge_lt (hs 0 (by omega))
      rw [h0] at this
      exact absurd this hi

/-- C48. For tables with a cycle it never ends, however long one waits. -/
theorem C48_complete_diverges (m : List (List ℕ)) (hc : Closed m) (ha : ¬ Acyclic m) (fuel : ℕ) :
    completeMapping m fuel = .running := by
  unfold Acyclic at ha
  push Not at ha
  obtain ⟨i, hi⟩ := ha
  have hrun : closeEntry m fuel (m.getD i []) (m.getD i []) = .running :=
    closeEntry_running hc i (walks_of_cycle hi) fuel 0 _ _ fun x => walk_one i x
  have hlt : i < m.length := by
    obtain ⟨k, hk⟩ := transGen_walk hi
    obtain ⟨f, h0, -, hs⟩ := walk_vertices hk
    have := edge_lt (hs 0 (by omega))
    rwa [h0] at this
  have h1 : ∀ r, completeMapping m fuel ≠ .done r := fun r =>
    completeLoop_not_done m fuel m.length [] r ⟨i, hlt, fun r h => by rw [hrun] at h; cases h⟩
  have h2 : completeMapping m fuel ≠ .raised := by
    refine completeLoop_not_raised m fuel m.length [] fun j _ hj => ?_
    exact closeEntry_ne_raised hc fuel _ _ (fun x hx => hc j x ((edge_iff m j x).2 hx)) hj
  cases hcm : completeMapping m fuel with
  | done r => exact absurd hcm (h1 r)
  | raised => exact absurd hcm h2
  | running => rfl

/-- C48. A table that lists a number outside of it is never completed. -/
theorem C48_complete_outside (m : List (List ℕ)) (hc : ¬ Closed m) (fuel : ℕ)
    (r : List (List ℕ)) : completeMapping m fuel ≠ .done r := by
  rw [closed_iff] at hc
  push Not at hc
  obtain ⟨i, hi, v, hv, hl⟩ := hc
  refine completeLoop_not_done m fuel m.length [] r ⟨i, hi, fun r h => ?_⟩
  have hne : m.getD i [] ≠ [] := List.ne_nil_of_mem hv
  cases fuel with
  | zero => rw [closeEntry, if_neg hne] at h; cases h
  | succ fuel =>
    rw [closeEntry, if_neg hne, nextValues_none m _ _ ⟨v, hv, hl⟩] at h
    cases h

/-- the orbit hierarchy of a point, two pairs and a triplet containing both -/
def sampleHierarchy : List (List ℕ) := [[], [], [1], [1], [2, 3]]

example : completeMapping sampleHierarchy 5 = .done [[], [], [1], [1], [2, 3, 1]] := by decide
example : completeMapping [[1], [0]] 7 = .running := by decide

/-- tables that list only smaller numbers have no cycles -/
theorem descending_acyclic {m : List (List ℕ)} (h : ∀ i j, Edge m i j → j < i) :
    Closed m ∧ Acyclic m := by
  have ht : ∀ i j, Relation.TransGen (Edge m) i j → j < i := by
    intro i j hij
    induction hij with
    | single e => exact h _ _ e
    | tail _ e ih => exact lt_trans (h _ _ e) ih
  exact ⟨fun i j e => lt_trans (h i j e) (edge_lt e), fun i e => absurd (ht i i e) (by omega)⟩

example : Closed sampleHierarchy ∧ Acyclic sampleHierarchy :=
  descending_acyclic fun i j h => by
    rw [edge_iff] at h
    match i with
    | 0 => simp [sampleHierarchy] at h
    | 1 => simp [sampleHierarchy] at h
    | 2 => simp [sampleHierarchy] at h; omega
    | 3 => simp [sampleHierarchy] at h; omega
    | 4 => simp [sampleHierarchy] at h; omega
    | n + 5 => simp [sampleHierarchy] at h

/-- C48. `get_sub_orbits` for an orbit of clusters with `k` sites, when `min_size` is at most one
or a level between 0 and `k - 1` is given: it raises exactly when the subspace has no orbit of one
of the sizes to be searched, otherwise it returns exactly the sub-orbits of those sizes.
Missing: other levels together with a `min_size` above one, where the claim is false
(`C48_min_size_ignored`). -/
theorem C48_sub_orbits_partial (S : OrbitSpace) (hS : S.Reachable)
    (hn : (S.dict.map Prod.fst).Nodup) (isSub : ℕ → ℕ → Bool) (k : ℕ) (o : Orb)
    (ho : S.At k o) (level : Option ℤ) (minSize : ℤ)
    (hl : minSize ≤ 1 ∨ ∃ l, level = some l ∧ 0 ≤ l ∧ l < k) :
    (S.subOrbits isSub o.id level minSize = none ↔
      ∃ s, SearchedSize k level minSize s ∧ ∀ q ∈ S.dict.map Prod.fst, (q : ℤ) ≠ s) ∧
    ∀ l, S.subOrbits isSub o.id level minSize = some l → ∀ o', o' ∈ l ↔
      isSub o.tag o'.tag = true ∧ ∃ s : ℕ, S.At s o' ∧ SearchedSize k level minSize s := by
  have hs : ∀ s : ℤ, SearchedSize k level minSize s ↔ searchStop k level minSize < s ∧ s < k := by
    intro s
    unfold SearchedSize searchStop
    cases level with
    | none =>
      simp only [reduceCtorEq, false_imp_iff, implies_true, and_true]
      rcases hl with hl | ⟨l, h, -⟩
      · omega
      · cases h
    | some l =>
      simp only [Option.some.injEq, forall_eq']
      split
      · rename_i hc
        rcases hl with hl | ⟨l', h, h0, hlt⟩
        · constructor
          · rintro ⟨h1, h2, -⟩; omega
          · rintro ⟨h1, h2⟩; refine ⟨by omega, h2, by omega, fun h => by omega⟩
        · obtain rfl : l = l' := by simpa using h
          omega
      · rename_i hc
        split
        · constructor
          · rintro ⟨h1, h2, h3, h4⟩; omega
          · rintro ⟨h1, h2⟩; exact ⟨by omega, h2, by omega, fun _ => by omega⟩
        · constructor
          · rintro ⟨h1, h2, h3, h4⟩; have := h4 (by omega); omega
          · rintro ⟨h1, h2⟩; exact ⟨by omega, h2, by omega, fun _ => by omega⟩
  refine ⟨?_, fun l h o' => ?_⟩
  · rw [subOrbits_none hS.ok isSub ho]
    simp only [hs, and_assoc]
  · rw [mem_subOrbits hS.ok hn isSub ho level minSize h]
    simp only [hs, Nat.cast_lt]

/-- C48, negative. When no level is given (or a negative one, or one not smaller than the number of
sites) `min_size` has no effect: the answer is the same for every `min_size`. -/
theorem C48_min_size_ignored (S : OrbitSpace) (hS : S.Reachable) (isSub : ℕ → ℕ → Bool) (k : ℕ)
    (o : Orb) (ho : S.At k o) (level : Option ℤ) (hl : ∀ l, level = some l → l < 0 ∨ (k : ℤ) ≤ l)
    (a b : ℤ) :
    S.subOrbits isSub o.id level a = S.subOrbits isSub o.id level b := by
  rw [subOrbits_eq hS.ok isSub ho, subOrbits_eq hS.ok isSub ho]
  have : searchStop k level a = searchStop k level b := by
    unfold searchStop
    cases level with
    | none => rfl
    | some l =>
      have := hl l rfl
      simp only
      rw [if_pos (by omega), if_pos (by omega)]
  rw [this]

/-- C48. An orbit hierarchy lists for every orbit id exactly the ids of the sub-orbits found for
it, always smaller than its own; hence its completion ends and is the transitive closure. -/
theorem C48_orbit_hierarchy (S : OrbitSpace) (hS : S.Reachable)
    (hn : (S.dict.map Prod.fst).Nodup) (isSub : ℕ → ℕ → Bool) (level : Option ℤ) (minSize : ℤ)
    (h : List (List ℕ)) (hh : S.orbitHierarchy isSub level minSize = some h) :
    h.length = S.orbits.length + 1 ∧ (∀ j, ¬ Edge h 0 j) ∧
    (∀ o ∈ S.orbits, ∀ j, Edge h o.id j ↔
      ∃ l, S.subOrbits isSub o.id level minSize = some l ∧ ∃ o' ∈ l, o'.id = j) ∧
    (∀ i j, Edge h i j → 0 < j ∧ j < i) ∧
    ∃ r, completeMapping h h.length = .done r ∧
      ∀ i j, Edge r i j ↔ Relation.TransGen (Edge h) i j := by
  have ok := hS.ok
  unfold OrbitSpace.orbitHierarchy at hh
  rw [Option.map_eq_some_iff] at hh
  obtain ⟨subs, h1, rfl⟩ := hh
  have hlen : subs.length = S.orbits.length := ((mapM_eq_some_get _ _ _).1 h1).1.symm
  have hrow : ∀ o ∈ S.orbits, ∃ l, S.subOrbits isSub o.id level minSize = some l ∧
      subs[o.id - 1]? = some (l.map Orb.id) := by
    intro o ho
    obtain ⟨hp, hg⟩ := ok.get_id ho
    obtain ⟨hlt, he⟩ := List.getElem?_eq_some_iff.1 hg
    have := ((mapM_eq_some_get _ _ _).1 h1).2 (o.id - 1) hlt (by omega)
    rw [he, Option.map_eq_some_iff] at this
    obtain ⟨l, hl, e⟩ := this
    exact ⟨l, hl, by rw [List.getElem?_eq_getElem (by omega), e]⟩
  have h0 : ∀ j, ¬ Edge ([] :: subs) 0 j := by
    rintro j ⟨l, hl, hj⟩
    simp only [List.getElem?_cons_zero, Option.some.injEq] at hl
    subst hl
    simp at hj
  have hedge : ∀ o ∈ S.orbits, ∀ j, Edge ([] :: subs) o.id j ↔
      ∃ l, S.subOrbits isSub o.id level minSize = some l ∧ ∃ o' ∈ l, o'.id = j := by
    intro o ho j
    obtain ⟨l, hl, hr⟩ := hrow o ho
    have hp := (ok.get_id ho).1
    have hget : ([] :: subs)[o.id]? = some (l.map Orb.id) := by
      rw [show o.id = (o.id - 1) + 1 by omega, List.getElem?_cons_succ]; exact hr
    unfold Edge
    rw [hget]
    simp only [Option.some.injEq, exists_eq_left', hl, List.mem_map]
  have hdesc : ∀ i j, Edge ([] :: subs) i j → 0 < j ∧ j < i := by
    intro i j hij
    have hi := edge_lt hij
    cases i with
    | zero => exact absurd hij (h0 j)
    | succ i =>
      simp only [List.length_cons] at hi
      have hi' : i < S.orbits.length := by omega
      have hmem : S.orbits[i] ∈ S.orbits := List.getElem_mem hi'
      have hid : S.orbits[i].id = i + 1 := by
        have := (ok.get i _ (List.getElem?_eq_getElem hi')).1; omega
      rw [← hid] at hij
      obtain ⟨l, hl, o', ho', rfl⟩ := (hedge _ hmem j).1 hij
      obtain ⟨k, hk⟩ := (ok.mem_orbits _).1 hmem
      obtain ⟨-, s, hs, -, hlt⟩ := (mem_subOrbits ok hn isSub hk level minSize hl o').1 ho'
      rw [← hid]
      exact ⟨(ok.get_id ((ok.mem_orbits o').2 ⟨s, hs⟩)).1,
        ok.lt_of_size hk hs (by exact_mod_cast hlt)⟩
  obtain ⟨hc, ha⟩ := descending_acyclic fun i j e => (hdesc i j e).2
  obtain ⟨r, r1, -, r3⟩ := C48_complete _ hc ha _ le_rfl
  exact ⟨by simp [hlen], h0, hedge, hdesc, r, r1, r3⟩

/-- two points, a pair of both and a triplet -/
def hierarchySpace : OrbitSpace :=
  OrbitSpace.assigned [(3, [⟨30, 1, [(1, 1)], 0, 0⟩]), (1, [⟨10, 1, [(1, 1)], 0, 0⟩,
    ⟨11, 1, [(1, 1)], 0, 0⟩]), (2, [⟨20, 1, [(1, 1)], 0, 0⟩])]

theorem hierarchySpace_reachable : hierarchySpace.Reachable := by
  refine ⟨_, [], ?_, rfl⟩
  decide

example : (hierarchySpace.dict.map Prod.fst).Nodup := by decide
example : hierarchySpace.At 3 ⟨30, 1, [(1, 1)], 4, 4⟩ :=
  ⟨[⟨30, 1, [(1, 1)], 4, 4⟩], by decide, by decide⟩

example : hierarchySpace.orbitHierarchy (fun a b => decide (b < a)) (some 1) 1 =
    some [[], [], [], [1, 2], [3]] := by decide
/-- points are returned although a minimum size of two was asked for -/
example : (hierarchySpace.subOrbits (fun a b => decide (b < a)) 4 none 2).map
    (fun l => l.map Orb.id) = some [3, 1, 2] := by decide
/-- after all pairs are removed the question for the triplet's sub-orbits raises -/
theorem C48_missing_size_raises :
    ((hierarchySpace.removeOrbits [3]).bind fun S =>
      S.subOrbits (fun a b => decide (b < a)) 3 (some 1) 1) = none ∧
    (hierarchySpace.removeOrbits [3]).isSome = true := by decide

/-- C48. A sub-function is found exactly when some member of its class is the restriction of some
member of the function's class along a site mapping, if the set of mappings is closed under the
permutations of the sub-orbit. -/
theorem C48_sub_functions (n : ℕ) (perms : List (List ℕ)) (G : PermGroup n perms)
    (combo inds : List (List ℕ)) (hi : ∀ m ∈ inds, m.length = n)
    (hcl : ∀ m ∈ inds, ∀ p ∈ perms, permute m p ∈ inds)
    (subCombos : List (List (List ℕ)))
    (hsub : ∀ cl ∈ subCombos, cl ≠ [] ∧ (∀ a ∈ cl, a.length = n) ∧
      ∀ a ∈ cl, ∀ b ∈ cl, Equivalent perms a b) (i : ℕ) :
    i ∈ subFunctions combo inds subCombos ↔
      ∃ cl, subCombos[i]? = some cl ∧ ∃ row ∈ combo, ∃ m ∈ inds, permute row m ∈ cl := by
  unfold subFunctions
  simp only [List.mem_filter, List.mem_range, List.any_eq_true, beq_iff_eq]
  constructor
  · rintro ⟨hlt, row, hr, m, hm, he⟩
    refine ⟨subCombos[i], List.getElem?_eq_getElem hlt, row, hr, m, hm, ?_⟩
    rw [List.getD_eq_getElem?_getD, List.getElem?_eq_getElem hlt, Option.getD_some] at he
    rw [he]
    have hne := (hsub _ (List.getElem_mem hlt)).1
    cases hc : subCombos[i] with
    | nil => exact absurd hc hne
    | cons a l => simp
  · rintro ⟨cl, hcl', row, hr, m, hm, hmem⟩
    obtain ⟨hlt, rfl⟩ := List.getElem?_eq_some_iff.1 hcl'
    obtain ⟨hne, hlen, heq⟩ := hsub _ (List.getElem_mem hlt)
    refine ⟨hlt, row, hr, ?_⟩
    rw [List.getD_eq_getElem?_getD, List.getElem?_eq_getElem hlt, Option.getD_some]
    have hhd : subCombos[i].headD [] ∈ subCombos[i] := by
      cases hc : subCombos[i] with
      | nil => exact absurd hc hne
      | cons a l => simp
    obtain ⟨p, hp, e⟩ := (equivalent_iff_permute G _ _ (hlen _ hmem)).1 (heq _ hmem _ hhd)
    refine ⟨permute m p, hcl m hm p hp, ?_⟩
    rw [e, permute_permute row m p]
    intro x hx
    rw [hi m hm]
    exact G.lt hp x hx

/-- a pair inside a triplet; the functions of the pair are symmetric -/
example : let perms := [[0, 1], [1, 0]]
    let inds := [[0, 1], [1, 0], [0, 2], [2, 0]]
    PermGroup 2 perms ∧ (∀ m ∈ inds, ∀ p ∈ perms, permute m p ∈ inds) ∧
    subFunctions [[0, 0, 1], [0, 1, 0], [1, 0, 0]] inds [[[0, 0]], [[0, 1], [1, 0]], [[1, 1]]] =
      [0, 1] := by
  refine ⟨⟨by decide, by decide, by decide, by decide⟩, by decide, by decide⟩

/-! ## C49 -/

/-- C49. The groups of `get_aliased_orbits`: each has at least two ids, lists in increasing order
exactly the ids of the orbits that coincide with each of its members, and any two different
coinciding orbits are in a common group. -/
theorem C49_groups (maps : List (List (List ℕ))) :
    (∀ g ∈ aliasedOrbits maps, 2 ≤ g.length ∧ g.Pairwise (· < ·) ∧
      ∀ x ∈ g, ∃ a, 0 < x ∧ maps[x - 1]? = some a ∧
        ∀ y, y ∈ g ↔ ∃ b, 0 < y ∧ maps[y - 1]? = some b ∧ SameClusters a b) ∧
    ∀ i j a b, maps[i]? = some a → maps[j]? = some b → i ≠ j → SameClusters a b →
      ∃ g ∈ aliasedOrbits maps, i + 1 ∈ g ∧ j + 1 ∈ g := by
  have hget : ∀ i (hi : i < maps.length), maps.getD i [] = maps[i] := by
    intro i hi
    rw [List.getD_eq_getElem?_getD, List.getElem?_eq_getElem hi, Option.getD_some]
  rw [aliasedOrbits_eq]
  constructor
  · intro g hg
    simp only [List.mem_map, List.mem_filter, List.mem_range, decide_eq_true_eq] at hg
    obtain ⟨i, ⟨hi, hl⟩, rfl⟩ := hg
    have hsort : (classIds maps i).Pairwise (· < ·) := sorted_succ_filter _ _
    refine ⟨?_, hsort, ?_⟩
    · obtain ⟨-, j, hj, hij, hs⟩ := hl
      have h1 : i + 1 ∈ classIds maps i := (mem_classIds maps i _).2 ⟨i, hi, rfl, rfl⟩
      have h2 : j + 1 ∈ classIds maps i := (mem_classIds maps i _).2 ⟨j, hj, hs, rfl⟩
      have hsubset : ([i + 1, j + 1] : List ℕ) ⊆ classIds maps i := by
        intro x hx
        simp only [List.mem_cons, List.not_mem_nil, or_false] at hx
        rcases hx with rfl | rfl
        · exact h1
        · exact h2
      have hnd : ([i + 1, j + 1] : List ℕ).Nodup := by simp; omega
      exact (hnd.subperm hsubset).length_le
    · intro x hx
      obtain ⟨j, hj, hs, rfl⟩ := (mem_classIds maps i _).1 hx
      refine ⟨maps[j], by omega, by simp [hj], fun y => ?_⟩
      rw [mem_classIds]
      constructor
      · rintro ⟨l, hl', hs', rfl⟩
        refine ⟨maps[l], by omega, by simp [hl'], ?_⟩
        rw [← sortedMap_eq_iff, ← hget j hj, ← hget l hl']
        exact hs.symm.trans hs'
      · rintro ⟨b, h0, hb, hsame⟩
        obtain ⟨hlt, rfl⟩ := List.getElem?_eq_some_iff.1 hb
        refine ⟨y - 1, hlt, ?_, by omega⟩
        rw [← sortedMap_eq_iff, ← hget j hj, ← hget _ hlt] at hsame
        exact hs.trans hsame
  · intro i j a b ha hb hij hsame
    obtain ⟨hi, rfl⟩ := List.getElem?_eq_some_iff.1 ha
    obtain ⟨hj, rfl⟩ := List.getElem?_eq_some_iff.1 hb
    rw [← sortedMap_eq_iff, ← hget i hi, ← hget j hj] at hsame
    have hsame : sameAt maps i j := hsame
    have hex : ∃ k, sameAt maps k i := ⟨i, rfl⟩
    have hk := Nat.find_spec hex
    have hki : Nat.find hex ≤ i := Nat.find_min' hex rfl
    have hkj : Nat.find hex ≤ j := Nat.find_min' hex hsame.symm
    have hlead : leads maps (Nat.find hex) := by
      refine ⟨fun l hl hs => Nat.find_min hex hl (hs.trans hk), ?_⟩
      rcases Nat.lt_or_ge (Nat.find hex) i with h | h
      · exact ⟨i, hi, h, hk⟩
      · exact ⟨j, hj, by omega, hk.trans hsame⟩
    refine ⟨classIds maps (Nat.find hex), ?_, (mem_classIds maps _ _).2 ⟨i, hi, hk, rfl⟩,
      (mem_classIds maps _ _).2 ⟨j, hj, hk.trans hsame, rfl⟩⟩
    simp only [List.mem_map, List.mem_filter, List.mem_range, decide_eq_true_eq]
    exact ⟨_, ⟨by omega, hlead⟩, rfl⟩

/-- C49. No orbit is in two groups and the groups come in the order of their first orbits. -/
theorem C49_disjoint (maps : List (List (List ℕ))) :
    (aliasedOrbits maps).Pairwise fun g h => g.headD 0 < h.headD 0 ∧ ∀ x ∈ g, x ∉ h := by
  rw [aliasedOrbits_eq, List.pairwise_map]
  have h1 := (List.pairwise_lt_range (n := maps.length)).filter fun i => decide (leads maps i)
  refine h1.imp_of_mem ?_
  intro i j hi hj hij
  simp only [List.mem_filter, List.mem_range, decide_eq_true_eq] at hi hj
  refine ⟨by rw [classIds_head maps hi.1 hi.2, classIds_head maps hj.1 hj.2]; omega, ?_⟩
  intro x hx hx'
  obtain ⟨a, -, ha, rfl⟩ := (mem_classIds maps i _).1 hx
  obtain ⟨b, -, hb, e⟩ := (mem_classIds maps j _).1 hx'
  obtain rfl : a = b := by omega
  exact hj.2.1 i hij (ha.trans hb.symm)

example : aliasedOrbits [[[0, 1]], [[0, 2], [2, 3]], [[1, 0], [0, 1]], [[3, 2], [2, 0]], [[4]],
    [[1, 0]]] = [[1, 3, 6], [2, 4]] := by decide

end Smol
