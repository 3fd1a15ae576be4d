import Verif.Model.Distance
import Verif.Spec.Distance
import Verif.Lemmas.Evaluator

/-! Helper lemmas for the distance processors. -/

namespace Smol
open Spec

set_option linter.unusedSectionVars false

variable {K : Type*} [Field K] [LinearOrder K]

theorem applyWrites_dist (ws : List (ℕ × K)) (out ref : ℕ → K) (i : ℕ) :
    applyWrites (fun _ => 0) (ws.map fun w => (w.1, |w.2 - ref w.1|)) i =
      if i ∈ ws.map Prod.fst then |applyWrites out ws i - ref i| else 0 := by
  induction ws using List.reverseRecOn with
  | nil => simp [applyWrites]
  | append_singleton ws w ih =>
    simp only [applyWrites, List.map_append, List.foldl_append, List.map_cons, List.map_nil,
      List.foldl_cons, List.foldl_nil, List.mem_append, List.mem_singleton] at ih ⊢
    by_cases h : i = w.1
    · subst h; simp
    · rw [Function.update_of_ne h, Function.update_of_ne h, ih]
      by_cases hi : i ∈ ws.map Prod.fst
      · rw [if_pos hi, if_pos (Or.inl hi)]
      · rw [if_neg hi, if_neg (not_or.2 ⟨hi, h⟩)]

section groups
variable {α : Type*} (key : α → K)

theorem groupRuns_flat (l : List α) : (groupRuns key l).flatMap Prod.snd = l := by
  induction l with
  | nil => rfl
  | cons a l ih =>
    unfold groupRuns
    split
    · rename_i h; rw [h] at ih; simp at ih; simp [← ih]
    · rename_i d g rest h
      rw [h] at ih
      split <;> simp at ih ⊢ <;> exact ih

theorem groupRuns_key (l : List α) :
    ∀ p ∈ groupRuns key l, p.2 ≠ [] ∧ ∀ a ∈ p.2, key a = p.1 := by
  induction l with
  | nil => simp [groupRuns]
  | cons a l ih =>
    unfold groupRuns
    split
    · simp
    · rename_i d g rest h
      rw [h] at ih
      simp only [List.mem_cons, forall_eq_or_imp] at ih
      split
      · rename_i hk
        simp only [List.mem_cons, forall_eq_or_imp]
        exact ⟨⟨by simp, hk, ih.1.2⟩, ih.2⟩
      · simp only [List.mem_cons, forall_eq_or_imp]
        exact ⟨⟨by simp, by simp⟩, ih.1, ih.2⟩

theorem groupRuns_sorted (l : List α) (h : l.Pairwise fun a b => key a ≤ key b) :
    (groupRuns key l).Pairwise fun p q => p.1 < q.1 := by
  induction l with
  | nil => simp [groupRuns]
  | cons a l ih =>
    have hk := groupRuns_key key l
    have hf := groupRuns_flat key l
    obtain ⟨h1, h2⟩ := List.pairwise_cons.1 h
    have ih := ih h2
    unfold groupRuns
    split
    · simp
    · rename_i d g rest hg
      rw [hg] at ih hk hf
      obtain ⟨i1, i2⟩ := List.pairwise_cons.1 ih
      split
      · exact List.pairwise_cons.2 ⟨i1, i2⟩
      · rename_i hne
        have hd : key a < d := by
          obtain ⟨hn, hb⟩ := hk (d, g) (by simp)
          obtain ⟨b, hb'⟩ := List.exists_mem_of_ne_nil _ hn
          have : b ∈ l := by rw [← hf]; simp; exact Or.inl hb'
          have := h1 b this
          rw [hb b hb'] at this
          exact lt_of_le_of_ne this hne
        refine List.pairwise_cons.2 ⟨?_, ih⟩
        intro p hp
        rcases List.mem_cons.1 hp with rfl | hp
        · exact hd
        · exact hd.trans (i1 p hp)

theorem matchLoop_cases (tol : K) (inds : α → List ℕ) (dist : ℕ → K) (G : List (K × List α)) :
    ∀ best, (matchLoop tol inds dist best G = best ∧
        ∀ p ∈ G.head?, ¬ ∀ a ∈ p.2, ∀ i ∈ inds a, dist i ≤ tol) ∨
      ∃ A g B, G = A ++ (matchLoop tol inds dist best G, g) :: B ∧
        (∀ p ∈ A, ∀ a ∈ p.2, ∀ i ∈ inds a, dist i ≤ tol) ∧
        (∀ a ∈ g, ∀ i ∈ inds a, dist i ≤ tol) ∧
        ∀ p ∈ B.head?, ¬ ∀ a ∈ p.2, ∀ i ∈ inds a, dist i ≤ tol := by
  induction G with
  | nil => intro best; left; simp [matchLoop]
  | cons p rest ih =>
    obtain ⟨d, os⟩ := p
    intro best
    unfold matchLoop
    by_cases h : ∀ a ∈ os, ∀ i ∈ inds a, dist i ≤ tol
    · rw [if_pos (by simpa using h)]
      right
      rcases ih d with ⟨h1, h2⟩ | ⟨A, g, B, h1, h2, h3, h4⟩
      · exact ⟨[], os, rest, by rw [h1]; rfl, by simp, h, h2⟩
      · refine ⟨(d, os) :: A, g, B, by simpa using h1, ?_, h3, h4⟩
        intro q hq
        rcases List.mem_cons.1 hq with rfl | hq
        · exact h
        · exact h2 q hq
    · rw [if_neg (by
        intro hh
        apply h
        simpa using hh)]
      left
      exact ⟨rfl, by simpa using h⟩

theorem matchLoop_spec (tol : K) (inds : α → List ℕ) (dist : ℕ → K) (orbits : List α) :
    IsMatchDiameter (orbits.map fun o => (key o, inds o)) tol dist
      (matchLoop tol inds dist 0 (orbitsByDiameter key orbits)) := by
  have hperm := List.perm_insertionSort (fun a b => key a ≤ key b) orbits
  have hsort : (orbits.insertionSort fun a b => key a ≤ key b).Pairwise
      fun a b => key a ≤ key b := by
    have : Std.Total fun a b : α => key a ≤ key b := ⟨fun a b => le_total _ _⟩
    have : IsTrans α fun a b : α => key a ≤ key b := ⟨fun a b c => le_trans⟩
    exact List.pairwise_insertionSort _ _
  set G := orbitsByDiameter key orbits with hG
  have hlt : G.Pairwise fun p q => p.1 < q.1 := groupRuns_sorted key _ hsort
  have hk : ∀ p ∈ G, p.2 ≠ [] ∧ ∀ a ∈ p.2, key a = p.1 := groupRuns_key key _
  have hm : ∀ a, a ∈ orbits ↔ ∃ p ∈ G, a ∈ p.2 := by
    intro a
    rw [← hperm.mem_iff, ← groupRuns_flat key (orbits.insertionSort fun a b => key a ≤ key b)]
    simp only [List.mem_flatMap]
    rfl
  have hup : ∀ D, MatchedUpTo (orbits.map fun o => (key o, inds o)) tol dist D ↔
      ∀ p ∈ G, p.1 ≤ D → ∀ a ∈ p.2, ∀ i ∈ inds a, dist i ≤ tol := by
    intro D
    constructor
    · intro h p hp hD a ha
      exact h (key a, inds a) (List.mem_map.2 ⟨a, (hm a).2 ⟨p, hp, ha⟩, rfl⟩)
        (by simp only; rw [(hk p hp).2 a ha]; exact hD)
    · intro h o ho hD
      obtain ⟨a, ha, rfl⟩ := List.mem_map.1 ho
      obtain ⟨p, hp, ha⟩ := (hm a).1 ha
      exact h p hp (by rw [← (hk p hp).2 a ha]; exact hD) a ha
  rcases matchLoop_cases tol inds dist G 0 with ⟨h1, h2⟩ | ⟨A, g, B, h1, h2, h3, h4⟩
  · left
    refine ⟨h1, ?_⟩
    intro o ho hmt
    obtain ⟨a, ha, rfl⟩ := List.mem_map.1 ho
    rw [hup] at hmt
    obtain ⟨p, hp, hap⟩ := (hm a).1 ha
    cases hg : G with
    | nil => rw [hg] at hp; simp at hp
    | cons q rest =>
      rw [hg] at h2
      refine h2 q (by simp) ?_
      refine hmt q (by rw [hg]; simp) ?_
      rw [(hk p hp).2 a hap]
      rw [hg] at hp hlt
      rcases List.mem_cons.1 hp with rfl | hp
      · exact le_rfl
      · exact ((List.pairwise_cons.1 hlt).1 p hp).le
  · right
    set L := matchLoop tol inds dist 0 G with hL
    have hmem : (L, g) ∈ G := by rw [h1]; simp
    have hsplit := hlt
    rw [h1, List.pairwise_append, List.pairwise_cons] at hsplit
    obtain ⟨_, ⟨hLB, hB⟩, hAL⟩ := hsplit
    refine ⟨?_, ?_, ?_⟩
    · obtain ⟨hn, hgk⟩ := hk _ hmem
      obtain ⟨b, hb⟩ := List.exists_mem_of_ne_nil _ hn
      exact ⟨(key b, inds b), List.mem_map.2 ⟨b, (hm b).2 ⟨_, hmem, hb⟩, rfl⟩, hgk b hb⟩
    · rw [hup]
      intro p hp hpL
      rw [h1] at hp
      rcases List.mem_append.1 hp with hp | hp
      · exact h2 p hp
      · rcases List.mem_cons.1 hp with rfl | hp
        · exact h3
        · exact absurd (hLB p hp) (not_lt.2 hpL)
    · intro o ho hmt
      obtain ⟨a, ha, rfl⟩ := List.mem_map.1 ho
      rw [hup] at hmt
      obtain ⟨p, hp, hap⟩ := (hm a).1 ha
      by_contra hlt'
      push Not at hlt'
      simp only at hlt' hmt
      rw [(hk p hp).2 a hap] at hlt' hmt
      have hpB : p ∈ B := by
        rw [h1] at hp
        rcases List.mem_append.1 hp with hp | hp
        · exact absurd (hAL p hp (L, g) (by simp)) (not_lt.2 hlt'.le)
        · rcases List.mem_cons.1 hp with rfl | hp
          · exact absurd hlt' (lt_irrefl _)
          · exact hp
      cases hB' : B with
      | nil => rw [hB'] at hpB; simp at hpB
      | cons q rest =>
        rw [hB'] at h4 hpB hB
        refine h4 q (by simp) (hmt q (by rw [h1, hB']; simp) ?_)
        rcases List.mem_cons.1 hpB with rfl | hpB
        · exact le_rfl
        · exact ((List.pairwise_cons.1 hB).1 p hpB).le

theorem matchLoop_congr (tol : K) (inds : α → List ℕ) (d d' : ℕ → K) (G : List (K × List α))
    (h : ∀ p ∈ G, ∀ a ∈ p.2, ∀ i ∈ inds a, d i = d' i) :
    ∀ best, matchLoop tol inds d best G = matchLoop tol inds d' best G := by
  induction G with
  | nil => intro best; rfl
  | cons p rest ih =>
    obtain ⟨D, os⟩ := p
    intro best
    unfold matchLoop
    have : ((os.flatMap inds).all fun i => decide (d i ≤ tol)) =
        (os.flatMap inds).all fun i => decide (d' i ≤ tol) := by
      apply Bool.eq_iff_iff.2
      simp only [List.all_eq_true, List.mem_flatMap, decide_eq_true_eq, forall_exists_index, and_imp]
      constructor
      · intro hh i a ha hi
        rw [← h (D, os) (by simp) a ha i hi]; exact hh i a ha hi
      · intro hh i a ha hi
        rw [h (D, os) (by simp) a ha i hi]; exact hh i a ha hi
    rw [this, ih fun q hq => h q (by simp [hq])]

theorem mem_orbitsByDiameter (orbits : List α) (p : K × List α)
    (hp : p ∈ orbitsByDiameter key orbits) (a : α) (ha : a ∈ p.2) : a ∈ orbits := by
  have hperm := List.perm_insertionSort (fun a b => key a ≤ key b) orbits
  rw [← hperm.mem_iff, ← groupRuns_flat key (orbits.insertionSort fun a b => key a ≤ key b)]
  exact List.mem_flatMap.2 ⟨p, hp, ha⟩

end groups

theorem foldl_flips (flips : Step) (occ : Occ) :
    flips.foldl (fun o f => Function.update o f.1 f.2) occ = applyStep occ flips := by
  induction flips generalizing occ with
  | nil => rfl
  | cons f fs ih => simp [applyStep, ih]

/-- the two ways of computing distances have the same differences -/
theorem dist_change_eq (W : List ℕ) (h0 : 0 ∉ W) (c : K) (mx : (ℕ → K) → K)
    (hmx : ∀ d d', (∀ i ∈ W, d i = d' i) → mx d = mx d') (F F' t R R' : ℕ → K)
    (hF : ∀ i, i ∉ W → F i = F' i)
    (hR : ∀ i, R i = if i ∈ W then |F i - t i| else 0)
    (hR' : ∀ i, R' i = if i ∈ W then |F' i - t i| else 0) (i : ℕ) :
    (if c ≠ 0 then (Function.update R 0 (mx R), Function.update R' 0 (mx R')) else (R, R')).2 i -
      (if c ≠ 0 then (Function.update R 0 (mx R), Function.update R' 0 (mx R')) else (R, R')).1 i =
    Function.update (fun i => |F' i - t i|) 0 (if c ≠ 0 then mx fun i => |F' i - t i| else 0) i -
      Function.update (fun i => |F i - t i|) 0 (if c ≠ 0 then mx fun i => |F i - t i| else 0) i := by
  by_cases hi : i = 0
  · subst hi
    by_cases hc : c = 0
    · simp [hc, hR, hR', h0]
    · rw [hmx R (fun i => |F i - t i|) fun i hi => by rw [hR, if_pos hi],
        hmx R' (fun i => |F' i - t i|) fun i hi => by rw [hR', if_pos hi]]
      simp [hc]
  · have e : R' i - R i = |F' i - t i| - |F i - t i| := by
      rw [hR, hR']
      split
      · rfl
      · rename_i h; rw [hF i h]; simp
    rw [Function.update_of_ne hi, Function.update_of_ne hi]
    split
    · simp only [Function.update_of_ne hi]; exact e
    · exact e

end Smol
