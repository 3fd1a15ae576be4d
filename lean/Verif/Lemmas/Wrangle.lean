import Verif.Spec.Wrangle

/-!
# Lemmas for the data filters
-/

namespace Smol
open Spec

/-! ## merging -/

theorem mem_combos2 {α : Type*} {a b : α} : ∀ {l : List α}, (a, b) ∈ combos2 l ↔
    ∃ i j : ℕ, i < j ∧ l[i]? = some a ∧ l[j]? = some b := by
  intro l
  induction l with
  | nil => simp [combos2]
  | cons c l ih =>
    unfold combos2
    rw [List.mem_append, List.mem_map, ih]
    constructor
    · rintro (⟨x, hx, e⟩ | ⟨i, j, hij, hi, hj⟩)
      · obtain ⟨rfl, rfl⟩ := Prod.mk.inj e
        obtain ⟨j, hj⟩ := List.mem_iff_getElem?.1 hx
        exact ⟨0, j + 1, by omega, by simp, by simpa using hj⟩
      · exact ⟨i + 1, j + 1, by omega, by simpa using hi, by simpa using hj⟩
    · rintro ⟨i, j, hij, hi, hj⟩
      obtain ⟨j, rfl⟩ : ∃ k, j = k + 1 := ⟨j - 1, by omega⟩
      rw [List.getElem?_cons_succ] at hj
      cases i with
      | zero =>
        left
        simp only [List.getElem?_cons_zero, Option.some.injEq] at hi
        exact ⟨b, List.mem_of_getElem? hj, by rw [hi]⟩
      | succ i =>
        right
        exact ⟨i, j, by omega, by simpa using hi, hj⟩

theorem mem_overlaps {s t : Finset ℕ} {ms : List (Finset ℕ)} (hn : ms.Nodup)
    (h : (s, t) ∈ overlaps ms) : s ∈ ms ∧ t ∈ ms ∧ s ≠ t ∧ (s ∩ t).Nonempty := by
  unfold overlaps at h
  rw [List.mem_filter, mem_combos2, decide_eq_true_eq] at h
  obtain ⟨⟨i, j, hij, hi, hj⟩, h2⟩ := h
  refine ⟨List.mem_of_getElem? hi, List.mem_of_getElem? hj, ?_, h2⟩
  rintro rfl
  obtain ⟨hi', e1⟩ := List.getElem?_eq_some_iff.1 hi
  obtain ⟨hj', e2⟩ := List.getElem?_eq_some_iff.1 hj
  have := (hn.getElem_inj_iff (hi := hi') (hj := hj')).1 (e1.trans e2.symm)
  omega

theorem overlaps_of {s t : Finset ℕ} {ms : List (Finset ℕ)} (hs : s ∈ ms) (ht : t ∈ ms)
    (hne : s ≠ t) (h : (s ∩ t).Nonempty) : (s, t) ∈ overlaps ms ∨ (t, s) ∈ overlaps ms := by
  obtain ⟨i, hi⟩ := List.mem_iff_getElem?.1 hs
  obtain ⟨j, hj⟩ := List.mem_iff_getElem?.1 ht
  have hij : i ≠ j := by rintro rfl; rw [hi] at hj; exact hne (Option.some.inj hj)
  unfold overlaps
  rcases Nat.lt_or_ge i j with hlt | hge
  · left
    rw [List.mem_filter, mem_combos2, decide_eq_true_eq]
    exact ⟨⟨i, j, hlt, hi, hj⟩, h⟩
  · right
    rw [List.mem_filter, mem_combos2, decide_eq_true_eq]
    exact ⟨⟨j, i, by omega, hj, hi⟩, by rw [Finset.inter_comm]; exact h⟩

theorem foldl_unions (ps : List (Finset ℕ × Finset ℕ)) : ∀ acc : List (Finset ℕ), acc.Nodup →
    (ps.foldl (fun acc p => if p.1 ∪ p.2 ∈ acc then acc else acc ++ [p.1 ∪ p.2]) acc).Nodup ∧
    ∀ s, s ∈ ps.foldl (fun acc p => if p.1 ∪ p.2 ∈ acc then acc else acc ++ [p.1 ∪ p.2]) acc ↔
      s ∈ acc ∨ ∃ p ∈ ps, s = p.1 ∪ p.2 := by
  induction ps with
  | nil => intro acc h; simp [h]
  | cons p ps ih =>
    intro acc h
    rw [List.foldl_cons]
    by_cases hp : p.1 ∪ p.2 ∈ acc
    · rw [if_pos hp]
      obtain ⟨h1, h2⟩ := ih acc h
      refine ⟨h1, fun s => ?_⟩
      rw [h2]
      constructor
      · rintro (h | ⟨q, hq, e⟩)
        · exact Or.inl h
        · exact Or.inr ⟨q, List.mem_cons_of_mem _ hq, e⟩
      · rintro (h | ⟨q, hq, e⟩)
        · exact Or.inl h
        · rcases List.mem_cons.1 hq with rfl | hq
          · left; rw [e]; exact hp
          · exact Or.inr ⟨q, hq, e⟩
    · rw [if_neg hp]
      obtain ⟨h1, h2⟩ := ih (acc ++ [p.1 ∪ p.2]) (by
        rw [List.nodup_append]
        refine ⟨h, by simp, ?_⟩
        intro a ha b hb
        rw [List.mem_singleton] at hb
        rintro rfl
        exact hp (hb ▸ ha))
      refine ⟨h1, fun s => ?_⟩
      rw [h2, List.mem_append, List.mem_singleton]
      constructor
      · rintro ((h | h) | ⟨q, hq, e⟩)
        · exact Or.inl h
        · exact Or.inr ⟨p, by simp, h⟩
        · exact Or.inr ⟨q, List.mem_cons_of_mem _ hq, e⟩
      · rintro (h | ⟨q, hq, e⟩)
        · exact Or.inl (Or.inl h)
        · rcases List.mem_cons.1 hq with rfl | hq
          · exact Or.inl (Or.inr e)
          · exact Or.inr ⟨q, hq, e⟩

theorem mergeStep_nodup {ms : List (Finset ℕ)} (hn : ms.Nodup) : (mergeStep ms).Nodup :=
  (foldl_unions _ _ (hn.filter _)).1

theorem mem_mergeStep {ms : List (Finset ℕ)} (hn : ms.Nodup) (s : Finset ℕ) :
    s ∈ mergeStep ms ↔ (s ∈ ms ∧ ∀ t ∈ ms, s ≠ t → ¬ (s ∩ t).Nonempty) ∨
      ∃ a ∈ ms, ∃ b ∈ ms, a ≠ b ∧ (a ∩ b).Nonempty ∧ s = a ∪ b := by
  unfold mergeStep
  rw [(foldl_unions _ _ (hn.filter _)).2, List.mem_filter, decide_eq_true_eq]
  have h1 : (s ∈ (overlaps ms).flatMap fun p => [p.1, p.2]) ↔
      s ∈ ms ∧ ∃ t ∈ ms, s ≠ t ∧ (s ∩ t).Nonempty := by
    rw [List.mem_flatMap]
    constructor
    · rintro ⟨⟨a, b⟩, hp, hs⟩
      obtain ⟨ha, hb, hne, hi⟩ := mem_overlaps hn hp
      simp only [List.mem_cons, List.not_mem_nil, or_false] at hs
      rcases hs with rfl | rfl
      · exact ⟨ha, b, hb, hne, hi⟩
      · exact ⟨hb, a, ha, hne.symm, by rw [Finset.inter_comm]; exact hi⟩
    · rintro ⟨hs, t, ht, hne, hi⟩
      rcases overlaps_of hs ht hne hi with h | h
      · exact ⟨_, h, by simp⟩
      · exact ⟨_, h, by simp⟩
  rw [h1]
  constructor
  · rintro (⟨hs, h⟩ | ⟨⟨a, b⟩, hp, e⟩)
    · left
      refine ⟨hs, fun t ht hne hi => h ⟨hs, t, ht, hne, hi⟩⟩
    · right
      obtain ⟨ha, hb, hne, hi⟩ := mem_overlaps hn hp
      exact ⟨a, ha, b, hb, hne, hi, e⟩
  · rintro (⟨hs, h⟩ | ⟨a, ha, b, hb, hne, hi, e⟩)
    · left
      refine ⟨hs, ?_⟩
      rintro ⟨-, t, ht, hne, hi⟩
      exact h t ht hne hi
    · right
      rcases overlaps_of ha hb hne hi with h | h
      · exact ⟨_, h, e⟩
      · exact ⟨_, h, by rw [e, Finset.union_comm]⟩

theorem overlaps_nil_iff {ms : List (Finset ℕ)} (hn : ms.Nodup) :
    overlaps ms = [] ↔ ∀ s ∈ ms, ∀ t ∈ ms, s ≠ t → ¬ (s ∩ t).Nonempty := by
  constructor
  · intro h s hs t ht hne hi
    rcases overlaps_of hs ht hne hi with h' | h' <;> rw [h] at h' <;> cases h'
  · intro h
    rw [List.eq_nil_iff_forall_not_mem]
    rintro ⟨a, b⟩ hp
    obtain ⟨ha, hb, hne, hi⟩ := mem_overlaps hn hp
    exact h a ha b hb hne hi

/-- The merging ends within as many rounds as there are elements, and properties closed under
overlapping unions hold of the result. -/
theorem mergeLoop_spec (P : Finset ℕ → Prop) (u : Finset ℕ)
    (hP : ∀ a b, P a → P b → (a ∩ b).Nonempty → P (a ∪ b)) (hPu : ∀ s, P s → s ⊆ u) :
    ∀ (fuel k : ℕ) (ms : List (Finset ℕ)), ms.Nodup → (∀ s ∈ ms, P s) →
      (∀ s ∈ ms, ∀ t ∈ ms, s ≠ t → (s ∩ t).Nonempty → k ≤ s.card) → u.card < fuel + k →
      ∃ r, mergeLoop fuel ms = some r ∧ r.Nodup ∧ (∀ s ∈ r, P s) ∧
        (∀ s ∈ ms, ∃ t ∈ r, s ⊆ t) ∧
        ∀ s ∈ r, ∀ t ∈ r, s ≠ t → Disjoint s t := by
  intro fuel
  induction fuel with
  | zero =>
    intro k ms hn hms hk hc
    have hnil : overlaps ms = [] := by
      rw [overlaps_nil_iff hn]
      intro s hs t ht hne hi
      have h1 := hk s hs t ht hne hi
      have h2 := Finset.card_le_card (hPu s (hms s hs))
      omega
    refine ⟨ms, by unfold mergeLoop; rw [if_pos hnil], hn, hms, fun s hs => ⟨s, hs, subset_rfl⟩, ?_⟩
    intro s hs t ht hne
    rw [Finset.disjoint_iff_inter_eq_empty, ← Finset.not_nonempty_iff_eq_empty]
    exact (overlaps_nil_iff hn).1 hnil s hs t ht hne
  | succ fuel ih =>
    intro k ms hn hms hk hc
    unfold mergeLoop
    by_cases hnil : overlaps ms = []
    · refine ⟨ms, by rw [if_pos hnil], hn, hms, fun s hs => ⟨s, hs, subset_rfl⟩, ?_⟩
      intro s hs t ht hne
      rw [Finset.disjoint_iff_inter_eq_empty, ← Finset.not_nonempty_iff_eq_empty]
      exact (overlaps_nil_iff hn).1 hnil s hs t ht hne
    · rw [if_neg hnil]
      have H1 : ∀ s ∈ mergeStep ms, P s := by
        intro s hs
        rcases (mem_mergeStep hn s).1 hs with ⟨hs, -⟩ | ⟨a, ha, b, hb, -, hi, rfl⟩
        · exact hms s hs
        · exact hP a b (hms a ha) (hms b hb) hi
      have H2 : ∀ s ∈ mergeStep ms, ∀ t ∈ mergeStep ms, s ≠ t → (s ∩ t).Nonempty →
          k + 1 ≤ s.card := by
        intro s hs t ht hne hi
        rcases (mem_mergeStep hn s).1 hs with ⟨hs, hiso⟩ | ⟨a, ha, b, hb, hab, hi', rfl⟩
        · exfalso
          rcases (mem_mergeStep hn t).1 ht with ⟨ht, -⟩ | ⟨c, hc, d, hd, hcd, hi', rfl⟩
          · exact hiso t ht hne hi
          · rw [Finset.inter_union_distrib_left, Finset.union_nonempty] at hi
            have hsc : s = c ∨ s ≠ c := eq_or_ne s c
            rcases hsc with rfl | hsc
            · exact hiso d hd hcd hi'
            · rcases eq_or_ne s d with rfl | hsd
              · exact hiso c hc hsc (by rw [Finset.inter_comm]; exact hi')
              · rcases hi with hi | hi
                · exact hiso c hc hsc hi
                · exact hiso d hd hsd hi
        · have ha' := hk a ha b hb hab hi'
          have hb' := hk b hb a ha hab.symm (by rw [Finset.inter_comm]; exact hi')
          by_cases hsub : a ⊆ b
          · have : a.card < b.card := Finset.card_lt_card (Finset.ssubset_iff_subset_ne.2 ⟨hsub, hab⟩)
            have := Finset.card_le_card (Finset.subset_union_right (s₁ := a) (s₂ := b))
            omega
          · have hne' : a ∪ b ≠ b := fun e => hsub (Finset.union_eq_right.1 e)
            have : b.card < (a ∪ b).card := Finset.card_lt_card
              (Finset.ssubset_iff_subset_ne.2 ⟨Finset.subset_union_right, hne'.symm⟩)
            omega
      obtain ⟨r, h1, h2, h3, h4, h5⟩ := ih (k + 1) (mergeStep ms) (mergeStep_nodup hn) H1 H2 (by omega)
      refine ⟨r, h1, h2, h3, fun s hs => ?_, h5⟩
      by_cases hiso : ∀ t ∈ ms, s ≠ t → ¬ (s ∩ t).Nonempty
      · exact h4 s ((mem_mergeStep hn s).2 (Or.inl ⟨hs, hiso⟩))
      · push Not at hiso
        obtain ⟨t, ht, hne, hi⟩ := hiso
        obtain ⟨x, hx, hsub⟩ := h4 (s ∪ t) ((mem_mergeStep hn _).2 (Or.inr ⟨s, hs, t, ht, hne, hi, rfl⟩))
        exact ⟨x, hx, Finset.subset_union_left.trans hsub⟩

theorem combos2_nodup {α : Type*} : ∀ {l : List α}, l.Nodup → (combos2 l).Nodup := by
  intro l
  induction l with
  | nil => intro; simp [combos2]
  | cons a l ih =>
    intro h
    rw [List.nodup_cons] at h
    unfold combos2
    rw [List.nodup_append]
    refine ⟨h.2.map fun x y e => (Prod.mk.inj e).2, ih h.2, ?_⟩
    rintro ⟨x, y⟩ hx ⟨x', y'⟩ hy e
    obtain ⟨rfl, rfl⟩ := Prod.mk.inj e
    rw [List.mem_map] at hx
    obtain ⟨z, hz, e⟩ := hx
    obtain ⟨rfl, rfl⟩ := Prod.mk.inj e
    obtain ⟨i, j, -, hi, -⟩ := mem_combos2.1 hy
    exact h.1 (List.mem_of_getElem? hi)

theorem mem_combos2_sorted {l : List ℕ} (hl : l.Pairwise (· < ·)) {a b : ℕ} :
    (a, b) ∈ combos2 l ↔ a ∈ l ∧ b ∈ l ∧ a < b := by
  rw [mem_combos2]
  constructor
  · rintro ⟨i, j, hij, hi, hj⟩
    refine ⟨List.mem_of_getElem? hi, List.mem_of_getElem? hj, ?_⟩
    obtain ⟨hi', rfl⟩ := List.getElem?_eq_some_iff.1 hi
    obtain ⟨hj', rfl⟩ := List.getElem?_eq_some_iff.1 hj
    exact List.pairwise_iff_getElem.1 hl i j hi' hj' hij
  · rintro ⟨ha, hb, hab⟩
    obtain ⟨i, hi', rfl⟩ := List.mem_iff_getElem.1 ha
    obtain ⟨j, hj', rfl⟩ := List.mem_iff_getElem.1 hb
    refine ⟨i, j, ?_, List.getElem?_eq_getElem hi', List.getElem?_eq_getElem hj'⟩
    by_contra hge
    rcases Nat.lt_or_ge j i with h | h
    · have := List.pairwise_iff_getElem.1 hl j i hj' hi' h
      omega
    · have : i = j := by omega
      subst this; omega

theorem matchingPairs_nodup {fit : ℕ → ℕ → Bool} {l : List ℕ} (hl : l.Pairwise (· < ·)) :
    (matchingPairs fit l).Nodup := by
  have hn : l.Nodup := hl.imp fun h => Nat.ne_of_lt h
  unfold matchingPairs
  apply List.Nodup.map_on _ ((combos2_nodup hn).filter _)
  rintro ⟨a, b⟩ h1 ⟨c, d⟩ h2 e
  have h1' := (mem_combos2_sorted hl).1 (List.mem_of_mem_filter h1)
  have h2' := (mem_combos2_sorted hl).1 (List.mem_of_mem_filter h2)
  dsimp only at e
  have hac : a ∈ ({c, d} : Finset ℕ) := by rw [← e]; simp
  have hbd : b ∈ ({c, d} : Finset ℕ) := by rw [← e]; simp
  simp only [Finset.mem_insert, Finset.mem_singleton] at hac hbd
  rcases hac with rfl | rfl <;> rcases hbd with rfl | rfl <;> first | omega | rfl

theorem mem_matchingPairs {fit : ℕ → ℕ → Bool} {l : List ℕ} (hl : l.Pairwise (· < ·))
    {s : Finset ℕ} : s ∈ matchingPairs fit l ↔
      ∃ a ∈ l, ∃ b ∈ l, a < b ∧ fit a b = true ∧ s = {a, b} := by
  unfold matchingPairs
  rw [List.mem_map]
  constructor
  · rintro ⟨⟨a, b⟩, h, rfl⟩
    rw [List.mem_filter] at h
    obtain ⟨ha, hb, hab⟩ := (mem_combos2_sorted hl).1 h.1
    exact ⟨a, ha, b, hb, hab, h.2, rfl⟩
  · rintro ⟨a, ha, b, hb, hab, hf, rfl⟩
    refine ⟨(a, b), ?_, rfl⟩
    rw [List.mem_filter]
    exact ⟨(mem_combos2_sorted hl).2 ⟨ha, hb, hab⟩, hf⟩

theorem linked_symm {fit : ℕ → ℕ → Bool} {g : List ℕ} {a b : ℕ} (h : Linked fit g a b) :
    Linked fit g b a := by
  induction h with
  | refl => exact Relation.ReflTransGen.refl
  | tail _ h2 ih =>
    refine Relation.ReflTransGen.head ⟨h2.2.1, h2.1, h2.2.2.symm⟩ ih

/-- The merged sets of a group are the classes of linked structures. -/
theorem merge_components (fit : ℕ → ℕ → Bool) (g : List ℕ) (hg : g.Pairwise (· < ·)) (fuel : ℕ)
    (hf : g.length ≤ fuel) :
    ∃ r, mergeLoop fuel (matchingPairs fit g) = some r ∧ r.Nodup ∧
      (∀ s ∈ r, 1 < s.card ∧ (∀ a ∈ s, a ∈ g) ∧ ∀ a ∈ s, ∀ b, b ∈ s ↔ Linked fit g a b) ∧
      (∀ a b, a ≠ b → Linked fit g a b → ∃ s ∈ r, a ∈ s ∧ b ∈ s) ∧
      ∀ s ∈ r, ∀ t ∈ r, s ≠ t → Disjoint s t := by
  obtain ⟨r, h1, h2, h3, h4, h5⟩ := mergeLoop_spec
    (fun s => 1 < s.card ∧ (∀ a ∈ s, a ∈ g) ∧ ∀ a ∈ s, ∀ b ∈ s, Linked fit g a b) g.toFinset
    (by
      rintro a b ⟨a1, a2, a3⟩ ⟨b1, b2, b3⟩ ⟨x, hx⟩
      rw [Finset.mem_inter] at hx
      refine ⟨lt_of_lt_of_le a1 (Finset.card_le_card Finset.subset_union_left), ?_, ?_⟩
      · intro y hy
        rcases Finset.mem_union.1 hy with hy | hy
        · exact a2 y hy
        · exact b2 y hy
      · have hxl : ∀ y ∈ a ∪ b, Linked fit g x y := by
          intro y hy
          rcases Finset.mem_union.1 hy with hy | hy
          · exact a3 x hx.1 y hy
          · exact b3 x hx.2 y hy
        intro y hy z hz
        exact (linked_symm (hxl y hy)).trans (hxl z hz))
    (fun s hs a ha => List.mem_toFinset.2 (hs.2.1 a ha)) fuel 1 (matchingPairs fit g)
    (matchingPairs_nodup hg)
    (by
      intro s hs
      obtain ⟨a, ha, b, hb, hab, hfit, rfl⟩ := (mem_matchingPairs hg).1 hs
      refine ⟨by rw [Finset.card_pair (by omega)]; omega, ?_, ?_⟩
      · intro x hx
        simp only [Finset.mem_insert, Finset.mem_singleton] at hx
        rcases hx with rfl | rfl <;> assumption
      · have hl : Linked fit g a b := Relation.ReflTransGen.single ⟨ha, hb, Or.inl ⟨hab, hfit⟩⟩
        intro x hx y hy
        simp only [Finset.mem_insert, Finset.mem_singleton] at hx hy
        rcases hx with rfl | rfl <;> rcases hy with rfl | rfl
        · exact Relation.ReflTransGen.refl
        · exact hl
        · exact linked_symm hl
        · exact Relation.ReflTransGen.refl)
    (by
      intro s hs t ht hne hi
      exact Finset.card_pos.2 (hi.mono Finset.inter_subset_left))
    (lt_of_le_of_lt (List.toFinset_card_le g) (by omega))
  -- one step stays within a set
  have hstep : ∀ a b, (a ∈ g ∧ b ∈ g ∧ (a < b ∧ fit a b = true ∨ b < a ∧ fit b a = true)) →
      ∃ s ∈ r, a ∈ s ∧ b ∈ s := by
    rintro a b ⟨ha, hb, h⟩
    rcases h with ⟨hlt, hfit⟩ | ⟨hlt, hfit⟩
    · obtain ⟨s, hs, hsub⟩ := h4 {a, b} ((mem_matchingPairs hg).2 ⟨a, ha, b, hb, hlt, hfit, rfl⟩)
      exact ⟨s, hs, hsub (by simp), hsub (by simp)⟩
    · obtain ⟨s, hs, hsub⟩ := h4 {b, a} ((mem_matchingPairs hg).2 ⟨b, hb, a, ha, hlt, hfit, rfl⟩)
      exact ⟨s, hs, hsub (by simp), hsub (by simp)⟩
  have hclosed : ∀ s ∈ r, ∀ a ∈ s, ∀ b, Linked fit g a b → b ∈ s := by
    intro s hs a ha b h
    induction h with
    | refl => exact ha
    | tail _ h2 ih =>
      obtain ⟨t, ht, hat, hbt⟩ := hstep _ _ h2
      by_cases e : s = t
      · rw [e]; exact hbt
      · exact (Finset.disjoint_left.1 (h5 s hs t ht e) ih hat).elim
  refine ⟨r, h1, h2, fun s hs => ⟨(h3 s hs).1, (h3 s hs).2.1, fun a ha b => ?_⟩, ?_, h5⟩
  · exact ⟨fun hb => (h3 s hs).2.2 a ha b hb, fun h => hclosed s hs a ha b h⟩
  · intro a b hne h
    rcases Relation.ReflTransGen.cases_head h with e | ⟨c, hac, -⟩
    · exact (hne e).elim
    · obtain ⟨s, hs, has, -⟩ := hstep a c hac
      exact ⟨s, hs, has, hclosed s hs a has b h⟩

theorem mem_sortedSet (s : Finset ℕ) (a : ℕ) : a ∈ sortedSet s ↔ a ∈ s := by
  unfold sortedSet
  rw [List.mem_filter, List.mem_range, decide_eq_true_eq]
  refine ⟨fun h => h.2, fun h => ⟨?_, h⟩⟩
  have := Finset.le_sup (f := id) h
  simp only [id] at this
  omega

theorem sortedSet_sorted (s : Finset ℕ) : (sortedSet s).Pairwise (· < ·) :=
  List.pairwise_lt_range.filter _

theorem length_sortedSet (s : Finset ℕ) : (sortedSet s).length = s.card := by
  have hn : (sortedSet s).Nodup := (sortedSet_sorted s).imp fun h => Nat.ne_of_lt h
  rw [← List.toFinset_card_of_nodup hn]
  congr 1
  ext a
  rw [List.mem_toFinset, mem_sortedSet]

/-! ## groups of duplicates -/

theorem duplicateGroups_spec {κ : Type*} [LinearOrder κ] (keys : List κ) :
    (∀ g ∈ duplicateGroups keys, ∃ k, 1 < g.length ∧
      g = (List.range keys.length).filter fun i => decide (keys[i]? = some k)) ∧
    (∀ (i j : ℕ) k, i ≠ j → keys[i]? = some k → keys[j]? = some k → ∃ g ∈ duplicateGroups keys,
      g = (List.range keys.length).filter fun i => decide (keys[i]? = some k)) ∧
    (duplicateGroups keys).Pairwise (fun g h => ∀ i ∈ g, i ∉ h) := by
  refine ⟨?_, ?_, ?_⟩
  · intro g hg
    unfold duplicateGroups at hg
    rw [List.mem_filter, List.mem_map, decide_eq_true_eq] at hg
    obtain ⟨⟨k, -, rfl⟩, h⟩ := hg
    exact ⟨k, h, rfl⟩
  · intro i j k hij hi hj
    refine ⟨_, ?_, rfl⟩
    unfold duplicateGroups
    rw [List.mem_filter, List.mem_map, decide_eq_true_eq]
    refine ⟨⟨k, by rw [List.mem_insertionSort, List.mem_dedup]; exact List.mem_of_getElem? hi, rfl⟩, ?_⟩
    by_contra hle
    have hmi : i ∈ (List.range keys.length).filter fun i => decide (keys[i]? = some k) := by
      rw [List.mem_filter, List.mem_range, decide_eq_true_eq]
      exact ⟨(List.getElem?_eq_some_iff.1 hi).1, hi⟩
    have hmj : j ∈ (List.range keys.length).filter fun i => decide (keys[i]? = some k) := by
      rw [List.mem_filter, List.mem_range, decide_eq_true_eq]
      exact ⟨(List.getElem?_eq_some_iff.1 hj).1, hj⟩
    revert hle hmi hmj
    generalize (List.range keys.length).filter (fun i => decide (keys[i]? = some k)) = m
    intro hle hmi hmj
    match m, hle, hmi, hmj with
    | [], _, hmi, _ => simp at hmi
    | [x], _, hmi, hmj => simp at hmi hmj; omega
    | x :: y :: m, hle, _, _ => simp at hle
  · unfold duplicateGroups
    apply List.Pairwise.filter
    rw [List.pairwise_map]
    have hn : (keys.dedup.insertionSort (· ≤ ·)).Nodup :=
      (List.perm_insertionSort _ _).nodup_iff.2 (List.nodup_dedup keys)
    refine hn.imp ?_
    intro a b hab i hi hj
    simp only [List.mem_filter, decide_eq_true_eq] at hi hj
    rw [hi.2] at hj
    exact hab (Option.some.inj hj.2)

theorem duplicateGroups_sorted {κ : Type*} [LinearOrder κ] (keys : List κ) :
    ∀ g ∈ duplicateGroups keys, g.Pairwise (· < ·) := by
  intro g hg
  obtain ⟨k, -, rfl⟩ := (duplicateGroups_spec keys).1 g hg
  exact List.pairwise_lt_range.filter _

/-- `argBest` points at the first best entry. -/
theorem argBest_spec {K : Type*} (better : K → K → Bool) (hirr : ∀ a, better a a = false)
    (htr : ∀ a b c, better a b = true → better b c = true → better a c = true)
    (l : List K) (hl : l ≠ []) : ∃ x, l[argBest better l]? = some x ∧
      (∀ y ∈ l, better y x = false) ∧
      ∀ (j : ℕ) y, l[j]? = some y → (∀ z ∈ l, better z y = false) → argBest better l ≤ j := by
  have hex : ∃ x ∈ l, ∀ y ∈ l, better y x = false := by
    induction l with
    | nil => exact (hl rfl).elim
    | cons a l ih =>
      by_cases hl' : l = []
      · subst hl'; exact ⟨a, by simp, by simpa using hirr a⟩
      · obtain ⟨x, hx, h⟩ := ih hl'
        by_cases hax : better a x = true
        · refine ⟨a, by simp, fun y hy => ?_⟩
          rcases List.mem_cons.1 hy with rfl | hy
          · exact hirr _
          · by_contra hne
            have := htr y a x (by simpa using hne) hax
            rw [h y hy] at this; cases this
        · refine ⟨x, List.mem_cons_of_mem _ hx, fun y hy => ?_⟩
          rcases List.mem_cons.1 hy with rfl | hy
          · simpa using hax
          · exact h y hy
  obtain ⟨x, hx, hbest⟩ := hex
  have hlt : argBest better l < l.length := List.findIdx_lt_length_of_exists
    ⟨x, hx, by rw [List.all_eq_true]; intro y hy; rw [hbest y hy]; rfl⟩
  have hat := List.findIdx_getElem (w := hlt)
  refine ⟨l[argBest better l], List.getElem?_eq_getElem hlt, ?_, ?_⟩
  · intro y hy
    have := List.all_eq_true.1 hat y hy
    rw [Bool.not_eq_true'] at this
    exact this
  · intro j y hj hy
    obtain ⟨hj', rfl⟩ := List.getElem?_eq_some_iff.1 hj
    by_contra hlt'
    have := List.not_of_lt_findIdx (Nat.lt_of_not_le hlt')
    rw [Bool.eq_false_iff] at this
    exact this (List.all_eq_true.2 fun z hz => by rw [hy z hz]; rfl)

/-! ## lowest value of a composition -/

theorem minByComp_spec {C K : Type*} [DecidableEq C] [LinearOrder K] (l : List (C × K)) :
    ∀ (m : C → Option K) (c : C),
      (∀ x, minByComp l m c = some x →
        (m c = some x ∨ (c, x) ∈ l) ∧ (∀ y ∈ m c, x ≤ y) ∧ ∀ d ∈ l, d.1 = c → x ≤ d.2) ∧
      (minByComp l m c = none → m c = none ∧ ∀ d ∈ l, d.1 ≠ c) := by
  induction l with
  | nil =>
    intro m c
    refine ⟨fun x hx => ⟨Or.inl hx, fun y hy => ?_, by simp⟩, fun h => ⟨h, by simp⟩⟩
    rw [show m c = some x from hx] at hy
    exact (Option.some.inj hy).le
  | cons d l ih =>
    obtain ⟨c', e⟩ := d
    intro m c
    unfold minByComp
    obtain ⟨h1, h2⟩ := ih (if ∀ x ∈ m c', e < x then Function.update m c' (some e) else m) c
    by_cases hb : ∀ x ∈ m c', e < x
    · rw [if_pos hb] at h1 h2 ⊢
      by_cases hc : c = c'
      · subst hc
        rw [Function.update_self] at h1 h2
        refine ⟨fun x hx => ?_, fun h => by cases (h2 h).1⟩
        obtain ⟨a1, a2, a3⟩ := h1 x hx
        refine ⟨?_, fun y hy => (a2 e rfl).trans (hb y hy).le, ?_⟩
        · right
          rcases a1 with a1 | a1
          · rw [← Option.some.inj a1]; simp
          · exact List.mem_cons_of_mem _ a1
        · intro d hd hdc
          rcases List.mem_cons.1 hd with rfl | hd
          · exact a2 e rfl
          · exact a3 d hd hdc
      · rw [Function.update_of_ne hc] at h1 h2
        refine ⟨fun x hx => ?_, fun h => ?_⟩
        · obtain ⟨a1, a2, a3⟩ := h1 x hx
          refine ⟨a1.imp id (List.mem_cons_of_mem _), a2, ?_⟩
          intro d hd hdc
          rcases List.mem_cons.1 hd with rfl | hd
          · exact (hc hdc.symm).elim
          · exact a3 d hd hdc
        · obtain ⟨b1, b2⟩ := h2 h
          refine ⟨b1, fun d hd => ?_⟩
          rcases List.mem_cons.1 hd with rfl | hd
          · exact fun e => hc e.symm
          · exact b2 d hd
    · rw [if_neg hb] at h1 h2 ⊢
      push Not at hb
      obtain ⟨z, hz, hze⟩ := hb
      refine ⟨fun x hx => ?_, fun h => ?_⟩
      · obtain ⟨a1, a2, a3⟩ := h1 x hx
        refine ⟨a1.imp id (List.mem_cons_of_mem _), a2, ?_⟩
        intro d hd hdc
        rcases List.mem_cons.1 hd with rfl | hd
        · subst hdc; exact (a2 z hz).trans hze
        · exact a3 d hd hdc
      · obtain ⟨b1, b2⟩ := h2 h
        refine ⟨b1, fun d hd => ?_⟩
        rcases List.mem_cons.1 hd with rfl | hd
        · rintro rfl
          rw [b1] at hz; cases hz
        · exact b2 d hd

theorem minByComp_of_mem {C K : Type*} [DecidableEq C] [LinearOrder K] (l : List (C × K))
    (d : C × K) (hd : d ∈ l) : ∃ x, minByComp l (fun _ => none) d.1 = some x ∧
      (d.1, x) ∈ l ∧ ∀ e ∈ l, e.1 = d.1 → x ≤ e.2 := by
  obtain ⟨h1, h2⟩ := minByComp_spec l (fun _ => none) d.1
  cases h : minByComp l (fun _ => none) d.1 with
  | none => exact ((h2 h).2 d hd rfl).elim
  | some x =>
    obtain ⟨a1, -, a3⟩ := h1 x h
    refine ⟨x, rfl, ?_, a3⟩
    rcases a1 with a1 | a1
    · cases a1
    · exact a1

end Smol
