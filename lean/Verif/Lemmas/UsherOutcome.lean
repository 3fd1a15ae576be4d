import Verif.Lemmas.Prog
import Verif.Lemmas.Occupancy
import Verif.Model.Usher
import Verif.Spec.Usher

/-! Which steps the ushers can propose. -/

namespace Smol
open Prog Spec

theorem outcome_flip {g : Rng} {act : List Sublattice} {probs : List ℚ} {x : Occ} {st : Step}
    (h : (flipPropose g act probs x).Outcome st) :
    ∃ sl ∈ act, ∃ s ∈ sl.active, ∃ c ∈ sl.encoding, c ≠ x s ∧ st = [(s, c)] := by
  simp only [flipPropose, outcome_bind, outcome_choose] at h
  obtain ⟨sl, hsl, s, hs, c, hc, rfl⟩ := h
  rw [List.mem_filter, List.mem_dedup] at hc
  exact ⟨sl, outcome_chooseW _ _ _ _ hsl, s, hs, c, hc.1, by simpa using hc.2, rfl⟩

theorem outcome_swap {g : Rng} {act : List Sublattice} {probs : List ℚ} {x : Occ} {st : Step}
    (h : (swapPropose g act probs x).Outcome st) :
    st = [] ∨ ∃ sl ∈ act, ∃ s1 ∈ sl.active, ∃ s2 ∈ sl.active, x s1 ≠ x s2 ∧
      st = [(s1, x s2), (s2, x s1)] := by
  simp only [swapPropose, outcome_bind, outcome_choose] at h
  obtain ⟨sl, hsl, s1, hs1, h⟩ := h
  split_ifs at h with he
  · simp only [outcome_bind, outcome_choose] at h
    obtain ⟨s2, hs2, rfl⟩ := h
    rw [List.mem_filter] at hs2
    exact Or.inr ⟨sl, outcome_chooseW _ _ _ _ hsl, s1, hs1, s2, hs2.1,
      fun hh => by simp [hh] at hs2, rfl⟩
  · exact Or.inl h

theorem legalStep_append {act : List Sublattice} {a b : Step} (ha : LegalStep act a)
    (hb : LegalStep act b) (hd : ∀ f ∈ b, f.1 ∉ a.map Prod.fst) : LegalStep act (a ++ b) := by
  refine ⟨?_, ?_⟩
  · intro f hf
    rcases List.mem_append.1 hf with h | h
    · exact ha.flips f h
    · exact hb.flips f h
  · rw [List.map_append, List.nodup_append]
    refine ⟨ha.once, hb.once, ?_⟩
    intro s hs t ht hst
    subst hst
    obtain ⟨f, hf, rfl⟩ := List.mem_map.1 ht
    exact hd f hf hs

theorem legalOcc_apply {act : List Sublattice} (hok : SitesOk act) {x : Occ} {st : Step}
    (hx : LegalOcc act x) (hst : ∀ f ∈ st, ∃ sl ∈ act, f.1 ∈ sl.active ∧ f.2 ∈ sl.encoding) :
    LegalOcc act (applyStep x st) := by
  induction st generalizing x with
  | nil => exact hx
  | cons f st ih =>
    apply ih _ fun g hg => hst g (by simp [hg])
    intro sl hsl s hs
    by_cases hsf : s = f.1
    · subst hsf
      rw [Function.update_self]
      obtain ⟨sl', hsl', h1, h2⟩ := hst f (by simp)
      by_cases he : sl = sl'
      · rw [he]; exact h2
      · exact absurd h1 (hok.disjoint sl hsl sl' hsl' he _ hs)
    · rw [Function.update_of_ne hsf]; exact hx sl hsl s hs

/-- Closure of a property of steps under the loop of `MultiStep`.  `I` is an invariant of
occupancies, `G x st` what the inner usher guarantees. -/
theorem outcome_multiLoop (inner : Occ → Prog Step) (I : Occ → Prop) (G : Occ → Step → Prop)
    (hG : ∀ x st, I x → (inner x).Outcome st → G x st)
    (hI : ∀ x st, I x → G x st → I (applyStep x st))
    (happ : ∀ x a b, I x → G x a → G (applyStep x a) b → (∀ f ∈ b, f.1 ∉ a.map Prod.fst) →
      G x (a ++ b))
    (k : ℕ) (x : Occ) (acc st : Step) (hx : I x) (hacc : G x acc)
    (h : (multiLoop inner k (applyStep x acc) acc).Outcome st) : G x st := by
  induction k generalizing acc with
  | zero => rw [multiLoop] at h; cases h; exact hacc
  | succ k ih =>
    rw [multiLoop, outcome_bind] at h
    obtain ⟨b, hb, h⟩ := h
    split_ifs at h with hd
    · rw [← applyStep_append] at h
      exact ih _ (happ x acc b hx hacc (hG _ _ (hI x acc hx hacc) hb) hd) h
    · exact ih _ hacc h

theorem outcome_multi (g : Rng) (lens : List ℕ) (p : List ℚ) (inner : Occ → Prog Step)
    (I : Occ → Prop) (G : Occ → Step → Prop)
    (hG : ∀ x st, I x → (inner x).Outcome st → G x st)
    (hI : ∀ x st, I x → G x st → I (applyStep x st))
    (happ : ∀ x a b, I x → G x a → G (applyStep x a) b → (∀ f ∈ b, f.1 ∉ a.map Prod.fst) →
      G x (a ++ b))
    (x : Occ) (st : Step) (hx : I x) (h : (multiPropose g lens p inner x).Outcome st) :
    G x st := by
  simp only [multiPropose, outcome_bind] at h
  obtain ⟨len, _, a, ha, h⟩ := h
  exact outcome_multiLoop inner I G hG hI happ _ x a st hx (hG x a hx ha) h

theorem outcome_composite (g : Rng) (us : List (Occ → Prog Step)) (w : List ℚ) (x : Occ)
    (st : Step) (h : (compositePropose g us w x).Outcome st) : ∃ u ∈ us, (u x).Outcome st := by
  simp only [compositePropose, outcome_bind] at h
  obtain ⟨u, hu, h⟩ := h
  exact ⟨u, outcome_chooseW _ _ _ _ hu, h⟩

/-! ### Composition -/

theorem filter_length_update (A : List ℕ) (hA : A.Nodup) (x : Occ) (s c k : ℕ) :
    ((A.filter fun t => Function.update x s c t == k).length : ℤ) =
      (A.filter fun t => x t == k).length +
        if s ∈ A then (if c = k then 1 else 0) - (if x s = k then 1 else 0) else 0 := by
  induction A with
  | nil => simp
  | cons a A ih =>
    rw [List.nodup_cons] at hA
    have ih := ih hA.2
    by_cases has : a = s
    · subst has
      have hn : a ∉ A := hA.1
      rw [if_neg hn] at ih
      rw [List.filter_cons, List.filter_cons, Function.update_self]
      by_cases h1 : c = k <;> by_cases h2 : x a = k <;> simp [h1, h2] <;>
        (try simp only [h1] at ih) <;> omega
    · rw [List.filter_cons, List.filter_cons, Function.update_of_ne has]
      have : (s ∈ a :: A) ↔ s ∈ A := by simp [Ne.symm has]
      simp only [this]
      split_ifs at ih ⊢ <;> (try simp only [List.length_cons]) <;> push_cast <;> omega

/-- Number of flips of a step onto sites of `A` leaving / entering code `c`; counts of the codes
change by the difference. -/
theorem filter_length_apply (A : List ℕ) (hA : A.Nodup) (x : Occ) (st : Step)
    (hst : (st.map Prod.fst).Nodup) (k : ℕ) :
    ((A.filter fun t => applyStep x st t == k).length : ℤ) =
      (A.filter fun t => x t == k).length +
        ((st.filter fun f => decide (f.1 ∈ A ∧ f.2 = k)).length : ℤ) -
        ((st.filter fun f => decide (f.1 ∈ A ∧ x f.1 = k)).length : ℤ) := by
  induction st generalizing x with
  | nil => simp [applyStep]
  | cons f st ih =>
    rw [List.map_cons, List.nodup_cons] at hst
    rw [applyStep, ih _ hst.2, filter_length_update A hA]
    have hc : (st.filter fun g => decide (g.1 ∈ A ∧ Function.update x f.1 f.2 g.1 = k)) =
        st.filter fun g => decide (g.1 ∈ A ∧ x g.1 = k) := by
      apply List.filter_congr
      intro g hg
      rw [Function.update_of_ne]
      intro he
      exact hst.1 (List.mem_map.2 ⟨g, hg, he⟩)
    rw [hc, List.filter_cons, List.filter_cons]
    by_cases h1 : f.1 ∈ A
    · by_cases h2 : f.2 = k <;> by_cases h3 : x f.1 = k <;> simp [h1, h2, h3] <;> omega
    · simp [h1]

theorem swap_holding {act : List Sublattice} (hok : SitesOk act) (x : Occ) (sl : Sublattice)
    (hsl : sl ∈ act) (s1 s2 : ℕ) (h1 : s1 ∈ sl.active) (h2 : s2 ∈ sl.active) (hne : x s1 ≠ x s2) :
    SameComposition act x (applyStep x [(s1, x s2), (s2, x s1)]) := by
  intro sl' hsl' c
  have hs : s1 ≠ s2 := by rintro rfl; exact hne rfl
  have := filter_length_apply sl'.active (hok.nodup sl' hsl') x [(s1, x s2), (s2, x s1)]
    (by simp [hs]) c
  have hiff : s1 ∈ sl'.active ↔ s2 ∈ sl'.active := by
    by_cases he : sl = sl'
    · subst he; simp [h1, h2]
    · have a1 := hok.disjoint sl hsl sl' hsl' he _ h1
      have a2 := hok.disjoint sl hsl sl' hsl' he _ h2
      simp [a1, a2]
  unfold holding
  by_cases hm : s2 ∈ sl'.active
  · have hm1 := hiff.2 hm
    simp only [List.filter_cons, hm, hm1, true_and, List.filter_nil] at this
    by_cases hc1 : x s1 = c <;> by_cases hc2 : x s2 = c <;>
      simp only [hc1, hc2, decide_true, decide_false, if_true, List.length_cons, List.length_nil,
        Bool.false_eq_true, if_false] at this ⊢ <;> push_cast at this <;> omega
  · have hm1 : s1 ∉ sl'.active := fun h => hm (hiff.1 h)
    simp [hm, hm1] at this
    omega

theorem SameComposition.refl (act : List Sublattice) (x : Occ) : SameComposition act x x :=
  fun _ _ _ => rfl

theorem SameComposition.trans {act : List Sublattice} {x y z : Occ} (h : SameComposition act x y)
    (h' : SameComposition act y z) : SameComposition act x z :=
  fun sl hsl c => (h sl hsl c).trans (h' sl hsl c)

theorem outcome_swap_same {g : Rng} {act act' : List Sublattice} (hok : SitesOk act)
    (hsub : ∀ sl ∈ act', sl ∈ act) {probs : List ℚ} {x : Occ} {st : Step}
    (h : (swapPropose g act' probs x).Outcome st) : SameComposition act x (applyStep x st) := by
  rcases outcome_swap h with rfl | ⟨sl, hsl, s1, h1, s2, h2, hne, rfl⟩
  · exact SameComposition.refl _ _
  · exact swap_holding hok x sl (hsub sl hsl) s1 s2 h1 h2 hne

end Smol
