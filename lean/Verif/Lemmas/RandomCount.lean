import Verif.Lemmas.RandomOccu

namespace Smol
open Spec

theorem lookup_mem {l : List (ℕ × ℚ)} (hn : (l.map Prod.fst).Nodup) {a : ℕ} {x : ℚ} :
    l.lookup a = some x ↔ (a, x) ∈ l := by
  induction l with
  | nil => simp
  | cons p l ih =>
    obtain ⟨b, y⟩ := p
    rw [List.map_cons, List.nodup_cons] at hn
    rw [List.lookup_cons, List.mem_cons]
    by_cases h : a = b
    · subst h
      simp only [beq_self_eq_true, Option.some.injEq, Prod.mk.injEq, true_and]
      refine ⟨fun e => Or.inl e.symm, fun h => ?_⟩
      rcases h with h | h
      · exact h.symm
      · exact (hn.1 (List.mem_map.2 ⟨_, h, rfl⟩)).elim
    · have h' : (a == b) = false := by simpa using h
      rw [h']
      simp only [Prod.mk.injEq, h, false_and, false_or]
      exact ih hn.2

theorem lookup_none {l : List (ℕ × ℚ)} {a : ℕ} : l.lookup a = none ↔ a ∉ l.map Prod.fst := by
  rw [List.lookup_eq_none_iff]
  constructor
  · intro h hm
    obtain ⟨p, hp, rfl⟩ := List.mem_map.1 hm
    have := h p hp
    simp at this
  · intro h p hp
    by_contra hne
    have e : a = p.1 := by simpa using hne
    exact h (e ▸ List.mem_map.2 ⟨p, hp, rfl⟩)

theorem normalised_keys (c : SiteComp) : c.normalised.map Prod.fst = c.map Prod.fst := by
  unfold SiteComp.normalised SiteComp.fractional
  split_ifs <;> simp [Function.comp_def]

theorem normalised_length (c : SiteComp) : c.normalised.length = c.length := by
  unfold SiteComp.normalised SiteComp.fractional
  split_ifs <;> simp

theorem normalised_eq (c : SiteComp) :
    c.normalised = c.map fun p => (p.1, p.2 / max 1 c.numAtoms) := by
  unfold SiteComp.normalised SiteComp.fractional
  split_ifs with h
  · rw [max_eq_right h.le]
  · rw [max_eq_left (not_lt.1 h)]
    simp

theorem normalised_numAtoms (c : SiteComp) :
    c.normalised.numAtoms = c.numAtoms / max 1 c.numAtoms := by
  rw [normalised_eq]
  unfold SiteComp.numAtoms
  rw [List.map_map]
  simp only [div_eq_mul_inv]
  rw [← List.sum_map_mul_right]
  rfl

theorem normalised_ok {c : SiteComp} (hc : CompOk c) : CompOk c.normalised := by
  refine ⟨by rw [normalised_keys]; exact hc.1, ?_⟩
  rw [normalised_eq]
  intro p hp
  obtain ⟨q, hq, rfl⟩ := List.mem_map.1 hp
  have := hc.2 q hq
  have : (0 : ℚ) < max 1 c.numAtoms := lt_of_lt_of_le one_pos (le_max_left _ _)
  positivity

theorem lookup_normalised {c : SiteComp} (hc : CompOk c) (sp : ℕ) :
    c.normalised.lookup sp = (c.lookup sp).map fun x => x / max 1 c.numAtoms := by
  cases h : c.lookup sp with
  | none =>
    rw [lookup_none] at h
    rw [Option.map_none, lookup_none, normalised_keys]; exact h
  | some x =>
    rw [lookup_mem hc.1] at h
    rw [Option.map_some, lookup_mem (normalised_ok hc).1, normalised_eq]
    exact List.mem_map.2 ⟨_, h, rfl⟩

/-- Rounded amounts of the listed species add up to nearly the rounded total. -/
theorem round_sum (c : SiteComp) (n : ℕ) (tol : ℚ)
    (h : ∀ p ∈ c, |(pyRound (n * p.2) : ℚ) - n * p.2| ≤ tol) :
    |(((c.map fun p => pyRound (n * p.2)).sum : ℤ) : ℚ) - n * c.numAtoms| ≤ c.length * tol := by
  induction c with
  | nil => simp [SiteComp.numAtoms]
  | cons p c ih =>
    have h1 := h p (by simp)
    have h2 := ih fun q hq => h q (by simp [hq])
    have e : (SiteComp.numAtoms (p :: c)) = p.2 + SiteComp.numAtoms c := by
      simp [SiteComp.numAtoms]
    rw [e, List.map_cons, List.sum_cons, List.length_cons]
    push_cast
    have e2 : (pyRound (n * p.2) : ℚ) + (((c.map fun p => pyRound (n * p.2)).sum : ℤ) : ℚ) -
        n * (p.2 + SiteComp.numAtoms c) = ((pyRound (n * p.2) : ℚ) - n * p.2) +
        ((((c.map fun p => pyRound (n * p.2)).sum : ℤ) : ℚ) - n * SiteComp.numAtoms c) := by ring
    push_cast at e2 h2
    rw [e2]
    refine (abs_add_le _ _).trans ?_
    linarith

/-- What the dummy site space asks for: everything is placed, each species to within the
tolerance. -/
theorem space_counts {k : VacKind} {c : SiteComp} (hc : CompOk c) {space : SiteSpace}
    (hm : SiteSpace.make k c = some space) {species : List ℕ} (hn : species.Nodup)
    (hin : ∀ p ∈ c, p.1 ∈ species) (hall : ∀ sp ∈ species, ∃ x, space.data.lookup sp = some x)
    {n : ℕ} {tol : ℚ} (ht : ∀ p ∈ c, |(pyRound (n * p.2) : ℚ) - n * p.2| ≤ tol)
    (hsmall : c.length * tol < 1 / 2) (hfull : c.numAtoms = 1 ∨ k.vac ∈ species) :
    (species.map fun sp => (pyRound (((space.data.lookup sp).getD 0) * n)).toNat).sum = n ∧
    ∀ sp ∈ species, ∀ x, space.data.lookup sp = some x →
      |((pyRound (x * n)).toNat : ℚ) - x * n| ≤ c.length * tol := by
  obtain ⟨h0, h1, hv, -, hd⟩ := make_some hm
  have hkn : (space.data.map Prod.fst).Nodup := make_keys_nodup hc hm
  have hkeys : space.data.map Prod.fst = _ := make_keys hm
  have hpos : ∀ p ∈ space.data, 0 ≤ p.2 := by
    rw [hd]
    intro p hp
    have : ∀ p ∈ c.insertionSort itemLe, 0 ≤ p.2 := fun p hp =>
      (hc.2 p ((List.perm_insertionSort _ _).mem_iff.1 hp)).le
    split at hp
    · rcases List.mem_append.1 hp with hp | hp
      · exact this p hp
      · rw [List.mem_singleton.1 hp]; linarith
    · exact this p hp
  -- the species are the keys
  have hperm : species.Perm (space.data.map Prod.fst) := by
    rw [List.perm_ext_iff_of_nodup hn hkn]
    intro sp
    constructor
    · intro h
      obtain ⟨x, hx⟩ := hall sp h
      rw [lookup_mem hkn] at hx
      exact List.mem_map.2 ⟨_, hx, rfl⟩
    · intro h
      rw [hkeys, List.mem_append, (List.perm_insertionSort _ _).mem_iff] at h
      rcases h with h | h
      · obtain ⟨p, hp, rfl⟩ := List.mem_map.1 h
        exact hin p hp
      · split at h
        · rename_i hlt
          rw [List.mem_singleton] at h
          subst h
          rcases hfull with h | h
          · rw [h] at hlt; norm_num at hlt
          · exact h
        · simp at h
  have hR := round_sum c n tol ht
  set R : ℤ := (c.map fun p => pyRound (n * p.2)).sum with hRdef
  have hlast : c.numAtoms < 99 / 100 → pyRound ((1 - c.numAtoms) * n) = n - R := by
    intro _
    apply pyRound_eq
    push_cast
    have e : (n : ℚ) - R - (1 - c.numAtoms) * n = -((R : ℚ) - n * c.numAtoms) := by ring
    rw [e, abs_neg]
    exact lt_of_le_of_lt hR hsmall
  -- the sum over the data
  have hsumZ : (space.data.map fun p => pyRound (p.2 * n)).sum = n := by
    have hs : ((c.insertionSort itemLe).map fun p => pyRound (p.2 * n)).sum = R := by
      rw [((List.perm_insertionSort itemLe c).map _).sum_eq, hRdef]
      congr 1
      apply List.map_congr_left
      intro p _
      rw [mul_comm]
    rw [hd]
    split
    · rename_i hlt
      rw [List.map_append, List.sum_append, hs]
      simp only [List.map_cons, List.map_nil, List.sum_cons, List.sum_nil, add_zero]
      rw [hlast hlt]; omega
    · rename_i hlt
      have htot : c.numAtoms = 1 := by
        rcases hfull with h | h
        · exact h
        · obtain ⟨x, hx⟩ := hall _ h
          rw [lookup_mem hkn, hd, if_neg hlt] at hx
          have hx := (List.perm_insertionSort _ _).mem_iff.1 hx
          exact (hv ⟨_, hx, k.isVac_vac⟩).1
      rw [hs]
      rw [htot, mul_one] at hR
      have h2 : |((R - n : ℤ) : ℚ)| < 1 := by
        push_cast
        exact lt_of_le_of_lt hR (by linarith)
      have h3 : |R - (n : ℤ)| < 1 := by exact_mod_cast h2
      have := Int.abs_lt_one_iff.1 h3
      omega
  have hget : ∀ p ∈ space.data, space.data.lookup p.1 = some p.2 := fun p hp =>
    (lookup_mem hkn).2 hp
  constructor
  · have e : (species.map fun sp => (pyRound (((space.data.lookup sp).getD 0) * n)).toNat).sum =
        (space.data.map fun p => (pyRound (p.2 * n)).toNat).sum := by
      rw [(hperm.map _).sum_eq, List.map_map]
      congr 1
      apply List.map_congr_left
      intro p hp
      simp only [Function.comp_apply]
      rw [hget p hp, Option.getD_some]
    rw [e]
    have e2 : (((space.data.map fun p => (pyRound (p.2 * n)).toNat).sum : ℕ) : ℤ) =
        (space.data.map fun p => pyRound (p.2 * n)).sum := by
      rw [Nat.cast_list_sum, List.map_map]
      congr 1
      apply List.map_congr_left
      intro p hp
      simp only [Function.comp_apply]
      exact Int.toNat_of_nonneg (pyRound_nonneg (mul_nonneg (hpos p hp) (by positivity)))
    rw [hsumZ] at e2
    exact_mod_cast e2
  · intro sp hsp x hx
    rw [lookup_mem hkn] at hx
    have hnn : 0 ≤ pyRound (x * n) := pyRound_nonneg (mul_nonneg (hpos _ hx) (by positivity))
    have hcast : ((pyRound (x * n)).toNat : ℚ) = (pyRound (x * n) : ℚ) := by
      exact_mod_cast Int.toNat_of_nonneg hnn
    rw [hcast]
    have hcase : (sp, x) ∈ c ∨ (c.numAtoms < 99 / 100 ∧ x = 1 - c.numAtoms) := by
      rw [hd] at hx
      split at hx
      · rename_i hlt
        rcases List.mem_append.1 hx with hx | hx
        · exact Or.inl ((List.perm_insertionSort _ _).mem_iff.1 hx)
        · rw [List.mem_singleton, Prod.mk.injEq] at hx
          exact Or.inr ⟨hlt, hx.2⟩
      · exact Or.inl ((List.perm_insertionSort _ _).mem_iff.1 hx)
    rcases hcase with h | ⟨h, rfl⟩
    · have h2 := ht _ h
      rw [mul_comm]
      refine h2.trans ?_
      have ht0 : 0 ≤ tol := (abs_nonneg _).trans h2
      have h3 : (1 : ℚ) ≤ c.length := by
        have : 0 < c.length := List.length_pos_of_mem h
        exact_mod_cast this
      nlinarith
    · rw [hlast h]
      push_cast
      have e : (n : ℚ) - R - (1 - c.numAtoms) * n = -((R : ℚ) - n * c.numAtoms) := by ring
      rw [e, abs_neg]
      exact hR

theorem sum_filter_length (codes : List ℕ) (hn : codes.Nodup) (l : List ℕ) (P : ℕ → Prop)
    [DecidablePred P] (f : ℕ → ℕ) (h : ∀ s ∈ l, P s → f s ∈ codes) :
    (codes.map fun c => (l.filter fun s => P s ∧ f s = c).length).sum =
      (l.filter fun s => P s).length := by
  induction l with
  | nil => simp
  | cons s l ih =>
    have ih := ih fun t ht => h t (by simp [ht])
    by_cases hP : P s
    · have hs := h s (by simp) hP
      have e : ∀ c, ((s :: l).filter fun s => P s ∧ f s = c).length =
          (l.filter fun s => P s ∧ f s = c).length + if f s = c then 1 else 0 := by
        intro c
        rw [List.filter_cons]
        by_cases hc : f s = c <;> simp [hP, hc]
      simp only [e, List.sum_map_add]
      rw [ih, List.filter_cons, if_pos (by simpa using hP), List.length_cons]
      congr 1
      have hk : ∀ codes : List ℕ, codes.Nodup → f s ∈ codes →
          (codes.map fun c => if f s = c then 1 else 0).sum = 1 := by
        intro codes
        induction codes with
        | nil => intro _ h; simp at h
        | cons a codes ih2 =>
          intro hn hm
          rw [List.nodup_cons] at hn
          rw [List.map_cons, List.sum_cons]
          by_cases hc : f s = a
          · rw [if_pos hc]
            have : (codes.map fun c => if f s = c then 1 else 0).sum = 0 := by
              apply List.sum_eq_zero
              intro x hx
              obtain ⟨c, hc', rfl⟩ := List.mem_map.1 hx
              rw [if_neg]
              rintro rfl
              exact hn.1 (hc ▸ hc')
            omega
          · rw [if_neg hc, ih2 hn.2 (by simpa [hc] using hm)]
      exact hk codes hn hs
    · have e : ∀ c, ((s :: l).filter fun s => P s ∧ f s = c) =
          (l.filter fun s => P s ∧ f s = c) := by
        intro c; rw [List.filter_cons, if_neg (by simp [hP])]
      simp only [e]
      rw [ih, List.filter_cons, if_neg (by simpa using hP)]

end Smol
