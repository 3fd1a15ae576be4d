import Verif.Lemmas.Expansion
import Verif.Props.OrbitSpace

/-!
# C44 Pruning a cluster expansion
-/

namespace Smol
open Spec

variable {K : Type*} [Field K] [LinearOrder K]

/-- C44. When neither the constant nor an external term is below the threshold, `prune` does not
raise, exactly the functions whose coefficient (or interaction) is below the threshold are gone,
there is one coefficient per remaining term, and the new prediction for every structure is the old
sum without the pruned terms. -/
theorem C44_prune (E : Expansion K) (hS : E.space.Reachable) (hlen : E.coefs.length = E.numTerms)
    (threshold : K) (withMult : Bool) :
    ∃ base P, Selects E withMult base ∧ E.prune threshold withMult = some P ∧
      funsOf P.exp.space.orbits = without (smallIds base threshold) (funsOf E.space.orbits) ∧
      P.exp.space.Reachable ∧
      ((∀ i < base.length, i = 0 ∨ E.space.numCorr ≤ i → threshold ≤ |base.getD i 0|) →
        P.raised = false ∧ P.exp.coefs.length = P.exp.numTerms ∧
        ∀ (val : ℕ × (ℕ × ℕ) → K) (ext : List K), ext.length = E.nExt →
          P.exp.predict val ext = some (((List.range E.numTerms).map fun i =>
            if i < base.length ∧ |base.getD i 0| < threshold then 0
            else E.coefs.getD i 0 * (E.corr val ext).getD i 0).sum)) := by
  have hok := hS.ok
  obtain ⟨base, hb, hsel, hbl⟩ := selects_exists E hok hlen withMult
  obtain ⟨d, hd1, hd2⟩ := removeCorr_some hok (smallIds base threshold)
  obtain ⟨d0, ops, hd0, hS0⟩ := hS
  have hfun := C43_remove_functions d0 hd0 ops (smallIds base threshold)
  simp only [← hS0] at hfun
  obtain ⟨S', hS', hokS', hfuns, -⟩ := hfun
  have hP : E.prune threshold withMult = some ⟨⟨S', E.nExt, complementOf (smallIds base threshold)
      E.coefs⟩, (Expansion.eci (⟨S', E.nExt, complementOf (smallIds base threshold) E.coefs⟩ :
        Expansion K)).isNone⟩ := by
    unfold Expansion.prune; rw [hb]; simp only [Option.bind_some, hS', Option.map_some]
  refine ⟨base, _, hsel, hP, hfuns, ?_, ?_⟩
  · refine ⟨d0, ops ++ [.functions (smallIds base threshold)], hd0, ?_⟩
    unfold OrbitSpace.run
    rw [List.foldl_append]
    simp only [List.foldl_cons, List.foldl_nil]
    show S' = ((OrbitSpace.assigned d0).run ops).step _
    rw [← hS0]; unfold OrbitSpace.step; simp only [hS', Option.getD_some]
  · intro hbig
    set q : ℕ → Bool := fun i => decide ((i : ℤ) ∉ smallIds base threshold) with hq
    have hqb : ∀ i, q i = true ↔ ¬ (i < base.length ∧ |base.getD i 0| < threshold) := by
      intro i
      rw [hq]; simp only [decide_eq_true_eq, mem_smallIds]
      apply not_congr
      constructor
      · rintro ⟨c, hc, h⟩
        obtain ⟨h1, rfl⟩ := List.getElem?_eq_some_iff.1 hc
        exact ⟨h1, by rw [List.getD_eq_getElem?_getD, hc, Option.getD_some]; exact h⟩
      · rintro ⟨h1, h⟩
        rw [List.getD_eq_getElem?_getD, List.getElem?_eq_getElem h1, Option.getD_some] at h
        exact ⟨_, List.getElem?_eq_getElem h1, h⟩
    have hn : E.space.numCorr = 1 + nFuns E.space.orbits := hok.numCorr
    have hgood : ∀ i, i = 0 ∨ (1 + nFuns E.space.orbits ≤ i ∧
        i < 1 + nFuns E.space.orbits + E.nExt) → q i = true := by
      intro i hi
      rw [hqb]
      rintro ⟨h1, h2⟩
      have := hbig i h1 (by rcases hi with h | h; · exact Or.inl h
                            · exact Or.inr (by omega))
      exact absurd h2 (not_lt.2 this)
    have hcl : E.coefs.length = 1 + nFuns E.space.orbits + E.nExt := by
      rw [hlen, Expansion.numTerms, hn]
    have hlenS' : S'.numCorr = 1 + (keepAt q 1 (funsOf E.space.orbits)).length := by
      rw [hokS'.numCorr, ← length_funsOf, hfuns]; rfl
    have hlr : (keepAt q 1 (funsOf E.space.orbits)).length =
        (keepAt q 1 (List.range (nFuns E.space.orbits))).length :=
      keepAt_length q 1 _ _ (by rw [length_funsOf, List.length_range])
    obtain ⟨rest, hr1, -, hr2, -⟩ := pruned_lengths q E.coefs _ _ hcl
    have hcoefs : (complementOf (smallIds base threshold) E.coefs).length =
        S'.numCorr + E.nExt := by
      rw [complementOf_eq, hr1, hr2 hgood, hlenS', hlr]; omega
    refine ⟨?_, hcoefs, ?_⟩
    · have : (Expansion.eci (⟨S', E.nExt, complementOf (smallIds base threshold) E.coefs⟩ :
          Expansion K)) ≠ none := by
        unfold Expansion.eci arrDiv
        rw [if_pos]
        · exact Option.some_ne_none _
        · simp only [dropExt, List.length_take, List.length_map, totalMults_length, hcoefs,
            hokS'.numCorr]
          omega
      simpa [Option.isSome_iff_ne_none] using this
    · intro val ext hext
      have hcorrE : E.corr val ext = 1 :: ((funsOf E.space.orbits).map val ++ ext) := corr_eq E val ext
      have hcorr' : Expansion.corr (⟨S', E.nExt, complementOf (smallIds base threshold) E.coefs⟩ :
          Expansion K) val ext = keepAt q 0 (E.corr val ext) := by
        rw [corr_eq, hcorrE, keepAt_cons, if_pos (hgood 0 (Or.inl rfl)), zero_add, keepAt_append,
          keepAt_map, List.length_map, length_funsOf, hfuns]
        congr 2
        symm
        apply keepAt_all
        intro i hi
        exact hgood _ (Or.inr ⟨by omega, by omega⟩)
      have hlenc : E.coefs.length = (E.corr val ext).length := by
        rw [hcl, hcorrE]; simp [length_funsOf, hext]; omega
      unfold Expansion.predict npDot
      simp only
      rw [hcorr', complementOf_eq, if_pos (keepAt_length _ 0 _ _ hlenc), keepAt_dot _ _ _ hlenc,
        hlen]
      congr 2
      apply List.map_congr_left
      intro i _
      by_cases h : i < base.length ∧ |base.getD i 0| < threshold
      · rw [if_pos h, if_neg (fun hc => (hqb i).1 hc h)]
      · rw [if_neg h, if_pos ((hqb i).2 h)]

/-- C44, negative. When the constant or an external term is below the threshold, the coefficients
lose an entry that the subspace keeps: afterwards there are fewer coefficients than terms and
`predict` raises for every structure. -/
theorem C44_prune_misaligned (E : Expansion K) (hS : E.space.Reachable)
    (hlen : E.coefs.length = E.numTerms) (threshold : K) (withMult : Bool) (base : List K)
    (P : Pruned K) (hb : Selects E withMult base) (hP : E.prune threshold withMult = some P)
    (i : ℕ) (hi : i < base.length) (hc : i = 0 ∨ E.space.numCorr ≤ i)
    (hs : |base.getD i 0| < threshold) :
    P.exp.coefs.length < P.exp.numTerms ∧
      ∀ (val : ℕ × (ℕ × ℕ) → K) (ext : List K), ext.length = E.nExt →
        P.exp.predict val ext = none := by
  have hok := hS.ok
  obtain ⟨base', hb', hsel', -⟩ := selects_exists E hok hlen withMult
  have : base' = base := selects_unique hok hsel' hb
  subst this
  obtain ⟨d0, ops, hd0, hS0⟩ := hS
  have hfun := C43_remove_functions d0 hd0 ops (smallIds base' threshold)
  simp only [← hS0] at hfun
  obtain ⟨S', hS', hokS', hfuns, -⟩ := hfun
  unfold Expansion.prune at hP
  rw [hb'] at hP
  simp only [Option.bind_some, hS', Option.map_some, Option.some.injEq] at hP
  subst hP
  set q : ℕ → Bool := fun i => decide ((i : ℤ) ∉ smallIds base' threshold) with hq
  have hn : E.space.numCorr = 1 + nFuns E.space.orbits := hok.numCorr
  have hcl : E.coefs.length = 1 + nFuns E.space.orbits + E.nExt := by
    rw [hlen, Expansion.numTerms, hn]
  have hbl : base'.length ≤ E.coefs.length := by
    unfold Selects at hb
    split at hb
    · obtain ⟨m, h1, -⟩ := hb; omega
    · rw [hb]
  have hqi : q i = false := by
    rw [hq]; simp only [decide_eq_false_iff_not, not_not, mem_smallIds]
    rw [List.getD_eq_getElem?_getD, List.getElem?_eq_getElem hi, Option.getD_some] at hs
    exact ⟨_, List.getElem?_eq_getElem hi, hs⟩
  have hlenS' : S'.numCorr = 1 + (keepAt q 1 (funsOf E.space.orbits)).length := by
    rw [hokS'.numCorr, ← length_funsOf, hfuns]; rfl
  have hlr : (keepAt q 1 (funsOf E.space.orbits)).length =
      (keepAt q 1 (List.range (nFuns E.space.orbits))).length :=
    keepAt_length q 1 _ _ (by rw [length_funsOf, List.length_range])
  obtain ⟨rest, hr1, -, -, hr3⟩ := pruned_lengths q E.coefs _ _ hcl
  have hlt := hr3 i (by rcases hc with h | h; · exact Or.inl h
                        · exact Or.inr (by omega)) hqi
  have hmain : (complementOf (smallIds base' threshold) E.coefs).length < S'.numCorr + E.nExt := by
    rw [complementOf_eq, hr1, hlenS', hlr]; omega
  refine ⟨hmain, ?_⟩
  intro val ext hext
  unfold Expansion.predict npDot
  rw [if_neg]
  rw [corr_eq]
  simp only [List.length_cons, List.length_append, List.length_map, length_funsOf, hext]
  have := hokS'.numCorr
  omega

/-- An expansion with a point and a pair orbit, five functions and one external term. -/
def sampleExpansion : Expansion ℚ :=
  ⟨OrbitSpace.assigned sampleDict, 1, [5, 1/100, 2, 3, 1/50, 4, 1]⟩

/-- The hypotheses of `C44_prune` hold for it and pruning removes two functions. -/
example : sampleExpansion.space.Reachable ∧
    sampleExpansion.coefs.length = sampleExpansion.numTerms ∧
    (sampleExpansion.prune (1/10) false).map (fun P =>
        (P.raised, P.exp.coefs, P.exp.space.functionOrbitIds)) =
      some (false, [5, 2, 3, 4, 1], [0, 1, 2, 3]) := by
  refine ⟨⟨sampleDict, [], by decide, rfl⟩, ?_, ?_⟩ <;> decide +kernel

/-- C44, negative, concretely: with a small constant `prune` raises after it has changed the
expansion, and the expansion is left with one coefficient too few. -/
theorem C44_prune_raises :
    (Expansion.prune (⟨OrbitSpace.assigned sampleDict, 1, [0, 1/100, 2, 3, 1/50, 4, 1]⟩ :
        Expansion ℚ) (1/10) false).map (fun P => (P.raised, P.exp.coefs, P.exp.numTerms)) =
      some (true, [2, 3, 4, 1], 5) := by
  decide +kernel

end Smol
