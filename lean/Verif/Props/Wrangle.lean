import Verif.Lemmas.Wrangle
import Verif.Lemmas.Sublattice
import Mathlib.Analysis.SpecialFunctions.Exp

/-!
# C55 Filtering of fitting data; C62 weights by composition
-/

namespace Smol
open Spec

variable {K : Type*}

theorem rowKey_eq_iff [Zero K] (rnd : K → K) (cols : List ℕ) (rows : List (List K)) (i j : ℕ) :
    rowKey rnd cols (rows.getD i []) = rowKey rnd cols (rows.getD j []) ↔
      SameRow rnd cols rows i j := by
  unfold rowKey SameRow
  exact List.map_inj_left

theorem uniqueIndices_spec {κ : Type*} [LinearOrder κ] (keys : List κ) (prop : ℕ → K)
    (better : K → K → Bool) (hirr : ∀ a, better a a = false)
    (htr : ∀ a b c, better a b = true → better b c = true → better a c = true) :
    let r := uniqueIndices keys.length prop better (duplicateGroups keys)
    r.1.Nodup ∧ (∀ i, i ∈ r.2 ↔ i < keys.length ∧ i ∉ r.1) ∧ r.2.Nodup ∧ (∀ i ∈ r.1, i < keys.length) ∧
      ∀ i < keys.length, ∃ j ∈ r.1, keys[j]? = keys[i]? ∧
        (∀ k ∈ r.1, keys[k]? = keys[i]? → k = j) ∧
        (∀ k, keys[k]? = keys[i]? → better (prop k) (prop j) = false) ∧
        ∀ k, keys[k]? = keys[i]? → (∀ l, keys[l]? = keys[i]? → better (prop l) (prop k) = false) →
          j ≤ k := by
  intro r
  obtain ⟨d1, d2, d3⟩ := duplicateGroups_spec keys
  -- the choice of a group
  have hchoice : ∀ g ∈ duplicateGroups keys, ∃ j, g[argBest better (g.map prop)]? = some j ∧
      j ∈ g ∧ (∀ k ∈ g, better (prop k) (prop j) = false) ∧
      ∀ k ∈ g, (∀ l ∈ g, better (prop l) (prop k) = false) → j ≤ k := by
    intro g hg
    obtain ⟨-, hlen, -⟩ := d1 g hg
    have hs := duplicateGroups_sorted keys g hg
    obtain ⟨x, h1, h2, h3⟩ := argBest_spec better hirr htr (g.map prop)
      (by rw [Ne, List.map_eq_nil_iff]; rintro rfl; simp at hlen)
    rw [List.getElem?_map, Option.map_eq_some_iff] at h1
    obtain ⟨j, hj, rfl⟩ := h1
    refine ⟨j, hj, List.mem_of_getElem? hj, fun k hk => h2 _ (List.mem_map_of_mem hk), ?_⟩
    intro k hk hb
    obtain ⟨n, hn⟩ := List.mem_iff_getElem?.1 hk
    have hle := h3 n (prop k) (by rw [List.getElem?_map, hn]; rfl) (by
      intro z hz
      obtain ⟨l, hl, rfl⟩ := List.mem_map.1 hz
      exact hb l hl)
    obtain ⟨a1, rfl⟩ := List.getElem?_eq_some_iff.1 hj
    obtain ⟨a2, rfl⟩ := List.getElem?_eq_some_iff.1 hn
    rcases Nat.lt_or_ge (argBest better (g.map prop)) n with h | h
    · exact (List.pairwise_iff_getElem.1 hs _ _ a1 a2 h).le
    · have : argBest better (g.map prop) = n := le_antisymm hle h
      simp [this]
  have hdup : ∀ i, i ∈ r.2 ↔ ∃ g ∈ duplicateGroups keys, i ∈ g ∧
      g[argBest better (g.map prop)]? ≠ some i := by
    intro i
    show i ∈ (duplicateGroups keys).flatten.filter (fun i => decide (i ∉ (duplicateGroups keys).filterMap
      fun g => g[argBest better (g.map prop)]?)) ↔ _
    rw [List.mem_filter, List.mem_flatten, decide_eq_true_eq, List.mem_filterMap]
    constructor
    · rintro ⟨⟨g, hg, hi⟩, h⟩
      exact ⟨g, hg, hi, fun e => h ⟨g, hg, e⟩⟩
    · rintro ⟨g, hg, hi, h⟩
      refine ⟨⟨g, hg, hi⟩, ?_⟩
      rintro ⟨g', hg', e⟩
      have hi' := List.mem_of_getElem? e
      obtain ⟨k, -, rfl⟩ := d1 g hg
      obtain ⟨k', -, rfl⟩ := d1 g' hg'
      simp only [List.mem_filter, decide_eq_true_eq] at hi hi'
      have hk : k = k' := Option.some.inj (hi.2.symm.trans hi'.2)
      subst hk
      exact h e
  have hkept : ∀ i, i ∈ r.1 ↔ i < keys.length ∧ i ∉ r.2 := by
    intro i
    show i ∈ (List.range keys.length).filter (fun i => decide (i ∉ r.2)) ↔ _
    rw [List.mem_filter, List.mem_range, decide_eq_true_eq]
  have hlt : ∀ i ∈ r.2, i < keys.length := by
    intro i hi
    obtain ⟨g, hg, hi, -⟩ := (hdup i).1 hi
    obtain ⟨k, -, rfl⟩ := d1 g hg
    exact List.mem_range.1 (List.mem_of_mem_filter hi)
  refine ⟨List.nodup_range.filter _, ?_, ?_, fun i hi => ((hkept i).1 hi).1, ?_⟩
  · intro i
    rw [hkept]
    constructor
    · intro h; exact ⟨hlt i h, fun h' => h'.2 h⟩
    · rintro ⟨h1, h2⟩
      by_contra h
      exact h2 ⟨h1, h⟩
  · show ((duplicateGroups keys).flatten.filter _).Nodup
    apply List.Nodup.filter
    rw [List.nodup_flatten]
    refine ⟨fun g hg => (duplicateGroups_sorted keys g hg).imp fun h => Nat.ne_of_lt h, d3.imp ?_⟩
    intro g h hd
    exact fun i hi hj => hd i hi hj
  · intro i hi
    have hki : keys[i]? = some keys[i] := List.getElem?_eq_getElem hi
    by_cases hex : ∃ j, j ≠ i ∧ keys[j]? = keys[i]?
    · obtain ⟨j0, hne, hj0⟩ := hex
      obtain ⟨g, hg, hge⟩ := d2 i j0 keys[i] hne.symm hki (hj0.trans hki)
      obtain ⟨j, hj, hjg, hb, hf⟩ := hchoice g hg
      have hmem : ∀ k, k ∈ g ↔ keys[k]? = keys[i]? := by
        intro k
        rw [hge, List.mem_filter, List.mem_range, decide_eq_true_eq, hki]
        exact ⟨fun h => h.2, fun h => ⟨(List.getElem?_eq_some_iff.1 h).1, h⟩⟩
      have huniq : ∀ g' ∈ duplicateGroups keys, ∀ k ∈ g', k ∈ g → g' = g := by
        intro g' hg' k hk hk'
        obtain ⟨x, -, rfl⟩ := d1 g' hg'
        rw [hge] at hk' ⊢
        simp only [List.mem_filter, decide_eq_true_eq] at hk hk'
        rw [hk.2] at hk'
        rw [Option.some.inj hk'.2]
      refine ⟨j, ?_, (hmem j).1 hjg, ?_, fun k hk => hb k ((hmem k).2 hk),
        fun k hk h => hf k ((hmem k).2 hk) fun l hl => h l ((hmem l).1 hl)⟩
      · rw [hkept]
        refine ⟨?_, ?_⟩
        · have := (hmem j).1 hjg
          rw [hki] at this
          exact (List.getElem?_eq_some_iff.1 this).1
        · rw [hdup]
          rintro ⟨g', hg', hjg', hne'⟩
          rw [huniq g' hg' j hjg' hjg] at hne'
          exact hne' hj
      · intro k hk hkk
        by_contra hkj
        have hkg := (hmem k).2 hkk
        apply ((hkept k).1 hk).2
        rw [hdup]
        refine ⟨g, hg, hkg, ?_⟩
        rw [hj]
        exact fun e => hkj (Option.some.inj e).symm
    · push Not at hex
      have hall : ∀ k, keys[k]? = keys[i]? → k = i := by
        intro k hk
        by_contra hne
        exact hex k hne hk
      refine ⟨i, ?_, rfl, fun k _ hk => hall k hk, ?_, fun k hk _ => (hall k hk).ge⟩
      · rw [hkept]
        refine ⟨hi, ?_⟩
        rw [hdup]
        rintro ⟨g, hg, hig, -⟩
        obtain ⟨x, hlen, hge⟩ := d1 g hg
        have hmem : ∀ k ∈ g, k = i := by
          intro k hk
          apply hall
          rw [hge] at hk hig
          simp only [List.mem_filter, decide_eq_true_eq] at hk hig
          rw [hk.2, hig.2]
        have hn : g.Nodup := (duplicateGroups_sorted keys g hg).imp fun h => Nat.ne_of_lt h
        have h01 := List.pairwise_iff_getElem.1 (duplicateGroups_sorted keys g hg) 0 1 (by omega) hlen
          (by omega)
        have e0 := hmem g[0] (List.getElem_mem _)
        have e1 := hmem g[1] (List.getElem_mem _)
        omega
      · intro k hk
        rw [hall k hk]; exact hirr _

variable [LinearOrder K] [Zero K]

omit [Zero K] in
theorem filterBy_spec (s : String) (better : K → K → Bool) (h : filterBy s = some better) :
    (∀ a, better a a = false) ∧
    (∀ a b c, better a b = true → better b c = true → better a c = true) ∧
    (s = "min" → ∀ a b, better a b = false ↔ b ≤ a) ∧
    (s = "max" → ∀ a b, better a b = false ↔ a ≤ b) := by
  unfold filterBy at h
  split_ifs at h with h1 h2
  · obtain rfl := Option.some.inj h
    refine ⟨by simp, ?_, by simp, fun e => by rw [h1] at e; simp at e⟩
    intro a b c hab hbc
    simp only [decide_eq_true_eq] at *
    exact hab.trans hbc
  · obtain rfl := Option.some.inj h
    refine ⟨by simp, ?_, fun e => (h1 e).elim, by simp⟩
    intro a b c hab hbc
    simp only [decide_eq_true_eq] at *
    exact hbc.trans hab

omit [LinearOrder K] in
theorem getElem?_keys_eq (rnd : K → K) (cols : List ℕ) (rows : List (List K)) {i j : ℕ}
    (hi : i < rows.length) :
    (rows.map (rowKey rnd cols))[j]? = (rows.map (rowKey rnd cols))[i]? ↔
      j < rows.length ∧ SameRow rnd cols rows j i := by
  rw [← rowKey_eq_iff]
  simp only [List.getElem?_map, List.getD_eq_getElem?_getD]
  rw [List.getElem?_eq_getElem hi]
  by_cases hj : j < rows.length
  · rw [List.getElem?_eq_getElem hj]; simp [hj]
  · rw [List.getElem?_eq_none (by omega)]; simp [hj]

/-- C55. Filtering keeps, for every structure, exactly one structure with the same correlations; it
has the lowest (highest) value of the property, and is the first of those that do.  The complement
holds exactly the others. -/
theorem C55_unique (w : WranglerData K) (prop : ℕ → K) (rnd : K → K) (filter : String)
    (cutoffs : Option (List (ℕ × K))) (cols : List ℕ) (hf : filter = "min" ∨ filter = "max")
    (hcols : cutoffs = none ∧ cols = List.range (w.numFeatures - w.numExternal) ∨
      ∃ u, cutoffs = some u ∧ functionIndsFromCutoffs w.orbits u = some cols) :
    ∃ kept dups, w.uniqueCorr prop rnd filter cutoffs = some (kept, dups) ∧
      kept.Nodup ∧ dups.Nodup ∧ (∀ i ∈ kept, i < w.rows.length) ∧
      (∀ i, i ∈ dups ↔ i < w.rows.length ∧ i ∉ kept) ∧
      ∀ i < w.rows.length, ∃ j ∈ kept, SameRow rnd cols w.rows j i ∧
        (∀ k ∈ kept, SameRow rnd cols w.rows k i → k = j) ∧
        ∀ k < w.rows.length, SameRow rnd cols w.rows k i →
          (filter = "min" → prop j ≤ prop k) ∧ (filter = "max" → prop k ≤ prop j) ∧
          (prop k = prop j → j ≤ k) := by
  obtain ⟨better, hb⟩ : ∃ better, filterBy (K := K) filter = some better := by
    unfold filterBy
    rcases hf with rfl | rfl
    · exact ⟨_, if_pos rfl⟩
    · exact ⟨_, rfl⟩
  obtain ⟨b1, b2, b3, b4⟩ := filterBy_spec filter better hb
  have hd : w.duplicates cutoffs rnd true = some (duplicateGroups (w.rows.map (rowKey rnd cols))) := by
    unfold WranglerData.duplicates
    by_cases hr : w.rows = []
    · rw [if_pos hr, hr]; rfl
    · rw [if_neg hr]
      rcases hcols with ⟨rfl, rfl⟩ | ⟨u, rfl, hu⟩
      · rfl
      · simp only [hu]; rfl
  have hspec := uniqueIndices_spec (w.rows.map (rowKey rnd cols)) prop better b1 b2
  simp only [List.length_map] at hspec
  unfold WranglerData.uniqueCorr
  rw [hb, Option.bind_some, hd, Option.map_some]
  generalize uniqueIndices w.rows.length prop better
    (duplicateGroups (w.rows.map (rowKey rnd cols))) = r at hspec
  obtain ⟨h1, h2, h3, h4, h5⟩ := hspec
  refine ⟨r.1, r.2, rfl, h1, h3, h4, h2, ?_⟩
  intro i hi
  obtain ⟨j, hj, e1, e2, e3, e4⟩ := h5 i hi
  have hij := ((getElem?_keys_eq rnd cols w.rows hi).1 e1)
  refine ⟨j, hj, hij.2, fun k hk hki => e2 k hk ((getElem?_keys_eq rnd cols w.rows hi).2
    ⟨h4 k hk, hki⟩), ?_⟩
  intro k hk hki
  have hkk := (getElem?_keys_eq rnd cols w.rows hi).2 ⟨hk, hki⟩
  refine ⟨fun e => (b3 e _ _).1 (e3 k hkk), fun e => (b4 e _ _).1 (e3 k hkk), ?_⟩
  intro e
  exact e4 k hkk fun l hl => by rw [e]; exact e3 l hl

/-- C55. Other values of `filter_by` are refused. -/
theorem C55_filter_error (w : WranglerData K) (prop : ℕ → K) (rnd : K → K) (filter : String)
    (cutoffs : Option (List (ℕ × K))) (h1 : filter ≠ "min") (h2 : filter ≠ "max") :
    w.uniqueCorr prop rnd filter cutoffs = none := by
  unfold WranglerData.uniqueCorr filterBy
  rw [if_neg h1, if_neg h2]; rfl

/-- C55. The columns of cutoffs are those of the orbits within the cutoff of their size. -/
theorem C55_cutoff_columns (orbits : List (ℕ × List (OrbitInfo K))) (upper : List (ℕ × K))
    (cols : List ℕ) (h : functionIndsFromCutoffs orbits upper = some cols) (c : ℕ) :
    c ∈ cols ↔ ∃ su ∈ upper, ∃ os, orbits.lookup su.1 = some os ∧ ∃ o ∈ os,
      0 ≤ o.diameter ∧ o.diameter ≤ su.2 ∧ o.bitId ≤ c ∧ c < o.bitId + o.funcs := by
  unfold functionIndsFromCutoffs orbitsFromCutoffs at h
  rw [Option.map_eq_some_iff] at h
  obtain ⟨os, h, rfl⟩ := h
  rw [Option.map_eq_some_iff] at h
  obtain ⟨ls, h, rfl⟩ := h
  have hf := (mapM_eq_some_forall₂ _ _ _).1 h
  rw [List.mem_flatMap]
  constructor
  · rintro ⟨o, ho, hc⟩
    rw [List.mem_flatten] at ho
    obtain ⟨l, hl, ho⟩ := ho
    obtain ⟨i, hi, rfl⟩ := List.mem_iff_getElem.1 hl
    have hi' : i < upper.length := by rw [hf.length_eq]; exact hi
    have hrel := (List.forall₂_iff_get.1 hf).2 i hi' hi
    simp only [List.get_eq_getElem, Option.map_eq_some_iff] at hrel
    obtain ⟨os, h1, h2⟩ := hrel
    rw [← h2, List.mem_filter, decide_eq_true_eq] at ho
    rw [List.mem_range'_1] at hc
    exact ⟨upper[i], List.getElem_mem _, os, h1, o, ho.1, ho.2.1, ho.2.2, hc.1, hc.2⟩
  · rintro ⟨su, hsu, os, h1, o, ho, h2, h3, h4, h5⟩
    obtain ⟨i, hi, rfl⟩ := List.mem_iff_getElem.1 hsu
    have hi' : i < ls.length := by rw [← hf.length_eq]; exact hi
    have hrel := (List.forall₂_iff_get.1 hf).2 i hi hi'
    simp only [List.get_eq_getElem, Option.map_eq_some_iff] at hrel
    obtain ⟨os', h1', h2'⟩ := hrel
    rw [h1] at h1'
    obtain rfl := Option.some.inj h1'
    refine ⟨o, ?_, ?_⟩
    · rw [List.mem_flatten]
      refine ⟨_, List.getElem_mem hi', ?_⟩
      rw [← h2', List.mem_filter, decide_eq_true_eq]
      exact ⟨ho, h2, h3⟩
    · rw [List.mem_range'_1]; exact ⟨h4, h5⟩

/-- C55, what the code does not do: asking to compare the external terms too always fails when there
is data. -/
theorem C55_external_terms_raise (w : WranglerData K) (hr : w.rows ≠ [])
    (cutoffs : Option (List (ℕ × K))) (rnd : K → K) : w.duplicates cutoffs rnd false = none := by
  unfold WranglerData.duplicates
  rw [if_neg hr]
  cases cutoffs with
  | none => rfl
  | some u =>
    simp only [Bool.false_eq_true, if_false]
    cases functionIndsFromCutoffs w.orbits u <;> rfl

/-- C55. The merging of matches ends after at most as many rounds as there are structures. Its
groups are the classes of structures linked by matches among those with equal correlations in the
columns `cols` that are compared: no two groups share a structure, two structures are in one group
iff a chain of matches connects them, and structures matching nothing are left out.  What is missing
(`C55_matching_compares_too_little`): the columns are only those of clusters with a diameter up to
`decimals`. -/
theorem C55_matching_partial (w : WranglerData K) (hr : w.rows ≠ []) (decimals : K) (rnd : K → K)
    (fit : ℕ → ℕ → Bool) (cols : List ℕ)
    (hcols : functionIndsFromCutoffs w.orbits (scalarCutoff w.orbits decimals) = some cols)
    (fuel : ℕ) (hfuel : w.rows.length ≤ fuel) :
    ∃ r, w.matching fuel decimals rnd fit = some r ∧
      (∀ s ∈ r, 1 < s.length ∧ s.Pairwise (· < ·) ∧ ∀ a ∈ s, a < w.rows.length ∧ ∀ b, b ∈ s ↔
        Linked fit ((List.range w.rows.length).filter fun k =>
          decide (∀ c ∈ cols, rnd ((w.rows.getD k []).getD c 0) = rnd ((w.rows.getD a []).getD c 0))) a b) ∧
      (∀ a b, a < w.rows.length → b < w.rows.length → a < b → SameRow rnd cols w.rows a b →
        fit a b = true → ∃ s ∈ r, a ∈ s ∧ b ∈ s) ∧
      r.Pairwise fun s t => ∀ a ∈ s, a ∉ t := by
  have hd : w.duplicates (some (scalarCutoff w.orbits decimals)) rnd true =
      some (duplicateGroups (w.rows.map (rowKey rnd cols))) := by
    unfold WranglerData.duplicates
    rw [if_neg hr]; simp only [hcols]; rfl
  set keys := w.rows.map (rowKey rnd cols) with hkeys
  have hklen : keys.length = w.rows.length := by rw [hkeys, List.length_map]
  obtain ⟨d1, d2, d3⟩ := duplicateGroups_spec keys
  have hcomp : ∀ g ∈ duplicateGroups keys, _ := fun g hg =>
    merge_components fit g (duplicateGroups_sorted keys g hg) fuel (by
      obtain ⟨k, -, rfl⟩ := d1 g hg
      exact (List.length_filter_le _ _).trans (by rw [List.length_range, hklen]; exact hfuel))
  -- a group is the class of each of its members
  have hgroup : ∀ g ∈ duplicateGroups keys, ∀ a ∈ g, a < w.rows.length ∧
      ((List.range w.rows.length).filter fun k => decide (∀ c ∈ cols,
        rnd ((w.rows.getD k []).getD c 0) = rnd ((w.rows.getD a []).getD c 0))) = g := by
    intro g hg a ha
    obtain ⟨x, -, rfl⟩ := d1 g hg
    have ha' := ha
    simp only [List.mem_filter, List.mem_range, decide_eq_true_eq, hklen] at ha'
    refine ⟨ha'.1, ?_⟩
    rw [hklen]
    apply List.filter_congr
    intro k hk
    apply decide_eq_decide.2
    rw [← ha'.2, hkeys, getElem?_keys_eq rnd cols w.rows ha'.1]
    exact ⟨fun h => ⟨List.mem_range.1 hk, h⟩, fun h => h.2⟩
  unfold WranglerData.matching
  rw [hd, Option.bind_some]
  -- results group by group
  have hex : ∀ gs : List (List ℕ), (∀ g ∈ gs, g ∈ duplicateGroups keys) →
      gs.Pairwise (fun g h => ∀ i ∈ g, i ∉ h) → ∃ rs,
      (gs.mapM fun g => (mergeLoop fuel (matchingPairs fit g)).map fun ms =>
        ms.map sortedSet) = some rs ∧
      (∀ s ∈ rs.flatten, ∃ g ∈ gs, 1 < s.length ∧ s.Pairwise (· < ·) ∧
        ∀ a ∈ s, a ∈ g ∧ ∀ b, b ∈ s ↔ Linked fit g a b) ∧
      (∀ g ∈ gs, ∀ a ∈ g, ∀ b ∈ g, a < b → fit a b = true → ∃ s ∈ rs.flatten, a ∈ s ∧ b ∈ s) ∧
      rs.flatten.Pairwise fun s t => ∀ a ∈ s, a ∉ t := by
    intro gs
    induction gs with
    | nil => intro _ _; exact ⟨[], rfl, by simp, by simp, by simp⟩
    | cons g gs ih =>
      intro hall hpw
      rw [List.pairwise_cons] at hpw
      obtain ⟨rs, h1, h2, h3, h4⟩ := ih (fun g hg => hall g (List.mem_cons_of_mem _ hg)) hpw.2
      obtain ⟨m, m1, m2, m3, m4, m5⟩ := hcomp g (hall g (by simp))
      refine ⟨(m.map sortedSet) :: rs, ?_, ?_, ?_, ?_⟩
      · rw [List.mapM_cons, m1, h1]; rfl
      · intro s hs
        rw [List.flatten_cons, List.mem_append, List.mem_map] at hs
        rcases hs with ⟨t, ht, rfl⟩ | hs
        · obtain ⟨t1, t2, t3⟩ := m3 t ht
          refine ⟨g, by simp, by rw [length_sortedSet]; exact t1, sortedSet_sorted t, ?_⟩
          intro a ha
          rw [mem_sortedSet] at ha
          refine ⟨t2 a ha, fun b => ?_⟩
          rw [mem_sortedSet]
          exact t3 a ha b
        · obtain ⟨g', hg', h⟩ := h2 s hs
          exact ⟨g', List.mem_cons_of_mem _ hg', h⟩
      · intro g' hg' a ha b hb hab hfit
        rw [List.flatten_cons]
        rcases List.mem_cons.1 hg' with rfl | hg'
        · obtain ⟨s, hs, h⟩ := m4 a b (by omega)
            (Relation.ReflTransGen.single ⟨ha, hb, Or.inl ⟨hab, hfit⟩⟩)
          exact ⟨sortedSet s, List.mem_append_left _ (List.mem_map_of_mem hs),
            (mem_sortedSet _ _).2 h.1, (mem_sortedSet _ _).2 h.2⟩
        · obtain ⟨s, hs, h⟩ := h3 g' hg' a ha b hb hab hfit
          exact ⟨s, List.mem_append_right _ hs, h⟩
      · rw [List.flatten_cons, List.pairwise_append]
        refine ⟨?_, h4, ?_⟩
        · rw [List.pairwise_map]
          refine m2.imp_of_mem ?_
          intro s t hs ht hne a ha
          rw [mem_sortedSet] at ha ⊢
          exact Finset.disjoint_left.1 (m5 s hs t ht hne) ha
        · intro s hs t ht a ha ha'
          obtain ⟨u, hu, rfl⟩ := List.mem_map.1 hs
          rw [mem_sortedSet] at ha
          obtain ⟨g', hg', -, -, h⟩ := h2 t ht
          exact hpw.1 g' hg' a ((m3 u hu).2.1 a ha) (h a ha').1
  obtain ⟨rs, h1, h2, h3, h4⟩ := hex _ (fun g hg => hg) d3
  rw [h1, Option.map_some]
  refine ⟨_, rfl, ?_, ?_, h4⟩
  · intro s hs
    obtain ⟨g, hg, s1, s2, s3⟩ := h2 s hs
    refine ⟨s1, s2, fun a ha => ?_⟩
    obtain ⟨hag, hl⟩ := s3 a ha
    obtain ⟨e1, e2⟩ := hgroup g hg a hag
    rw [e2]
    exact ⟨e1, hl⟩
  · intro a b ha hb hab hrow hfit
    have hsame : keys[a]? = keys[b]? := (getElem?_keys_eq rnd cols w.rows hb).2 ⟨ha, hrow⟩
    have hkb : keys[b]? = some keys[b] := List.getElem?_eq_getElem (by omega)
    obtain ⟨g, hg, hge⟩ := d2 a b keys[b] (by omega) (hsame.trans hkb) hkb
    refine h3 g hg a ?_ b ?_ hab hfit
    · rw [hge]
      simp only [List.mem_filter, List.mem_range, decide_eq_true_eq]
      exact ⟨by omega, hsame.trans hkb⟩
    · rw [hge]
      simp only [List.mem_filter, List.mem_range, decide_eq_true_eq]
      exact ⟨by omega, hkb⟩

/-- Two structures that differ in the correlation of a cluster of diameter 13. -/
def wideData : WranglerData ℚ :=
  ⟨[[1, 1/2, 0], [1, 1/2, 1/4]], 3, 0, [(1, [⟨0, 1, 1⟩]), (2, [⟨13, 2, 1⟩])]⟩

/-- C55, what the code does not do: `get_matching_corr_duplicate_indices` reports structures whose
correlation vectors differ, because the number of decimals is taken for a diameter cutoff. -/
theorem C55_matching_compares_too_little :
    ∃ (w : WranglerData ℚ) (fit : ℕ → ℕ → Bool), w.matching 2 12 id fit = some [[0, 1]] ∧
      w.duplicates none id true = some [] :=
  ⟨wideData, fun _ _ => true, by decide +kernel, by decide +kernel⟩

/-- Structures 0, 2 and 3 have equal correlations; the lowest energies of the three are those of 2
and 3. -/
example : (⟨[[1, 0, 5], [1, 2, 5], [1, 0, 7], [1, 0, 8]], 3, 1, []⟩ : WranglerData ℚ).uniqueCorr
      (fun i => [3, 4, 1, 1].getD i 0) id "min" none = some ([1, 2], [0, 3]) ∧
    (⟨[[1, 0, 5], [1, 2, 5], [1, 0, 7], [1, 0, 8]], 3, 1, []⟩ : WranglerData ℚ).uniqueCorr
      (fun i => [3, 4, 1, 1].getD i 0) id "max" none = some ([0, 1], [2, 3]) ∧
    functionIndsFromCutoffs wideData.orbits (scalarCutoff wideData.orbits 12) = some [1] ∧
    functionIndsFromCutoffs wideData.orbits [(2, 15), (1, 2)] = some [2, 1] ∧
    functionIndsFromCutoffs wideData.orbits [(3, 15)] = none := by
  refine ⟨?_, ?_, ?_, ?_, ?_⟩ <;> decide +kernel

/-- A chain of matches 0-2, 2-3 merges into one group. -/
example : (⟨[[1, 0], [1, 2], [1, 0], [1, 0], [1, 2]], 2, 0, [(1, [⟨0, 1, 1⟩])]⟩ :
    WranglerData ℚ).matching 5 12 id (fun i j => (i, j) ∈ [(0, 2), (2, 3)]) = some [[0, 2, 3]] := by
  decide +kernel

/-! ## Ewald energies and weights by composition -/

variable {C F : Type*} [DecidableEq C] [Field F] [LinearOrder F] [IsStrictOrderedRing F]

omit [IsStrictOrderedRing F] in
theorem aboveComp_get (data : List (C × F)) (i : ℕ) (hi : i < data.length) :
    ∃ m, (aboveComp data)[i]? = some (some (data[i].2 - m)) ∧
      minByComp data (fun _ => none) data[i].1 = some m ∧
      (data[i].1, m) ∈ data ∧ ∀ e ∈ data, e.1 = data[i].1 → m ≤ e.2 := by
  obtain ⟨m, h1, h2, h3⟩ := minByComp_of_mem data data[i] (List.getElem_mem hi)
  refine ⟨m, ?_, h1, h2, h3⟩
  unfold aboveComp
  rw [List.getElem?_map, List.getElem?_eq_getElem hi, Option.map_some, h1]; rfl

/-- C55. `max_ewald_energy_indices` splits the structures: kept are, in order, those whose energy is
less than the threshold above every structure of their composition. -/
theorem C55_ewald_split (data : List (C × F)) (threshold : F) :
    let r := maxEwaldIndices data threshold
    r.1.Pairwise (· < ·) ∧ r.2.Pairwise (· < ·) ∧
      (∀ i, i ∈ r.1 ↔ ∃ h : i < data.length, ∀ e ∈ data, e.1 = data[i].1 →
        data[i].2 - e.2 < threshold) ∧
      ∀ i, i ∈ r.2 ↔ i < data.length ∧ i ∉ r.1 := by
  intro r
  have h1 : ∀ i, i ∈ r.1 ↔ ∃ h : i < data.length, ∀ e ∈ data, e.1 = data[i].1 →
      data[i].2 - e.2 < threshold := by
    intro i
    show i ∈ (List.range data.length).filter _ ↔ _
    rw [List.mem_filter, List.mem_range, decide_eq_true_eq]
    constructor
    · rintro ⟨h, hk⟩
      obtain ⟨m, -, hm, hmem, hmin⟩ := aboveComp_get data i h
      refine ⟨h, fun e he hc => ?_⟩
      have := hk data[i] (by rw [List.getElem?_eq_getElem h]; rfl) m hm
      linarith [hmin e he hc]
    · rintro ⟨h, hk⟩
      refine ⟨h, ?_⟩
      intro d hd m' hm'
      rw [List.getElem?_eq_getElem h] at hd
      obtain rfl := Option.some.inj hd
      obtain ⟨m, -, hm, hmem, hmin⟩ := aboveComp_get data i h
      have hmm : m' = m := by
        have := hm'
        rw [hm] at this
        exact (Option.some.inj this).symm
      subst hmm
      exact hk _ hmem rfl
  refine ⟨List.pairwise_lt_range.filter _, List.pairwise_lt_range.filter _, h1, ?_⟩
  intro i
  show i ∈ (List.range data.length).filter _ ↔ i < data.length ∧ ¬ i ∈ (List.range data.length).filter _
  simp only [List.mem_filter, List.mem_range, Bool.not_eq_true', decide_eq_false_iff_not,
    decide_eq_true_eq]
  tauto

/-- C55. With a positive threshold every composition keeps a structure; otherwise nothing is kept. -/
theorem C55_ewald_threshold (data : List (C × F)) (threshold : F) :
    (0 < threshold → ∀ d ∈ data, ∃ i ∈ (maxEwaldIndices data threshold).1,
      ∃ h : i < data.length, data[i].1 = d.1) ∧
    (threshold ≤ 0 → (maxEwaldIndices data threshold).1 = []) := by
  obtain ⟨-, -, h3, -⟩ := C55_ewald_split data threshold
  constructor
  · intro ht d hd
    obtain ⟨m, -, hmem, hmin⟩ := minByComp_of_mem data d hd
    obtain ⟨i, hi, e⟩ := List.mem_iff_getElem.1 hmem
    refine ⟨i, (h3 i).2 ⟨hi, ?_⟩, hi, by rw [e]⟩
    intro x hx hc
    rw [e] at hc ⊢
    have := hmin x hx hc
    dsimp only
    linarith
  · intro ht
    rw [List.eq_nil_iff_forall_not_mem]
    intro i hi
    obtain ⟨h, hk⟩ := (h3 i).1 hi
    have := hk data[i] (List.getElem_mem h) rfl
    linarith

example : maxEwaldIndices ([(0, 3), (1, 5), (0, 1), (0, 2)] : List (ℕ × ℚ)) 2 = ([1, 2, 3], [0]) := by
  decide +kernel

/-- C62. The energies above composition are those relative to the lowest energy per site among the
structures of the same composition: non-negative, and 0 exactly for the lowest. -/
theorem C62_energies_above_composition (data : List (C × F × ℕ)) (i : ℕ) (hi : i < data.length) :
    ∃ x, (energiesAboveComposition data)[i]? = some (some x) ∧ 0 ≤ x ∧
      (∃ d ∈ data, d.1 = data[i].1 ∧ x = data[i].2.1 / data[i].2.2 - d.2.1 / d.2.2) ∧
      (∀ d ∈ data, d.1 = data[i].1 → data[i].2.1 / data[i].2.2 - d.2.1 / d.2.2 ≤ x) ∧
      (x = 0 ↔ ∀ d ∈ data, d.1 = data[i].1 → data[i].2.1 / data[i].2.2 ≤ d.2.1 / d.2.2) := by
  have hi' : i < (data.map fun d => (d.1, d.2.1 / (d.2.2 : F))).length := by
    rw [List.length_map]; exact hi
  obtain ⟨m, h1, -, h2, h3⟩ := aboveComp_get (data.map fun d => (d.1, d.2.1 / (d.2.2 : F))) i hi'
  simp only [List.getElem_map] at h1 h2 h3
  obtain ⟨d0, hd0, e0⟩ := List.mem_map.1 h2
  obtain ⟨e1, e2⟩ := Prod.mk.inj e0
  have hle : ∀ d ∈ data, d.1 = data[i].1 → m ≤ d.2.1 / d.2.2 := fun d hd hc =>
    h3 (d.1, d.2.1 / (d.2.2 : F)) (List.mem_map.2 ⟨d, hd, rfl⟩) hc
  have hself := hle data[i] (List.getElem_mem hi) rfl
  refine ⟨_, h1, by linarith, ⟨d0, hd0, e1, by rw [e2]⟩, fun d hd hc => by linarith [hle d hd hc], ?_⟩
  constructor
  · intro h d hd hc
    linarith [hle d hd hc]
  · intro h
    have := h d0 hd0 e1
    rw [e2] at this
    linarith

/-- C62. The weights `exp(-e / (kB T))` of `weights_energy_above_composition`
(smol/cofe/wrangling/tools.py:139-140): between 0 and 1, equal to 1 exactly for the structures of
lowest energy per site of their composition, and smaller the higher the energy within a composition. -/
theorem C62_weights (data : List (C × ℝ × ℕ)) (kBT : ℝ) (hT : 0 < kBT) (i : ℕ)
    (hi : i < data.length) :
    ∃ x, (energiesAboveComposition data)[i]? = some (some x) ∧
      0 < Real.exp (-x / kBT) ∧ Real.exp (-x / kBT) ≤ 1 ∧
      (Real.exp (-x / kBT) = 1 ↔
        ∀ d ∈ data, d.1 = data[i].1 → data[i].2.1 / data[i].2.2 ≤ d.2.1 / d.2.2) ∧
      ∀ j y, (hj : j < data.length) → (energiesAboveComposition data)[j]? = some (some y) →
        data[j].1 = data[i].1 → (Real.exp (-y / kBT) < Real.exp (-x / kBT) ↔
          data[i].2.1 / data[i].2.2 < data[j].2.1 / data[j].2.2) := by
  obtain ⟨x, h1, h2, ⟨d0, hd0, hc0, e0⟩, h4, h5⟩ := C62_energies_above_composition data i hi
  refine ⟨x, h1, Real.exp_pos _, ?_, ?_, ?_⟩
  · rw [Real.exp_le_one_iff]
    exact div_nonpos_of_nonpos_of_nonneg (by linarith) hT.le
  · rw [Real.exp_eq_one_iff, div_eq_zero_iff, ← h5]
    constructor
    · rintro (h | h)
      · linarith
      · linarith
    · intro h; left; linarith
  · intro j y hj hy hc
    obtain ⟨y', g1, -, ⟨d1, hd1, hc1, e1⟩, g4, -⟩ := C62_energies_above_composition data j hj
    rw [g1] at hy
    have hyy : y' = y := by simpa using hy
    subst hyy
    have a1 := h4 d1 hd1 (hc1.trans hc)
    have a2 := g4 d0 hd0 (hc0.trans hc.symm)
    rw [Real.exp_lt_exp, div_lt_div_iff_of_pos_right hT]
    constructor <;> intro h <;> linarith

/-- Energies 6 and 4 with 2 sites of composition 0, and 9 with 3 sites of composition 1. -/
example : energiesAboveComposition ([(0, 6, 2), (1, 9, 3), (0, 4, 2)] : List (ℕ × ℚ × ℕ)) =
    [some 1, some 0, some 0] := by decide +kernel

end Smol
