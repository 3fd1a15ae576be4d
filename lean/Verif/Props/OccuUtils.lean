import Verif.Lemmas.OccuUtils

/-!
# C18 Species counts agree with the occupancy and with steps
-/

namespace Smol

/-- What a list of sublattices must satisfy: sites are below the total number of sites, no site
is in two sublattices, active sites are sites, encodings and sites do not repeat, there is at
least one code on each. -/
structure SublatticesOk (sls : List Sublattice) : Prop where
  nonempty : sls ≠ []
  range : ∀ sl ∈ sls, ∀ s ∈ sl.sites, s < (sls.map fun sl => sl.sites.length).sum
  disjoint : sls.Pairwise fun x y => ∀ s ∈ x.sites, s ∉ y.sites
  nodup : ∀ sl ∈ sls, sl.sites.Nodup ∧ sl.active.Nodup
  active : ∀ sl ∈ sls, ∀ s ∈ sl.active, s ∈ sl.sites
  encoding : ∀ sl ∈ sls, sl.encoding.Nodup ∧ sl.encoding ≠ []

/-- The dimensions of the "counts" format: one for each code of each sublattice, in order, with
the sites counted. -/
def countDimensions (activeOnly : Bool) (sls : List Sublattice) : List (List ℕ × ℕ) :=
  sls.flatMap fun sl =>
    sl.encoding.map fun c => (if activeOnly then sl.active else sl.sites, c)

theorem le_foldl_max (l : List ℕ) (a : ℕ) : a ≤ l.foldl max a ∧ ∀ x ∈ l, x ≤ l.foldl max a := by
  induction l generalizing a with
  | nil => simp
  | cons b l ih =>
    rw [List.foldl_cons]
    have := ih (max a b)
    refine ⟨le_trans (le_max_left _ _) this.1, ?_⟩
    intro x hx
    rcases List.mem_cons.1 hx with rfl | hx
    · exact le_trans (le_max_right _ _) this.1
    · exact this.2 x hx

/-- C18. The table exists, has one row per site, and its entry at `(site, code)` is dimension `d`
exactly when `d` is the dimension of this code on the sublattice holding the site; entries of no
dimension are `-1`. -/
theorem C18_table_correct (a : Bool) (sls : List Sublattice) (h : SublatticesOk sls) :
    ∃ t, getDimIdsTable a sls = some t ∧
      t.nRow = (sls.map fun sl => sl.sites.length).sum ∧
      (∀ sl ∈ sls, ∀ c ∈ sl.encoding, c < t.nCol) ∧
      (∀ s c d : ℕ, t.entry s c = (d : ℤ) ↔
        ∃ sites, (countDimensions a sls)[d]? = some (sites, c) ∧ s ∈ sites) ∧
      (∀ s c, t.entry s c = -1 ∨
        ∃ d : ℕ, d < (countDimensions a sls).length ∧ t.entry s c = d) := by
  have hcd : countDimensions a sls = dimList a sls := rfl
  have hpw := dimList_pairwise a sls h.disjoint h.active fun sl hsl => (h.encoding sl hsl).1
  unfold getDimIdsTable
  simp only
  rw [if_neg]
  swap
  · push Not
    refine ⟨h.nonempty, fun sl hsl => (h.encoding sl hsl).2, fun sl hsl s hs => ?_⟩
    apply h.range sl hsl
    unfold Sublattice.tableSites at hs
    split at hs
    · exact h.active sl hsl s hs
    · exact hs
  refine ⟨_, rfl, rfl, ?_, ?_, ?_⟩
  · intro sl hsl c hc
    have := (le_foldl_max (sls.flatMap Sublattice.encoding) 0).2 c
      (List.mem_flatMap.2 ⟨sl, hsl, hc⟩)
    simp only; omega
  · intro s c d
    simp only [dimTableLoop_eq, hcd]
    constructor
    · intro hd
      by_cases hex : ∃ p ∈ dimList a sls, s ∈ p.1 ∧ c = p.2
      · obtain ⟨p, hp, hm⟩ := hex
        obtain ⟨d', hd', hpd⟩ := List.mem_iff_getElem.1 hp
        have hg : (dimList a sls)[d']? = some p := by rw [List.getElem?_eq_getElem hd', hpd]
        rw [foldl_dimWrite_at _ _ s c d' p hg hm hpw] at hd
        simp only [Nat.zero_add, Nat.cast_inj] at hd
        subst hd
        exact ⟨p.1, by rw [hg, hm.2], hm.1⟩
      · push Not at hex
        rw [foldl_dimWrite_none _ _ s c fun p hp hh => hex p hp hh.1 hh.2] at hd
        simp at hd
    · rintro ⟨sites, hd, hs⟩
      rw [foldl_dimWrite_at _ _ s c d _ hd ⟨hs, rfl⟩ hpw]
      simp
  · intro s c
    simp only [dimTableLoop_eq, hcd]
    by_cases hex : ∃ p ∈ dimList a sls, s ∈ p.1 ∧ c = p.2
    · right
      obtain ⟨p, hp, hm⟩ := hex
      obtain ⟨d', hd', hpd⟩ := List.mem_iff_getElem.1 hp
      have hg : (dimList a sls)[d']? = some p := by rw [List.getElem?_eq_getElem hd', hpd]
      exact ⟨d', hd', by rw [foldl_dimWrite_at _ _ s c d' p hg hm hpw]; simp⟩
    · left
      push Not at hex
      rw [foldl_dimWrite_none _ _ s c fun p hp hh => hex p hp hh.1 hh.2]

/-- C18. For every occupancy with codes of the sublattices, `occu_to_counts` returns for each
dimension the number of (active) sites holding its code, and `occu_to_species_list` the increasing
list of these sites. -/
theorem C18_counts_and_species_list (a : Bool) (sls : List Sublattice) (h : SublatticesOk sls)
    (occ : Occ) (n : ℕ) (hn : n = (sls.map fun sl => sl.sites.length).sum)
    (hcover : ∀ s < n, ∃ sl ∈ sls, s ∈ sl.sites ∧ occ s ∈ sl.encoding) :
    ∃ t, getDimIdsTable a sls = some t ∧
      occuToCounts t (countDimensions a sls).length n occ =
        some ((countDimensions a sls).map fun p => (p.1.filter fun s => occ s == p.2).length) ∧
      ∃ lists, occuToSpeciesList t (countDimensions a sls).length n occ = some lists ∧
        lists.length = (countDimensions a sls).length ∧
        ∀ (d : ℕ) (sites : List ℕ) (c : ℕ), (countDimensions a sls)[d]? = some (sites, c) →
          ∃ l : List ℕ, lists[d]? = some l ∧ l.Pairwise (· < ·) ∧ ∀ s, s ∈ l ↔ s ∈ sites ∧ occ s = c := by
  obtain ⟨t, ht, hrow, hcol, hent, hval⟩ := C18_table_correct a sls h
  refine ⟨t, ht, ?_⟩
  have hids := dimIdsOf_eq t n occ (by rw [hn, hrow]) (by
    intro s hs
    obtain ⟨sl, hsl, _, hc⟩ := hcover s hs
    exact hcol sl hsl _ hc)
  have hsites : ∀ sites c, (sites, c) ∈ countDimensions a sls →
      sites.Nodup ∧ ∀ s ∈ sites, s < n := by
    intro sites c hm
    simp only [countDimensions, List.mem_flatMap, List.mem_map, Prod.mk.injEq] at hm
    obtain ⟨sl, hsl, c', _, hs, _⟩ := hm
    subst hs
    split
    · exact ⟨(h.nodup sl hsl).2, fun s hs => hn ▸ h.range sl hsl s (h.active sl hsl s hs)⟩
    · exact ⟨(h.nodup sl hsl).1, fun s hs => hn ▸ h.range sl hsl s hs⟩
  constructor
  · rw [occuToCounts, hids, Option.bind_some, if_neg]
    swap
    · push Not
      intro i hi
      obtain ⟨s, _, rfl⟩ := List.mem_map.1 hi
      rcases hval s (occ s) with h1 | ⟨d, hd, h1⟩ <;> rw [h1]
      · omega
      · exact_mod_cast hd
    congr 1
    apply List.ext_getElem
    · simp
    · intro d h1 h2
      simp only [List.getElem_map, List.getElem_range]
      rw [count_map_range]
      have hd : d < (countDimensions a sls).length := by simpa using h1
      set p := (countDimensions a sls)[d] with hp
      have hg : (countDimensions a sls)[d]? = some p := List.getElem?_eq_getElem hd
      have hm : (p.1, p.2) ∈ countDimensions a sls := List.getElem_mem hd
      obtain ⟨hnd, hlt⟩ := hsites _ _ hm
      rw [(filter_sites_perm n p.1 hnd hlt _).length_eq]
      congr 1
      apply List.filter_congr
      intro s hs
      rw [Bool.eq_iff_iff]
      simp only [beq_iff_eq, Bool.and_eq_true, decide_eq_true_eq]
      rw [hent]
      constructor
      · rintro ⟨sites, hq, hs'⟩
        rw [hg] at hq
        simp only [Option.some.injEq] at hq
        rw [hq]; exact ⟨hs', rfl⟩
      · rintro ⟨h3, h4⟩
        exact ⟨p.1, by rw [hg, h4], h3⟩
  · refine ⟨_, by rw [occuToSpeciesList, hids, Option.map_some], by simp, ?_⟩
    intro d sites c hd
    have hdl : d < (countDimensions a sls).length := (List.getElem?_eq_some_iff.1 hd).1
    refine ⟨_, by rw [List.getElem?_map, List.getElem?_range hdl, Option.map_some], ?_, ?_⟩
    · exact (List.pairwise_lt_range).filter _
    · intro s
      have hm : (sites, c) ∈ countDimensions a sls := List.mem_of_getElem? hd
      obtain ⟨_, hlt⟩ := hsites _ _ hm
      simp only [List.mem_filter, List.mem_range, beq_iff_eq]
      constructor
      · rintro ⟨hs, he⟩
        rw [List.getD_eq_getElem?_getD, List.getElem?_map, List.getElem?_range hs, Option.map_some,
          Option.getD_some, hent] at he
        obtain ⟨sites', hq, hs'⟩ := he
        rw [hd] at hq
        simp only [Option.some.injEq, Prod.mk.injEq] at hq
        exact ⟨hq.1 ▸ hs', hq.2.symm⟩
      · rintro ⟨hs, rfl⟩
        have hsn := hlt s hs
        refine ⟨hsn, ?_⟩
        rw [List.getD_eq_getElem?_getD, List.getElem?_map, List.getElem?_range hsn, Option.map_some,
          Option.getD_some, hent]
        exact ⟨sites, hd, hs⟩

/-- C18. Counts after a step are counts before plus `delta_counts_from_step`, for any table and
any step, with repeated sites or not. -/
theorem C18_delta_counts (t : DimTable) (nDims n : ℕ) (occ occ' : Occ) (step : Step)
    (hr : Spec.ReachedBy occ step occ') (c : List ℕ) (δ : List ℤ)
    (hc : occuToCounts t nDims n occ = some c) (hδ : deltaCounts t nDims occ step = some δ) :
    ∃ c', occuToCounts t nDims n occ' = some c' ∧
      c'.map (fun x : ℕ => (x : ℤ)) = List.zipWith (fun (x : ℕ) (d : ℤ) => (x : ℤ) + d) c δ := by
  rw [(reachedBy_iff _ _ _).1 hr]
  unfold occuToCounts at hc
  cases hids : dimIdsOf t n occ with
  | none => rw [hids] at hc; cases hc
  | some ids =>
    obtain ⟨hn, hcol, rfl⟩ := dimIdsOf_some t n occ ids hids
    rw [hids, Option.bind_some] at hc
    split at hc
    · cases hc
    rename_i hle
    simp only [Option.some.injEq] at hc
    subst hc
    unfold deltaCounts at hδ
    cases hl : deltaLoop t nDims occ step fun _ => 0 with
    | none => rw [hl] at hδ; cases hδ
    | some δ' =>
      rw [hl, Option.map_some, Option.some.injEq] at hδ
      subst hδ
      have hleg := deltaLoop_legal t nDims occ step _ _ hl
      have hcol' : ∀ s < n, applyStep occ step s < t.nCol := by
        intro s hs
        rcases (reachedBy_iff occ step _).2 rfl s with ⟨_, h2⟩ | ⟨x, k, y, hxy, _, h2⟩
        · rw [h2]; exact hcol s hs
        · rw [h2]; exact (hleg (s, k) (by rw [hxy]; simp)).2
      have hbound : ∀ (step : Step) (occ : Occ) (δ0 δ1 : ℕ → ℤ),
          deltaLoop t nDims occ step δ0 = some δ1 →
          (∀ s < n, t.entry s (occ s) < nDims) →
          ∀ s < n, t.entry s (applyStep occ step s) < nDims := by
        intro step
        induction step with
        | nil => intro occ _ _ _ h; exact h
        | cons f fs ih =>
          intro occ δ0 δ1 h hb
          unfold deltaLoop at h
          split at h
          · rename_i o x ho hx
            unfold DimTable.get? at hx
            split at hx
            swap; · cases hx
            simp only [Option.some.injEq] at hx
            split at h
            · cases h
            rename_i hneg
            push Not at hneg
            refine ih _ _ _ h ?_
            intro s hs
            by_cases hsf : s = f.1
            · subst hsf; rw [Function.update_self, hx]; exact hneg.2.2.2
            · rw [Function.update_of_ne hsf]; exact hb s hs
          · cases h
      push Not at hle
      have hb0 : ∀ s < n, t.entry s (occ s) < nDims := fun s hs =>
        hle _ (List.mem_map.2 ⟨s, List.mem_range.2 hs, rfl⟩)
      have hb := hbound step occ _ _ hl hb0
      refine ⟨(List.range nDims).map fun d : ℕ =>
        ((List.range n).map fun s => t.entry s (applyStep occ step s)).count (d : ℤ), ?_, ?_⟩
      · rw [occuToCounts, dimIdsOf_eq t n _ hn hcol', Option.bind_some, if_neg]
        push Not
        intro i hi
        obtain ⟨s, hs, rfl⟩ := List.mem_map.1 hi
        exact hb s (List.mem_range.1 hs)
      · rw [List.map_map, List.zipWith_map, List.zipWith_self]
        apply List.map_congr_left
        intro d _
        have := deltaLoop_counts t nDims n occ step _ _ hn hl d
        simpa using this

/-- C18. A step is refused exactly when one of its flips names, at the moment it is carried out,
a site or code outside the table or without a dimension. -/
theorem C18_delta_error_iff (t : DimTable) (nDims : ℕ) (occ : Occ) (step : Step) :
    deltaCounts t nDims occ step = none ↔
      ∃ pre f post, step = pre ++ f :: post ∧
        ¬ (∃ o x : ℕ, o < nDims ∧ x < nDims ∧
          t.get? f.1 (applyStep occ pre f.1) = some (o : ℤ) ∧ t.get? f.1 f.2 = some (x : ℤ)) := by
  have key : ∀ (step : Step) (occ : Occ) (δ : ℕ → ℤ), deltaLoop t nDims occ step δ = none ↔
      ∃ pre f post, step = pre ++ f :: post ∧
        ¬ (∃ o x : ℕ, o < nDims ∧ x < nDims ∧
          t.get? f.1 (applyStep occ pre f.1) = some (o : ℤ) ∧ t.get? f.1 f.2 = some (x : ℤ)) := by
    intro step
    induction step with
    | nil =>
      intro occ δ
      simp [deltaLoop]
    | cons f fs ih =>
      intro occ δ
      by_cases hg : ∃ o x : ℕ, o < nDims ∧ x < nDims ∧
          t.get? f.1 (occ f.1) = some (o : ℤ) ∧ t.get? f.1 f.2 = some (x : ℤ)
      · obtain ⟨o, x, ho, hx, h1, h2⟩ := hg
        rw [deltaLoop]
        simp only [h1, h2]
        rw [if_neg (by omega), ih]
        constructor
        · rintro ⟨pre, g, post, rfl, hg⟩
          exact ⟨f :: pre, g, post, rfl, by simpa [applyStep] using hg⟩
        · rintro ⟨pre, g, post, heq, hg⟩
          cases pre with
          | nil =>
            simp only [List.nil_append, List.cons.injEq] at heq
            obtain ⟨rfl, rfl⟩ := heq
            exact absurd ⟨o, x, ho, hx, h1, h2⟩ hg
          | cons f' pre =>
            simp only [List.cons_append, List.cons.injEq] at heq
            obtain ⟨rfl, rfl⟩ := heq
            exact ⟨pre, g, post, rfl, by simpa [applyStep] using hg⟩
      · constructor
        · intro _; exact ⟨[], f, fs, rfl, hg⟩
        · intro _
          rw [deltaLoop]
          split
          · rename_i o x ho hx
            rw [if_pos]
            by_contra hc
            push Not at hc
            apply hg
            refine ⟨o.toNat, x.toNat, by omega, by omega, ?_, ?_⟩
            · rw [ho, Int.toNat_of_nonneg hc.1]
            · rw [hx, Int.toNat_of_nonneg hc.2.1]
          · rfl
  unfold deltaCounts
  rw [Option.map_eq_none_iff]
  exact key step occ _

/-- two sublattices, five sites, one of them restricted -/
def exampleSublattices : List Sublattice :=
  [⟨[7, 8, 9], [0, 2, 4], [0, 4], false, [0, 1, 2]⟩, ⟨[5, 6], [1, 3], [1, 3], false, [0, 2]⟩]

example : SublatticesOk exampleSublattices where
  nonempty := by decide
  range := by decide
  disjoint := by decide
  nodup := by decide
  active := by decide
  encoding := by decide

example : (getDimIdsTable true exampleSublattices).bind (fun t =>
    occuToCounts t 5 5 fun s => if s = 0 then 1 else if s = 1 then 2 else 0) =
      some [1, 1, 0, 1, 1] := by decide +kernel

/-- a step naming site 0 twice -/
example : (getDimIdsTable true exampleSublattices).bind (fun t =>
    deltaCounts t 5 (fun s => if s = 0 then 1 else if s = 1 then 2 else 0) [(0, 2), (1, 0), (0, 0)])
      = some [1, -1, 0, 1, -1] := by decide +kernel

end Smol
