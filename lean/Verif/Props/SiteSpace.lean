import Verif.Lemmas.SiteSpace

/-!
# C41 Occupancy encoding and the sublattices of a processor
# C61 Structures and occupancies correspond
-/

namespace Smol
open Spec

/-- C41. `encode_occupancy` of allowed species succeeds, gives legal codes standing for these
species, and `decode_occupancy` returns the species. -/
theorem C41_decode_encode (allowed : List (List ℕ)) (occ : List ℕ)
    (h : LegalSpecies allowed occ) :
    ∃ codes, encodeOccupancy allowed occ = some codes ∧ LegalCodes allowed codes ∧
      (∀ i (hi : i < codes.length) a, allowed[i]? = some a → StandsFor a codes[i] (occ.getD i 0)) ∧
      decodeOccupancy allowed codes = some occ := by
  obtain ⟨hl, hm⟩ := h
  have hm' : ∀ i (h : i < occ.length), occ[i] ∈ allowed[i]'(by omega) := by
    intro i hi
    obtain ⟨a, h1, h2⟩ := hm i hi
    obtain ⟨h3, rfl⟩ := List.getElem?_eq_some_iff.1 h1
    exact h2
  have henc : encodeOccupancy allowed occ =
      some (List.zipWith (fun a x => a.idxOf x) allowed occ) := by
    unfold encodeOccupancy
    rw [mapM_eq_some_get]
    refine ⟨by simp, ?_⟩
    intro i h1 h2
    simp only [List.length_zip] at h1
    rw [indexOf?_eq_some]
    simp only [List.getElem_zip, List.getElem_zipWith, and_true]
    exact hm' i (by omega)
  refine ⟨_, henc, ⟨by simp [hl], ?_⟩, ?_, ?_⟩
  · intro i hi
    simp only [List.length_zipWith] at hi
    refine ⟨_, List.getElem?_eq_getElem (by omega), ?_⟩
    simp only [List.getElem_zipWith]
    exact List.idxOf_lt_length_of_mem (hm' i (by omega))
  · intro i hi a ha
    simp only [List.length_zipWith] at hi
    obtain ⟨h3, rfl⟩ := List.getElem?_eq_some_iff.1 ha
    rw [List.getD_eq_getElem?_getD, List.getElem?_eq_getElem (by omega), Option.getD_some]
    unfold StandsFor
    simp only [List.getElem_zipWith]
    exact getElem?_idxOf (hm' i (by omega))
  · unfold decodeOccupancy
    rw [mapM_eq_some_get]
    refine ⟨by simp [hl], ?_⟩
    intro i h1 h2
    simp only [List.getElem_zip, List.getElem_zipWith]
    exact getElem?_idxOf (hm' i h2)

/-- C41. `decode_occupancy` of legal codes succeeds, gives allowed species, and
`encode_occupancy` returns the codes. -/
theorem C41_encode_decode (allowed : List (List ℕ)) (hn : ∀ a ∈ allowed, a.Nodup)
    (codes : List ℕ) (h : LegalCodes allowed codes) :
    ∃ occ, decodeOccupancy allowed codes = some occ ∧ LegalSpecies allowed occ ∧
      encodeOccupancy allowed occ = some codes := by
  obtain ⟨hl, hm⟩ := h
  have hm' : ∀ i (h : i < codes.length), codes[i] < (allowed[i]'(by omega)).length := by
    intro i hi
    obtain ⟨a, h1, h2⟩ := hm i hi
    obtain ⟨h3, rfl⟩ := List.getElem?_eq_some_iff.1 h1
    exact h2
  have hd : decodeOccupancy allowed codes =
      some (List.zipWith (fun c a => a.getD c 0) codes allowed) := by
    unfold decodeOccupancy
    rw [mapM_eq_some_get]
    refine ⟨by simp, ?_⟩
    intro i h1 h2
    simp only [List.length_zip] at h1
    simp only [List.getElem_zip, List.getElem_zipWith]
    have := hm' i (by omega)
    rw [List.getD_eq_getElem?_getD, List.getElem?_eq_getElem this, Option.getD_some]
  refine ⟨_, hd, ⟨by simp [hl], ?_⟩, ?_⟩
  · intro i hi
    simp only [List.length_zipWith] at hi
    refine ⟨_, List.getElem?_eq_getElem (by omega), ?_⟩
    simp only [List.getElem_zipWith]
    have := hm' i (by omega)
    rw [List.getD_eq_getElem?_getD, List.getElem?_eq_getElem this, Option.getD_some]
    exact List.getElem_mem _
  · unfold encodeOccupancy
    rw [mapM_eq_some_get]
    refine ⟨by simp [hl], ?_⟩
    intro i h1 h2
    simp only [List.getElem_zip, List.getElem_zipWith]
    rw [indexOf?_eq_some]
    apply idxOf_of_getElem? (hn _ (List.getElem_mem _))
    have := hm' i h2
    rw [List.getD_eq_getElem?_getD, List.getElem?_eq_getElem this, Option.getD_some]

/-- C41. `encode_occupancy` raises exactly when one of the species is not allowed on its site. -/
theorem C41_encode_rejects (allowed : List (List ℕ)) (occ : List ℕ)
    (hl : occ.length = allowed.length) :
    encodeOccupancy allowed occ = none ↔ ¬ LegalSpecies allowed occ := by
  constructor
  · intro h hl
    obtain ⟨c, hc, -⟩ := C41_decode_encode allowed occ hl
    rw [h] at hc; cases hc
  · intro h
    unfold encodeOccupancy
    rw [mapM_eq_none_iff]
    by_contra hc
    push Not at hc
    apply h
    refine ⟨hl, ?_⟩
    intro i hi
    refine ⟨_, List.getElem?_eq_getElem (by omega), ?_⟩
    have hz : (allowed[i]'(by omega), occ[i]) ∈ allowed.zip occ := by
      have : (allowed.zip occ)[i]'(by simp; omega) = (allowed[i]'(by omega), occ[i]) := by simp
      rw [← this]; exact List.getElem_mem _
    have := hc _ hz
    by_contra hn
    exact this (by unfold indexOf?; rw [if_neg hn])

/-- C41. `decode_occupancy` raises exactly when a code is not the code of an allowed species. -/
theorem C41_decode_rejects (allowed : List (List ℕ)) (codes : List ℕ)
    (hl : codes.length = allowed.length) :
    decodeOccupancy allowed codes = none ↔ ¬ LegalCodes allowed codes := by
  unfold decodeOccupancy
  rw [mapM_eq_none_iff]
  constructor
  · rintro ⟨p, hp, hn⟩ ⟨-, hm⟩
    obtain ⟨i, hi, rfl⟩ := List.getElem_of_mem hp
    simp only [List.length_zip] at hi
    obtain ⟨a, h1, h2⟩ := hm i (by omega)
    obtain ⟨h3, rfl⟩ := List.getElem?_eq_some_iff.1 h1
    simp only [List.getElem_zip, List.getElem?_eq_none_iff] at hn
    omega
  · intro h
    by_contra hc
    push Not at hc
    apply h
    refine ⟨hl, ?_⟩
    intro i hi
    refine ⟨_, List.getElem?_eq_getElem (by omega), ?_⟩
    have hz : (codes[i], allowed[i]'(by omega)) ∈ codes.zip allowed := by
      have : (codes.zip allowed)[i]'(by simp; omega) = (codes[i], allowed[i]'(by omega)) := by simp
      rw [← this]; exact List.getElem_mem _
    have := hc _ hz
    rw [ne_eq, List.getElem?_eq_none_iff] at this
    simpa using this

/-- C41, negative. Too short an occupancy is not noticed: only the sites it names are encoded. -/
theorem C41_short_occupancy_accepted (allowed : List (List ℕ)) (occ : List ℕ)
    (h : LegalSpecies allowed occ) (n : ℕ) :
    ∃ codes, encodeOccupancy allowed (occ.take n) = some codes ∧
      codes.length = min n allowed.length := by
  obtain ⟨hl, hm⟩ := h
  have h' : LegalSpecies (allowed.take n) (occ.take n) := by
    refine ⟨by simp [hl], ?_⟩
    intro i hi
    simp only [List.length_take] at hi
    obtain ⟨a, h1, h2⟩ := hm i (by omega)
    refine ⟨a, ?_, ?_⟩
    · rw [List.getElem?_take, if_pos (by omega)]; exact h1
    · simpa using h2
  obtain ⟨codes, hc, ⟨hlen, -⟩, -⟩ := C41_decode_encode _ _ h'
  refine ⟨codes, ?_, by rw [hlen]; simp⟩
  unfold encodeOccupancy at hc ⊢
  rw [← hc]
  congr 1
  apply List.ext_getElem
  · simp [hl]
  · intro i h1 h2; simp

example : LegalSpecies [[3, 5], [3, 5, 9], [7]] [5, 9, 7] ∧
    encodeOccupancy [[3, 5], [3, 5, 9], [7]] [5, 9, 7] = some [1, 2, 0] := by
  refine ⟨⟨rfl, ?_⟩, by decide⟩
  intro i hi
  match i, hi with
  | 0, _ => exact ⟨[3, 5], rfl, by simp⟩
  | 1, _ => exact ⟨[3, 5, 9], rfl, by simp⟩
  | 2, _ => exact ⟨[7], rfl, by simp⟩

/-- C41. A site space is refused exactly when the composition has a negative or more than unit
total, or names a vacancy without being full or names several.  Otherwise its species are the
species of the composition in increasing order, followed by a vacancy iff less than 0.99 of the
site is filled; they are pairwise different, and the amounts add up to one unless the site is
between 0.99 and fully filled. -/
theorem C41_site_space (k : VacKind) (c : SiteComp) (hc : CompOk c) :
    (SiteSpace.make k c = none ↔ 1 < c.numAtoms ∨
      ((∃ p ∈ c, k.isVac p.1 = true) ∧
        (c.numAtoms ≠ 1 ∨ 2 ≤ (c.filter fun p => k.isVac p.1).length))) ∧
    ∀ s, SiteSpace.make k c = some s →
      s.keys.Nodup ∧ (∀ x, x ∈ s.keys ↔
        x ∈ c.map Prod.fst ∨ (x = k.vac ∧ c.numAtoms < 99 / 100)) ∧
      (∃ l, s.keys = l ++ (if c.numAtoms < 99 / 100 then [k.vac] else []) ∧
        l.Pairwise (· < ·)) ∧
      (s.data.map Prod.snd).sum = (if c.numAtoms < 99 / 100 then 1 else c.numAtoms) := by
  constructor
  · rw [← List.countP_eq_length_filter]
    constructor
    · intro h
      by_contra hn
      push Not at hn
      rw [make_of (numAtoms_nonneg hc) hn.1 (fun hv => by
        have := hn.2 hv; exact ⟨this.1, by omega⟩)] at h
      cases h
    · intro h
      cases hm : SiteSpace.make k c with
      | none => rfl
      | some s =>
        exfalso
        obtain ⟨h0, h1, h2, -, -⟩ := make_some hm
        rcases h with h | ⟨hv, h⟩
        · linarith
        · obtain ⟨h3, h4⟩ := h2 hv
          rcases h with h | h
          · exact h h3
          · omega
  · intro s hs
    have hk := make_keys hs
    refine ⟨make_keys_nodup hc hs, ?_, ⟨_, hk, ?_⟩, ?_⟩
    · intro x
      rw [hk, List.mem_append, (List.perm_insertionSort _ _).mem_iff]
      split <;> simp_all
    · have h1 : ((c.map Prod.fst).insertionSort (· ≤ ·)).Pairwise (· ≤ ·) :=
        List.pairwise_insertionSort _ _
      have h2 : ((c.map Prod.fst).insertionSort (· ≤ ·)).Nodup :=
        (List.perm_insertionSort _ _).nodup_iff.2 hc.1
      exact h1.imp₂ (fun a b h1 h2 => Nat.lt_of_le_of_ne h1 h2) h2
    · obtain ⟨-, -, -, -, hd⟩ := make_some hs
      have hsum : ((c.insertionSort itemLe).map Prod.snd).sum = c.numAtoms :=
        ((List.perm_insertionSort itemLe c).map Prod.snd).sum_eq
      rw [hd]
      split
      · rw [List.map_append, List.sum_append, hsum]; simp
      · exact hsum

/-- C41. The allowed species of a site, obtained with equal amounts, are those of its site space
with the amounts of the structure. -/
theorem C41_allowed_species (k : VacKind) (sites : List SiteComp)
    (hok : ∀ c ∈ sites, CompOk c ∧ c.length < 99) :
    ((∀ c ∈ sites, (SiteSpace.make k c).isSome) ↔ (Coding.make k sites).isSome) ∧
    ∀ cd, Coding.make k sites = some cd → cd.allowed.length = sites.length ∧
      ∀ (i : ℕ) (c : SiteComp), sites[i]? = some c →
        ∃ s, SiteSpace.make k c = some s ∧ cd.allowed[i]? = some s.keys := by
  constructor
  · constructor
    · intro h
      unfold Coding.make
      cases hm : sites.mapM (SiteSpace.make k) with
      | none =>
        obtain ⟨c, hc, hn⟩ := (mapM_eq_none_iff _ _).1 hm
        have := h c hc; rw [hn] at this; cases this
      | some measured =>
        cases hu : sites.mapM fun c => SiteSpace.make k (uniformComp c) with
        | none =>
          obtain ⟨c, hc, hn⟩ := (mapM_eq_none_iff _ _).1 hu
          obtain ⟨s, hs⟩ := Option.isSome_iff_exists.1 (h c hc)
          obtain ⟨u, hu, -⟩ := uniform_make (hok c hc).2 hs
          rw [hn] at hu; cases hu
        | some uniform => simp
    · intro h c hc
      obtain ⟨cd, hcd⟩ := Option.isSome_iff_exists.1 h
      obtain ⟨i, hi, rfl⟩ := List.getElem_of_mem hc
      obtain ⟨s, hs, -⟩ := (codingOf hok hcd).allowed i _ (List.getElem?_eq_getElem hi)
      simp [hs]
  · intro cd hcd
    exact ⟨(codingOf hok hcd).len, (codingOf hok hcd).allowed⟩

/-- C41. The sublattices of a processor: every site belongs to at least one, a sublattice holds
sites whose allowed species are its species in the same order (so that codes mean the same in
both), and every site belongs to *exactly* one iff sites with the same species always have the
same composition. -/
theorem C41_sublattices (k : VacKind) (sites : List SiteComp)
    (hok : ∀ c ∈ sites, CompOk c ∧ c.length < 99) (cd : Coding)
    (h : Coding.make k sites = some cd) :
    (∀ i < sites.length, ∃ sl ∈ cd.sublattices, i ∈ sl.sites) ∧
    (∀ sl ∈ cd.sublattices, sl.encoding = List.range sl.species.length ∧
      ∀ i ∈ sl.sites, cd.allowed[i]? = some sl.species) ∧
    (Partitions sites.length (cd.sublattices.map Sublattice.sites) ↔
      ∀ (i j : ℕ) (c d : SiteComp) (a : List ℕ), sites[i]? = some c → sites[j]? = some d → cd.allowed[i]? = some a →
        cd.allowed[j]? = some a → c.Perm d) := by
  have hcd := codingOf hok h
  have group : ∀ (p i : ℕ), (∃ g, (cd.sublattices.map Sublattice.sites)[p]? = some g ∧ i ∈ g) ↔
      ∃ s, cd.spaces[p]? = some s ∧ cd.allowed[i]? = some s.keys := by
    intro p i
    unfold Coding.sublattices
    rw [List.map_map, List.getElem?_map]
    cases hp : cd.spaces[p]? with
    | none => simp
    | some s =>
      simp only [Option.map_some, Option.some.injEq, Function.comp_apply, exists_eq_left',
        mem_sublattice_sites]
  have rep : ∀ (i : ℕ) (c : SiteComp), sites[i]? = some c →
      ∃ (p : ℕ) (s : SiteSpace) (d : SiteComp), cd.spaces[p]? = some s ∧
      cd.allowed[i]? = some s.keys ∧ d ∈ sites ∧ SiteSpace.make k d = some s ∧ c.Perm d := by
    intro i c hc
    have hmem := List.mem_of_getElem? hc
    obtain ⟨s, hs, d, hd, hds, hperm⟩ := hcd.rep c hmem
    obtain ⟨p, hp, hps⟩ := List.getElem_of_mem hs
    obtain ⟨t, ht, hal⟩ := hcd.allowed i c hc
    refine ⟨p, s, d, by rw [List.getElem?_eq_getElem hp, hps], ?_, hd, hds, hperm⟩
    rw [hal]
    have : t.keys = s.keys := by
      rw [make_keys ht, make_keys hds]
      have e1 : c.numAtoms = d.numAtoms := (hperm.map Prod.snd).sum_eq
      have e2 : (c.map Prod.fst).insertionSort (· ≤ ·) = (d.map Prod.fst).insertionSort (· ≤ ·) :=
        List.Perm.eq_of_pairwise' (r := (· ≤ ·)) (List.pairwise_insertionSort _ _)
          (List.pairwise_insertionSort _ _) ((List.perm_insertionSort _ _).trans
            ((hperm.map _).trans (List.perm_insertionSort _ _).symm))
      rw [e1, e2]
    rw [this]
  refine ⟨?_, ?_, ?_, ?_⟩
  · intro i hi
    obtain ⟨p, s, d, hp, hal, -⟩ := rep i _ (List.getElem?_eq_getElem hi)
    refine ⟨_, List.mem_map_of_mem (List.mem_of_getElem? hp), (mem_sublattice_sites _ _ _).2 hal⟩
  · intro sl hsl
    obtain ⟨s, hs, rfl⟩ := List.mem_map.1 hsl
    constructor
    · rw [new_species]; unfold Sublattice.new; simp only; split <;> rfl
    · intro i hi
      rw [new_species]
      exact (mem_sublattice_sites _ _ _).1 hi
  · intro hpart i j c d a hi hj hai haj
    have hlt : i < sites.length := (List.getElem?_eq_some_iff.1 hi).1
    obtain ⟨p, s, c', hp, hpa, hc', hcs, hcp⟩ := rep i c hi
    obtain ⟨q, t, d', hq, hqa, hd', hdt, hdp⟩ := rep j d hj
    have h1 := (group p i).2 ⟨s, hp, hpa⟩
    have h2 := (group q i).2 ⟨t, hq, by rw [hai, ← haj]; exact hqa⟩
    have := (hpart i hlt).unique h1 h2
    subst this
    rw [hp, Option.some.injEq] at hq
    subst hq
    have : c' = d' := by
      rw [← (make_some hcs).2.2.2.1, (make_some hdt).2.2.2.1]
    subst this
    exact hcp.trans hdp.symm
  · intro hdet i hi
    obtain ⟨p, s, c', hp, hpa, hc', hcs, hcp⟩ := rep i _ (List.getElem?_eq_getElem hi)
    refine ⟨p, (group p i).2 ⟨s, hp, hpa⟩, ?_⟩
    intro q hq
    obtain ⟨t, hq, hqa⟩ := (group q i).1 hq
    obtain ⟨d, hd, hdt⟩ := hcd.from_site t (List.mem_of_getElem? hq)
    obtain ⟨j, hj, rfl⟩ := List.getElem_of_mem hd
    obtain ⟨t', ht', hja⟩ := hcd.allowed j _ (List.getElem?_eq_getElem hj)
    rw [hdt, Option.some.injEq] at ht'
    subst ht'
    have := hdet i j _ _ _ (List.getElem?_eq_getElem hi) (List.getElem?_eq_getElem hj) hqa hja
    exact hcd.distinct q p t s _ _ hq hp hd hc' hdt hcs (this.symm.trans hcp)

/-- vacancies are the species numbered from 100 -/
def sampleVac : VacKind := ⟨fun x => decide (100 ≤ x), 100, rfl⟩

/-- C41, negative. Two sites with the same species in different amounts: both are claimed by both
sublattices. -/
theorem C41_double_claim :
    ∃ cd, Coding.make sampleVac [[(1, 1/2), (2, 1/2)], [(1, 1/4), (2, 3/4)]] = some cd ∧
      cd.sublattices.map Sublattice.sites = [[0, 1], [0, 1]] := by
  refine ⟨⟨[⟨[(1, 1/2), (2, 1/2)], [(1, 1/2), (2, 1/2)]⟩, ⟨[(1, 1/4), (2, 3/4)], [(1, 1/4), (2, 3/4)]⟩],
    [[1, 2], [1, 2]]⟩, ?_, ?_⟩ <;> decide +kernel

/-- C41, negative. A vacancy named in one site and implied in another makes two sublattices with
identical species and amounts that both claim both sites. -/
theorem C41_double_claim_vacancy :
    ∃ cd, Coding.make sampleVac [[(1, 1/2)], [(1, 1/2), (100, 1/2)]] = some cd ∧
      cd.sublattices.map Sublattice.sites = [[0, 1], [0, 1]] ∧
      (cd.spaces.map SiteSpace.data).dedup.length = 1 := by
  refine ⟨⟨[⟨[(1, 1/2)], [(1, 1/2), (100, 1/2)]⟩,
    ⟨[(1, 1/2), (100, 1/2)], [(1, 1/2), (100, 1/2)]⟩], [[1, 100], [1, 100]]⟩, ?_, ?_, ?_⟩ <;>
    decide +kernel

/-- The hypotheses of `C41_sublattices` hold for a rock salt with a vacancy: the sublattices are
the two cation sites and the anion. -/
example : ∃ cd, Coding.make sampleVac [[(2, 1/2), (1, 1/4)], [(9, 1)], [(1, 1/4), (2, 1/2)]] =
      some cd ∧ cd.allowed = [[1, 2, 100], [9], [1, 2, 100]] ∧
      cd.sublattices.map Sublattice.sites = [[0, 2], [1]] ∧
      ∀ c ∈ [[((2 : ℕ), (1/2 : ℚ)), (1, 1/4)], [(9, 1)], [(1, 1/4), (2, 1/2)]],
        (c.map Prod.fst).Nodup ∧ (∀ p ∈ c, 0 < p.2) ∧ c.length < 99 := by
  refine ⟨⟨[⟨[(1, 1/4), (2, 1/2)], [(1, 1/4), (2, 1/2), (100, 1/4)]⟩, ⟨[(9, 1)], [(9, 1)]⟩],
    [[1, 2, 100], [9], [1, 2, 100]]⟩, ?_, rfl, ?_, ?_⟩ <;> decide +kernel

/-- C61. `occupancy_from_structure` returns the occupancy whose species at every supercell site is
the species of the structure's site there, or the vacancy where the structure has no site; it
raises exactly when one of these species is not allowed on its site. -/
theorem C61_occupancy_from_structure (k : VacKind) (allowed : List (List ℕ)) (st : Struc)
    (hst : (st.map Prod.snd).Nodup) (occ : List ℕ) :
    occupancyFromStructure k allowed st = some occ ↔
      LegalSpecies allowed occ ∧ ∀ i x, occ[i]? = some x → Holds k.vac st i x := by
  have hspec : ∀ i : ℕ, Holds k.vac st i (specAt k st i) := by
    intro i
    unfold specAt
    simp only
    split <;> rename_i hi
    · left
      have h1 := List.idxOf_lt_length_of_mem hi
      have h2 : (st.map Prod.snd)[(st.map Prod.snd).idxOf i] = i := List.getElem_idxOf _
      rw [List.length_map] at h1
      rw [List.getElem_map] at h2
      rw [List.getD_eq_getElem?_getD, List.getElem?_eq_getElem h1, Option.getD_some]
      have := List.getElem_mem h1
      generalize st[(st.map Prod.snd).idxOf i] = p at *
      obtain ⟨x, y⟩ := p
      simp only at h2 ⊢
      subst h2; exact this
    · right
      refine ⟨?_, rfl⟩
      intro y hy
      exact hi (List.mem_map.2 ⟨_, hy, rfl⟩)
  have huniq : ∀ i x y, Holds k.vac st i x → Holds k.vac st i y → x = y := by
    rintro i x y (hx | ⟨hx, rfl⟩) (hy | ⟨hy, rfl⟩)
    · have := List.inj_on_of_nodup_map hst hx hy rfl
      exact (Prod.mk.inj this).1
    · exact absurd hx (hy x)
    · exact absurd hy (hx y)
    · rfl
  unfold occupancyFromStructure
  rw [mapM_eq_some_get]
  constructor
  · rintro ⟨hl, h⟩
    rw [List.length_zipIdx] at hl
    refine ⟨⟨hl.symm, ?_⟩, ?_⟩
    · intro i hi
      have := h i (by simp; omega) hi
      simp only [List.getElem_zipIdx, zero_add] at this
      refine ⟨_, List.getElem?_eq_getElem (by omega), ?_⟩
      split at this
      · rename_i hm
        rw [Option.some.injEq] at this
        rw [← this]; exact hm
      · cases this
    · intro i x hx
      obtain ⟨hi, rfl⟩ := List.getElem?_eq_some_iff.1 hx
      have := h i (by simp; omega) hi
      simp only [List.getElem_zipIdx, zero_add] at this
      split at this
      · rw [Option.some.injEq] at this
        rw [← this]; exact hspec i
      · cases this
  · rintro ⟨⟨hl, hm⟩, hh⟩
    refine ⟨by rw [List.length_zipIdx, hl], ?_⟩
    intro i h1 h2
    simp only [List.getElem_zipIdx, zero_add]
    have e := huniq i _ _ (hspec i) (hh i _ (List.getElem?_eq_getElem h2))
    rw [e]
    obtain ⟨a, ha, hx⟩ := hm i h2
    obtain ⟨h3, rfl⟩ := List.getElem?_eq_some_iff.1 ha
    rw [if_pos hx]

/-- C61. A legal occupancy turned into a structure and back is unchanged, in whatever order the
structure lists its sites. -/
theorem C61_round_trip (k : VacKind) (allowed : List (List ℕ)) (hn : ∀ a ∈ allowed, a.Nodup)
    (codes : List ℕ) (h : LegalCodes allowed codes) :
    ∃ st, structureFromOccupancy k allowed codes = some st ∧
      (∀ p ∈ st, p.1 ≠ k.vac) ∧
      ∀ st', st'.Perm st → processorOccupancy k allowed st' = some codes := by
  obtain ⟨occ, hd, hl, he⟩ := C41_encode_decode allowed hn codes h
  refine ⟨_, by unfold structureFromOccupancy; rw [hd]; rfl, ?_, ?_⟩
  · intro p hp
    simpa using (List.mem_filter.1 hp).2
  · intro st' hp
    unfold processorOccupancy
    have : occupancyFromStructure k allowed st' = some occ := by
      rw [C61_occupancy_from_structure k allowed st' (nodup_sites_filter _ _ hp)]
      refine ⟨hl, ?_⟩
      intro i x hx
      rw [holds_drop_iff hp hx]
      by_cases hv : x = k.vac
      · exact Or.inr hv
      · left; simpa using hv
    rw [this]
    exact he

/-- C61. The structure made by `refine_structure` reads back as the same occupancy iff every
vacancy in it is the default `Vacancy()`: other vacancies are left out of the structure but read
back as the default one. -/
theorem C61_refine_round_trip (k : VacKind) (allowed : List (List ℕ)) (occ : List ℕ)
    (h : LegalSpecies allowed occ) :
    occupancyFromStructure k allowed (subspaceStructure k occ) = some occ ↔
      ∀ x ∈ occ, k.isVac x = true → x = k.vac := by
  have hp : (subspaceStructure k occ).Perm (occ.zipIdx.filter fun p => !k.isVac p.1) :=
    List.Perm.refl _
  rw [C61_occupancy_from_structure k allowed _ (nodup_sites_filter _ _ hp)]
  constructor
  · rintro ⟨-, hh⟩ x hx hv
    obtain ⟨i, hi, rfl⟩ := List.getElem_of_mem hx
    have := (holds_drop_iff hp (List.getElem?_eq_getElem hi)).1
      (hh i _ (List.getElem?_eq_getElem hi))
    rcases this with h1 | h1
    · rw [hv] at h1; cases h1
    · exact h1
  · intro hv
    refine ⟨h, ?_⟩
    intro i x hx
    rw [holds_drop_iff hp hx]
    by_cases hb : k.isVac x = true
    · exact Or.inr (hv x (List.mem_of_getElem? hx) hb)
    · left; simpa using hb

/-- C61, negative. A structure with another kind of vacancy cannot be read back after
`refine_structure`. -/
theorem C61_other_vacancy :
    LegalSpecies [[1, 101], [1, 101]] [1, 101] ∧
      occupancyFromStructure sampleVac [[1, 101], [1, 101]]
        (subspaceStructure sampleVac [1, 101]) = none := by
  refine ⟨⟨rfl, ?_⟩, by decide⟩
  intro i hi
  match i, hi with
  | 0, _ => exact ⟨_, rfl, by simp⟩
  | 1, _ => exact ⟨_, rfl, by simp⟩

example : structureFromOccupancy sampleVac [[1, 2, 100], [9], [1, 2, 100]] [2, 0, 1] =
      some [(9, 1), (2, 2)] ∧
    processorOccupancy sampleVac [[1, 2, 100], [9], [1, 2, 100]] [(2, 2), (9, 1)] =
      some [2, 0, 1] ∧
    occupancyFromStructure sampleVac [[1, 2, 100], [9], [1, 2, 100]] [(2, 2)] = none := by
  decide

end Smol
