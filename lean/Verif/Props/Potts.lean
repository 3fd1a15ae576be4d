import Verif.Lemmas.Potts
import Verif.Props.Orbit

/-!
# C75 Potts subspaces: functions are concentrations of decorations
-/

namespace Smol
open Spec

variable {σ : Type*}

/-- The sites of an orbit given by their species and the permutations of the cluster: species of a
site are distinct, the permutations form a group and exchange only sites with equal species. -/
def SoundCluster (q : List (List σ) × List (List ℕ)) : Prop :=
  (∀ s ∈ q.1, s.Nodup) ∧ PermGroup q.1.length q.2 ∧ Respects q.2 q.1

/-- the orbits of the given clusters -/
def pottsNew (qs : List (List (List σ) × List (List ℕ))) : List (PottsOrbit σ) :=
  qs.map fun q => PottsOrbit.new q.1 q.2

/-- the orbits of a new subspace -/
theorem potts_orbit_of {pts : List (List (List σ) × List (List ℕ))}
    {multi : Option (List (List (List σ) × List (List ℕ)))} {rm : Bool}
    {S : List (PottsOrbit σ)}
    (hS : pottsFromCutoffs (pottsNew pts) (multi.map pottsNew) rm = some S) :
    S = assignPotts ((pts ++ multi.getD []).map fun q =>
      { PottsOrbit.new q.1 q.2 with classes :=
          if rm = true ∧ multi ≠ none then (PottsOrbit.new q.1 q.2).classes.dropLast
          else (PottsOrbit.new q.1 q.2).classes }) 1 1 := by
  unfold pottsFromCutoffs pottsOrbits at hS
  cases multi with
  | none =>
    simp only [Option.map_none, Option.map_some, Option.some.injEq] at hS
    rw [← hS]
    simp [pottsNew]
  | some m =>
    cases rm with
    | false =>
      simp only [Option.map_some, Bool.false_eq_true, if_false, Option.some.injEq] at hS
      rw [← hS]
      simp [pottsNew]
    | true =>
      simp only [Option.map_some, if_true, removeLastAll_eq] at hS
      split at hS
      · simp at hS
      · simp only [Option.map_some, Option.some.injEq] at hS
        rw [← hS]
        simp [pottsNew, Function.comp_def]

/-- C75. `get_orbit_decorations` and `get_function_decoration`: for every orbit of a Potts subspace
made from cutoffs the lists of decorations returned are the classes of all decorations of its
cluster up to symmetry, every decoration listed once; without the last class if this was asked for
(and the subspace has clusters larger than points).  The functions of the orbit, numbered from its
first function, have these decorations in order. -/
theorem C75_decorations (pts : List (List (List σ) × List (List ℕ)))
    (multi : Option (List (List (List σ) × List (List ℕ)))) (rm : Bool) (S : List (PottsOrbit σ))
    (hs : ∀ q ∈ pts ++ multi.getD [], SoundCluster q)
    (hS : pottsFromCutoffs (pottsNew pts) (multi.map pottsNew) rm = some S)
    (j : ℕ) (q : List (List σ) × List (List ℕ)) (hj : (pts ++ multi.getD [])[j]? = some q) :
    ∃ o full decs, S[j]? = some o ∧ o.id = j + 1 ∧ o.spaces = q.1 ∧
      DecorationClasses q.1 q.2 full ∧
      decs = (if rm = true ∧ multi ≠ none then full.dropLast else full) ∧
      o.classes.length = decs.length ∧
      orbitDecorations S ((j + 1 : ℕ) : ℤ) = some decs ∧
      ∀ k < decs.length, functionDecoration S ((o.bitId + k : ℕ) : ℤ) = decs[k]? := by
  obtain ⟨hn, G, hr⟩ := hs q (List.mem_of_getElem? hj)
  obtain ⟨full, hfull⟩ := exists_decs q.1 _ (bitCombos_shape q.1 q.2 G hr)
  set os := (pts ++ multi.getD []).map fun q : List (List σ) × List (List ℕ) =>
      ({ PottsOrbit.new q.1 q.2 with classes :=
          if rm = true ∧ multi ≠ none then (PottsOrbit.new q.1 q.2).classes.dropLast
          else (PottsOrbit.new q.1 q.2).classes } : PottsOrbit σ) with hos
  obtain rfl : S = assignPotts os 1 1 := potts_orbit_of hS
  obtain ⟨cls, hcls⟩ : ∃ cls, cls = (if rm = true ∧ multi ≠ none then
      (PottsOrbit.new q.1 q.2).classes.dropLast else (PottsOrbit.new q.1 q.2).classes) := ⟨_, rfl⟩
  obtain ⟨decs, hdecs⟩ : ∃ decs, decs = (if rm = true ∧ multi ≠ none then full.dropLast else full) :=
    ⟨_, rfl⟩
  have hoj : os[j]? = some { PottsOrbit.new q.1 q.2 with classes := cls } := by
    rw [hos, List.getElem?_map, hj, Option.map_some, hcls]
  have hrel : List.Forall₂ (fun cl ds => decorateAll q.1 cl = some ds) cls decs := by
    have h0 : List.Forall₂ (fun cl ds => decorateAll q.1 cl = some ds)
        (PottsOrbit.new q.1 q.2).classes full := hfull.imp fun _ _ h => h.1
    by_cases hc : rm = true ∧ multi ≠ none
    · rw [hcls, hdecs, if_pos hc, if_pos hc, List.dropLast_eq_take, List.dropLast_eq_take,
        h0.length_eq]
      exact List.forall₂_take _ h0
    · rw [hcls, hdecs, if_neg hc, if_neg hc]
      exact h0
  have hfd : ∀ k d, decs[k]? = some d →
      functionDecoration (assignPotts os 1 1) (((1 + pottsOffset os j + k : ℕ) : ℤ)) = some d := by
    intro k d hd
    obtain ⟨cl, hcl, e⟩ := forall₂_get_right hrel hd
    rw [functionDecoration_assigned os j k _ hoj cl hcl]
    exact e
  refine ⟨{ PottsOrbit.new q.1 q.2 with
    classes := cls, id := 1 + j, bitId := 1 + pottsOffset os j }, full, decs, ?_, Nat.add_comm _ _,
    rfl, decorationClasses_of q.1 hn q.2 G hr full hfull, hdecs, hrel.length_eq, ?_, ?_⟩
  · rw [assignPotts_get, hoj, Option.map_some]
  · unfold orbitDecorations
    rw [show (((j + 1 : ℕ) : ℤ) - 1) = (j : ℤ) by push_cast; ring, pyGet_nat, assignPotts_get, hoj]
    simp only [Option.map_some]
    rw [hrel.length_eq]
    exact decorationsFrom_eq _ decs _ hfd
  · intro k hk
    rw [List.getElem?_eq_getElem hk]
    exact hfd k _ (List.getElem?_eq_getElem hk)

/-- C75. Every index of the correlation vector except 0 belongs to exactly one function of one
orbit, and `get_function_decoration` of an index past the end raises. -/
theorem C75_indices (pts : List (List (List σ) × List (List ℕ)))
    (multi : Option (List (List (List σ) × List (List ℕ)))) (rm : Bool) (S : List (PottsOrbit σ))
    (hS : pottsFromCutoffs (pottsNew pts) (multi.map pottsNew) rm = some S) (n : ℕ) (hn : 0 < n) :
    (n < 1 + (S.map fun o => o.classes.length).sum →
      ∃! jk : ℕ × ℕ, ∃ o, S[jk.1]? = some o ∧ jk.2 < o.classes.length ∧ n = o.bitId + jk.2) ∧
    (1 + (S.map fun o => o.classes.length).sum ≤ n → functionDecoration S (n : ℤ) = none) := by
  set os := (pts ++ multi.getD []).map fun q : List (List σ) × List (List ℕ) =>
      ({ PottsOrbit.new q.1 q.2 with classes :=
          if rm = true ∧ multi ≠ none then (PottsOrbit.new q.1 q.2).classes.dropLast
          else (PottsOrbit.new q.1 q.2).classes } : PottsOrbit σ) with hos
  obtain rfl : S = assignPotts os 1 1 := potts_orbit_of hS
  have hsum : ((assignPotts os 1 1).map fun o => o.classes.length).sum =
      (os.map fun o => o.classes.length).sum := by
    rw [← assignPotts_ids_length os 1 1, List.length_flatMap]
    simp
  rw [hsum]
  constructor
  · intro h
    obtain ⟨j, k, o, h1, h2, h3⟩ := exists_offset os (n - 1) (by omega)
    refine ⟨(j, k), ⟨{ o with id := 1 + j, bitId := 1 + pottsOffset os j }, ?_, h2, ?_⟩, ?_⟩
    · show (assignPotts os 1 1)[j]? = _
      rw [assignPotts_get, h1]; rfl
    · show n = 1 + pottsOffset os j + k
      omega
    · rintro ⟨j', k'⟩ ⟨o', h4, h5, h6⟩
      simp only at h4 h5 h6
      rw [assignPotts_get] at h4
      obtain ⟨o'', h7, rfl⟩ := Option.map_eq_some_iff.1 h4
      have hd1 := assignPotts_ids_get os 1 1 j k o h1 h2
      have hd2 := assignPotts_ids_get os 1 1 j' k' o'' h7 h5
      have e : pottsOffset os j' + k' = pottsOffset os j + k := by
        simp only at h6; omega
      rw [e, hd1, Option.some.injEq] at hd2
      have ej : j' = j := by omega
      subst ej
      have ek : k' = k := by omega
      rw [ek]
  · intro h
    unfold functionDecoration
    rw [pyGet_nat, pottsOrbitIds, List.getElem?_eq_none]
    rw [List.length_cons, assignPotts_ids_length]
    omega

/-- C75. What is removed: asking for the removal of the last class raises exactly if there are
clusters larger than points and some orbit has a single class; with points only nothing is removed
and nothing raises. -/
theorem C75_removal (pts : List (PottsOrbit σ)) (m : List (PottsOrbit σ)) :
    (pottsFromCutoffs pts (some m) true = none ↔ ∃ o ∈ pts ++ m, o.classes.length ≤ 1) ∧
    (pottsFromCutoffs pts (some m) false ≠ none) ∧
    pottsFromCutoffs pts none true = pottsFromCutoffs pts none false := by
  refine ⟨?_, ?_, rfl⟩
  · unfold pottsFromCutoffs pottsOrbits
    simp only [if_true, removeLastAll_eq]
    split <;> simp_all
  · simp [pottsFromCutoffs, pottsOrbits]

variable {K : Type*} [Field K] [DecidableEq σ]

/-- Concentration of a class in terms of codes. -/
theorem potts_average (spaces : List (List σ)) (hn : ∀ s ∈ spaces, s.Nodup) (cl : List (List ℕ))
    (hnd : cl.Nodup) (hcl : ∀ b ∈ cl, List.Forall₂ (fun b s => b < s.length) b spaces)
    (ds : List (List σ)) (hds : List.Forall₂ (fun b d => speciesOf spaces b = d.map some) cl ds)
    (occ : Occ) (rows : ClusterRows)
    (hocc : ∀ row ∈ rows, List.Forall₂ (fun site s => occ site < s.length) row spaces) :
    clusterAverage (fun row => correlation (indicatorPhi K spaces) cl (row.map occ)) rows =
      (decoratedCount spaces ds occ rows : K) / ((rows.length : K) * (ds.length : K)) := by
  unfold clusterAverage decoratedCount
  have key : (rows.map fun row => correlation (indicatorPhi K spaces) cl (row.map occ)).sum =
      ((rows.filter fun row => decide (∃ d ∈ ds, speciesOf spaces (row.map occ) = d.map some)).length
        : K) / (ds.length : K) := by
    induction rows with
    | nil => simp
    | cons row rows ih =>
      have hrow : List.Forall₂ (fun b s => b < s.length) (row.map occ) spaces := by
        rw [List.forall₂_map_left_iff]
        exact hocc row (List.mem_cons_self ..)
      rw [List.map_cons, List.sum_cons, ih fun r hr => hocc r (List.mem_cons_of_mem _ hr),
        correlation_indicator spaces hn cl hnd hcl _ hrow, hds.length_eq]
      have hiff : row.map occ ∈ cl ↔ ∃ d ∈ ds, speciesOf spaces (row.map occ) = d.map some := by
        constructor
        · intro h
          exact forall₂_mem_left hds h
        · rintro ⟨d, hd, e⟩
          obtain ⟨b, hb, eb⟩ := forall₂_mem_right hds hd
          rw [speciesOf_inj spaces hn _ b hrow (hcl b hb).length_eq (e.trans eb.symm)]
          exact hb
      by_cases h : row.map occ ∈ cl
      · rw [if_pos h, List.filter_cons_of_pos (by simpa using hiff.1 h), List.length_cons]
        push_cast
        ring
      · rw [if_neg h, List.filter_cons_of_neg (by simpa using fun h' => h (hiff.2 h'))]
        ring
  rw [key, div_div, mul_comm (ds.length : K)]

/-- C75. The functions of a Potts subspace are concentrations of decorations: the entry of the
feature vector for a function is the number of prim cells times the fraction of the clusters of
its orbit that the occupancy decorates in one of the ways `get_function_decoration` returns,
divided by the number of these ways. -/
theorem C75_concentration (pts : List (List (List σ) × List (List ℕ)))
    (multi : Option (List (List (List σ) × List (List ℕ)))) (rm : Bool) (S : List (PottsOrbit σ))
    (hs : ∀ q ∈ pts ++ multi.getD [], SoundCluster q)
    (hS : pottsFromCutoffs (pottsNew pts) (multi.map pottsNew) rm = some S)
    (P : CEProcessor K) (hP : P.WellFormed) (o : PottsOrbit σ) (ho : o ∈ S) (rows : ClusterRows)
    (hm : (orbitData o.id o.bitId (indicatorPhi K o.spaces) (o.spaces.map List.length) o.classes,
      rows) ∈ P.orbits) (hne : o.spaces ≠ []) (occ : Occ)
    (hocc : ∀ row ∈ rows, List.Forall₂ (fun site s => occ site < s.length) row o.spaces)
    (k : ℕ) (hk : k < o.classes.length) (ds : List (List σ))
    (hds : functionDecoration S ((o.bitId + k : ℕ) : ℤ) = some ds) :
    P.featureVector occ (o.bitId + k) =
      (decoratedCount o.spaces ds occ rows : K) / ((rows.length : K) * (ds.length : K)) * P.size := by
  set os := (pts ++ multi.getD []).map fun q : List (List σ) × List (List ℕ) =>
      ({ PottsOrbit.new q.1 q.2 with classes :=
          if rm = true ∧ multi ≠ none then (PottsOrbit.new q.1 q.2).classes.dropLast
          else (PottsOrbit.new q.1 q.2).classes } : PottsOrbit σ) with hos
  obtain rfl : S = assignPotts os 1 1 := potts_orbit_of hS
  obtain ⟨j, hj⟩ := List.mem_iff_getElem?.1 ho
  rw [assignPotts_get] at hj
  obtain ⟨o', hj', rfl⟩ := Option.map_eq_some_iff.1 hj
  rw [hos, List.getElem?_map] at hj'
  obtain ⟨q, hq, rfl⟩ := Option.map_eq_some_iff.1 hj'
  obtain ⟨hn, G, hr⟩ := hs q (List.mem_of_getElem? hq)
  obtain ⟨cls, hcls⟩ : ∃ cls, cls = (if rm = true ∧ multi ≠ none then
      (PottsOrbit.new q.1 q.2).classes.dropLast else (PottsOrbit.new q.1 q.2).classes) := ⟨_, rfl⟩
  have hoj : os[j]? = some { PottsOrbit.new q.1 q.2 with classes := cls } := by
    rw [hos, List.getElem?_map, hq, Option.map_some, hcls]
  simp only [← hcls] at hm hk hds ⊢
  have hsub : ∀ cl ∈ cls, cl ∈ bitCombos (q.1.map fun s => List.range s.length) q.2 := by
    intro cl hcl
    rw [hcls] at hcl
    split at hcl
    · exact List.mem_of_mem_dropLast hcl
    · exact hcl
  have hsh : ∀ cl ∈ cls, ∀ b ∈ cl, List.Forall₂ (fun b s => b < s.length) b q.1 :=
    fun cl hcl => bitCombos_shape q.1 q.2 G hr cl (hsub cl hcl)
  have hclk : cls[k]? = some cls[k] := List.getElem?_eq_getElem hk
  rw [functionDecoration_assigned os j k _ hoj cls[k] hclk] at hds
  obtain ⟨ds', h1, h2⟩ := decorateAll_eq q.1 cls[k] (hsh _ (List.getElem_mem hk))
  obtain rfl : ds' = ds := Option.some.inj (h1.symm.trans hds)
  have hnd : cls[k].Nodup := by
    have G' : PermGroup (q.1.map fun s => List.range s.length).length q.2 := by
      rwa [List.length_map]
    obtain ⟨c, hc, e⟩ := (bitCombos_inv G').cls cls[k] (hsub _ (List.getElem_mem hk))
    rw [e]
    exact nodup_uniqueRows _
  have h := C46_correlation_vector P hP _ _ _ _ _ rows hm (by simpa using hne)
    (fun cl hcl b hb => by rw [List.length_map]; exact (hsh cl hcl b hb).length_eq) occ
    (fun row hrow => by
      rw [List.forall₂_map_right_iff]
      exact hocc row hrow) k hk
  rw [h]
  congr 1
  exact potts_average q.1 hn _ hnd (hsh _ (List.getElem_mem hk)) ds' h2 occ rows hocc

omit [DecidableEq σ] in
theorem length_filter_sum {α β : Type*} (p : α → β → Bool) (as : List α) (bs : List β) :
    (as.map fun a => (bs.filter (p a)).length).sum =
      (bs.map fun b => (as.filter fun a => p a b).length).sum := by
  induction bs with
  | nil => induction as with
    | nil => rfl
    | cons a as ih => simp
  | cons b bs ih =>
    rw [List.map_cons, List.sum_cons, ← ih]
    clear ih
    induction as with
    | nil => rfl
    | cons a as ih =>
      rw [List.map_cons, List.sum_cons, ih, List.map_cons, List.sum_cons]
      by_cases h : p a b = true
      · rw [List.filter_cons_of_pos h, List.filter_cons_of_pos (p := fun a => p a b) h,
          List.length_cons, List.length_cons]
        omega
      · rw [List.filter_cons_of_neg h, List.filter_cons_of_neg (p := fun a => p a b) h]
        omega

/-- Every cluster is decorated in one of the ways of exactly one class. -/
theorem count_classes (spaces : List (List σ)) (perms : List (List ℕ))
    (full : List (List (List σ))) (hf : DecorationClasses spaces perms full) (occ : Occ)
    (rows : ClusterRows)
    (hocc : ∀ row ∈ rows, List.Forall₂ (fun site s => occ site < s.length) row spaces) :
    (full.map fun ds => decoratedCount spaces ds occ rows).sum = rows.length := by
  unfold decoratedCount
  rw [length_filter_sum (fun (ds : List (List σ)) (row : List ℕ) =>
    decide (∃ d ∈ ds, speciesOf spaces (row.map occ) = d.map some)) full rows]
  rw [List.map_congr_left (g := fun _ => 1)]
  · simp
  · intro row hrow
    have hr : List.Forall₂ (fun b s => b < s.length) (row.map occ) spaces := by
      rw [List.forall₂_map_left_iff]
      exact hocc row hrow
    obtain ⟨d, hd⟩ := decorate_total spaces _ hr
    have hsp := (decorate_speciesOf spaces _ d hr.length_eq).1 hd
    have hdd := decoration_of_codes spaces _ d hr hsp
    have e : (full.filter fun ds =>
        decide (∃ d ∈ ds, speciesOf spaces (row.map occ) = d.map some)) =
        full.filter fun ds => decide (d ∈ ds) := by
      apply List.filter_congr
      intro ds _
      have : (∃ d' ∈ ds, speciesOf spaces (row.map occ) = d'.map some) ↔ d ∈ ds := by
        constructor
        · rintro ⟨d', h1, h2⟩
          have : d' = d := List.map_injective_iff.2 (Option.some_injective _) (h2.symm.trans hsp)
          exact this ▸ h1
        · intro h
          exact ⟨d, h, hsp⟩
      simp only [this]
    rw [e]
    obtain ⟨ds, hds, hdm⟩ := (hf.cover d).2 hdd
    have hdis := hf.disjoint
    clear hf e
    induction full with
    | nil => simp at hds
    | cons x xs ih =>
      rw [List.pairwise_cons] at hdis
      by_cases hx : d ∈ x
      · rw [List.filter_cons_of_pos (by simpa using hx), List.length_cons]
        have : xs.filter (fun ds => decide (d ∈ ds)) = [] := by
          rw [List.filter_eq_nil_iff]
          intro y hy
          simpa using hdis.1 y hy d hx
        rw [this]
        rfl
      · rw [List.filter_cons_of_neg (by simpa using hx)]
        refine ih ?_ hdis.2
        rcases List.mem_cons.1 hds with rfl | h
        · exact absurd hdm hx
        · exact h

theorem sum_range_getElem {α M : Type*} [AddCommMonoid M] (f : ℕ → M) (g : α → M) (l : List α)
    (h : ∀ (k : ℕ) (x : α), l[k]? = some x → f k = g x) :
    ((List.range l.length).map f).sum = (l.map g).sum := by
  congr 1
  apply List.ext_getElem?
  intro k
  rw [List.getElem?_map, List.getElem?_map]
  by_cases hk : k < l.length
  · rw [List.getElem?_range hk, List.getElem?_eq_getElem hk]
    simp [h k _ (List.getElem?_eq_getElem hk)]
  · rw [List.getElem?_eq_none (by simpa using hk), List.getElem?_eq_none (by simpa using hk)]
    rfl

/-- C75 (part of the documented claim that the correlations of all decorations of an orbit sum to
1; missing: the sum has to be weighted by the numbers of equivalent decorations,
`C75_sum_fails`). Weighted so, the correlations of an orbit and the concentration of the
decorations that are not represented sum to 1; without removal all decorations are represented. -/
theorem C75_sum_partial [CharZero K] (pts : List (List (List σ) × List (List ℕ)))
    (multi : Option (List (List (List σ) × List (List ℕ)))) (rm : Bool) (S : List (PottsOrbit σ))
    (hs : ∀ q ∈ pts ++ multi.getD [], SoundCluster q)
    (hS : pottsFromCutoffs (pottsNew pts) (multi.map pottsNew) rm = some S)
    (P : CEProcessor K) (hP : P.WellFormed) (j : ℕ) (o : PottsOrbit σ) (ho : S[j]? = some o)
    (rows : ClusterRows)
    (hm : (orbitData o.id o.bitId (indicatorPhi K o.spaces) (o.spaces.map List.length) o.classes,
      rows) ∈ P.orbits) (hne : o.spaces ≠ []) (hrows : rows ≠ []) (occ : Occ)
    (hocc : ∀ row ∈ rows, List.Forall₂ (fun site s => occ site < s.length) row o.spaces)
    (decs : List (List (List σ)))
    (hdecs : orbitDecorations S ((j + 1 : ℕ) : ℤ) = some decs) :
    ∃ rest : List (List σ),
      (∀ d, d ∈ rest ↔ Decoration o.spaces d ∧ ∀ ds ∈ decs, d ∉ ds) ∧
      (rm = false → rest = []) ∧
      ((List.range decs.length).map fun k =>
          ((decs.getD k []).length : K) * P.featureVector occ (o.bitId + k)).sum +
        (decoratedCount o.spaces rest occ rows : K) / (rows.length : K) * P.size = P.size := by
  obtain ⟨q, hq⟩ : ∃ q, (pts ++ multi.getD [])[j]? = some q := by
    have := potts_orbit_of hS
    rw [this, assignPotts_get, List.getElem?_map] at ho
    cases h : (pts ++ multi.getD [])[j]? with
    | none => simp [h] at ho
    | some q => exact ⟨q, rfl⟩
  obtain ⟨o', full, decs', h1, -, h3, hfull, hd', hlen, hod, hfd⟩ :=
    C75_decorations pts multi rm S hs hS j q hq
  obtain rfl : o' = o := Option.some.inj (h1.symm.trans ho)
  obtain rfl : decs' = decs := Option.some.inj (hod.symm.trans hdecs)
  have hR : (rows.length : K) ≠ 0 := by
    rw [Nat.cast_ne_zero]
    exact fun h => hrows (List.length_eq_zero_iff.1 h)
  have hmem : ∀ ds ∈ decs', ds ∈ full := by
    intro ds h
    rw [hd'] at h
    split at h
    · exact List.mem_of_mem_dropLast h
    · exact h
  have hterm : ((List.range decs'.length).map fun k =>
      ((decs'.getD k []).length : K) * P.featureVector occ (o'.bitId + k)).sum =
      ((decs'.map fun ds => decoratedCount o'.spaces ds occ rows).sum : K) /
        (rows.length : K) * P.size := by
    rw [sum_range_getElem _ (fun ds => (decoratedCount o'.spaces ds occ rows : K) *
      ((rows.length : K)⁻¹ * P.size)) decs']
    · rw [List.sum_map_mul_right, Nat.cast_list_sum, List.map_map, div_mul_eq_mul_div,
        div_eq_mul_inv]
      simp only [Function.comp_def]
      ring
    · intro k ds hk
      have hkl := (List.getElem?_eq_some_iff.1 hk).1
      rw [List.getD_eq_getElem?_getD, hk, Option.getD_some,
        C75_concentration pts multi rm S hs hS P hP o' (List.mem_of_getElem? ho) rows hm hne occ
          hocc k (by rw [hlen]; exact hkl) ds ((hfd k hkl).trans hk)]
      have hds : (ds.length : K) ≠ 0 := by
        rw [Nat.cast_ne_zero]
        exact fun h => hfull.nonempty ds (hmem ds (List.mem_of_getElem? hk))
          (List.length_eq_zero_iff.1 h)
      field_simp
  have hcount := count_classes q.1 q.2 full hfull occ rows (h3 ▸ hocc)
  rw [hterm]
  by_cases hc : rm = true ∧ multi ≠ none
  · rw [if_pos hc] at hd'
    rcases List.eq_nil_or_concat full with rfl | ⟨init, last, rfl⟩
    · exfalso
      have : 0 < rows.length := List.length_pos_iff.2 hrows
      simp at hcount
      omega
    · rw [List.concat_eq_append] at hd' hfull hcount
      rw [List.dropLast_concat] at hd'
      subst hd'
      refine ⟨last, ?_, fun h => absurd (h.symm.trans hc.1) (by decide), ?_⟩
      · intro d
        rw [h3, ← hfull.cover d]
        have hp := hfull.disjoint
        rw [List.pairwise_append] at hp
        constructor
        · intro hd
          exact ⟨⟨last, by simp, hd⟩, fun ds hds h =>
            hp.2.2 ds hds last (List.mem_singleton.2 rfl) d h hd⟩
        · rintro ⟨⟨ds, hds, hd⟩, hnot⟩
          rcases List.mem_append.1 hds with h | h
          · exact absurd hd (hnot ds h)
          · rw [List.mem_singleton] at h
            exact h ▸ hd
      · rw [List.map_append, List.sum_append, List.map_singleton, List.sum_singleton,
          ← h3] at hcount
        rw [← add_mul, ← add_div, ← Nat.cast_add, hcount, div_self hR, one_mul]
  · rw [if_neg hc] at hd'
    subst hd'
    refine ⟨[], ?_, fun _ => rfl, ?_⟩
    · intro d
      rw [h3, ← hfull.cover d]
      constructor
      · intro h; simp at h
      · rintro ⟨⟨ds, hds, hd⟩, hnot⟩
        exact absurd hd (hnot ds hds)
    · rw [h3, hcount, div_self hR, one_mul]
      have : decoratedCount q.1 ([] : List (List σ)) occ rows = 0 := by
        unfold decoratedCount
        simp
      rw [this]
      simp

/-! ### examples and failures -/

/-- sites with two species, a point and a pair of equivalent sites -/
def pottsPoint : List (List ℕ) × List (List ℕ) := ([[5, 7]], [[0]])
def pottsPair : List (List ℕ) × List (List ℕ) := ([[5, 7], [5, 7]], [[0, 1], [1, 0]])

theorem pottsPoint_sound : SoundCluster pottsPoint := by
  refine ⟨by decide, ⟨by decide, by decide, by decide, by decide⟩, ?_⟩
  intro p hp i j h
  simp only [pottsPoint, List.mem_cons, List.not_mem_nil, or_false] at hp
  subst hp
  rcases i with _ | i <;> simp at h
  subst h; rfl

theorem pottsPair_sound : SoundCluster pottsPair := by
  refine ⟨by decide, ⟨by decide, by decide, by decide, by decide⟩, ?_⟩
  intro p hp i j h
  simp only [pottsPair, List.mem_cons, List.not_mem_nil, or_false] at hp
  rcases hp with rfl | rfl <;> rcases i with _ | _ | i <;> simp at h <;> subst h <;> rfl

/-- the subspace of both, with and without the last classes -/
def pottsBoth (rm : Bool) : List (PottsOrbit ℕ) :=
  (pottsFromCutoffs (pottsNew [pottsPoint]) (some (pottsNew [pottsPair])) rm).getD []

example : (∀ q ∈ [pottsPoint] ++ (some [pottsPair]).getD [], SoundCluster q) ∧
    pottsFromCutoffs (pottsNew [pottsPoint]) ((some [pottsPair]).map pottsNew) true =
      some (pottsBoth true) ∧
    orbitDecorations (pottsBoth false) 2 = some [[[5, 5]], [[5, 7], [7, 5]], [[7, 7]]] ∧
    orbitDecorations (pottsBoth true) 2 = some [[[5, 5]], [[5, 7], [7, 5]]] ∧
    functionDecoration (pottsBoth true) 3 = some [[5, 7], [7, 5]] ∧
    functionDecoration (pottsBoth true) 4 = none := by
  refine ⟨?_, by decide, by decide, by decide, by decide, by decide⟩
  intro q hq
  simp at hq
  rcases hq with rfl | rfl
  · exact pottsPoint_sound
  · exact pottsPair_sound

/-- the processor of the subspace for a chain of two sites -/
def pottsProcessor (S : List (PottsOrbit ℕ)) : CEProcessor ℚ where
  size := 2
  numCorr := 6
  orbits := S.map fun o =>
    (orbitData o.id o.bitId (indicatorPhi ℚ o.spaces) (o.spaces.map List.length) o.classes,
      if o.spaces.length = 1 then [[0], [1]] else [[0, 1], [1, 0]])

/-- one site of each species: all pairs are mixed -/
example : (pottsProcessor (pottsBoth false)).WellFormed ∧
    (pottsProcessor (pottsBoth false)).featureVector (fun i => i) 4 = 2 * (2 / (2 * 2)) ∧
    decoratedCount [[5, 7], [5, 7]] [[5, 7], [7, 5]] (fun i => i) [[0, 1], [1, 0]] = 2 := by
  refine ⟨⟨by decide, ?_⟩, by decide +kernel, by decide⟩
  intro p hp
  simp only [pottsProcessor, List.mem_map] at hp
  obtain ⟨o, ho, rfl⟩ := hp
  have : ∀ o ∈ pottsBoth false, 0 < o.bitId := by decide
  exact this o ho

/-- C75. The documented claim "sum of corr for all labelings = 1" is false: for the pair orbit of a
chain with one site of each species in the cell the three correlations sum to 1/2 (the feature
vector to 1, not to the 2 cells). -/
theorem C75_sum_fails :
    ∃ o, (pottsBoth false)[1]? = some o ∧ o.classes.length = 3 ∧
      ((List.range 3).map fun k =>
        (pottsProcessor (pottsBoth false)).featureVector (fun i => i) (o.bitId + k)).sum = 1 ∧
      (pottsProcessor (pottsBoth false)).size = 2 := by
  refine ⟨_, rfl, by decide, by decide +kernel, rfl⟩

omit [DecidableEq σ] in
/-- C75. `from_cutoffs(..., remove_last_cluster=True)` removes nothing when only points are
asked for. -/
theorem C75_removal_fails (pts : List (PottsOrbit σ)) :
    pottsFromCutoffs pts none true = some (assignPotts pts 1 1) := rfl

omit [DecidableEq σ] in
/-- C75. `get_function_decoration(0)`: the constant function has no decoration, but the
decorations of a function of the last orbit are returned whenever the number of the orbit's first
function is at most its number of functions. -/
theorem C75_constant_fails (os : List (PottsOrbit σ)) (o : PottsOrbit σ)
    (h : o.bitId ≤ o.classes.length) (hb : 0 < o.bitId) :
    functionDecoration (os ++ [o]) 0 =
      decorateAll o.spaces (o.classes[o.classes.length - o.bitId]'(by omega)) := by
  unfold functionDecoration
  have h0 : pyGet (pottsOrbitIds (os ++ [o])) 0 = some 0 := rfl
  rw [h0]
  simp only [Nat.cast_zero, zero_sub]
  have h1 : pyGet (os ++ [o]) (-1) = some o := by
    have := pyGet_neg (os ++ [o]) 1 one_pos (by simp)
    rw [Nat.cast_one] at this
    rw [this]
    simp
  rw [h1]
  simp only
  rw [pyGet_neg _ _ hb h, List.getElem?_eq_getElem (by omega)]

/-- e.g. with a point orbit only -/
example : functionDecoration (assignPotts (pottsNew [pottsPoint]) 1 1) 0 = some [[7]] := by decide

end Smol
