import Verif.Lemmas.ClusterIO
import Mathlib.Data.Fintype.Prod

/-!
# C96: clusters as objects — copies, saved and loaded clusters, files

Model: `Verif/Model/ClusterIO.lean` (smol/cofe/space/cluster.py).
-/

set_option linter.unusedSectionVars false

namespace Smol
open Smol.Spec

variable {d : ℕ} {K : Type*} [Field K] [LinearOrder K] [IsStrictOrderedRing K] [FloorRing K]

/-- C96. Every cluster, however often it was copied, saved and loaded or given an id, lies at the
coordinates it was made from: its sites exactly there, its fractional coordinates moved by the
lattice vector that brings the centroid into the cell. -/
theorem C96_placed (k : SpecKind) {L : CLattice d K} (hL : L.Ok) {coords : List (Fin d → K)}
    (hne : coords ≠ []) {c : Clu d K} (h : CluBuilt k L coords c) : Placed L coords c :=
  inv_placed hne (built_inv hL h)

omit [IsStrictOrderedRing K] in
/-- C96. A new cluster holds the compositions of the site spaces it is made from, as they are, and
has no id. -/
theorem C96_init (k : SpecKind) {L : CLattice d K} {coords : List (Fin d → K)} (comps : List SiteComp)
    (spaces : List SiteSpace) (hlen : spaces.length = coords.length)
    (hs : comps.map (SiteSpace.make k.toVacKind) = spaces.map some) :
    (Clu.make spaces coords L).sites.map Prod.fst = comps ∧ (Clu.make spaces coords L).id = none := by
  refine ⟨?_, rfl⟩
  unfold Clu.make
  simp only
  rw [map_fst_zip_eq _ _ (by simp [hlen])]
  clear hlen
  induction comps generalizing spaces with
  | nil => cases spaces with
    | nil => rfl
    | cons a l => simp at hs
  | cons a l ih => cases spaces with
    | nil => simp at hs
    | cons b m =>
      rw [List.map_cons, List.map_cons, List.cons.injEq] at hs
      rw [List.map_cons, (make_some hs.1).2.2.2.1, ih m hs.2]

omit [Field K] [LinearOrder K] [IsStrictOrderedRing K] [FloorRing K] in
/-- C96. `assign_ids` gives the id and returns the next one; nothing else changes. -/
theorem C96_assign (c : Clu d K) (n : ℕ) :
    (c.assignIds n).1.id = some n ∧ (c.assignIds n).2 = n + 1 ∧
    (c.assignIds n).1.sites = c.sites ∧ (c.assignIds n).1.frac = c.frac ∧
    (c.assignIds n).1.centroid = c.centroid ∧ (c.assignIds n).1.lattice = c.lattice :=
  ⟨rfl, rfl, rfl, rfl, rfl, rfl⟩

/-- C96. Two distances of a cluster agree: `get_distance` is the distance of the coordinates the
cluster was made from, never above `diameter`, and for some pair of sites equal to it. -/
theorem C96_distance (k : SpecKind) {L : CLattice d K} (hL : L.Ok) {coords : List (Fin d → K)}
    (hne : coords ≠ []) {c : Clu d K} (h : CluBuilt k L coords c) :
    (∀ (i j : ℕ) (x y : Fin d → K), coords[i]? = some x → coords[j]? = some y →
      c.dist2 i j = some (sqDist L.mat x y) ∧ sqDist L.mat x y ≤ c.diam2) ∧
    (∃ (i j : ℕ) (x y : Fin d → K), coords[i]? = some x ∧ coords[j]? = some y ∧ c.diam2 = sqDist L.mat x y) := by
  have hi := built_inv hL h
  have hsq : ∀ (T : Fin d → ℤ) (x y : Fin d → K), sqDist L.mat (shift T x) (shift T y) = sqDist L.mat x y := by
    intro T x y
    unfold sqDist cart shift
    congr 1
    funext k
    congr 1
    simp only [add_mul, Finset.sum_add_distrib]
    ring
  have hd : ∀ x y : Fin d → K, dist2 L.mat x y = sqDist L.mat x y := by
    intro x y
    unfold dist2 sqDist cart
    congr 1
    funext k
    rw [← Finset.sum_sub_distrib]
    congr 2
    funext j
    ring
  have hdiam : c.diam2 = Smol.diam2 L.mat (coords.map (shift fun i => - ⌊Smol.centroid coords i⌋)) := by
    unfold Clu.diam2
    rw [hi.lat, hi.fra, mkCluster_eq]
  constructor
  · intro i j x y hx hy
    constructor
    · have hs : ∀ (i : ℕ) (x : Fin d → K), coords[i]? = some x →
          ∃ s, c.sites[i]? = some s ∧ s.2 = L.toCart x := by
        intro i x hx
        have h1 : (c.sites.map Prod.snd)[i]? = some (L.toCart x) := by
          rw [hi.sit, List.getElem?_map, hx]; rfl
        rw [List.getElem?_map] at h1
        cases hc : c.sites[i]? with
        | none => rw [hc] at h1; cases h1
        | some s => rw [hc] at h1; exact ⟨s, rfl, by simpa using h1⟩
      obtain ⟨s, h1, h2⟩ := hs i x hx
      obtain ⟨t, h3, h4⟩ := hs j y hy
      unfold Clu.dist2
      rw [h1, h3]
      simp only [Option.bind_eq_bind, Option.bind_some, h2, h4]
      rfl
    · rw [hdiam, ← hsq (fun i => - ⌊Smol.centroid coords i⌋) x y]
      have hnn : 0 ≤ Smol.diam2 L.mat (coords.map (shift fun i => - ⌊Smol.centroid coords i⌋)) := by
        unfold Smol.diam2
        generalize List.flatMap _ _ = l
        induction l with
        | nil => exact le_refl _
        | cons a l ih => exact le_max_of_le_right ih
      exact (diam2_le_iff hnn _).1 le_rfl _ (List.mem_map_of_mem (List.mem_of_getElem? hx)) _
        (List.mem_map_of_mem (List.mem_of_getElem? hy))
  · rw [hdiam]
    unfold Smol.diam2
    rcases foldr_max_mem ((coords.map (shift fun i => - ⌊Smol.centroid coords i⌋)).flatMap fun x =>
      (coords.map (shift fun i => - ⌊Smol.centroid coords i⌋)).map fun y => dist2 L.mat x y) with h0 | h0
    · rw [h0]
      cases coords with
      | nil => exact absurd rfl hne
      | cons x l => exact ⟨0, 0, x, x, rfl, rfl, by simp [sqDist]⟩
    · rw [List.mem_flatMap] at h0
      obtain ⟨x', hx', h0⟩ := h0
      obtain ⟨x, hx, rfl⟩ := List.mem_map.1 hx'
      obtain ⟨y', hy', h0⟩ := List.mem_map.1 h0
      obtain ⟨y, hy, rfl⟩ := List.mem_map.1 hy'
      obtain ⟨i, hi', hix⟩ := List.getElem_of_mem hx
      obtain ⟨j, hj', hjy⟩ := List.getElem_of_mem hy
      refine ⟨i, j, x, y, List.getElem?_eq_some_iff.2 ⟨hi', hix⟩,
        List.getElem?_eq_some_iff.2 ⟨hj', hjy⟩, ?_⟩
      rw [← h0, hd, hsq]

/-- C96. `copy` of a cluster never raises.  The copy is equal to the cluster, has the same
coordinates, centroid and lattice, no id, and at every site the same species in the same order —
with equal amounts, whatever the amounts were, and so offering the same species. -/
theorem C96_copy (k : SpecKind) {L : CLattice d K} (hL : L.Ok) {coords : List (Fin d → K)}
    (hne : coords ≠ []) {c : Clu d K} (h : CluBuilt k L coords c) :
    ∃ c', c.copy k.toVacKind = some c' ∧ c.eqv c' = true ∧ c'.frac = c.frac ∧
      c'.centroid = c.centroid ∧ c'.lattice = c.lattice ∧ c'.id = none ∧
      c'.sites.map Prod.snd = c.sites.map Prod.snd ∧
      List.Forall₂ (fun a b => Shares a b ∧ ∀ sp, Offers k.toVacKind b sp ↔ Offers k.toVacKind a sp)
        (c.sites.map Prod.fst) (c'.sites.map Prod.fst) := by
  have hi := built_inv hL h
  obtain ⟨c', h1, h2, h3, h4⟩ := copy_inv hL hi
  refine ⟨c', h1, eqv_self hne hi h2, h2.fra.trans hi.fra.symm, h2.cen.trans hi.cen.symm,
    h2.lat.trans hi.lat.symm, h3, h2.sit.trans hi.sit.symm, ?_⟩
  rw [h4, List.forall₂_map_left_iff, List.forall₂_map_right_iff, List.forall₂_same]
  intro s hs
  exact ⟨shares_uniform, offers_uniform (hi.tak s hs)⟩

/-- C96. A cluster that was copied keeps all amounts when copied again: only the first copy of a
cluster made with amounts changes them. -/
theorem C96_copy_twice (k : SpecKind) {L : CLattice d K} (hL : L.Ok) {coords : List (Fin d → K)}
    {c c' : Clu d K} (h : CluBuilt k L coords c)
    (hc : c.copy k.toVacKind = some c') : c'.copy k.toVacKind = some c' := by
  have hi := built_inv hL h
  obtain ⟨c1, h1, h2, h3, h4⟩ := copy_inv hL hi
  obtain rfl : c1 = c' := by rw [h1] at hc; exact Option.some.inj hc
  obtain ⟨c2, g1, g2, g3, g4⟩ := copy_inv hL h2
  rw [g1]
  have hcomp : c2.sites.map Prod.fst = c1.sites.map Prod.fst := by
    rw [g4, show (c1.sites.map fun s => uniformComp s.1) = (c1.sites.map Prod.fst).map uniformComp from by
      simp, h4, List.map_map]
    apply List.map_congr_left
    intro s hs
    obtain ⟨hk, hl, hm⟩ := hi.tak s hs
    obtain ⟨sp, hsp⟩ := Option.isSome_iff_exists.1 hm
    obtain ⟨e1, -⟩ := uniform_lt_iff hl hsp
    have hfst : ∀ a : SiteComp, uniformComp a
        = (a.map Prod.fst).map fun x => (x, 1 / ((a.length : ℚ) + if a.numAtoms < 99 / 100 then 1 else 0)) := by
      intro a; unfold uniformComp; simp
    have hlen : (uniformComp s.1).length = s.1.length := by simp [uniformComp]
    show uniformComp (uniformComp s.1) = uniformComp s.1
    rw [hfst (uniformComp s.1), uniform_keys, hlen, hfst s.1]
    simp only [← hfst, e1]
  have hsnd : c2.sites.map Prod.snd = c1.sites.map Prod.snd := g2.sit.trans h2.sit.symm
  have hsites : c2.sites = c1.sites := by
    apply List.ext_getElem?
    intro i
    have e1 := congrArg (fun l => l[i]?) hcomp
    have e2 := congrArg (fun l => l[i]?) hsnd
    simp only [List.getElem?_map] at e1 e2
    cases ha : c2.sites[i]? with
    | none => cases hb : c1.sites[i]? with
      | none => rfl
      | some b => rw [ha, hb] at e1; cases e1
    | some a => cases hb : c1.sites[i]? with
      | none => rw [ha, hb] at e1; cases e1
      | some b =>
        rw [ha, hb] at e1 e2
        simp only [Option.map_some, Option.some.injEq] at e1 e2
        rw [Prod.ext e1 e2]
  have e1 := g2.fra.trans h2.fra.symm
  have e2 := g2.cen.trans h2.cen.symm
  have e3 := g2.lat.trans h2.lat.symm
  have e4 := g3.trans h3.symm
  cases c1
  cases c2
  simp only at hsites e1 e2 e3 e4
  subst hsites e1 e2 e3 e4
  rfl

/-- C96. Loading a saved cluster never raises.  The loaded cluster is equal to the saved one, has
the same coordinates, centroid and lattice and no id; at every site it has, with equal amounts, the
species whose symbol no vacancy of the site has. -/
theorem C96_reload (k : SpecKind) {L : CLattice d K} (hL : L.Ok) {coords : List (Fin d → K)}
    (hne : coords ≠ []) {c : Clu d K} (h : CluBuilt k L coords c) :
    ∃ c', Clu.fromDict k (c.asDict k) = some c' ∧ c.eqv c' = true ∧ c'.frac = c.frac ∧
      c'.centroid = c.centroid ∧ c'.lattice = c.lattice ∧ c'.id = none ∧
      c'.sites.map Prod.snd = c.sites.map Prod.snd ∧
      List.Forall₂ (fun a b => Shares (withoutVacancies k a) b)
        (c.sites.map Prod.fst) (c'.sites.map Prod.fst) := by
  have hi := built_inv hL h
  obtain ⟨c', h1, h2, h3, h4⟩ := reload_inv hL hi
  refine ⟨c', h1, eqv_self hne hi h2, h2.fra.trans hi.fra.symm, h2.cen.trans hi.cen.symm,
    h2.lat.trans hi.lat.symm, h3, h2.sit.trans hi.sit.symm, ?_⟩
  rw [h4, List.forall₂_map_left_iff, List.forall₂_map_right_iff, List.forall₂_same]
  intro s hs
  exact shares_uniform

/-- C96. The code loses vacancies that a site names: no site of a loaded cluster names one, and a
vacancy other than `Vacancy()` is not even offered any more. -/
theorem C96_vacancies_lost (k : SpecKind) {L : CLattice d K} (hL : L.Ok) {coords : List (Fin d → K)}
    {c c' : Clu d K} (h : CluBuilt k L coords c) (hc : Clu.fromDict k (c.asDict k) = some c') :
    ∀ s ∈ c'.sites, (∀ p ∈ s.1, k.isVac p.1 = false) ∧
      ∀ v, k.isVac v = true → v ≠ k.vac → ¬ Offers k.toVacKind s.1 v := by
  have hi := built_inv hL h
  obtain ⟨c1, h1, h2, h3, h4⟩ := reload_inv hL hi
  obtain rfl : c1 = c' := by rw [h1] at hc; exact Option.some.inj hc
  intro s hs
  have hm : s.1 ∈ c1.sites.map Prod.fst := List.mem_map_of_mem hs
  rw [h4] at hm
  obtain ⟨t, ht, he⟩ := List.mem_map.1 hm
  have hv : ∀ p ∈ s.1, k.isVac p.1 = false := by
    intro p hp
    have : p.1 ∈ s.1.map Prod.fst := List.mem_map_of_mem hp
    rw [← he, uniform_keys] at this
    obtain ⟨q, hq, hqe⟩ := List.mem_map.1 this
    rw [← hqe]
    exact (withoutVacancies_not hq).2
  refine ⟨hv, ?_⟩
  intro v hvv hne ho
  rcases (offers_iff (h2.tak s hs).2.2 v).1 ho with ho | ⟨ho, -⟩
  · obtain ⟨p, hp, rfl⟩ := List.mem_map.1 ho
    rw [hv p hp] at hvv
    cases hvv
  · exact hne ho

/-- C96. A loaded cluster offers at every site the species of the saved one if the site names no
vacancy, or only `Vacancy()` with more than a hundredth, under a symbol of no other species. -/
theorem C96_offered (k : SpecKind) {L : CLattice d K} (hL : L.Ok) {coords : List (Fin d → K)}
    {c c' : Clu d K} (h : CluBuilt k L coords c) (hc : Clu.fromDict k (c.asDict k) = some c')
    (i : ℕ) {s s' : CSite d K} (hs : c.sites[i]? = some s) (hs' : c'.sites[i]? = some s')
    (hv : ∀ p ∈ s.1, k.isVac p.1 = true → p.1 = k.vac ∧ 1 / 100 < p.2)
    (hsym : ∀ p ∈ s.1, ∀ q ∈ s.1, k.isVac p.1 = true → k.isVac q.1 = false →
      k.symbol p.1 ≠ k.symbol q.1) (sp : ℕ) :
    Offers k.toVacKind s'.1 sp ↔ Offers k.toVacKind s.1 sp := by
  have hi := built_inv hL h
  obtain ⟨c1, h1, h2, h3, h4⟩ := reload_inv hL hi
  obtain rfl : c1 = c' := by rw [h1] at hc; exact Option.some.inj hc
  have hcomp : s'.1 = uniformComp (withoutVacancies k s.1) := by
    have e := congrArg (fun l => l[i]?) h4
    simpa [List.getElem?_map, hs, hs'] using e
  have ht := hi.tak s (List.mem_of_getElem? hs)
  have htw := takes_without ht
  rw [hcomp, offers_uniform htw, offers_iff htw.2.2, offers_iff ht.2.2]
  have hw : withoutVacancies k s.1 = s.1.filter fun p => !k.isVac p.1 := by
    unfold withoutVacancies
    apply List.filter_congr
    intro p hp
    cases hpv : k.isVac p.1 with
    | true =>
      rw [Bool.not_true, ← Bool.not_eq_true]
      intro hall
      have := List.all_eq_true.1 hall p hp
      simp [hpv] at this
    | false =>
      rw [Bool.not_false, List.all_eq_true]
      intro q hq
      cases hqv : k.isVac q.1 with
      | false => rfl
      | true => simpa using hsym q hq p hp hqv hpv
  rw [hw]
  by_cases hex : ∃ p ∈ s.1, k.isVac p.1 = true
  · obtain ⟨p, hp, hpv⟩ := hex
    obtain ⟨sp', hsp⟩ := Option.isSome_iff_exists.1 ht.2.2
    have hone := ((make_some hsp).2.2.1 ⟨p, hp, hpv⟩).1
    have hlt : SiteComp.numAtoms (s.1.filter fun p => !k.isVac p.1) < 99 / 100 := by
      have e := numAtoms_split s.1 fun p => !k.isVac p.1
      have hmem : p ∈ s.1.filter fun q => !!k.isVac q.1 := List.mem_filter.2 ⟨hp, by simp [hpv]⟩
      have hge : p.2 ≤ SiteComp.numAtoms (s.1.filter fun q => !!k.isVac q.1) := by
        unfold SiteComp.numAtoms
        apply List.single_le_sum _ _ (List.mem_map_of_mem hmem)
        intro x hx
        obtain ⟨q, hq, rfl⟩ := List.mem_map.1 hx
        exact (ht.1.2 q (List.mem_of_mem_filter hq)).le
      have := (hv p hp hpv).2
      rw [hone] at e
      linarith
    constructor
    · rintro (h5 | ⟨h5, -⟩)
      · obtain ⟨q, hq, rfl⟩ := List.mem_map.1 h5
        exact Or.inl (List.mem_map_of_mem (List.mem_of_mem_filter hq))
      · exact Or.inl (List.mem_map.2 ⟨p, hp, by rw [h5, (hv p hp hpv).1]⟩)
    · rintro (h5 | ⟨-, h5⟩)
      · obtain ⟨q, hq, rfl⟩ := List.mem_map.1 h5
        cases hqv : k.isVac q.1 with
        | true => exact Or.inr ⟨(hv q hq hqv).1, hlt⟩
        | false => exact Or.inl (List.mem_map_of_mem (List.mem_filter.2 ⟨hq, by simp [hqv]⟩))
      · rw [hone] at h5; norm_num at h5
  · push Not at hex
    have : (s.1.filter fun p => !k.isVac p.1) = s.1 := by
      apply List.filter_eq_self.2
      intro p hp
      have := hex p hp
      simpa using this
    rw [this]

omit [Field K] [LinearOrder K] [IsStrictOrderedRing K] [FloorRing K] in
/-- C96. What `to` does.  A JSON text is returned, or written to the file named, if the format is
"json" in any case or the name contains ".json" or ".mson"; otherwise a YAML text is returned, or
written under the base name in the working directory, if the format is "yaml" or the name contains
".yaml"; otherwise it raises.  No other file changes. -/
theorem C96_to (k : SpecKind) (c : Clu d K) (fmt : Option (List Char)) (fs : CFiles d K) :
    (∀ p, (fmt.map (List.map Char.toLower) = some nameJson ∨ JsonName p) →
      c.to k fmt (some p) fs = (.none, fun q => if q = p then some (.json, c.asDict k) else fs q)) ∧
    (∀ p, ¬ (fmt.map (List.map Char.toLower) = some nameJson ∨ JsonName p) →
      (fmt.map (List.map Char.toLower) = some nameYaml ∨ YamlName p) →
      c.to k fmt (some p) fs =
        (.none, fun q => if q.dir = [] ∧ q.base = p.base then some (.yaml, c.asDict k) else fs q)) ∧
    (∀ p, ¬ (fmt.map (List.map Char.toLower) = some nameJson ∨ JsonName p) →
      ¬ (fmt.map (List.map Char.toLower) = some nameYaml ∨ YamlName p) →
      c.to k fmt (some p) fs = (.invalid, fs)) ∧
    c.to k fmt none fs =
      (if fmt.map (List.map Char.toLower) = some nameJson then .text (.json, c.asDict k)
        else if fmt.map (List.map Char.toLower) = some nameYaml then .text (.yaml, c.asDict k)
        else .invalid, fs) := by
  have hj : ∀ w : List Char, w ≠ [] →
      ((fmt.getD []).map Char.toLower = w ↔ fmt.map (List.map Char.toLower) = some w) := by
    intro w hw
    cases fmt with
    | none => simp [hw.symm]
    | some f => simp
  have h1 := hj nameJson (by decide)
  have h2 := hj nameYaml (by decide)
  have hc1 : ∀ p : CPath, (decide ((fmt.getD []).map Char.toLower = nameJson) || nameHas dotJson p.base ||
      nameHas dotMson p.base) = true ↔ (fmt.map (List.map Char.toLower) = some nameJson ∨ JsonName p) := by
    intro p
    rw [Bool.or_assoc, Bool.or_eq_true, jsonName_iff, decide_eq_true_iff, h1]
  have hc2 : ∀ p : CPath, (decide ((fmt.getD []).map Char.toLower = nameYaml) || nameHas dotYaml p.base)
      = true ↔ (fmt.map (List.map Char.toLower) = some nameYaml ∨ YamlName p) := by
    intro p
    rw [Bool.or_eq_true, yamlName_iff, decide_eq_true_iff, h2]
  refine ⟨?_, ?_, ?_, ?_⟩
  · intro p hp
    unfold Clu.to
    simp only [Option.map_some, Option.getD_some]
    rw [if_pos ((hc1 p).2 hp)]
    rfl
  · intro p hp hy
    unfold Clu.to
    simp only [Option.map_some, Option.getD_some]
    rw [if_neg (fun h => hp ((hc1 p).1 h)), if_pos ((hc2 p).2 hy)]
    unfold CFiles.write
    congr 1
    funext q
    cases q
    simp
  · intro p hp hy
    unfold Clu.to
    simp only [Option.map_some, Option.getD_some]
    rw [if_neg (fun h => hp ((hc1 p).1 h)), if_neg (fun h => hy ((hc2 p).1 h))]
  · unfold Clu.to
    have e1 : nameHas dotJson [] = false := by decide
    have e2 : nameHas dotMson [] = false := by decide
    have e3 : nameHas dotYaml [] = false := by decide
    simp only [Option.map_none, Option.getD_none, e1, e2, e3, Bool.or_false, decide_eq_true_eq, h1, h2]
    split
    · rfl
    · split <;> rfl

omit [IsStrictOrderedRing K] in
/-- C96. A text returned by `to` is read by `from_str` in its format, in lower case, as
the loaded cluster; a JSON text also as YAML; a YAML text not as JSON; other formats raise, "JSON"
in capitals among them. -/
theorem C96_from_str (k : SpecKind) (c : Clu d K) :
    Clu.fromStr k (.json, c.asDict k) nameJson = Clu.fromDict k (c.asDict k) ∧
    Clu.fromStr k (.json, c.asDict k) nameYaml = Clu.fromDict k (c.asDict k) ∧
    Clu.fromStr k (.yaml, c.asDict k) nameYaml = Clu.fromDict k (c.asDict k) ∧
    Clu.fromStr k (.yaml, c.asDict k) nameJson = none ∧
    (∀ t f, f ≠ nameJson → f ≠ nameYaml → Clu.fromStr k (t : CText d K) f = none) ∧
    (∀ t, Clu.fromStr k (t : CText d K) ['J', 'S', 'O', 'N'] = none) := by
  have hne : nameYaml ≠ nameJson := by decide
  have hall : ∀ (t : CText d K) f, f ≠ nameJson → f ≠ nameYaml → Clu.fromStr k t f = none := by
    intro t f h1 h2
    unfold Clu.fromStr
    rw [if_neg h1, if_neg h2]
  refine ⟨?_, ?_, ?_, ?_, hall, fun t => hall t _ (by decide) (by decide)⟩
  · unfold Clu.fromStr; rw [if_pos rfl]; rfl
  · unfold Clu.fromStr; rw [if_neg hne, if_pos rfl]; rfl
  · unfold Clu.fromStr; rw [if_neg hne, if_pos rfl]; rfl
  · unfold Clu.fromStr; rw [if_pos rfl]; rfl

/-- C96. A cluster written with `to(filename=…)` is read by `from_file` of the same name as the
loaded cluster, whatever was there before.  *Missing: a YAML name outside the working directory,
see `C96_yaml_misplaced`.* -/
theorem C96_file_partial (k : SpecKind) (c : Clu d K) (p : CPath) (fs : CFiles d K)
    (hp : JsonName p ∨ (YamlName p ∧ p.dir = [])) :
    Clu.fromFile k p (c.to k none (some p) fs).2 = Clu.fromDict k (c.asDict k) := by
  obtain ⟨h1, h2, -, -⟩ := C96_to k c none fs
  by_cases hj : JsonName p
  · rw [h1 p (Or.inr hj)]
    unfold Clu.fromFile
    simp only [if_true, Option.bind_eq_bind, Option.bind_some]
    rw [if_pos ((jsonName_iff p).2 hj)]
    exact (C96_from_str k c).1
  · rcases hp with hp | ⟨hy, hd⟩
    · exact absurd hp hj
    · rw [h2 p (by rintro (h | h); · simp at h
                   · exact hj h) (Or.inr hy)]
      unfold Clu.fromFile
      simp only [hd, true_and, if_true, Option.bind_eq_bind, Option.bind_some]
      rw [if_neg (fun h => hj ((jsonName_iff p).1 h)), if_pos ((yamlName_iff p).2 hy)]
      exact (C96_from_str k c).2.2.1

/-- C96. The code loses a cluster written to a YAML file in another directory: the file named is
left as it was, so that `from_file` raises if there was none and returns what was there otherwise,
while the file of that name in the working directory is overwritten. -/
theorem C96_yaml_misplaced (k : SpecKind) (c : Clu d K) (p : CPath) (fs : CFiles d K)
    (hj : ¬ JsonName p) (hy : YamlName p) (hd : p.dir ≠ []) :
    Clu.fromFile k p (c.to k none (some p) fs).2 = Clu.fromFile k p fs ∧
    (fs p = none → Clu.fromFile k p (c.to k none (some p) fs).2 = none) ∧
    (c.to k none (some p) fs).2 ⟨[], p.base⟩ = some (.yaml, c.asDict k) := by
  obtain ⟨-, h2, -, -⟩ := C96_to k c none fs
  rw [h2 p (by rintro (h | h); · simp at h
               · exact hj h) (Or.inr hy)]
  have he : Clu.fromFile k p (fun q => if q.dir = [] ∧ q.base = p.base then some (.yaml, c.asDict k)
      else fs q) = Clu.fromFile k p fs := by
    unfold Clu.fromFile
    simp only [hd, false_and, if_false]
  refine ⟨he, ?_, by simp⟩
  intro hn
  show Clu.fromFile k p (fun q => _) = none
  rw [he]
  unfold Clu.fromFile
  rw [hn]
  rfl

/-- C96. Against its documentation `to` does not let the format override the name: "yaml" with a
JSON name writes JSON; and without format and name it raises instead of returning JSON. -/
theorem C96_format_ignored (k : SpecKind) (c : Clu d K) (fs : CFiles d K) :
    (∀ p, JsonName p → (c.to k (some nameYaml) (some p) fs).2 p = some (.json, c.asDict k)) ∧
    c.to k none none fs = (.invalid, fs) := by
  constructor
  · intro p hp
    rw [(C96_to k c (some nameYaml) fs).1 p (Or.inr hp)]
    simp
  · rw [(C96_to k c none fs).2.2.2]
    simp

/-! ### The hypotheses are met -/

/-- lithium 3, a dummy species 7 with the symbol of the vacancy 9, another vacancy 8 -/
def demoKind : SpecKind where
  isVac := fun s => s == 9 || s == 8
  vac := 9
  isVac_vac := rfl
  symbol := fun s => if s = 9 then 7 else if s = 8 then 6 else s
  plain := fun s => if s = 9 then 7 else if s = 8 then 6 else s
  vacOf := fun s => if s = 7 then 9 else if s = 6 then 8 else s
  plain_of_not := by intro s h; simp at h; simp [h]
  isVac_plain := by
    intro s
    by_cases h9 : s = 9
    · simp [h9]
    · by_cases h8 : s = 8
      · simp [h8]
      · simp [h9, h8]
  symbol_plain := by
    intro s
    by_cases h9 : s = 9
    · simp [h9]
    · by_cases h8 : s = 8
      · simp [h8]
      · simp [h9, h8]
  vacOf_plain := by
    intro s h
    simp at h
    rcases h with rfl | rfl <;> rfl

def demoLattice : CLattice 1 ℚ := ⟨fun _ _ => 2, fun _ _ => 1 / 2⟩

def demoComp : SiteComp := [(3, 1 / 4), (9, 3 / 4)]
def otherComp : SiteComp := [(3, 1 / 4), (8, 3 / 4)]

def demoClu (c : SiteComp) : Clu 1 ℚ :=
  Clu.make [⟨c, c⟩, ⟨c, c⟩] [fun _ => 3, fun _ => 4] demoLattice

theorem demo_made : SiteSpace.make demoKind.toVacKind demoComp = some ⟨demoComp, demoComp⟩ ∧
    SiteSpace.make demoKind.toVacKind otherComp = some ⟨otherComp, otherComp⟩ := by decide +kernel

theorem demo_built : CluBuilt demoKind demoLattice [fun _ => 3, fun _ => 4] (demoClu demoComp) := by
  refine .init [⟨demoComp, demoComp⟩, ⟨demoComp, demoComp⟩] rfl ?_
  intro t ht
  simp only [List.mem_cons, List.not_mem_nil, or_false, or_self] at ht
  subst ht
  refine ⟨demoComp, ⟨⟨by decide, ?_⟩, by decide, by rw [demo_made.1]; rfl⟩, demo_made.1⟩
  intro p hp
  simp only [demoComp, List.mem_cons, List.not_mem_nil, or_false] at hp
  rcases hp with rfl | rfl <;> norm_num

example : demoLattice.Ok := by
  unfold CLattice.Ok
  ext i j
  rw [Matrix.mul_apply]
  fin_cases i
  fin_cases j
  decide +kernel

/-- the centroid 7/2 is moved into the cell, the sites stay -/
example : (demoClu demoComp).frac.map (fun x => x 0) = [0, 1] ∧
    (demoClu demoComp).sites.map (fun s => s.2 0) = [6, 8] := by decide +kernel

/-- a copy of the cluster has other amounts -/
example : ((demoClu demoComp).copy demoKind.toVacKind).map (fun c => c.sites.map Prod.fst) =
    some [[(3, 1 / 2), (9, 1 / 2)], [(3, 1 / 2), (9, 1 / 2)]] := by decide +kernel

/-- a loaded cluster names no vacancy -/
example : (Clu.fromDict demoKind ((demoClu demoComp).asDict demoKind)).map
    (fun c => c.sites.map Prod.fst) = some [[(3, 1 / 2)], [(3, 1 / 2)]] := by decide +kernel

/-- the species offered are kept for the vacancy 9 but not for the vacancy 8 -/
example : (SiteSpace.make demoKind.toVacKind demoComp).map SiteSpace.keys = some [3, 9] ∧
    (SiteSpace.make demoKind.toVacKind otherComp).map SiteSpace.keys = some [3, 8] ∧
    (SiteSpace.make demoKind.toVacKind [(3, 1 / 2)]).map SiteSpace.keys = some [3, 9] ∧
    (Clu.fromDict demoKind ((demoClu otherComp).asDict demoKind)).map
      (fun c => c.sites.map Prod.fst) = some [[(3, 1 / 2)], [(3, 1 / 2)]] := by decide +kernel

example : JsonName ⟨[], ['a', '.', 'j', 's', 'o', 'n']⟩ := ⟨['a'], [], Or.inl rfl⟩

example : ¬ JsonName ⟨[['d']], ['a', '.', 'y', 'a', 'm', 'l']⟩ ∧
    YamlName ⟨[['d']], ['a', '.', 'y', 'a', 'm', 'l']⟩ := by
  rw [← jsonName_iff, ← yamlName_iff]
  decide

end Smol
