import Verif.Spec.ClusterIO
import Verif.Lemmas.OrbitSearch
import Verif.Lemmas.SiteSpace

/-! Lemmas for clusters as objects. -/

set_option linter.unusedSectionVars false

namespace Smol
open Smol.Spec

variable {d : ℕ} {K : Type*} [Field K] [LinearOrder K] [IsStrictOrderedRing K] [FloorRing K]

omit [LinearOrder K] [IsStrictOrderedRing K] [FloorRing K] in
theorem toFrac_toCart {L : CLattice d K} (h : L.Ok) (x : Fin d → K) : L.toFrac (L.toCart x) = x := by
  have h1 : L.toFrac (L.toCart x) = Matrix.vecMul (Matrix.vecMul x L.mat) L.inv := rfl
  rw [h1, Matrix.vecMul_vecMul, show L.mat * L.inv = 1 from h, Matrix.vecMul_one]

/-- what holds of every cluster built from coordinates -/
structure CluInv (k : SpecKind) (L : CLattice d K) (coords : List (Fin d → K)) (c : Clu d K) : Prop where
  lat : c.lattice = L
  sit : c.sites.map Prod.snd = coords.map L.toCart
  fra : c.frac = mkCluster coords
  cen : c.centroid = fun i => Smol.centroid coords i - (⌊Smol.centroid coords i⌋ : ℤ)
  tak : ∀ s ∈ c.sites, Takes k.toVacKind s.1

theorem takes_uniform {k : VacKind} {c : SiteComp} (h : Takes k c) : Takes k (uniformComp c) := by
  obtain ⟨⟨h1, h2⟩, h3, h4⟩ := h
  obtain ⟨s, hs⟩ := Option.isSome_iff_exists.1 h4
  obtain ⟨u, hu, -⟩ := uniform_make h3 hs
  refine ⟨⟨by rw [uniform_keys]; exact h1, ?_⟩, by simpa [uniformComp] using h3, by rw [hu]; rfl⟩
  intro p hp
  unfold uniformComp at hp
  obtain ⟨q, hq, rfl⟩ := List.mem_map.1 hp
  have : 0 < c.length := List.length_pos_of_mem hq
  have h0 : (0 : ℚ) < c.length := by exact_mod_cast this
  show (0 : ℚ) < 1 / _
  split <;> positivity

theorem takes_filter {k : VacKind} {c : SiteComp} (h : Takes k c) (P : ℕ × ℚ → Bool)
    (hP : ∀ p ∈ c, P p = true → k.isVac p.1 = false) : Takes k (c.filter P) := by
  obtain ⟨⟨h1, h2⟩, h3, h4⟩ := h
  obtain ⟨s, hs⟩ := Option.isSome_iff_exists.1 h4
  have hok : CompOk (c.filter P) :=
    ⟨h1.sublist (List.filter_sublist.map _), fun p hp => h2 p (List.mem_of_mem_filter hp)⟩
  refine ⟨hok, lt_of_le_of_lt (List.length_filter_le _ _) h3, ?_⟩
  have hle : SiteComp.numAtoms (c.filter P) ≤ c.numAtoms := by
    unfold SiteComp.numAtoms
    apply List.Sublist.sum_le_sum (List.filter_sublist.map _)
    intro x hx
    obtain ⟨p, hp, rfl⟩ := List.mem_map.1 hx
    exact (h2 p hp).le
  rw [make_of (numAtoms_nonneg hok) (hle.trans (make_some hs).2.1)]
  · rfl
  · rintro ⟨p, hp, hv⟩
    rw [List.mem_filter] at hp
    rw [hP p hp.1 hp.2] at hv
    cases hv

omit [Field K] [LinearOrder K] [IsStrictOrderedRing K] [FloorRing K] in
theorem siteSpacesOf_ok {k : VacKind} (sites : List (CSite d K))
    (h : ∀ s ∈ sites, Takes k s.1) :
    ∃ spaces, siteSpacesOf k sites = some spaces ∧
      spaces.map SiteSpace.comp = sites.map fun s => uniformComp s.1 := by
  unfold siteSpacesOf
  induction sites with
  | nil => exact ⟨[], rfl, rfl⟩
  | cons a l ih =>
    obtain ⟨sp, h1, h2⟩ := ih fun s hs => h s (List.mem_cons_of_mem _ hs)
    obtain ⟨u, hu⟩ := Option.isSome_iff_exists.1 (takes_uniform (h a List.mem_cons_self)).2.2
    refine ⟨u :: sp, ?_, ?_⟩
    · rw [List.mapM_cons, hu]
      simp [h1]
    · rw [List.map_cons, List.map_cons, h2, (make_some hu).2.2.2.1]

omit [IsStrictOrderedRing K] in
theorem fromSites_ok {k : VacKind} {L : CLattice d K} (hL : L.Ok) {coords : List (Fin d → K)}
    (sites : List (CSite d K)) (h : ∀ s ∈ sites, Takes k s.1)
    (hc : sites.map Prod.snd = coords.map L.toCart) :
    Clu.fromSites k sites L = some
      { sites := (sites.map fun s => uniformComp s.1).zip (coords.map L.toCart)
        frac := mkCluster coords
        centroid := fun i => Smol.centroid coords i - (⌊Smol.centroid coords i⌋ : ℤ)
        lattice := L
        id := none } := by
  obtain ⟨sp, h1, h2⟩ := siteSpacesOf_ok sites h
  have h3 : (sites.map fun s => L.toFrac s.2) = coords := by
    have : (sites.map fun s => L.toFrac s.2) = (sites.map Prod.snd).map L.toFrac := by simp
    rw [this, hc, List.map_map]
    conv_rhs => rw [← List.map_id coords]
    apply List.map_congr_left
    intro x _
    exact toFrac_toCart hL x
  unfold Clu.fromSites
  rw [h1, Option.map_some, h3]
  unfold Clu.make
  rw [h2]

theorem map_snd_zip_eq {α β : Type*} (a : List α) (b : List β) (h : a.length = b.length) :
    (a.zip b).map Prod.snd = b := by
  rw [List.map_snd_zip]
  omega

theorem map_fst_zip_eq {α β : Type*} (a : List α) (b : List β) (h : a.length = b.length) :
    (a.zip b).map Prod.fst = a := by
  rw [List.map_fst_zip]
  omega

omit [IsStrictOrderedRing K] in
/-- what `from_sites` gives -/
theorem fromSites_inv {k : SpecKind} {L : CLattice d K} (hL : L.Ok) {coords : List (Fin d → K)}
    (sites : List (CSite d K)) (h : ∀ s ∈ sites, Takes k.toVacKind s.1)
    (hc : sites.map Prod.snd = coords.map L.toCart) :
    ∃ c', Clu.fromSites k.toVacKind sites L = some c' ∧ CluInv k L coords c' ∧ c'.id = none ∧
      c'.sites.map Prod.fst = sites.map fun s => uniformComp s.1 := by
  have hlen : sites.length = coords.length := by simpa using congrArg List.length hc
  refine ⟨_, fromSites_ok hL sites h hc, ⟨rfl, map_snd_zip_eq _ _ (by simp [hlen]), rfl, rfl, ?_⟩, rfl,
    map_fst_zip_eq _ _ (by simp [hlen])⟩
  intro s hs
  have := (List.of_mem_zip hs).1
  obtain ⟨t, ht, he⟩ := List.mem_map.1 this
  rw [← he]
  exact takes_uniform (h t ht)

theorem loadComp_eq (k : SpecKind) (c : SiteComp) :
    loadComp k ((c.filter fun p => k.isVac p.1).map fun p => k.symbol p.1)
      (c.map fun p => (k.plain p.1, p.2)) = withoutVacancies k c := by
  unfold loadComp withoutVacancies
  have hP : ∀ p : ℕ × ℚ,
      (c.all fun q => !(k.isVac q.1) || decide (k.symbol q.1 ≠ k.symbol p.1)) = true ↔
        k.symbol p.1 ∉ ((c.filter fun p => k.isVac p.1).map fun p => k.symbol p.1) := by
    intro p
    simp only [List.all_eq_true, List.mem_map, List.mem_filter, Bool.or_eq_true, Bool.not_eq_true',
      decide_eq_true_eq, not_exists, not_and, and_imp]
    constructor
    · intro h q hq hv he
      rcases h q hq with h | h
      · rw [h] at hv; cases hv
      · exact h he
    · intro h q hq
      cases hv : k.isVac q.1 with
      | false => exact Or.inl rfl
      | true => exact Or.inr (h q hq hv)
  rw [List.filter_map, List.map_map]
  rw [show c.filter (fun p => c.all fun q => !(k.isVac q.1) || decide (k.symbol q.1 ≠ k.symbol p.1))
      = (c.filter fun p => c.all fun q => !(k.isVac q.1) || decide (k.symbol q.1 ≠ k.symbol p.1)).map id
    from (List.map_id _).symm]
  rw [show c.filter ((fun p => decide (k.symbol p.1 ∉
        ((c.filter fun p => k.isVac p.1).map fun p => k.symbol p.1))) ∘ fun p => (k.plain p.1, p.2))
      = c.filter (fun p => c.all fun q => !(k.isVac q.1) || decide (k.symbol q.1 ≠ k.symbol p.1)) from ?_]
  · apply List.map_congr_left
    intro p hp
    rw [List.mem_filter, hP] at hp
    have hnv : k.isVac p.1 = false := by
      cases hv : k.isVac p.1 with
      | false => rfl
      | true => exact absurd (List.mem_map_of_mem (List.mem_filter.2 ⟨hp.1, hv⟩)) hp.2
    simp only [Function.comp, k.symbol_plain, id]
    rw [if_pos hp.2, k.plain_of_not _ hnv]
  · apply List.filter_congr
    intro p _
    rw [Bool.eq_iff_iff, hP]
    simp only [Function.comp, k.symbol_plain, decide_eq_true_eq]

theorem withoutVacancies_not {k : SpecKind} {c : SiteComp} {p : ℕ × ℚ}
    (h : p ∈ withoutVacancies k c) : p ∈ c ∧ k.isVac p.1 = false := by
  unfold withoutVacancies at h
  rw [List.mem_filter] at h
  refine ⟨h.1, ?_⟩
  have := List.all_eq_true.1 h.2 p h.1
  simpa using this

theorem takes_without {k : SpecKind} {c : SiteComp} (h : Takes k.toVacKind c) :
    Takes k.toVacKind (withoutVacancies k c) := by
  apply takes_filter h
  intro p hp hP
  exact (withoutVacancies_not (List.mem_filter.2 ⟨hp, hP⟩)).2

omit [IsStrictOrderedRing K] in
/-- loading a saved cluster -/
theorem reload_eq (k : SpecKind) (c : Clu d K) :
    Clu.fromDict k (c.asDict k) = Clu.fromSites k.toVacKind
      (c.sites.map fun s => (withoutVacancies k s.1, s.2)) c.lattice := by
  unfold Clu.fromDict Clu.asDict
  simp only [List.length_map]
  rw [List.drop_eq_nil_of_le (by simp), List.append_nil]
  congr 1
  rw [List.zip_map', List.map_map]
  apply List.map_congr_left
  intro s _
  simp only [Function.comp]
  rw [loadComp_eq]

theorem copy_inv {k : SpecKind} {L : CLattice d K} (hL : L.Ok) {coords : List (Fin d → K)} {c : Clu d K}
    (h : CluInv k L coords c) :
    ∃ c', c.copy k.toVacKind = some c' ∧ CluInv k L coords c' ∧ c'.id = none ∧
      c'.sites.map Prod.fst = c.sites.map fun s => uniformComp s.1 := by
  unfold Clu.copy
  rw [h.lat]
  exact fromSites_inv hL c.sites h.tak h.sit

theorem reload_inv {k : SpecKind} {L : CLattice d K} (hL : L.Ok) {coords : List (Fin d → K)} {c : Clu d K}
    (h : CluInv k L coords c) :
    ∃ c', Clu.fromDict k (c.asDict k) = some c' ∧ CluInv k L coords c' ∧ c'.id = none ∧
      c'.sites.map Prod.fst = c.sites.map fun s => uniformComp (withoutVacancies k s.1) := by
  rw [reload_eq, h.lat]
  obtain ⟨c', h1, h2, h3, h4⟩ := fromSites_inv (k := k) hL
    (c.sites.map fun s => (withoutVacancies k s.1, s.2)) (coords := coords) (by
      intro s hs
      obtain ⟨t, ht, rfl⟩ := List.mem_map.1 hs
      exact takes_without (h.tak t ht)) (by rw [List.map_map]; exact h.sit)
  exact ⟨c', h1, h2, h3, by rw [h4, List.map_map]; rfl⟩

theorem built_inv {k : SpecKind} {L : CLattice d K} (hL : L.Ok) {coords : List (Fin d → K)} {c : Clu d K}
    (h : CluBuilt k L coords c) : CluInv k L coords c := by
  induction h with
  | init spaces hlen hs =>
    refine ⟨rfl, map_snd_zip_eq _ _ (by simp [hlen]), rfl, rfl, ?_⟩
    intro s hs'
    have := (List.of_mem_zip hs').1
    obtain ⟨t, ht, he⟩ := List.mem_map.1 this
    obtain ⟨c, hc, hm⟩ := hs t ht
    rw [← he, (make_some hm).2.2.2.1]
    exact hc
  | assign c n h ih => exact ⟨ih.lat, ih.sit, ih.fra, ih.cen, ih.tak⟩
  | copy c c' h hc ih =>
    obtain ⟨c'', h1, h2, -⟩ := copy_inv hL ih
    rw [h1] at hc
    cases hc
    exact h2
  | reload c c' h hc ih =>
    obtain ⟨c'', h1, h2, -⟩ := reload_inv hL ih
    rw [h1] at hc
    cases hc
    exact h2

theorem inv_placed {k : SpecKind} {L : CLattice d K} {coords : List (Fin d → K)} {c : Clu d K}
    (hne : coords ≠ []) (h : CluInv k L coords c) : Placed L coords c := by
  have hp : (coords.length : K) ≠ 0 := by
    have := List.length_pos_iff.2 hne
    exact_mod_cast this.ne'
  have hcen : ∀ i, c.centroid i = Smol.centroid (mkCluster coords) i := by
    intro i
    rw [h.cen, mkCluster_eq, centroid_shift _ hne]
    simp [shift, sub_eq_add_neg]
  refine ⟨h.lat, h.sit, ⟨_, by rw [h.fra, mkCluster_eq]⟩, ?_, ?_⟩
  · intro i
    rw [hcen, h.fra]
    unfold Smol.centroid
    rw [mkCluster_length]
    field_simp
  · intro i
    rw [hcen]
    exact mkCluster_inCell hne i

theorem shares_uniform {c : SiteComp} : Shares c (uniformComp c) := by
  refine ⟨uniform_keys c, ?_⟩
  intro p hp
  unfold uniformComp at hp
  obtain ⟨q, hq, rfl⟩ := List.mem_map.1 hp
  have : 0 < c.length := List.length_pos_of_mem hq
  have h0 : (0 : ℚ) < c.length := by exact_mod_cast this
  show 1 / ((c.length : ℚ) + if c.numAtoms < 99 / 100 then 1 else 0) * _ = 1
  split
  · have : (c.length : ℚ) + 1 ≠ 0 := by positivity
    field_simp
  · have : (c.length : ℚ) + 0 ≠ 0 := by simpa using h0.ne'
    field_simp

theorem offers_uniform {k : VacKind} {c : SiteComp} (h : Takes k c) (sp : ℕ) :
    Offers k (uniformComp c) sp ↔ Offers k c sp := by
  obtain ⟨-, h3, h4⟩ := h
  obtain ⟨s, hs⟩ := Option.isSome_iff_exists.1 h4
  obtain ⟨u, hu, he⟩ := uniform_make h3 hs
  constructor
  · rintro ⟨t, ht, hm⟩
    rw [hu] at ht; cases ht
    exact ⟨s, hs, he ▸ hm⟩
  · rintro ⟨t, ht, hm⟩
    rw [hs] at ht; cases ht
    exact ⟨u, hu, he ▸ hm⟩

theorem offers_iff {k : VacKind} {c : SiteComp} (h : (SiteSpace.make k c).isSome) (sp : ℕ) :
    Offers k c sp ↔ sp ∈ c.map Prod.fst ∨ (sp = k.vac ∧ c.numAtoms < 99 / 100) := by
  obtain ⟨s, hs⟩ := Option.isSome_iff_exists.1 h
  have hk := make_keys hs
  unfold Offers
  rw [hs]
  simp only [Option.some.injEq, exists_eq_left', hk, List.mem_append,
    (List.perm_insertionSort _ _).mem_iff]
  split <;> simp_all

theorem eqv_self {k : SpecKind} {L : CLattice d K} {coords : List (Fin d → K)} {a b : Clu d K}
    (hne : coords ≠ []) (ha : CluInv k L coords a) (hb : CluInv k L coords b) :
    a.eqv b = true := by
  unfold Clu.eqv clusterEq
  rw [ha.fra, hb.fra]
  have hn : mkCluster coords ≠ [] := by
    intro h
    have := mkCluster_length coords
    rw [h] at this
    exact hne (List.length_eq_zero_iff.1 this.symm)
  rw [recentered_of_perm (T := fun _ => 0) hn (by rw [map_shift_zero])]
  rw [map_shift_zero]
  simp

theorem numAtoms_split (c : SiteComp) (P : ℕ × ℚ → Bool) :
    c.numAtoms = SiteComp.numAtoms (c.filter P) + SiteComp.numAtoms (c.filter fun p => !P p) := by
  unfold SiteComp.numAtoms
  induction c with
  | nil => simp
  | cons a l ih =>
    cases h : P a <;> simp [h, ih] <;> ring

omit [Field K] [IsStrictOrderedRing K] [FloorRing K] in
theorem foldr_max_mem [Zero K] (l : List K) : l.foldr max 0 = 0 ∨ l.foldr max 0 ∈ l := by
  induction l with
  | nil => exact Or.inl rfl
  | cons a l ih =>
    rw [List.foldr_cons]
    rcases max_choice a (l.foldr max 0) with h | h
    · rw [h]; exact Or.inr List.mem_cons_self
    · rw [h]
      rcases ih with ih | ih
      · exact Or.inl ih
      · exact Or.inr (List.mem_cons_of_mem _ ih)

theorem nameHas_iff (ext base : List Char) : nameHas ext base = true ↔ ∃ a b, base = a ++ ext ++ b := by
  unfold nameHas
  simp only [decide_eq_true_eq]
  constructor
  · rintro ⟨a, b, h⟩
    exact ⟨a, b, h.symm⟩
  · rintro ⟨a, b, h⟩
    exact ⟨a, b, h.symm⟩

theorem jsonName_iff (p : CPath) :
    (nameHas dotJson p.base || nameHas dotMson p.base) = true ↔ JsonName p := by
  rw [Bool.or_eq_true, nameHas_iff, nameHas_iff]
  unfold JsonName
  constructor
  · rintro (⟨a, b, h⟩ | ⟨a, b, h⟩)
    · exact ⟨a, b, Or.inl h⟩
    · exact ⟨a, b, Or.inr h⟩
  · rintro ⟨a, b, h | h⟩
    · exact Or.inl ⟨a, b, h⟩
    · exact Or.inr ⟨a, b, h⟩

theorem yamlName_iff (p : CPath) : nameHas dotYaml p.base = true ↔ YamlName p := nameHas_iff _ _

end Smol
