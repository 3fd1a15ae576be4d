import Verif.Model.SiteSpace
import Verif.Spec.SiteSpace
import Verif.Lemmas.Sublattice

namespace Smol
open Spec

theorem mapM_eq_none_iff {α β : Type*} (f : α → Option β) (l : List α) :
    l.mapM f = none ↔ ∃ a ∈ l, f a = none := by
  induction l with
  | nil => simp
  | cons a l ih =>
    rw [List.mapM_cons]
    cases ha : f a with
    | none => simp [ha]
    | some b =>
      cases hl : l.mapM f with
      | none => simp [ha, hl] at ih ⊢; exact ih
      | some r =>
        simp only [hl, reduceCtorEq, false_iff] at ih
        simp only [Option.bind_eq_bind, Option.bind_some, Option.pure_def, reduceCtorEq, false_iff]
        rintro ⟨x, hx, hn⟩
        rcases List.mem_cons.1 hx with rfl | hx
        · simp [ha] at hn
        · exact ih ⟨x, hx, hn⟩

/-- `mapM` as a statement about positions -/
theorem mapM_eq_some_get {α β : Type*} (f : α → Option β) (l : List α) (r : List β) :
    l.mapM f = some r ↔ l.length = r.length ∧
      ∀ i (h : i < l.length) (h' : i < r.length), f l[i] = some r[i] := by
  rw [mapM_eq_some_forall₂, List.forall₂_iff_get]
  simp

theorem indexOf?_eq_some {l : List ℕ} {x c : ℕ} :
    indexOf? l x = some c ↔ x ∈ l ∧ l.idxOf x = c := by
  unfold indexOf?; split <;> simp_all

theorem getElem?_idxOf {l : List ℕ} {x : ℕ} (h : x ∈ l) : l[l.idxOf x]? = some x := by
  have := List.idxOf_lt_length_of_mem h
  rw [List.getElem?_eq_getElem this, List.getElem_idxOf]

theorem idxOf_of_getElem? {l : List ℕ} (hn : l.Nodup) {c x : ℕ} (h : l[c]? = some x) :
    x ∈ l ∧ l.idxOf x = c := by
  obtain ⟨hc, rfl⟩ := List.getElem?_eq_some_iff.1 h
  exact ⟨List.getElem_mem _, hn.idxOf_getElem c hc⟩

/-! ### construction of site spaces -/

theorem keys_insertionSort (c : SiteComp) :
    (c.insertionSort itemLe).map Prod.fst = (c.map Prod.fst).insertionSort (· ≤ ·) := by
  have hp : ((c.insertionSort itemLe).map Prod.fst).Perm
      ((c.map Prod.fst).insertionSort (· ≤ ·)) :=
    ((List.perm_insertionSort _ c).map _).trans (List.perm_insertionSort _ _).symm
  refine List.Perm.eq_of_pairwise' (r := (· ≤ ·)) ?_ (List.pairwise_insertionSort _ _) hp
  have : Std.Total itemLe := ⟨fun a b => Nat.le_total a.1 b.1⟩
  have : IsTrans (ℕ × ℚ) itemLe := ⟨fun a b c => Nat.le_trans⟩
  exact List.pairwise_map.2 (List.pairwise_insertionSort itemLe c)

theorem make_some {k : VacKind} {c : SiteComp} {s : SiteSpace} (h : SiteSpace.make k c = some s) :
    0 ≤ c.numAtoms ∧ c.numAtoms ≤ 1 ∧
      ((∃ p ∈ c, k.isVac p.1 = true) → c.numAtoms = 1 ∧ (c.countP fun p => k.isVac p.1) ≤ 1) ∧
      s.comp = c ∧
      s.data = if c.numAtoms < 99 / 100 then
        c.insertionSort itemLe ++ [(k.vac, 1 - c.numAtoms)] else c.insertionSort itemLe := by
  unfold SiteSpace.make at h
  split at h
  · simp at h
  · rename_i h1
    push Not at h1
    split at h
    · simp at h
    · rename_i h2
      push Not at h2
      simp only [Option.some.injEq] at h
      subst h
      exact ⟨h1.1, h1.2, h2, rfl, rfl⟩

theorem make_of {k : VacKind} {c : SiteComp} (h0 : 0 ≤ c.numAtoms) (h1 : c.numAtoms ≤ 1)
    (hv : (∃ p ∈ c, k.isVac p.1 = true) →
      c.numAtoms = 1 ∧ (c.countP fun p => k.isVac p.1) ≤ 1) :
    SiteSpace.make k c = some ⟨c, if c.numAtoms < 99 / 100 then
        c.insertionSort itemLe ++ [(k.vac, 1 - c.numAtoms)] else c.insertionSort itemLe⟩ := by
  unfold SiteSpace.make
  rw [if_neg (by push Not; exact ⟨h0, h1⟩), if_neg]
  rintro ⟨h2, h3⟩
  obtain ⟨h4, h5⟩ := hv h2
  rcases h3 with h3 | h3
  · exact h3 h4
  · omega

theorem make_keys {k : VacKind} {c : SiteComp} {s : SiteSpace} (h : SiteSpace.make k c = some s) :
    s.keys = (c.map Prod.fst).insertionSort (· ≤ ·) ++
      if c.numAtoms < 99 / 100 then [k.vac] else [] := by
  obtain ⟨-, -, -, -, hd⟩ := make_some h
  unfold SiteSpace.keys
  rw [hd]
  split <;> simp [keys_insertionSort]

theorem make_hashKey {k : VacKind} {c : SiteComp} {s : SiteSpace}
    (h : SiteSpace.make k c = some s) :
    s.hashKey = (c.map Prod.fst).insertionSort (· ≤ ·) := by
  obtain ⟨-, -, -, hc, -⟩ := make_some h
  unfold SiteSpace.hashKey; rw [hc]

theorem numAtoms_nonneg {c : SiteComp} (hc : CompOk c) : 0 ≤ c.numAtoms := by
  unfold SiteComp.numAtoms
  apply List.sum_nonneg
  intro x hx
  obtain ⟨p, hp, rfl⟩ := List.mem_map.1 hx
  exact (hc.2 p hp).le

theorem make_keys_nodup {k : VacKind} {c : SiteComp} (hc : CompOk c) {s : SiteSpace}
    (h : SiteSpace.make k c = some s) : s.keys.Nodup := by
  rw [make_keys h]
  have hs : ((c.map Prod.fst).insertionSort (· ≤ ·)).Nodup :=
    (List.perm_insertionSort _ _).nodup_iff.2 hc.1
  split
  · rename_i hlt
    rw [List.nodup_append]
    refine ⟨hs, by simp, ?_⟩
    intro a ha b hb hab
    simp only [List.mem_singleton] at hb
    subst hb; subst hab
    rw [(List.perm_insertionSort _ _).mem_iff] at ha
    obtain ⟨p, hp, hpe⟩ := List.mem_map.1 ha
    have := ((make_some h).2.2.1 ⟨p, hp, by rw [hpe]; exact k.isVac_vac⟩).1
    rw [this] at hlt; norm_num at hlt
  · simpa using hs

/-! ### uniform compositions -/

theorem uniform_keys (c : SiteComp) : (uniformComp c).map Prod.fst = c.map Prod.fst := by
  unfold uniformComp; simp [Function.comp_def]

theorem uniform_countP (k : VacKind) (c : SiteComp) :
    ((uniformComp c).countP fun p => k.isVac p.1) = c.countP fun p => k.isVac p.1 := by
  unfold uniformComp; rw [List.countP_map]; rfl

theorem uniform_numAtoms (c : SiteComp) :
    (uniformComp c).numAtoms =
      c.length / ((c.length : ℚ) + if c.numAtoms < 99 / 100 then 1 else 0) := by
  unfold uniformComp SiteComp.numAtoms
  simp only [List.map_map, Function.comp_def, List.map_const', List.sum_replicate, nsmul_eq_mul]
  ring

theorem uniform_lt_iff {k : VacKind} {c : SiteComp} (hl : c.length < 99) {s : SiteSpace}
    (h : SiteSpace.make k c = some s) :
    ((uniformComp c).numAtoms < 99 / 100 ↔ c.numAtoms < 99 / 100) ∧
      0 ≤ (uniformComp c).numAtoms ∧ (uniformComp c).numAtoms ≤ 1 ∧
      (¬ c.numAtoms < 99 / 100 → (uniformComp c).numAtoms = 1) := by
  rw [uniform_numAtoms]
  by_cases hc : c.numAtoms < 99 / 100
  · rw [if_pos hc]
    have hl' : (c.length : ℚ) < 99 := by exact_mod_cast hl
    have hp : (0 : ℚ) < c.length + 1 := by positivity
    refine ⟨⟨fun _ => hc, fun _ => ?_⟩, by positivity, ?_, fun hn => absurd hc hn⟩
    · rw [div_lt_iff₀ hp]; linarith
    · rw [div_le_one hp]; linarith
  · rw [if_neg hc, add_zero]
    have hne : c ≠ [] := by
      rintro rfl; apply hc; unfold SiteComp.numAtoms; norm_num
    have hp : (c.length : ℚ) ≠ 0 := by
      simpa using hne
    rw [div_self hp]
    refine ⟨⟨fun h1 => by norm_num at h1, fun h1 => absurd h1 hc⟩, by norm_num, le_refl _,
      fun _ => rfl⟩

theorem exists_vac_uniform {k : VacKind} {c : SiteComp}
    (h : ∃ p ∈ uniformComp c, k.isVac p.1 = true) : ∃ p ∈ c, k.isVac p.1 = true := by
  obtain ⟨p, hp, hv⟩ := h
  have : p.1 ∈ (uniformComp c).map Prod.fst := List.mem_map_of_mem hp
  rw [uniform_keys] at this
  obtain ⟨q, hq, he⟩ := List.mem_map.1 this
  exact ⟨q, hq, by rw [he]; exact hv⟩

/-- without measure a site space has the same species in the same order -/
theorem uniform_make {k : VacKind} {c : SiteComp} (hl : c.length < 99) {s : SiteSpace}
    (h : SiteSpace.make k c = some s) :
    ∃ u, SiteSpace.make k (uniformComp c) = some u ∧ u.keys = s.keys := by
  obtain ⟨h1, h2, h3, h4⟩ := uniform_lt_iff hl h
  have hm : SiteSpace.make k (uniformComp c) = some _ := make_of (k := k) h2 h3 (by
    intro hv
    obtain ⟨ha, hb⟩ := (make_some h).2.2.1 (exists_vac_uniform hv)
    refine ⟨h4 (by rw [ha]; norm_num), ?_⟩
    rw [uniform_countP]; exact hb)
  refine ⟨_, hm, ?_⟩
  rw [make_keys hm, make_keys h, uniform_keys]
  simp only [h1]

/-! ### sets of site spaces -/

theorem sort_eq_of_perm {c d : SiteComp} (hc : CompOk c) (h : c.Perm d) :
    c.insertionSort itemLe = d.insertionSort itemLe := by
  have : Std.Total itemLe := ⟨fun a b => Nat.le_total a.1 b.1⟩
  have : IsTrans (ℕ × ℚ) itemLe := ⟨fun a b c => Nat.le_trans⟩
  have hp : (c.insertionSort itemLe).Perm (d.insertionSort itemLe) :=
    (List.perm_insertionSort _ _).trans (h.trans (List.perm_insertionSort _ _).symm)
  refine hp.eq_of_pairwise ?_ (List.pairwise_insertionSort itemLe c)
    (List.pairwise_insertionSort itemLe d)
  intro p q hp1 hq1 h1 h2
  have hpc : p ∈ c := (List.perm_insertionSort _ _).mem_iff.1 hp1
  have hqc : q ∈ c := h.mem_iff.2 ((List.perm_insertionSort _ _).mem_iff.1 hq1)
  exact List.inj_on_of_nodup_map hc.1 hpc hqc (Nat.le_antisymm h1 h2)

/-- `set` identifies exactly the spaces made from equal compositions -/
theorem same_iff {k : VacKind} {c d : SiteComp} (hc : CompOk c) {a b : SiteSpace}
    (ha : SiteSpace.make k c = some a) (hb : SiteSpace.make k d = some b) :
    a.same b = true ↔ c.Perm d := by
  unfold SiteSpace.same SiteSpace.pyEq
  rw [Bool.and_eq_true, beq_iff_eq, make_hashKey ha, make_hashKey hb]
  obtain ⟨-, -, -, -, da⟩ := make_some ha
  obtain ⟨-, -, -, -, db⟩ := make_some hb
  have zipall : ∀ l m : List (ℕ × ℚ), l.length = m.length →
      (((l.zip m).all fun p => p.1 == p.2) = true ↔ l = m) := by
    intro l
    induction l with
    | nil => intro m h; cases m <;> simp_all
    | cons x l ih =>
      intro m h
      cases m with
      | nil => simp at h
      | cons y m =>
        simp only [List.length_cons, Nat.add_right_cancel_iff] at h
        simp only [List.zip_cons_cons, List.all_cons, Bool.and_eq_true, beq_iff_eq,
          List.cons.injEq, ih m h]
  have zipapp : ∀ (l m n : List (ℕ × ℚ)), l.length = m.length →
      (((l ++ n).zip m).all fun p => p.1 == p.2) = true → l = m := by
    intro l m n h hz
    rw [← zipall l m h]
    have : (l ++ n).zip m = l.zip m := by
      conv_lhs => rw [← List.append_nil m]
      rw [List.zip_append h]; simp
    rwa [this] at hz
  have zipcomm : ∀ (l m : List (ℕ × ℚ)), ((l.zip m).all fun p => p.1 == p.2) = true →
      ((m.zip l).all fun p => p.1 == p.2) = true := by
    intro l
    induction l with
    | nil => intro m _; cases m <;> simp
    | cons x l ih =>
      intro m h
      cases m with
      | nil => simp
      | cons y m =>
        simp only [List.zip_cons_cons, List.all_cons, Bool.and_eq_true, beq_iff_eq] at h ⊢
        exact ⟨h.1.symm, ih m h.2⟩
  have key_len : (c.map Prod.fst).insertionSort (· ≤ ·) = (d.map Prod.fst).insertionSort (· ≤ ·) →
      (c.insertionSort itemLe).length = (d.insertionSort itemLe).length := by
    intro h
    have := congrArg List.length h
    simpa using this
  have sums : c.insertionSort itemLe = d.insertionSort itemLe → c.numAtoms = d.numAtoms := by
    intro h
    have hp : c.Perm d := (List.perm_insertionSort itemLe c).symm.trans
      (h ▸ List.perm_insertionSort itemLe d)
    exact (hp.map Prod.snd).sum_eq
  constructor
  · rintro ⟨hk, hz⟩
    have hl := key_len hk
    suffices c.insertionSort itemLe = d.insertionSort itemLe from
      (List.perm_insertionSort itemLe c).symm.trans (this ▸ List.perm_insertionSort itemLe d)
    by_cases h1 : c.numAtoms < 99 / 100 <;> by_cases h2 : d.numAtoms < 99 / 100
    · rw [zipall _ _ (by rw [da, db, if_pos h1, if_pos h2]; simpa using hl),
        da, db, if_pos h1, if_pos h2] at hz
      exact (List.append_inj hz hl).1
    · rw [da, db, if_pos h1, if_neg h2] at hz
      have := sums (zipapp _ _ _ hl hz)
      exact absurd (this ▸ h1) h2
    · rw [da, db, if_neg h1, if_pos h2] at hz
      have := sums (zipapp _ _ _ hl.symm (zipcomm _ _ hz)).symm
      exact absurd (this ▸ h2) h1
    · rwa [zipall _ _ (by rw [da, db, if_neg h1, if_neg h2]; exact hl),
        da, db, if_neg h1, if_neg h2] at hz
  · intro h
    have hk : (c.map Prod.fst).insertionSort (· ≤ ·) = (d.map Prod.fst).insertionSort (· ≤ ·) :=
      List.Perm.eq_of_pairwise' (r := (· ≤ ·)) (List.pairwise_insertionSort _ _)
        (List.pairwise_insertionSort _ _)
        ((List.perm_insertionSort _ _).trans ((h.map _).trans (List.perm_insertionSort _ _).symm))
    refine ⟨hk, ?_⟩
    have hs : c.numAtoms = d.numAtoms := (h.map Prod.snd).sum_eq
    have hd' : c.insertionSort itemLe = d.insertionSort itemLe := sort_eq_of_perm hc h
    have : a.data = b.data := by rw [da, db, hs, hd']
    rw [zipall _ _ (by rw [this])]; exact this

theorem pySet_subset (l : List SiteSpace) : ∀ a ∈ pySet l, a ∈ l := by
  induction l with
  | nil => simp [pySet]
  | cons x l ih =>
    intro a ha
    unfold pySet at ha
    split at ha
    · exact List.mem_cons_of_mem _ (ih a ha)
    · rcases List.mem_cons.1 ha with rfl | ha
      · exact List.mem_cons_self
      · exact List.mem_cons_of_mem _ (ih a ha)

theorem pySet_covers (l : List SiteSpace) : ∀ a ∈ l, a ∈ pySet l ∨ ∃ b ∈ pySet l, a.same b = true := by
  induction l with
  | nil => simp
  | cons x l ih =>
    intro a ha
    unfold pySet
    rcases List.mem_cons.1 ha with rfl | ha
    · split <;> rename_i h
      · right; simpa using h
      · left; exact List.mem_cons_self
    · rcases ih a ha with h | ⟨b, hb, h⟩
      · left; split
        · exact h
        · exact List.mem_cons_of_mem _ h
      · right; refine ⟨b, ?_, h⟩; split
        · exact hb
        · exact List.mem_cons_of_mem _ hb

theorem pySet_pairwise (l : List SiteSpace) : (pySet l).Pairwise fun a b => a.same b = false := by
  induction l with
  | nil => simp [pySet]
  | cons x l ih =>
    unfold pySet
    split <;> rename_i h
    · exact ih
    · refine List.pairwise_cons.2 ⟨?_, ih⟩
      intro b hb
      by_contra hc
      apply h
      simp only [List.any_eq_true]
      exact ⟨b, hb, by simpa using hc⟩

/-! ### the coding of a processor -/

/-- What a processor knows after `__init__`, in terms of the sites' compositions. -/
structure CodingOf (k : VacKind) (sites : List SiteComp) (cd : Coding) : Prop where
  /-- the allowed species of a site are those of its measured site space -/
  allowed : ∀ (i : ℕ) (c : SiteComp), sites[i]? = some c →
    ∃ s, SiteSpace.make k c = some s ∧ cd.allowed[i]? = some s.keys
  len : cd.allowed.length = sites.length
  /-- every unique space comes from a site -/
  from_site : ∀ s ∈ cd.spaces, ∃ c ∈ sites, SiteSpace.make k c = some s
  /-- every site's composition has a representative -/
  rep : ∀ c ∈ sites, ∃ s ∈ cd.spaces, ∃ d ∈ sites, SiteSpace.make k d = some s ∧ c.Perm d
  /-- different entries come from different compositions -/
  distinct : ∀ (p q : ℕ) (s t : SiteSpace) (c d : SiteComp), cd.spaces[p]? = some s →
    cd.spaces[q]? = some t → c ∈ sites → d ∈ sites → SiteSpace.make k c = some s →
    SiteSpace.make k d = some t → c.Perm d → p = q

theorem codingOf {k : VacKind} {sites : List SiteComp}
    (hok : ∀ c ∈ sites, CompOk c ∧ c.length < 99) {cd : Coding}
    (h : Coding.make k sites = some cd) : CodingOf k sites cd := by
  unfold Coding.make at h
  cases hm : sites.mapM (SiteSpace.make k) with
  | none => simp [hm] at h
  | some measured =>
  cases hu : sites.mapM fun c => SiteSpace.make k (uniformComp c) with
  | none => simp [hm, hu] at h
  | some uniform =>
  simp only [hm, hu, Option.bind_eq_bind, Option.bind_some, Option.pure_def,
    Option.some.injEq] at h
  subst h
  have hmf := (mapM_eq_some_get _ _ _).1 hm
  have huf := (mapM_eq_some_get _ _ _).1 hu
  have mem_spaces : ∀ s, s ∈ (pySet measured).insertionSort spaceLe ↔ s ∈ pySet measured :=
    fun s => (List.perm_insertionSort _ _).mem_iff
  have from_meas : ∀ s ∈ measured, ∃ c ∈ sites, SiteSpace.make k c = some s := by
    intro s hs
    obtain ⟨i, hi, rfl⟩ := List.getElem_of_mem hs
    exact ⟨sites[i]'(by omega), List.getElem_mem _, hmf.2 i (by omega) hi⟩
  refine ⟨?_, ?_, ?_, ?_, ?_⟩
  · intro i c hc
    obtain ⟨hi, rfl⟩ := List.getElem?_eq_some_iff.1 hc
    have h1 := hmf.2 i hi (by omega)
    obtain ⟨u, hu1, hu2⟩ := uniform_make (hok _ (List.getElem_mem hi)).2 h1
    refine ⟨_, h1, ?_⟩
    have h2 := huf.2 i hi (by omega)
    rw [hu1, Option.some.injEq] at h2
    rw [← hu2, List.getElem?_map, List.getElem?_eq_getElem (by omega), h2]; rfl
  · simp only [List.length_map]; exact huf.1.symm
  · intro s hs
    exact from_meas s (pySet_subset _ _ ((mem_spaces s).1 hs))
  · intro c hc
    obtain ⟨i, hi, rfl⟩ := List.getElem_of_mem hc
    have h1 := hmf.2 i hi (by omega)
    rcases pySet_covers measured _ (List.getElem_mem (by omega : i < measured.length)) with h2 | ⟨b, hb, h2⟩
    · exact ⟨_, (mem_spaces _).2 h2, _, List.getElem_mem hi, h1, List.Perm.refl _⟩
    · obtain ⟨d, hd, hd2⟩ := from_meas b (pySet_subset _ _ hb)
      exact ⟨b, (mem_spaces _).2 hb, d, hd, hd2,
        (same_iff (hok _ (List.getElem_mem hi)).1 h1 hd2).1 h2⟩
  · intro p q s t c d hp hq hc hd hcs hdt hperm
    by_contra hne
    have hpw : ((pySet measured).insertionSort spaceLe).Pairwise
        fun a b => ∀ c d, c ∈ sites → d ∈ sites → SiteSpace.make k c = some a →
          SiteSpace.make k d = some b → ¬ c.Perm d := by
      refine ((List.perm_insertionSort spaceLe (pySet measured)).symm.pairwise ?_ ?_)
      · refine (pySet_pairwise measured).imp ?_
        intro a b hab c d hc hd hca hdb hcd
        rw [(same_iff (hok c hc).1 hca hdb).2 hcd] at hab
        cases hab
      · intro a b hab c d hc hd hca hdb hcd
        exact hab d c hd hc hdb hca hcd.symm
    obtain ⟨hp1, rfl⟩ := List.getElem?_eq_some_iff.1 hp
    obtain ⟨hq1, rfl⟩ := List.getElem?_eq_some_iff.1 hq
    rw [List.pairwise_iff_getElem] at hpw
    rcases Nat.lt_or_gt_of_ne hne with hlt | hlt
    · exact hpw p q hp1 hq1 hlt c d hc hd hcs hdt hperm
    · exact hpw q p hq1 hp1 hlt d c hd hc hdt hcs hperm.symm

theorem mem_sublattice_sites (cd : Coding) (s : SiteSpace) (i : ℕ) :
    i ∈ (Sublattice.new s.keys
      ((List.range cd.allowed.length).filter fun i => cd.allowed.getD i [] == s.keys)).sites ↔
      cd.allowed[i]? = some s.keys := by
  rw [new_sites, mem_npUnique]
  simp only [List.mem_filter, List.mem_range, beq_iff_eq]
  constructor
  · rintro ⟨h1, h2⟩
    rw [List.getD_eq_getElem?_getD, List.getElem?_eq_getElem h1, Option.getD_some] at h2
    rw [List.getElem?_eq_getElem h1, h2]
  · intro h
    obtain ⟨h1, h2⟩ := List.getElem?_eq_some_iff.1 h
    exact ⟨h1, by rw [List.getD_eq_getElem?_getD, h]; rfl⟩

theorem holds_drop_iff {k : VacKind} {occ : List ℕ} {P : ℕ × ℕ → Bool} {st : Struc}
    (hp : st.Perm (occ.zipIdx.filter P)) {i x : ℕ} (hx : occ[i]? = some x) :
    Holds k.vac st i x ↔ (P (x, i) = true ∨ x = k.vac) := by
  have mem : ∀ y, (y, i) ∈ st ↔ y = x ∧ P (y, i) = true := by
    intro y
    rw [hp.mem_iff, List.mem_filter]
    have : (y, i) ∈ occ.zipIdx ↔ y = x := by
      rw [List.mem_zipIdx_iff_getElem?]
      simp only [hx, Option.some.injEq]
      exact eq_comm
    rw [this]
  unfold Holds
  simp only [mem]
  constructor
  · rintro (⟨-, h⟩ | ⟨-, h⟩)
    · exact Or.inl h
    · exact Or.inr h
  · intro h
    by_cases hP : P (x, i) = true
    · exact Or.inl ⟨trivial, hP⟩
    · right
      refine ⟨fun y hy => hP ?_, h.resolve_left hP⟩
      rw [← hy.1]; exact hy.2

theorem nodup_sites_filter (occ : List ℕ) (P : ℕ × ℕ → Bool) {st : Struc}
    (hp : st.Perm (occ.zipIdx.filter P)) : (st.map Prod.snd).Nodup := by
  rw [(hp.map Prod.snd).nodup_iff]
  refine ((List.filter_sublist).map Prod.snd).nodup ?_
  rw [List.zipIdx_map_snd]
  exact List.nodup_range'

end Smol
