import Verif.Model.OrbitSpace
import Verif.Spec.OrbitSpace

namespace Smol
open Spec

/-- the part of an orbit that assigning ids does not touch -/
def Orb.content (o : Orb) : ℕ × ℕ × List (ℕ × ℕ) := (o.tag, o.mult, o.combos)

/-- the block of ids of an orbit -/
def Orb.block (o : Orb) : ℕ × ℕ × ℕ := (o.id, o.bitId, o.combos.length)

/-- the correlation functions of a list of orbits in order -/
def funsOf (l : List Orb) : List (ℕ × (ℕ × ℕ)) := l.flatMap fun o => o.combos.map fun c => (o.tag, c)

def nFuns (l : List Orb) : ℕ := (l.map fun o => o.combos.length).sum

theorem keyLe_total : Std.Total keyLe := ⟨fun a b => Nat.le_total a.1 b.1⟩
theorem keyLe_trans : IsTrans (ℕ × List Orb) keyLe := ⟨fun _ _ _ => Nat.le_trans⟩

theorem sort_pairwise (d : List (ℕ × List Orb)) : (d.insertionSort keyLe).Pairwise keyLe := by
  have := keyLe_total; have := keyLe_trans
  exact List.pairwise_insertionSort keyLe d

theorem sort_eq {d : List (ℕ × List Orb)} (h : d.Pairwise keyLe) : d.insertionSort keyLe = d :=
  h.insertionSort_eq

/-! ### assigning ids -/

theorem assignList_append (a b : List Orb) (c : ℕ × ℕ × ℕ) :
    assignList (a ++ b) c =
      ((assignList a c).1 ++ (assignList b (assignList a c).2).1,
        (assignList b (assignList a c).2).2) := by
  induction a generalizing c with
  | nil => rfl
  | cons o a ih => simp [assignList, ih]

theorem assignDict_flat (d : List (ℕ × List Orb)) (c : ℕ × ℕ × ℕ) :
    (assignDict d c).1.flatMap Prod.snd = (assignList (d.flatMap Prod.snd) c).1 ∧
      (assignDict d c).2 = (assignList (d.flatMap Prod.snd) c).2 := by
  induction d generalizing c with
  | nil => exact ⟨rfl, rfl⟩
  | cons p d ih =>
    obtain ⟨k, os⟩ := p
    simp only [assignDict, List.flatMap_cons, assignList_append, (ih _).1, (ih _).2, and_self]

theorem assignDict_keys (d : List (ℕ × List Orb)) (c : ℕ × ℕ × ℕ) :
    (assignDict d c).1.map Prod.fst = d.map Prod.fst := by
  induction d generalizing c with
  | nil => rfl
  | cons p d ih => obtain ⟨k, os⟩ := p; simp [assignDict, ih]

theorem keys_pairwise (d : List (ℕ × List Orb)) :
    d.Pairwise keyLe ↔ (d.map Prod.fst).Pairwise (· ≤ ·) := by
  rw [List.pairwise_map]; rfl

theorem assignList_content (l : List Orb) (c : ℕ × ℕ × ℕ) :
    (assignList l c).1.map Orb.content = l.map Orb.content := by
  induction l generalizing c with
  | nil => rfl
  | cons o l ih => simp [assignList, ih, Orb.assign, Orb.content]

theorem assignList_counts (l : List Orb) (c : ℕ × ℕ × ℕ) :
    (assignList l c).2 = (c.1 + l.length, c.2.1 + nFuns l, c.2.2 + (l.map Orb.mult).sum) := by
  induction l generalizing c with
  | nil => simp [assignList, nFuns]
  | cons o l ih =>
    simp only [assignList, ih, Orb.assign, nFuns, List.map_cons, List.sum_cons, List.length_cons]
    ext <;> simp <;> omega

/-- ids of the orbits of a list starting from given counts -/
theorem assignList_get (l : List Orb) (c : ℕ × ℕ × ℕ) (j : ℕ) :
    (assignList l c).1[j]? = l[j]?.map fun o =>
      { o with id := c.1 + j, bitId := c.2.1 + nFuns (l.take j) } := by
  induction l generalizing c j with
  | nil => simp [assignList]
  | cons o l ih =>
    cases j with
    | zero => simp [assignList, Orb.assign, nFuns]
    | succ j =>
      simp only [assignList, List.getElem?_cons_succ, ih, Orb.assign, List.take_succ_cons]
      congr 1
      funext o'
      simp only [nFuns, List.map_cons, List.sum_cons, Orb.mk.injEq, true_and]
      omega

theorem content_of_eq {l m : List Orb} (h : l.map Orb.content = m.map Orb.content) :
    funsOf l = funsOf m ∧ nFuns l = nFuns m ∧ l.length = m.length ∧
      (l.map Orb.mult) = m.map Orb.mult ∧ (l.map Orb.combos) = m.map Orb.combos := by
  have h1 : ∀ l : List Orb, funsOf l =
      (l.map Orb.content).flatMap fun p => p.2.2.map fun c => (p.1, c) := by
    intro l; unfold funsOf; rw [List.flatMap_map]; rfl
  have h2 : ∀ l : List Orb, nFuns l = ((l.map Orb.content).map fun p => p.2.2.length).sum := by
    intro l; unfold nFuns; rw [List.map_map]; rfl
  have h3 : ∀ l : List Orb, l.map Orb.mult = (l.map Orb.content).map fun p => p.2.1 := by
    intro l; rw [List.map_map]; rfl
  have h4 : ∀ l : List Orb, l.map Orb.combos = (l.map Orb.content).map fun p => p.2.2 := by
    intro l; rw [List.map_map]; rfl
  refine ⟨by rw [h1, h1, h], by rw [h2, h2, h], by simpa using congrArg List.length h,
    by rw [h3, h3, h], by rw [h4, h4, h]⟩

/-! ### the invariant -/

/-- What holds after ids have been assigned. -/
structure OrbitSpace.Ok (S : OrbitSpace) : Prop where
  sorted : S.dict.Pairwise keyLe
  get : ∀ (j : ℕ) (o : Orb), S.orbits[j]? = some o →
    o.id = 1 + j ∧ o.bitId = 1 + nFuns (S.orbits.take j)
  nonempty : ∀ o ∈ S.orbits, o.combos ≠ []
  numOrbits : S.numOrbits = 1 + S.orbits.length
  numCorr : S.numCorr = 1 + nFuns S.orbits
  numClusters : S.numClusters = 1 + (S.orbits.map Orb.mult).sum

theorem orbits_of_sorted {S : OrbitSpace} (h : S.dict.Pairwise keyLe) :
    S.orbits = S.dict.flatMap Prod.snd := by
  unfold OrbitSpace.orbits; rw [sort_eq h]

/-- the orbits in the order in which they get their ids -/
def dictOrbits (d : List (ℕ × List Orb)) : List Orb := (d.insertionSort keyLe).flatMap Prod.snd

theorem assigned_orbits (d : List (ℕ × List Orb)) :
    (OrbitSpace.assigned d).dict.Pairwise keyLe ∧
      (OrbitSpace.assigned d).orbits = (assignList (dictOrbits d) (1, 1, 1)).1 := by
  have hs : (OrbitSpace.assigned d).dict.Pairwise keyLe := by
    unfold OrbitSpace.assigned
    simp only
    rw [keys_pairwise, assignDict_keys, ← keys_pairwise]
    exact sort_pairwise d
  refine ⟨hs, ?_⟩
  rw [orbits_of_sorted hs]
  exact (assignDict_flat _ _).1

theorem assigned_content (d : List (ℕ × List Orb)) :
    (OrbitSpace.assigned d).orbits.map Orb.content = (dictOrbits d).map Orb.content := by
  rw [(assigned_orbits d).2, assignList_content]

theorem nonempty_iff_content (l m : List Orb) (h : l.map Orb.content = m.map Orb.content)
    (hm : ∀ o ∈ m, o.combos ≠ []) : ∀ o ∈ l, o.combos ≠ [] := by
  intro o ho
  have : o.combos ∈ l.map Orb.combos := List.mem_map_of_mem ho
  rw [(content_of_eq h).2.2.2.2] at this
  obtain ⟨o', ho', e⟩ := List.mem_map.1 this
  rw [← e]; exact hm o' ho'

theorem assigned_ok (d : List (ℕ × List Orb)) (hne : ∀ o ∈ dictOrbits d, o.combos ≠ []) :
    (OrbitSpace.assigned d).Ok := by
  obtain ⟨hs, ho⟩ := assigned_orbits d
  have hc := assigned_content d
  obtain ⟨-, hn, hl, hm, -⟩ := content_of_eq hc
  have hcounts : (assignDict (d.insertionSort keyLe) (1, 1, 1)).2 = _ :=
    (assignDict_flat _ _).2.trans (assignList_counts _ _)
  refine ⟨hs, ?_, nonempty_iff_content _ _ hc hne, ?_, ?_, ?_⟩
  · intro j o hj
    rw [ho, assignList_get] at hj
    cases hd : (dictOrbits d)[j]? with
    | none => simp [hd] at hj
    | some o' =>
      simp only [hd, Option.map_some, Option.some.injEq] at hj
      subst hj
      refine ⟨rfl, ?_⟩
      simp only
      congr 1
      have : ((OrbitSpace.assigned d).orbits.take j).map Orb.content =
          ((dictOrbits d).take j).map Orb.content := by
        rw [List.map_take, List.map_take, hc]
      exact (content_of_eq this).2.1.symm
  · show (assignDict (d.insertionSort keyLe) (1, 1, 1)).2.1 = _
    rw [hcounts, hl]; rfl
  · show (assignDict (d.insertionSort keyLe) (1, 1, 1)).2.2.1 = _
    rw [hcounts, hn]; rfl
  · show (assignDict (d.insertionSort keyLe) (1, 1, 1)).2.2.2 = _
    rw [hcounts, hm]; rfl

/-! ### removals -/

theorem dictOrbits_of_sorted {d : List (ℕ × List Orb)} (h : d.Pairwise keyLe) :
    dictOrbits d = d.flatMap Prod.snd := by
  unfold dictOrbits; rw [sort_eq h]

theorem filter_nonempty_flat (d : List (ℕ × List Orb)) :
    (d.filter fun p => !p.2.isEmpty).flatMap Prod.snd = d.flatMap Prod.snd := by
  induction d with
  | nil => rfl
  | cons p d ih =>
    rw [List.filter_cons]
    split <;> rename_i h
    · rw [List.flatMap_cons, List.flatMap_cons, ih]
    · have : p.2 = [] := by simpa using h
      rw [List.flatMap_cons, this, ih]; rfl

theorem flat_map_filter (d : List (ℕ × List Orb)) (q : Orb → Bool) :
    (d.map fun p => (p.1, p.2.filter q)).flatMap Prod.snd = (d.flatMap Prod.snd).filter q := by
  induction d with
  | nil => rfl
  | cons p d ih => simp [List.flatMap_cons, ih]

theorem flat_map_map (d : List (ℕ × List Orb)) (f : Orb → Orb) :
    (d.map fun p => (p.1, p.2.map f)).flatMap Prod.snd = (d.flatMap Prod.snd).map f := by
  induction d with
  | nil => rfl
  | cons p d ih => simp [List.flatMap_cons, ih]

theorem map_keys_sorted {d : List (ℕ × List Orb)} (h : d.Pairwise keyLe)
    (f : List Orb → List Orb) : (d.map fun p => (p.1, f p.2)).Pairwise keyLe := by
  rw [keys_pairwise] at h ⊢
  rw [List.map_map]; exact h

/-- `remove_orbits` when it does not raise -/
theorem removeOrbits_some {S : OrbitSpace} (hs : S.dict.Pairwise keyLe) {ids : List ℤ}
    (h : ¬ (ids = [] ∨ (∃ i ∈ ids, i < 0) ∨ (0 : ℤ) ∈ ids ∨
      (∃ i ∈ ids, (S.numOrbits : ℤ) - 1 < i))) :
    ∃ d, S.removeOrbits ids = some (OrbitSpace.assigned d) ∧
      dictOrbits d = S.orbits.filter fun o => decide ((o.id : ℤ) ∉ ids) := by
  unfold OrbitSpace.removeOrbits
  rw [if_neg h]
  refine ⟨_, rfl, ?_⟩
  have h1 : (S.dict.map fun p => (p.1, p.2.filter fun o => decide ((o.id : ℤ) ∉ ids))).Pairwise
      keyLe := map_keys_sorted hs _
  rw [dictOrbits_of_sorted (h1.filter _), filter_nonempty_flat, flat_map_filter,
    orbits_of_sorted hs]

theorem zipIdx_filter_map {α : Type*} (l : List α) (k b : ℕ) (q : ℕ → Bool) :
    ((l.zipIdx k).filter fun p => q (p.2 + b)).map Prod.fst =
      ((l.zipIdx (k + b)).filter fun p => q p.2).map Prod.fst := by
  induction l generalizing k with
  | nil => rfl
  | cons a l ih =>
    simp only [List.zipIdx_cons, List.filter_cons]
    have := ih (k + 1)
    rw [show k + 1 + b = k + b + 1 by omega] at this
    split <;> simp [this]

theorem zipIdx_map_filter {α β : Type*} (l : List α) (f : α → β) (k : ℕ) (q : ℕ → Bool) :
    (((l.map f).zipIdx k).filter fun p => q p.2).map Prod.fst =
      ((((l.zipIdx k).filter fun p => q p.2).map Prod.fst).map f) := by
  induction l generalizing k with
  | nil => rfl
  | cons a l ih =>
    simp only [List.map_cons, List.zipIdx_cons, List.filter_cons]
    split <;> simp [ih]

/-- the functions left in an orbit are those whose id is not asked for -/
theorem removeCorr_combos (o : Orb) (ids : List ℤ) :
    (o.removeCorr ids).combos =
      ((o.combos.zipIdx o.bitId).filter fun p => decide ((p.2 : ℤ) ∉ ids)).map Prod.fst := by
  have hmem : ∀ p ∈ o.combos.zipIdx, ((p.2 : ℤ) ∈ o.toRemove ids ↔ ((p.2 + o.bitId : ℕ) : ℤ) ∈ ids) := by
    intro p hp
    have hlt := List.snd_lt_of_mem_zipIdx hp
    unfold Orb.toRemove
    simp only [List.mem_map, List.mem_filter, decide_eq_true_eq]
    constructor
    · rintro ⟨i, ⟨⟨hi, h1⟩, h2⟩, h3⟩
      have : i = ((p.2 + o.bitId : ℕ) : ℤ) := by push_cast; omega
      rw [← this]; exact hi
    · intro h
      exact ⟨_, ⟨⟨h, by push_cast; omega⟩, by push_cast; omega⟩, by push_cast; omega⟩
  have key : (o.combos.zipIdx.filter fun p => decide ((p.2 : ℤ) ∉ o.toRemove ids)).map Prod.fst =
      ((o.combos.zipIdx o.bitId).filter fun p => decide ((p.2 : ℤ) ∉ ids)).map Prod.fst := by
    have h0 := zipIdx_filter_map o.combos 0 o.bitId (fun n => decide ((n : ℤ) ∉ ids))
    rw [zero_add] at h0
    rw [← h0]
    congr 1
    apply List.filter_congr
    intro p hp
    exact decide_eq_decide.2 (not_congr (hmem p hp))
  unfold Orb.removeCorr
  split <;> rename_i h
  · rw [← key]
    have : o.toRemove ids = [] := by simpa using h
    rw [this]
    simp [List.zipIdx_map_fst]
  · exact key

theorem removeCorr_fixed (o : Orb) (ids : List ℤ) :
    (o.removeCorr ids).id = o.id ∧ (o.removeCorr ids).tag = o.tag ∧
      (o.removeCorr ids).mult = o.mult := by
  unfold Orb.removeCorr Orb.removeInds; split <;> exact ⟨rfl, rfl, rfl⟩

/-- numbering the functions of consecutive orbits -/
theorem without_funs (l : List Orb) (b : ℕ) (ids : List ℤ)
    (h : ∀ (j : ℕ) (o : Orb), l[j]? = some o → o.bitId = b + nFuns (l.take j)) :
    (((funsOf l).zipIdx b).filter fun p => decide ((p.2 : ℤ) ∉ ids)).map Prod.fst =
      funsOf (l.map fun o => o.removeCorr ids) := by
  induction l generalizing b with
  | nil => rfl
  | cons o l ih =>
    have h0 : o.bitId = b := by simpa [nFuns] using h 0 o rfl
    have h1 : ∀ (j : ℕ) (o' : Orb), l[j]? = some o' →
        o'.bitId = (b + o.combos.length) + nFuns (l.take j) := by
      intro j o' hj
      have := h (j + 1) o' (by simpa using hj)
      rw [this]; simp [nFuns]; omega
    have hf : funsOf (o :: l) = (o.combos.map fun c => (o.tag, c)) ++ funsOf l := rfl
    have hg : funsOf ((o :: l).map fun o => o.removeCorr ids) =
        ((o.removeCorr ids).combos.map fun c => ((o.removeCorr ids).tag, c)) ++
          funsOf (l.map fun o => o.removeCorr ids) := rfl
    rw [hf, hg, List.zipIdx_append, List.filter_append, List.map_append, List.length_map,
      ih _ h1, (removeCorr_fixed o ids).2.1, removeCorr_combos, h0,
      zipIdx_map_filter o.combos (fun c => (o.tag, c)) b (fun n => decide ((n : ℤ) ∉ ids))]

theorem funsOf_filter_nonempty (l : List Orb) :
    funsOf (l.filter fun o => decide (o.combos ≠ [])) = funsOf l := by
  induction l with
  | nil => rfl
  | cons o l ih =>
    have hf : funsOf (o :: l) = (o.combos.map fun c => (o.tag, c)) ++ funsOf l := rfl
    rw [List.filter_cons, hf]
    split <;> rename_i h
    · rw [show funsOf (o :: _) = (o.combos.map fun c => (o.tag, c)) ++ funsOf _ from rfl, ih]
    · have : o.combos = [] := by simpa using h
      rw [ih, this]; rfl

/-- `remove_corr_functions`: it never raises; the orbits left are those with functions left. -/
theorem removeCorr_some {S : OrbitSpace} (hS : S.Ok) (ids : List ℤ) :
    ∃ d, S.removeCorr ids = some (OrbitSpace.assigned d) ∧
      dictOrbits d = (S.orbits.map fun o => o.removeCorr ids).filter
        fun o => decide (o.combos ≠ []) := by
  set S' : OrbitSpace := { S with dict := S.dict.map fun p => (p.1, p.2.map fun o => o.removeCorr ids) }
    with hS'
  have hs' : S'.dict.Pairwise keyLe := map_keys_sorted hS.sorted _
  have ho' : S'.orbits = S.orbits.map fun o => o.removeCorr ids := by
    rw [orbits_of_sorted hs', orbits_of_sorted hS.sorted, hS', flat_map_map]
  have idinj : ∀ o ∈ S.orbits, ∀ o' ∈ S.orbits, o.id = o'.id → o = o' := by
    intro o ho o' ho' he
    obtain ⟨i, hi, rfl⟩ := List.getElem_of_mem ho
    obtain ⟨j, hj, rfl⟩ := List.getElem_of_mem ho'
    have h1 := (hS.get i _ (List.getElem?_eq_getElem hi)).1
    have h2 := (hS.get j _ (List.getElem?_eq_getElem hj)).1
    have : i = j := by omega
    subst this; rfl
  have emp : ∀ o ∈ S.orbits, (¬ (o.toRemove ids).isEmpty ∧ (o.removeCorr ids).combos = []) ↔
      (o.removeCorr ids).combos = [] := by
    intro o ho
    constructor
    · exact fun h => h.2
    · intro h
      refine ⟨?_, h⟩
      intro he
      unfold Orb.removeCorr at h
      rw [if_pos he] at h
      exact hS.nonempty o ho h
  set empty := (S.orbits.filter fun o =>
    decide (¬ (o.toRemove ids).isEmpty ∧ (o.removeCorr ids).combos = [])).map fun o => (o.id : ℤ)
    with hempty
  have mem_empty : ∀ o ∈ S.orbits, ((o.id : ℤ) ∈ empty ↔ (o.removeCorr ids).combos = []) := by
    intro o ho
    rw [hempty, List.mem_map]
    constructor
    · rintro ⟨o', ho', he⟩
      rw [List.mem_filter, decide_eq_true_eq] at ho'
      rw [emp o' ho'.1] at ho'
      have := idinj o' ho'.1 o ho (by exact_mod_cast he)
      subst this; exact ho'.2
    · intro h
      exact ⟨o, List.mem_filter.2 ⟨ho, by rw [decide_eq_true_eq, emp o ho]; exact h⟩, rfl⟩
  have eq1 : S.removeCorr ids = if empty.isEmpty then some (OrbitSpace.assigned S'.dict)
      else OrbitSpace.removeOrbits S' empty := rfl
  rw [eq1]
  by_cases he : empty.isEmpty
  · rw [if_pos he]
    refine ⟨_, rfl, ?_⟩
    have he' : empty = [] := by simpa using he
    rw [dictOrbits_of_sorted hs', ← orbits_of_sorted hs', ho']
    symm
    rw [List.filter_eq_self]
    intro o ho
    obtain ⟨o', ho', rfl⟩ := List.mem_map.1 ho
    rw [decide_eq_true_eq]
    intro hc
    have := (mem_empty o' ho').2 hc
    rw [he'] at this; simp at this
  · rw [if_neg he]
    have hids : ∀ i ∈ empty, ∃ o ∈ S.orbits, (o.id : ℤ) = i := by
      intro i hi
      obtain ⟨o, ho, rfl⟩ := List.mem_map.1 hi
      exact ⟨o, (List.mem_filter.1 ho).1, rfl⟩
    have hrange : ∀ o ∈ S.orbits, 1 ≤ o.id ∧ o.id ≤ S.orbits.length := by
      intro o ho
      obtain ⟨i, hi, rfl⟩ := List.getElem_of_mem ho
      have := (hS.get i _ (List.getElem?_eq_getElem hi)).1
      omega
    obtain ⟨d, hd1, hd2⟩ := removeOrbits_some (S := S') hs' (ids := empty) (by
      rintro (h | ⟨i, hi, h⟩ | h | ⟨i, hi, h⟩)
      · rw [h] at he; exact he rfl
      · obtain ⟨o, ho, rfl⟩ := hids i hi; omega
      · obtain ⟨o, ho, h0⟩ := hids 0 h; have := (hrange o ho).1; omega
      · obtain ⟨o, ho, rfl⟩ := hids i hi
        have h1 := (hrange o ho).2
        have h2 := hS.numOrbits
        have h3 : S'.numOrbits = S.numOrbits := rfl
        omega)
    refine ⟨d, hd1, ?_⟩
    rw [hd2, ho']
    apply List.filter_congr
    intro o ho
    obtain ⟨o', ho', rfl⟩ := List.mem_map.1 ho
    rw [(removeCorr_fixed o' ids).1]
    exact decide_eq_decide.2 (not_congr (mem_empty o' ho'))

theorem step_ok {S : OrbitSpace} (hS : S.Ok) (op : SpaceOp) : (S.step op).Ok := by
  cases op with
  | orbits ids =>
    unfold OrbitSpace.step
    by_cases h : ids = [] ∨ (∃ i ∈ ids, i < 0) ∨ (0 : ℤ) ∈ ids ∨
      (∃ i ∈ ids, (S.numOrbits : ℤ) - 1 < i)
    · have : S.removeOrbits ids = none := by unfold OrbitSpace.removeOrbits; rw [if_pos h]
      simp only [this, Option.getD_none]; exact hS
    · obtain ⟨d, h1, h2⟩ := removeOrbits_some hS.sorted h
      simp only [h1, Option.getD_some]
      apply assigned_ok
      rw [h2]
      intro o ho
      exact hS.nonempty o (List.mem_filter.1 ho).1
  | functions ids =>
    unfold OrbitSpace.step
    obtain ⟨d, h1, h2⟩ := removeCorr_some hS ids
    simp only [h1, Option.getD_some]
    apply assigned_ok
    rw [h2]
    intro o ho
    simpa using (List.mem_filter.1 ho).2

theorem run_ok {S : OrbitSpace} (hS : S.Ok) (ops : List SpaceOp) : (S.run ops).Ok := by
  induction ops generalizing S with
  | nil => exact hS
  | cons op ops ih => exact ih (step_ok hS op)

/-! ### function_orbit_ids -/

theorem foldl_replicate (l : List Orb) (acc : List ℕ) :
    l.foldl (fun ids o => ids ++ List.replicate o.combos.length o.id) acc =
      acc ++ l.flatMap fun o => List.replicate o.combos.length o.id := by
  induction l generalizing acc with
  | nil => simp
  | cons o l ih => simp [ih, List.flatMap_cons]

theorem length_flatMap_replicate (l : List Orb) :
    (l.flatMap fun o => List.replicate o.combos.length o.id).length = nFuns l := by
  simp [List.length_flatMap, nFuns]

theorem get_flatMap_replicate (l : List Orb) (j : ℕ) (o : Orb) (h : l[j]? = some o) (i : ℕ)
    (hi : i < o.combos.length) :
    (l.flatMap fun o => List.replicate o.combos.length o.id)[nFuns (l.take j) + i]? =
      some o.id := by
  induction l generalizing j with
  | nil => simp at h
  | cons a l ih =>
    cases j with
    | zero =>
      simp only [List.getElem?_cons_zero, Option.some.injEq] at h
      subst h
      simp only [List.take_zero, nFuns, List.map_nil, List.sum_nil, zero_add, List.flatMap_cons]
      rw [List.getElem?_append_left (by simpa using hi)]
      simp [hi]
    | succ j =>
      simp only [List.getElem?_cons_succ] at h
      rw [List.flatMap_cons, List.getElem?_append_right (by
        simp only [List.length_replicate, List.take_succ_cons, nFuns, List.map_cons, List.sum_cons]
        omega)]
      rw [← ih j h]
      congr 1
      simp only [List.length_replicate, List.take_succ_cons, nFuns, List.map_cons, List.sum_cons]
      omega

end Smol

namespace Smol

theorem dictOrbits_nonempty {d : List (ℕ × List Orb)}
    (h : ∀ p ∈ d, ∀ o ∈ p.2, o.combos ≠ []) : ∀ o ∈ dictOrbits d, o.combos ≠ [] := by
  intro o ho
  obtain ⟨p, hp, hop⟩ := List.mem_flatMap.1 ho
  exact h p ((List.perm_insertionSort _ _).mem_iff.1 hp) o hop

theorem length_funsOf (l : List Orb) : (funsOf l).length = nFuns l := by
  simp [funsOf, nFuns, List.length_flatMap]

theorem get_funsOf (l : List Orb) (j : ℕ) (o : Orb) (h : l[j]? = some o) (i : ℕ) (c : ℕ × ℕ)
    (hc : o.combos[i]? = some c) : (funsOf l)[nFuns (l.take j) + i]? = some (o.tag, c) := by
  have hi := (List.getElem?_eq_some_iff.1 hc).1
  induction l generalizing j with
  | nil => simp at h
  | cons a l ih =>
    have hf : funsOf (a :: l) = (a.combos.map fun c => (a.tag, c)) ++ funsOf l := rfl
    cases j with
    | zero =>
      simp only [List.getElem?_cons_zero, Option.some.injEq] at h
      subst h
      rw [hf, List.take_zero, show nFuns [] = 0 from rfl, zero_add,
        List.getElem?_append_left (by simpa using hi), List.getElem?_map, hc]; rfl
    | succ j =>
      simp only [List.getElem?_cons_succ] at h
      rw [hf, List.getElem?_append_right (by
        simp only [List.length_map, List.take_succ_cons, nFuns, List.map_cons, List.sum_cons]
        omega)]
      rw [← ih j h]
      congr 1
      simp only [List.length_map, List.take_succ_cons, nFuns, List.map_cons, List.sum_cons]
      omega

end Smol

namespace Smol

theorem OrbitSpace.Reachable.ok {S : OrbitSpace} (h : S.Reachable) : S.Ok := by
  obtain ⟨d, ops, hd, rfl⟩ := h
  exact run_ok (assigned_ok d (dictOrbits_nonempty hd)) ops

end Smol

namespace Smol

theorem exists_block (l : List Orb) (f : ℕ) (h : f < nFuns l) :
    ∃ (j : ℕ) (o : Orb) (i : ℕ) (c : ℕ × ℕ), l[j]? = some o ∧ o.combos[i]? = some c ∧
      f = nFuns (l.take j) + i := by
  induction l generalizing f with
  | nil => simp [nFuns] at h
  | cons a l ih =>
    by_cases hf : f < a.combos.length
    · exact ⟨0, a, f, a.combos[f], rfl, List.getElem?_eq_getElem hf, by simp [nFuns]⟩
    · obtain ⟨j, o, i, c, h1, h2, h3⟩ := ih (f - a.combos.length) (by
        simp [nFuns] at h ⊢; omega)
      refine ⟨j + 1, o, i, c, by simpa using h1, h2, ?_⟩
      simp only [List.take_succ_cons, nFuns, List.map_cons, List.sum_cons] at h3 ⊢
      omega

/-- every function id belongs to an orbit -/
theorem function_of_id {S : OrbitSpace} (hS : S.Ok) (f : ℕ) (h0 : 0 < f)
    (h : f < 1 + nFuns S.orbits) :
    ∃ o ∈ S.orbits, ∃ (j : ℕ) (c : ℕ × ℕ), o.combos[j]? = some c ∧ f = o.bitId + j := by
  obtain ⟨j, o, i, c, h1, h2, h3⟩ := exists_block S.orbits (f - 1) (by omega)
  refine ⟨o, List.mem_of_getElem? h1, i, c, h2, ?_⟩
  rw [(hS.get j o h1).2]; omega

end Smol
