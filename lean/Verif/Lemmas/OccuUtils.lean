import Verif.Model.OccuUtils
import Verif.Lemmas.Sublattice
import Verif.Lemmas.Occupancy

namespace Smol

/-- (sites, code) pairs in the order in which dimensions are numbered -/
def dimList (activeOnly : Bool) (sls : List Sublattice) : List (List ℕ × ℕ) :=
  sls.flatMap fun sl => sl.encoding.map fun c => (sl.tableSites activeOnly, c)

/-- one write of the table loop -/
def dimWrite (st : (ℕ → ℕ → ℤ) × ℕ) (p : List ℕ × ℕ) : (ℕ → ℕ → ℤ) × ℕ :=
  (fun s c => if s ∈ p.1 ∧ c = p.2 then (st.2 : ℤ) else st.1 s c, st.2 + 1)

theorem dimTableLoop_eq (a : Bool) (sls : List Sublattice) (st : (ℕ → ℕ → ℤ) × ℕ) :
    dimTableLoop a sls st = (dimList a sls).foldl dimWrite st := by
  induction sls generalizing st with
  | nil => rfl
  | cons sl sls ih =>
    rw [dimTableLoop, List.foldl_cons, ← dimTableLoop, ih]
    have : dimList a (sl :: sls) =
        (sl.encoding.map fun c => (sl.tableSites a, c)) ++ dimList a sls := rfl
    rw [this, List.foldl_append, List.foldl_map]
    rfl

theorem foldl_dimWrite_snd (l : List (List ℕ × ℕ)) (st : (ℕ → ℕ → ℤ) × ℕ) :
    (l.foldl dimWrite st).2 = st.2 + l.length := by
  induction l generalizing st with
  | nil => rfl
  | cons p l ih => rw [List.foldl_cons, ih]; simp [dimWrite]; omega

theorem foldl_dimWrite_none (l : List (List ℕ × ℕ)) (st : (ℕ → ℕ → ℤ) × ℕ) (s c : ℕ)
    (h : ∀ p ∈ l, ¬ (s ∈ p.1 ∧ c = p.2)) : (l.foldl dimWrite st).1 s c = st.1 s c := by
  induction l generalizing st with
  | nil => rfl
  | cons p l ih =>
    rw [List.foldl_cons, ih _ fun q hq => h q (by simp [hq])]
    simp [dimWrite, h p (by simp)]

theorem foldl_dimWrite_at (l : List (List ℕ × ℕ)) (st : (ℕ → ℕ → ℤ) × ℕ) (s c d : ℕ)
    (p : List ℕ × ℕ) (hd : l[d]? = some p) (hp : s ∈ p.1 ∧ c = p.2)
    (huniq : l.Pairwise fun p q => ¬ (p.2 = q.2 ∧ ∃ s ∈ p.1, s ∈ q.1)) :
    (l.foldl dimWrite st).1 s c = (st.2 + d : ℕ) := by
  induction l generalizing st d with
  | nil => simp at hd
  | cons q l ih =>
    rw [List.pairwise_cons] at huniq
    rw [List.foldl_cons]
    cases d with
    | zero =>
      simp only [List.getElem?_cons_zero, Option.some.injEq] at hd
      subst hd
      rw [foldl_dimWrite_none]
      · simp [dimWrite, hp.1, hp.2]
      · rintro r hr ⟨h1, h2⟩
        exact huniq.1 r hr ⟨by rw [← hp.2, h2], s, hp.1, h1⟩
    | succ d =>
      simp only [List.getElem?_cons_succ] at hd
      rw [ih _ d hd huniq.2]
      simp [dimWrite]; omega

/-- no (site, code) pair belongs to two dimensions -/
theorem dimList_pairwise (a : Bool) (sls : List Sublattice)
    (hdisj : sls.Pairwise fun x y => ∀ s ∈ x.sites, s ∉ y.sites)
    (hact : ∀ sl ∈ sls, ∀ s ∈ sl.active, s ∈ sl.sites)
    (henc : ∀ sl ∈ sls, sl.encoding.Nodup) :
    (dimList a sls).Pairwise fun p q => ¬ (p.2 = q.2 ∧ ∃ s ∈ p.1, s ∈ q.1) := by
  have hts : ∀ sl ∈ sls, ∀ s ∈ sl.tableSites a, s ∈ sl.sites := by
    intro sl hsl s hs
    unfold Sublattice.tableSites at hs
    split at hs
    · exact hact sl hsl s hs
    · exact hs
  clear hact
  induction sls with
  | nil => simp [dimList]
  | cons sl sls ih =>
    rw [List.pairwise_cons] at hdisj
    rw [dimList, List.flatMap_cons, List.pairwise_append]
    refine ⟨?_, ih hdisj.2 (fun x hx => henc x (by simp [hx])) fun x hx => hts x (by simp [hx]), ?_⟩
    · rw [List.pairwise_map]
      exact (henc sl (by simp)).imp fun h => by rintro ⟨h1, _⟩; exact h h1
    · intro p hp q hq
      simp only [List.mem_map, List.mem_flatMap] at hp hq
      obtain ⟨c, _, rfl⟩ := hp
      obtain ⟨sl', hsl', c', _, rfl⟩ := hq
      rintro ⟨_, s, h1, h2⟩
      exact hdisj.1 sl' hsl' s (hts sl (by simp) s h1) (hts sl' (by simp [hsl']) s h2)

theorem dimIdsOf_some (t : DimTable) (n : ℕ) (occ : Occ) (ids : List ℤ)
    (h : dimIdsOf t n occ = some ids) :
    n = t.nRow ∧ (∀ s < n, occ s < t.nCol) ∧ ids = (List.range n).map fun s => t.entry s (occ s) := by
  unfold dimIdsOf at h
  split at h
  · cases h
  rename_i hn
  push Not at hn
  rw [mapM_eq_some_forall₂] at h
  have h' : List.Forall₂ (fun s b => occ s < t.nCol ∧ b = t.entry s (occ s)) (List.range n) ids := by
    refine h.imp ?_
    intro s b hb
    unfold DimTable.get? at hb
    split at hb
    · rename_i hc; simp only [Option.some.injEq] at hb; exact ⟨hc.2, hb.symm⟩
    · cases hb
  refine ⟨hn, ?_, ?_⟩
  · intro s hs
    obtain ⟨i, hi, hir⟩ := List.mem_iff_getElem.1 (List.mem_range.2 hs)
    have := (List.forall₂_iff_get.1 h').2 i hi (by rw [← h'.length_eq]; exact hi)
    simp at this hir
    exact hir ▸ this.1
  · clear h hn
    revert h'
    generalize List.range n = l
    intro h'
    induction h' with
    | nil => rfl
    | cons hx _ ih => rw [List.map_cons, ← ih, hx.2]

theorem dimIdsOf_eq (t : DimTable) (n : ℕ) (occ : Occ) (hn : n = t.nRow)
    (h : ∀ s < n, occ s < t.nCol) :
    dimIdsOf t n occ = some ((List.range n).map fun s => t.entry s (occ s)) := by
  unfold dimIdsOf
  rw [if_neg (by simpa using hn), mapM_eq_some_forall₂, List.forall₂_map_right_iff]
  rw [List.forall₂_same]
  intro s hs
  have hs := List.mem_range.1 hs
  simp [DimTable.get?, hn ▸ hs, h s hs]

theorem filter_sites_perm (n : ℕ) (l : List ℕ) (hl : l.Nodup) (hn : ∀ s ∈ l, s < n)
    (P : ℕ → Bool) :
    (l.filter P).Perm ((List.range n).filter fun s => decide (s ∈ l) && P s) := by
  rw [List.perm_ext_iff_of_nodup (hl.filter _) ((List.nodup_range).filter _)]
  intro s
  simp only [List.mem_filter, List.mem_range, Bool.and_eq_true, decide_eq_true_eq]
  constructor
  · rintro ⟨h1, h2⟩; exact ⟨hn s h1, h1, h2⟩
  · rintro ⟨_, h1, h2⟩; exact ⟨h1, h2⟩

theorem count_map_range (f : ℕ → ℤ) (n : ℕ) (d : ℤ) :
    ((List.range n).map f).count d = ((List.range n).filter fun s => f s == d).length := by
  rw [List.count_eq_countP, List.countP_map, List.countP_eq_length_filter]
  rfl

/-- changing one site moves one count -/
theorem count_update (e : ℕ → ℕ → ℤ) (n : ℕ) (occ : Occ) (s c : ℕ) (hs : s < n) (d : ℤ) :
    ((((List.range n).map fun i => e i (Function.update occ s c i)).count d : ℕ) : ℤ) =
      ((List.range n).map fun i => e i (occ i)).count d
        - (if e s (occ s) = d then 1 else 0) + (if e s c = d then 1 else 0) := by
  induction n with
  | zero => omega
  | succ n ih =>
    simp only [List.range_succ, List.map_append, List.map_cons, List.map_nil, List.count_append,
      List.count_singleton, Nat.cast_add, beq_iff_eq]
    by_cases h : s = n
    · subst h
      have : ((List.range s).map fun i => e i (Function.update occ s c i)) =
          (List.range s).map fun i => e i (occ i) := by
        apply List.map_congr_left
        intro i hi
        rw [Function.update_of_ne (by have := List.mem_range.1 hi; omega)]
      rw [this, Function.update_self]
      push_cast
      split <;> split <;> simp
    · rw [ih (by omega), Function.update_of_ne (Ne.symm h)]
      ring

theorem deltaLoop_counts (t : DimTable) (nDims n : ℕ) (occ : Occ) (step : Step) (δ δ' : ℕ → ℤ)
    (hn : n = t.nRow) (h : deltaLoop t nDims occ step δ = some δ') (d : ℕ) :
    (((List.range n).map fun s => t.entry s (applyStep occ step s)).count (d : ℤ) : ℤ) =
      ((List.range n).map fun s => t.entry s (occ s)).count (d : ℤ) + (δ' d - δ d) := by
  induction step generalizing occ δ with
  | nil => simp only [deltaLoop, Option.some.injEq] at h; subst h; simp [applyStep]
  | cons f fs ih =>
    unfold deltaLoop at h
    split at h
    · rename_i o x ho hx
      unfold DimTable.get? at ho hx
      split at ho
      swap; · cases ho
      rename_i hr
      split at hx
      swap; · cases hx
      simp only [Option.some.injEq] at ho hx
      split at h
      · cases h
      rename_i hneg
      push Not at hneg
      simp only at h
      rw [applyStep, ih _ _ h, count_update _ _ _ _ _ (by rw [hn]; exact hr.1), ho, hx]
      have e1 : (o = (d : ℤ)) ↔ d = o.toNat := by omega
      have e2 : (x = (d : ℤ)) ↔ d = x.toNat := by omega
      simp only [Function.update_apply, e1, e2]
      split <;> split <;> simp_all <;> ring
    · cases h

theorem deltaLoop_legal (t : DimTable) (nDims : ℕ) (occ : Occ) (step : Step) (δ δ' : ℕ → ℤ)
    (h : deltaLoop t nDims occ step δ = some δ') :
    ∀ f ∈ step, f.1 < t.nRow ∧ f.2 < t.nCol := by
  induction step generalizing occ δ with
  | nil => simp
  | cons f fs ih =>
    unfold deltaLoop at h
    split at h
    · rename_i o x ho hx
      unfold DimTable.get? at hx
      split at hx
      swap; · cases hx
      rename_i hr
      split at h
      · cases h
      intro g hg
      rcases List.mem_cons.1 hg with rfl | hg
      · exact hr
      · exact ih _ _ h g hg
    · cases h

end Smol
