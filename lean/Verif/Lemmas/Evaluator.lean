import Verif.Model.Evaluator

/-! Helper lemmas for the cluster evaluators. -/

namespace Smol

variable {K : Type*}

theorem applyWrites_not_mem (ws : List (ℕ × K)) (out : ℕ → K) (s : ℕ)
    (h : s ∉ ws.map Prod.fst) : applyWrites out ws s = out s := by
  induction ws generalizing out with
  | nil => rfl
  | cons w ws ih =>
    simp only [List.map_cons, List.mem_cons, not_or] at h
    simp only [applyWrites, List.foldl_cons] at ih ⊢
    rw [ih _ h.2, Function.update_of_ne h.1]

theorem applyWrites_mem (ws : List (ℕ × K)) (out : ℕ → K) (s : ℕ) (v : K)
    (hn : (ws.map Prod.fst).Nodup) (h : (s, v) ∈ ws) : applyWrites out ws s = v := by
  induction ws generalizing out with
  | nil => simp at h
  | cons w ws ih =>
    simp only [List.map_cons, List.nodup_cons] at hn
    rcases List.mem_cons.1 h with h | h
    · subst h
      have := applyWrites_not_mem ws (Function.update out s v) s hn.1
      simp only [applyWrites, List.foldl_cons] at this ⊢
      rw [this, Function.update_self]
    · exact ih _ hn.2 h

variable [Field K]

/-- A loop over orbits seen abstractly: slot and per-cluster value, together with the rows. -/
abbrev SlotTask (K : Type*) := List (ℕ × (List ℕ → Occ → K)) × ClusterRows

def fullOf (occ : Occ) (t : SlotTask K) : List (ℕ × K) :=
  t.1.map fun sv => (sv.1, (t.2.map fun r => sv.2 r occ).sum / (t.2.length : K))

def deltaOf (occF occI : Occ) (t : SlotTask K) (ratio : K) : List (ℕ × K) :=
  t.1.map fun sv =>
    (sv.1, (t.2.map fun r => sv.2 r occF - sv.2 r occI).sum / ratio / (t.2.length : K))

theorem sum_filter_diff (site : ℕ) (rows : ClusterRows) (v : List ℕ → Occ → K)
    (occF occI : Occ) (hv : ∀ r, site ∉ r → v r occF = v r occI) :
    ((rows.filter fun r => decide (site ∈ r)).map fun r => v r occF - v r occI).sum
      = (rows.map fun r => v r occF).sum - (rows.map fun r => v r occI).sum := by
  induction rows with
  | nil => simp
  | cons r rows ih =>
    by_cases h : site ∈ r
    · simp [h, ih]; ring
    · simp [h, ih, hv r h]

/-- Key identity: local delta writes = difference of full writes. -/
theorem delta_eq_full_diff [CharZero K] {α : Type*} (tasks : List (α × ClusterRows))
    (sl : α → List (ℕ × (List ℕ → Occ → K))) (site : ℕ) (occF occI : Occ) (out0 : ℕ → K)
    (hv : ∀ p ∈ tasks, ∀ sv ∈ sl p.1, ∀ r, site ∉ r → sv.2 r occF = sv.2 r occI)
    (hn : ((tasks.flatMap fun p => (sl p.1).map Prod.fst)).Nodup) (s : ℕ) :
    applyWrites (fun _ => 0)
        ((localData (K := K) tasks site).flatMap fun d =>
          deltaOf occF occI (sl d.1, d.2.1) d.2.2) s
      = applyWrites out0 (tasks.flatMap fun p => fullOf occF (sl p.1, p.2)) s
        - applyWrites out0 (tasks.flatMap fun p => fullOf occI (sl p.1, p.2)) s := by
  have keysF : ∀ occ, ((tasks.flatMap fun p => fullOf occ (sl p.1, p.2)).map Prod.fst)
      = tasks.flatMap fun p => (sl p.1).map Prod.fst := by
    intro occ
    simp only [List.map_flatMap, fullOf, List.map_map]
    rfl
  have keysD : List.Sublist
      (((localData (K := K) tasks site).flatMap fun d =>
          deltaOf occF occI (sl d.1, d.2.1) d.2.2).map Prod.fst)
      (tasks.flatMap fun p => (sl p.1).map Prod.fst) := by
    clear hv hn keysF
    induction tasks with
    | nil => simp [localData]
    | cons p tasks ih =>
      by_cases h : (p.2.filter fun r => decide (site ∈ r)) = []
      · have : localData (K := K) (p :: tasks) site = localData tasks site := by
          simp only [localData]
          rw [List.filterMap_cons_none]
          simp only [if_pos h]
        rw [this]
        exact ih.trans (by simp)
      · have : localData (K := K) (p :: tasks) site
            = (p.1, p.2.filter fun r => decide (site ∈ r),
                (p.2.length : K) / ((p.2.filter fun r => decide (site ∈ r)).length : K))
              :: localData tasks site := by
          simp only [localData]
          rw [List.filterMap_cons_some]
          simp only [if_neg h]
        rw [this]
        simp only [List.flatMap_cons, List.map_append]
        refine List.Sublist.append ?_ ih
        simp only [deltaOf, List.map_map]
        exact List.Sublist.refl _
  by_cases hs : s ∈ tasks.flatMap fun p => (sl p.1).map Prod.fst
  · obtain ⟨p, hp, hs'⟩ := List.mem_flatMap.1 hs
    obtain ⟨sv, hsv, rfl⟩ := List.mem_map.1 hs'
    have full : ∀ occ, applyWrites out0 (tasks.flatMap fun p => fullOf occ (sl p.1, p.2)) sv.1
        = (p.2.map fun r => sv.2 r occ).sum / (p.2.length : K) := by
      intro occ
      apply applyWrites_mem
      · rw [keysF]; exact hn
      · refine List.mem_flatMap.2 ⟨p, hp, ?_⟩
        exact List.mem_map.2 ⟨sv, hsv, rfl⟩
    rw [full, full]
    by_cases h : (p.2.filter fun r => decide (site ∈ r)) = []
    · -- the site is in no cluster of this orbit
      have hz : ∀ r ∈ p.2, site ∉ r := by
        intro r hr hsr
        have : r ∈ p.2.filter fun r => decide (site ∈ r) := by simp [hr, hsr]
        rw [h] at this; simp at this
      have e : (p.2.map fun r => sv.2 r occF) = (p.2.map fun r => sv.2 r occI) :=
        List.map_congr_left fun r hr => hv p hp sv hsv r (hz r hr)
      rw [e, sub_self]
      apply applyWrites_not_mem
      intro hmem
      -- the slot belongs to `p` only
      obtain ⟨w, hw, hws⟩ := List.mem_map.1 hmem
      obtain ⟨d, hd, hwd⟩ := List.mem_flatMap.1 hw
      simp only [localData, List.mem_filterMap] at hd
      obtain ⟨q, hq, hqd⟩ := hd
      by_cases hqr : (q.2.filter fun r => decide (site ∈ r)) = []
      · simp [hqr] at hqd
      · rw [if_neg hqr] at hqd
        injection hqd with hqd
        subst hqd
        obtain ⟨sv', hsv', rfl⟩ := List.mem_map.1 hwd
        simp only at hws
        have hpq : p ≠ q := by rintro rfl; exact hqr h
        clear full keysF keysD hv e hwd hw hmem
        induction tasks with
        | nil => simp at hp
        | cons t tasks ih =>
          simp only [List.flatMap_cons, List.nodup_append'] at hn
          obtain ⟨_, hn2, hdisj⟩ := hn
          rcases List.mem_cons.1 hp with rfl | hp
          · rcases List.mem_cons.1 hq with rfl | hq
            · exact hpq rfl
            · exact hdisj (List.mem_map.2 ⟨sv, hsv, rfl⟩)
                (List.mem_flatMap.2 ⟨q, hq, List.mem_map.2 ⟨sv', hsv', hws⟩⟩)
          · rcases List.mem_cons.1 hq with rfl | hq
            · exact hdisj (List.mem_map.2 ⟨sv', hsv', hws⟩)
                (List.mem_flatMap.2 ⟨p, ‹p ∈ tasks›, List.mem_map.2 ⟨sv, hsv, rfl⟩⟩)
            · exact ih hn2 ‹p ∈ tasks› (List.mem_flatMap.2 ⟨p, ‹p ∈ tasks›, List.mem_map.2 ⟨sv, hsv, rfl⟩⟩) hq
    · -- the local rows give the difference
      have hp0 : (p.2.length : K) ≠ 0 := by
        intro h0
        have : p.2 = [] := List.length_eq_zero_iff.1 (by exact_mod_cast h0)
        rw [this] at h; simp at h
      have hf0 : ((p.2.filter fun r => decide (site ∈ r)).length : K) ≠ 0 := by
        intro h0
        exact h (List.length_eq_zero_iff.1 (by exact_mod_cast h0))
      rw [← sub_div, ← sum_filter_diff site p.2 sv.2 occF occI (hv p hp sv hsv)]
      have := applyWrites_mem
        ((localData (K := K) tasks site).flatMap fun d =>
          deltaOf occF occI (sl d.1, d.2.1) d.2.2) (fun _ => (0 : K)) sv.1
        ((((p.2.filter fun r => decide (site ∈ r)).map
            fun r => sv.2 r occF - sv.2 r occI).sum
          / ((p.2.length : K) / ((p.2.filter fun r => decide (site ∈ r)).length : K))
          / ((p.2.filter fun r => decide (site ∈ r)).length : K)))
        (keysD.nodup hn) (by
          refine List.mem_flatMap.2 ⟨(p.1, p.2.filter fun r => decide (site ∈ r),
                (p.2.length : K) / ((p.2.filter fun r => decide (site ∈ r)).length : K)), ?_, ?_⟩
          · simp only [localData, List.mem_filterMap]
            exact ⟨p, hp, by rw [if_neg h]⟩
          · exact List.mem_map.2 ⟨sv, hsv, rfl⟩)
      rw [this]
      field_simp
  · have full : ∀ occ, applyWrites out0 (tasks.flatMap fun p => fullOf occ (sl p.1, p.2)) s
        = out0 s := fun occ => applyWrites_not_mem _ _ _ (by rw [keysF]; exact hs)
    rw [full, full, sub_self]
    exact applyWrites_not_mem _ _ _ fun h => hs (keysD.subset h)

theorem flatIndex_congr (strides row : List ℕ) (occ occ' : Occ)
    (h : ∀ r ∈ row, occ r = occ' r) : flatIndex strides row occ = flatIndex strides row occ' := by
  unfold flatIndex
  congr 1
  induction row generalizing strides with
  | nil => simp
  | cons r row ih =>
    cases strides with
    | nil => simp
    | cons s strides =>
      simp only [List.zipWith_cons_cons]
      rw [h r (by simp), ih strides fun r hr => h r (by simp [hr])]

theorem flatIndex_update_not_mem (strides row : List ℕ) (occ : Occ) (site c : ℕ)
    (h : site ∉ row) : flatIndex strides row (Function.update occ site c)
      = flatIndex strides row occ := by
  apply flatIndex_congr
  intro r hr
  rw [Function.update_of_ne]
  rintro rfl
  exact h hr

theorem localData_eq_nil {α : Type*} (orbits : List (α × ClusterRows)) (site : ℕ) :
    localData (K := K) orbits site = [] ↔ ∀ p ∈ orbits, ∀ r ∈ p.2, site ∉ r := by
  simp only [localData, List.filterMap_eq_nil_iff]
  constructor
  · intro h p hp r hr hs
    have := h p hp
    have hne : (p.2.filter fun r => decide (site ∈ r)) ≠ [] := by
      intro h0
      have : r ∈ p.2.filter fun r => decide (site ∈ r) := by simp [hr, hs]
      rw [h0] at this; simp at this
    simp [hne] at this
  · intro h p hp
    have : (p.2.filter fun r => decide (site ∈ r)) = [] := by
      rw [List.filter_eq_nil_iff]
      intro r hr
      simp [h p hp r hr]
    simp [this]

/-- slots and per-cluster values of a cluster expansion orbit -/
def ceSlots (o : OrbitData K) : List (ℕ × (List ℕ → Occ → K)) :=
  (List.range o.numCombos).map fun k =>
    (o.bitId + k, fun r occ => o.corrData (k * o.tensorSize + flatIndex o.tensorIndices r occ))

/-- slot and per-cluster value of a cluster decomposition orbit -/
def cdSlots (o : OrbitData K × (ℕ → K)) : List (ℕ × (List ℕ → Occ → K)) :=
  [(o.1.id, fun r occ => o.2 (flatIndex o.1.tensorIndices r occ))]

theorem corrWrites_eq (occ : Occ) (o : OrbitData K) (rows : ClusterRows) :
    corrWrites occ o rows = fullOf occ (ceSlots o, rows) := by
  simp [corrWrites, fullOf, ceSlots, Function.comp_def]

theorem deltaCorrWrites_eq (f i : Occ) (o : OrbitData K) (rows : ClusterRows) (q : K) :
    deltaCorrWrites f i o rows q = deltaOf f i (ceSlots o, rows) q := by
  simp [deltaCorrWrites, deltaOf, ceSlots, Function.comp_def]

theorem interWrites_eq (occ : Occ) (o : OrbitData K × (ℕ → K)) (rows : ClusterRows) :
    interWrites occ o.1 o.2 rows = fullOf occ (cdSlots o, rows) := by
  simp [interWrites, fullOf, cdSlots]

theorem deltaInterWrites_eq (f i : Occ) (o : OrbitData K × (ℕ → K)) (rows : ClusterRows) (q : K) :
    deltaInterWrites f i o.1 o.2 rows q = deltaOf f i (cdSlots o, rows) q := by
  simp [deltaInterWrites, deltaOf, cdSlots]

end Smol

namespace Smol

theorem flatIndex_eq_zip (strides row : List ℕ) (occ : Occ) :
    flatIndex strides row occ = ((strides.zip (row.map occ)).map fun p => p.1 * p.2).sum := by
  unfold flatIndex
  congr 1
  induction row generalizing strides with
  | nil => simp
  | cons r row ih => cases strides <;> simp [ih]

variable {K : Type*} [Field K]

theorem CEProcessor.deltaCorr_eq [CharZero K] (P : CEProcessor K)
    (hn : (P.orbits.flatMap fun p => (List.range p.1.numCombos).map fun k => p.1.bitId + k).Nodup)
    (occ : Occ) (f : ℕ × ℕ) (d : ℕ → K) (hd : P.deltaCorr occ f = some d) (i : ℕ) :
    d i = correlationsFromOccupancy P.orbits (Function.update occ f.1 f.2) i
      - correlationsFromOccupancy P.orbits occ i := by
  unfold CEProcessor.deltaCorr at hd
  simp only at hd
  split at hd
  · simp at hd
  · injection hd with hd
    rw [← hd]
    unfold correlationsFromOccupancy
    simp only [corrWrites_eq, deltaCorrWrites_eq]
    apply delta_eq_full_diff P.orbits ceSlots f.1
    · intro p _ sv hsv r hr
      obtain ⟨k, _, rfl⟩ := List.mem_map.1 hsv
      simp only
      rw [flatIndex_update_not_mem _ _ _ _ _ hr]
    · simpa [ceSlots, Function.comp_def] using hn

theorem CDProcessor.deltaInter_eq [CharZero K] (P : CDProcessor K)
    (hn : (P.orbits.map fun p => p.1.1.id).Nodup)
    (occ : Occ) (f : ℕ × ℕ) (d : ℕ → K) (hd : P.deltaInter occ f = some d) (i : ℕ) :
    d i = interactionsFromOccupancy P.offset P.orbits (Function.update occ f.1 f.2) i
      - interactionsFromOccupancy P.offset P.orbits occ i := by
  unfold CDProcessor.deltaInter at hd
  simp only at hd
  split at hd
  · simp at hd
  · injection hd with hd
    rw [← hd]
    unfold interactionsFromOccupancy
    simp only [interWrites_eq, deltaInterWrites_eq]
    apply delta_eq_full_diff P.orbits cdSlots f.1
    · intro p _ sv hsv r hr
      simp only [cdSlots, List.mem_singleton] at hsv
      subst hsv
      simp only
      rw [flatIndex_update_not_mem _ _ _ _ _ hr]
    · have : (P.orbits.flatMap fun p => List.map Prod.fst (cdSlots p.1))
          = P.orbits.map fun p => p.1.1.id := by
        simp only [cdSlots, List.map_cons, List.map_nil]
        induction P.orbits with
        | nil => rfl
        | cons a l ih => simp [ih]
      rw [this]; exact hn

theorem CEProcessor.deltaLoop_eq [CharZero K] (P : CEProcessor K)
    (hn : (P.orbits.flatMap fun p => (List.range p.1.numCombos).map fun k => p.1.bitId + k).Nodup)
    (flips : Step) (occ : Occ) (acc d : ℕ → K) (hd : P.deltaLoop occ flips acc = some d) (i : ℕ) :
    d i = acc i + (correlationsFromOccupancy P.orbits (applyStep occ flips) i
      - correlationsFromOccupancy P.orbits occ i) := by
  induction flips generalizing occ acc with
  | nil => simp only [CEProcessor.deltaLoop, Option.some.injEq] at hd; simp [applyStep, ← hd]
  | cons f fs ih =>
    simp only [CEProcessor.deltaLoop] at hd
    split at hd
    · simp at hd
    · rename_i e he
      rw [ih _ _ hd, P.deltaCorr_eq hn occ f e he i]
      simp only [applyStep]
      ring

theorem CDProcessor.deltaLoop_eq [CharZero K] (P : CDProcessor K)
    (hn : (P.orbits.map fun p => p.1.1.id).Nodup)
    (flips : Step) (occ : Occ) (acc d : ℕ → K) (hd : P.deltaLoop occ flips acc = some d) (i : ℕ) :
    d i = acc i + (interactionsFromOccupancy P.offset P.orbits (applyStep occ flips) i
      - interactionsFromOccupancy P.offset P.orbits occ i) := by
  induction flips generalizing occ acc with
  | nil => simp only [CDProcessor.deltaLoop, Option.some.injEq] at hd; simp [applyStep, ← hd]
  | cons f fs ih =>
    simp only [CDProcessor.deltaLoop] at hd
    split at hd
    · simp at hd
    · rename_i e he
      rw [ih _ _ hd, P.deltaInter_eq hn occ f e he i]
      simp only [applyStep]
      ring

theorem CEProcessor.deltaLoop_none (P : CEProcessor K) (flips : Step) (occ : Occ) (acc : ℕ → K) :
    P.deltaLoop occ flips acc = none ↔
      ∃ f ∈ flips, ∀ p ∈ P.orbits, ∀ r ∈ p.2, f.1 ∉ r := by
  induction flips generalizing occ acc with
  | nil => simp [CEProcessor.deltaLoop]
  | cons f fs ih =>
    by_cases h : (localData P.orbits f.1 : List (OrbitData K × ClusterRows × K)) = []
    · have h' := (localData_eq_nil (K := K) P.orbits f.1).1 h
      simp only [CEProcessor.deltaLoop, CEProcessor.deltaCorr, h, if_true, true_iff]
      exact ⟨f, by simp, h'⟩
    · have h' : ¬ ∀ p ∈ P.orbits, ∀ r ∈ p.2, f.1 ∉ r := fun h0 =>
        h ((localData_eq_nil (K := K) P.orbits f.1).2 h0)
      simp only [CEProcessor.deltaLoop, CEProcessor.deltaCorr, h, if_false, ih]
      constructor
      · rintro ⟨g, hg, h1⟩; exact ⟨g, by simp [hg], h1⟩
      · rintro ⟨g, hg, h1⟩
        rcases List.mem_cons.1 hg with rfl | hg
        · exact absurd h1 h'
        · exact ⟨g, hg, h1⟩

theorem CDProcessor.deltaLoop_none (P : CDProcessor K) (flips : Step) (occ : Occ) (acc : ℕ → K) :
    P.deltaLoop occ flips acc = none ↔
      ∃ f ∈ flips, ∀ p ∈ P.orbits, ∀ r ∈ p.2, f.1 ∉ r := by
  induction flips generalizing occ acc with
  | nil => simp [CDProcessor.deltaLoop]
  | cons f fs ih =>
    by_cases h : (localData P.orbits f.1 :
        List ((OrbitData K × (ℕ → K)) × ClusterRows × K)) = []
    · have h' := (localData_eq_nil (K := K) P.orbits f.1).1 h
      simp only [CDProcessor.deltaLoop, CDProcessor.deltaInter, h, if_true, true_iff]
      exact ⟨f, by simp, h'⟩
    · have h' : ¬ ∀ p ∈ P.orbits, ∀ r ∈ p.2, f.1 ∉ r := fun h0 =>
        h ((localData_eq_nil (K := K) P.orbits f.1).2 h0)
      simp only [CDProcessor.deltaLoop, CDProcessor.deltaInter, h, if_false, ih]
      constructor
      · rintro ⟨g, hg, h1⟩; exact ⟨g, by simp [hg], h1⟩
      · rintro ⟨g, hg, h1⟩
        rcases List.mem_cons.1 hg with rfl | hg
        · exact absurd h1 h'
        · exact ⟨g, hg, h1⟩

end Smol
