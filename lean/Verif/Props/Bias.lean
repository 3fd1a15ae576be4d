import Verif.Lemmas.Ensemble
import Verif.Lemmas.Ewald
import Verif.Model.Bias
import Verif.Props.OccuUtils

/-!
# C19 Bias values and bias changes
-/

namespace Smol
open Spec

/-! ### Lemmas -/

theorem dictSet_keys_nodup (d : List (ℕ × ℕ)) (f : ℕ × ℕ) (h : (d.map Prod.fst).Nodup) :
    ((dictSet d f).map Prod.fst).Nodup := by
  unfold dictSet
  split
  · have : (d.map fun g => if g.1 = f.1 then f else g).map Prod.fst = d.map Prod.fst := by
      rw [List.map_map]
      apply List.map_congr_left
      intro g _
      simp only [Function.comp_apply]
      split
      · rename_i h; exact h.symm
      · rfl
    rw [this]; exact h
  · rename_i hf
    rw [List.map_append, List.nodup_append]
    refine ⟨h, by simp, ?_⟩
    intro a ha b hb
    simp only [List.map_cons, List.map_nil, List.mem_singleton] at hb
    subst hb
    rintro rfl
    exact hf ha

theorem dictSet_lookup (d : List (ℕ × ℕ)) (f : ℕ × ℕ) (s : ℕ) :
    (dictSet d f).lookup s = if s = f.1 then some f.2 else d.lookup s := by
  unfold dictSet
  split
  · rename_i hf
    induction d with
    | nil => simp at hf
    | cons g d ih =>
      rw [List.map_cons]
      by_cases hg : g.1 = f.1
      · rw [if_pos hg]
        by_cases hs : s = f.1
        · obtain ⟨f1, f2⟩ := f
          simp only at hs; subst hs; simp [List.lookup]
        · obtain ⟨f1, f2⟩ := f
          obtain ⟨g1, g2⟩ := g
          simp only at hg hs ⊢
          subst hg
          rw [List.lookup_cons, List.lookup_cons]
          have : (s == g1) = false := by simpa using hs
          rw [this]
          simp only [if_neg hs]
          by_cases hd : g1 ∈ d.map Prod.fst
          · have := ih hd
            rw [if_neg hs] at this
            exact this
          · congr 1
            conv_rhs => rw [← List.map_id d]
            apply List.map_congr_left
            rintro ⟨a, b⟩ hab
            rw [if_neg]; · rfl
            rintro rfl
            exact hd (List.mem_map.2 ⟨_, hab, rfl⟩)
      · rw [if_neg hg]
        obtain ⟨g1, g2⟩ := g
        rw [List.lookup_cons, List.lookup_cons]
        have hd : f.1 ∈ d.map Prod.fst := by
          rcases List.mem_cons.1 hf with h | h
          · exact absurd h.symm hg
          · exact h
        rw [ih hd]
        by_cases hs : s = f.1
        · have : (s == g1) = false := by
            simp only at hg
            simp [hs, Ne.symm hg]
          rw [this, if_pos hs]
        · simp [if_neg hs]
  · rename_i hf
    induction d with
    | nil =>
      obtain ⟨f1, f2⟩ := f
      simp only [List.nil_append, List.lookup_cons, List.lookup_nil]
      by_cases hs : s = f1
      · simp [hs]
      · have : (s == f1) = false := by simpa using hs
        simp [this, hs]
    | cons g d ih =>
      obtain ⟨g1, g2⟩ := g
      have hf' : f.1 ∉ d.map Prod.fst := fun h => hf (List.mem_cons_of_mem _ h)
      have hne : f.1 ≠ g1 := fun h => hf (by simp [h])
      rw [List.cons_append, List.lookup_cons, List.lookup_cons, ih hf']
      by_cases hs : s = f.1
      · have : (s == g1) = false := by simp [hs, hne]
        rw [this, if_pos hs]
      · simp [hs]

theorem applyStep_eq_lookup (occ : Occ) (d : List (ℕ × ℕ)) (h : (d.map Prod.fst).Nodup) (s : ℕ) :
    applyStep occ d s = (d.lookup s).getD (occ s) := by
  induction d generalizing occ with
  | nil => rfl
  | cons f d ih =>
    rw [List.map_cons, List.nodup_cons] at h
    obtain ⟨f1, f2⟩ := f
    rw [applyStep, List.lookup_cons]
    by_cases hs : s = f1
    · subst hs
      rw [applyStep_of_not_mem]
      · simp
      · rintro g hg rfl
        exact h.1 (List.mem_map.2 ⟨g, hg, rfl⟩)
    · have : (s == f1) = false := by simpa using hs
      rw [ih _ h.2, this, Function.update_of_ne hs]

theorem dictOf_spec (step : Step) :
    ((dictOf step).map Prod.fst).Nodup ∧ (∀ occ, applyStep occ (dictOf step) = applyStep occ step) ∧
      ∀ f ∈ dictOf step, f ∈ step := by
  unfold dictOf
  induction step using List.reverseRecOn with
  | nil => simp
  | append_singleton l f ih =>
    obtain ⟨h1, h2, h3⟩ := ih
    rw [List.foldl_append, List.foldl_cons, List.foldl_nil]
    have hn := dictSet_keys_nodup _ f h1
    refine ⟨hn, ?_, ?_⟩
    · intro occ
      funext s
      rw [applyStep_eq_lookup _ _ hn, dictSet_lookup, applyStep_append, ← h2, applyStep, applyStep]
      by_cases hs : s = f.1
      · subst hs; simp
      · rw [if_neg hs, Function.update_of_ne hs, applyStep_eq_lookup _ _ h1]
    · intro g hg
      unfold dictSet at hg
      split at hg
      · obtain ⟨g', hg', rfl⟩ := List.mem_map.1 hg
        split
        · simp
        · exact List.mem_append_left _ (h3 _ hg')
      · rcases List.mem_append.1 hg with h | h
        · exact List.mem_append_left _ (h3 _ h)
        · exact List.mem_append_right _ h

theorem fillTable_not {K : Type*} (ps : List (Sublattice × (ℕ → K))) (t : ℕ → ℕ → K) (s c : ℕ)
    (h : ∀ p ∈ ps, s ∉ p.1.sites) : fillTable ps t s c = t s c := by
  unfold fillTable
  induction ps generalizing t with
  | nil => rfl
  | cons p ps ih =>
    rw [List.foldl_cons, ih _ fun q hq => h q (List.mem_cons_of_mem _ hq), if_neg]
    exact fun hh => h p (by simp) hh.1

theorem fillTable_at {K : Type*} (ps : List (Sublattice × (ℕ → K))) (t : ℕ → ℕ → K) (s c : ℕ)
    (hd : ps.Pairwise fun x y => ∀ s ∈ x.1.sites, s ∉ y.1.sites) (p : Sublattice × (ℕ → K))
    (hp : p ∈ ps) (hs : s ∈ p.1.sites) (hc : c ∈ p.1.encoding) :
    fillTable ps t s c = p.2 (p.1.species.getD (p.1.encoding.idxOf c) 0) := by
  induction ps generalizing t with
  | nil => cases hp
  | cons q ps ih =>
    rw [List.pairwise_cons] at hd
    rcases List.mem_cons.1 hp with rfl | hp
    · have hn : ∀ p' ∈ ps, s ∉ p'.1.sites := fun p' hp' => hd.1 p' hp' s hs
      unfold fillTable
      rw [List.foldl_cons]
      have := fillTable_not ps (fun s c => if s ∈ p.1.sites ∧ c ∈ p.1.encoding then
        p.2 (p.1.species.getD (p.1.encoding.idxOf c) 0) else t s c) s c hn
      unfold fillTable at this
      rw [this, if_pos ⟨hs, hc⟩]
    · unfold fillTable
      rw [List.foldl_cons]
      exact ih _ hd.2 hp

/-- code to species -/
theorem species_of_code (sl : Sublattice) (hn : sl.encoding.Nodup) (i c sp : ℕ)
    (hi : sl.encoding[i]? = some c) (hsp : sl.species[i]? = some sp) :
    c ∈ sl.encoding ∧ sl.species.getD (sl.encoding.idxOf c) 0 = sp := by
  obtain ⟨hlt, rfl⟩ := List.getElem?_eq_some_iff.1 hi
  refine ⟨List.getElem_mem hlt, ?_⟩
  rw [hn.idxOf_getElem, List.getD_eq_getElem?_getD, hsp, Option.getD_some]

theorem lookup_of_mem_nodup {K : Type*} (l : List (ℕ × K)) (h : (l.map Prod.fst).Nodup) (a : ℕ)
    (b : K) (hm : (a, b) ∈ l) : l.lookup a = some b := by
  induction l with
  | nil => cases hm
  | cons x l ih =>
    rw [List.map_cons, List.nodup_cons] at h
    obtain ⟨x1, x2⟩ := x
    rw [List.lookup_cons]
    rcases List.mem_cons.1 hm with h' | h'
    · cases h'; simp
    · have : (a == x1) = false := by
        simp only [beq_eq_false_iff_ne]
        rintro rfl
        exact h.1 (List.mem_map.2 ⟨_, h', rfl⟩)
      rw [this]; exact ih h.2 h'

theorem pairwise_zip_fst {α β : Type*} (R : α → α → Prop) (l : List α) (m : List β)
    (h : l.Pairwise R) : (l.zip m).Pairwise fun x y => R x.1 y.1 := by
  induction l generalizing m with
  | nil => simp
  | cons a l ih =>
    cases m with
    | nil => simp
    | cons b m =>
      rw [List.zip_cons_cons, List.pairwise_cons]
      rw [List.pairwise_cons] at h
      exact ⟨fun y hy => h.1 _ (List.of_mem_zip hy).1, ih m h.2⟩

theorem code_lt_shape (sls : List Sublattice) (sl : Sublattice) (hsl : sl ∈ sls) (c : ℕ)
    (hc : c ∈ sl.encoding) : c < (tableShape sls).2 := by
  have := (le_foldl_max (sls.flatMap Sublattice.encoding) 0).2 c
    (List.mem_flatMap.2 ⟨sl, hsl, hc⟩)
  unfold tableShape
  simp only; omega

/-! ### FugacityBias -/

/-- C19. FugacityBias: for every fugacity table, occupancies with defined bias, and every step, with
repeated sites or not, `compute_bias_change` is `compute_bias` after minus before. -/
theorem C19_fugacity_change (t : ValTable ℝ) (n : ℕ) (occ occ' : Occ) (step : Step) (a b : ℝ)
    (hs : ∀ f ∈ step, f.1 < n) (hr : ReachedBy occ step occ') (ha : fugacityBias t n occ = some a)
    (hb : fugacityBias t n occ' = some b) : fugacityBiasChange t occ step = some (b - a) := by
  obtain ⟨h1, h2, h3⟩ := dictOf_spec step
  have hocc := (reachedBy_iff _ _ _).1 hr
  unfold fugacityBias at ha hb
  split at ha
  swap; · cases ha
  split at hb
  swap; · cases hb
  rename_i hpa hpb
  have ha' : chemicalWork (fun s c => Real.log (t.entry s c)) n occ = a := by
    simpa [chemicalWork] using ha
  have hb' : chemicalWork (fun s c => Real.log (t.entry s c)) n occ' = b := by
    simpa [chemicalWork] using hb
  have hlast : ∀ f ∈ dictOf step, occ' f.1 = f.2 := by
    rintro ⟨f1, f2⟩ hf
    rw [hocc, ← h2, applyStep_eq_lookup _ _ h1, lookup_of_mem_nodup _ h1 _ _ hf, Option.getD_some]
  have hok : ∀ f ∈ dictOf step, t.LogOk f.1 f.2 ∧ t.LogOk f.1 (occ f.1) := by
    intro f hf
    have hlt := hs f (h3 f hf)
    exact ⟨hlast f hf ▸ hpb f.1 hlt, hpa f.1 hlt⟩
  unfold fugacityBiasChange
  rw [if_pos hok]
  congr 1
  have hw := chemicalWork_step (fun s c => Real.log (t.entry s c)) n occ (dictOf step)
    (fun f hf => hs f (h3 f hf)) h1
  rw [h2, ← hocc, ha', hb'] at hw
  rw [hw, add_sub_cancel_left]
  unfold chemicalWorkChange
  congr 1
  apply List.map_congr_left
  intro f hf
  rw [Real.log_div (hok f hf).1.2.2.ne' (hok f hf).2.2.2.ne']

/-- C19. FugacityBias: the value is the sum over sites of the log of the fraction given for the
species held on the site; sites of sublattices without fractions contribute nothing. -/
theorem C19_fugacity_value (sls : List Sublattice) (h : SublatticesOk sls)
    (species : List (List ℕ)) (value : List (List (ℕ × ℝ))) (t : ValTable ℝ)
    (ht : setFugacity sls (sls.filter Sublattice.isActive) species value = some t)
    (n : ℕ) (hn : n = (sls.map fun sl => sl.sites.length).sum) (occ : Occ)
    (hcover : ∀ s < n, ∃ sl ∈ sls, s ∈ sl.sites ∧ occ s ∈ sl.encoding)
    (w : ℕ → ℝ) (hpos : ∀ s < n, 0 < w s)
    (hw : ∀ sl fus, (sl, fus) ∈ (sls.filter Sublattice.isActive).zip value → ∀ s ∈ sl.sites,
      ∃ (i sp : ℕ), sl.encoding[i]? = some (occ s) ∧ sl.species[i]? = some sp ∧ (sp, w s) ∈ fus)
    (hw' : ∀ s < n, (∀ sl fus, (sl, fus) ∈ (sls.filter Sublattice.isActive).zip value →
      s ∉ sl.sites) → w s = 1) :
    fugacityBias t n occ = some (∑ s ∈ Finset.range n, Real.log (w s)) := by
  unfold setFugacity at ht
  split at ht
  · cases ht
  rename_i hdup
  push Not at hdup
  split at ht
  · cases ht
  split at ht
  · cases ht
  simp only [Option.some.injEq] at ht
  subst ht
  have hentry : ∀ s < n, fillTable (((sls.filter Sublattice.isActive).zip value).map fun p =>
      (p.1, fun sp => (p.2.lookup sp).getD 0)) (fun _ _ => 1) s (occ s) = w s := by
    intro s hsn
    by_cases hex : ∃ p ∈ (sls.filter Sublattice.isActive).zip value, s ∈ p.1.sites
    · obtain ⟨⟨sl, fus⟩, hp, hs⟩ := hex
      obtain ⟨i, sp, hi, hsp, hm⟩ := hw sl fus hp s hs
      have hmem := List.of_mem_zip hp
      have hsl : sl ∈ sls := List.mem_of_mem_filter hmem.1
      obtain ⟨hc, hsp'⟩ := species_of_code sl (h.encoding sl hsl).1 i (occ s) sp hi hsp
      rw [fillTable_at _ _ s (occ s) ?_ (sl, fun sp => (fus.lookup sp).getD 0)
        (List.mem_map.2 ⟨(sl, fus), hp, rfl⟩) hs hc]
      · simp only
        rw [hsp', lookup_of_mem_nodup _ (hdup fus hmem.2) _ _ hm, Option.getD_some]
      · rw [List.pairwise_map]
        exact pairwise_zip_fst _ _ _ (h.disjoint.filter _)
    · push Not at hex
      rw [fillTable_not, hw' s hsn fun sl fus hp => hex _ hp]
      intro p hp
      obtain ⟨q, hq, rfl⟩ := List.mem_map.1 hp
      exact hex q hq
  unfold fugacityBias
  rw [if_pos]
  · rw [← list_range_sum]
    congr 2
    apply List.map_congr_left
    intro s hs
    simp only
    rw [hentry s (List.mem_range.1 hs)]
  · intro s hs
    obtain ⟨sl, hsl, _, hc⟩ := hcover s hs
    refine ⟨?_, code_lt_shape sls sl hsl _ hc, ?_⟩
    · simp only [tableShape]; omega
    · simp only
      rw [hentry s hs]; exact hpos s hs

/-- C19. Fractions that do not add to one, name a species twice, or name other species than the
sublattice, are refused. -/
theorem C19_fugacity_refused (sls active : List Sublattice) (species : List (List ℕ))
    (value : List (List (ℕ × ℝ))) (t : ValTable ℝ)
    (ht : setFugacity sls active species value = some t) :
    (∀ fus ∈ value, (fus.map Prod.fst).Nodup ∧ (fus.map Prod.snd).sum = 1) ∧
    ∀ (i : ℕ) (sps : List ℕ) (fus : List (ℕ × ℝ)), species[i]? = some sps →
      value[i]? = some fus → ∀ sp, sp ∈ sps ↔ ∃ x, (sp, x) ∈ fus := by
  unfold setFugacity at ht
  split at ht
  · cases ht
  rename_i h1
  split at ht
  · cases ht
  rename_i h2
  split at ht
  · cases ht
  rename_i h3
  push Not at h1 h2 h3
  refine ⟨fun fus hf => ⟨h1 fus hf, h2 fus hf⟩, ?_⟩
  intro i sps fus hi hj sp
  have hz : (sps, fus) ∈ species.zip value := by
    apply List.mem_of_getElem? (i := i)
    rw [List.getElem?_zip_eq_some]
    exact ⟨hi, hj⟩
  obtain ⟨ha, hb⟩ := h3 _ hz
  constructor
  · intro h
    obtain ⟨⟨a, x⟩, hm, rfl⟩ := List.mem_map.1 (ha sp h)
    exact ⟨x, hm⟩
  · rintro ⟨x, hx⟩
    exact hb sp (List.mem_map.2 ⟨_, hx, rfl⟩)

/-! ### SquareChargeBias and SquareHyperplaneBias -/

section Square
variable {K : Type*} [CommRing K]

/-- C19. SquareChargeBias: the change is the value after minus before, for every table, penalty,
occupancy and step, also with repeated sites. -/
theorem C19_charge_change (penalty : K) (t : ValTable K) (n : ℕ) (occ occ' : Occ) (step : Step)
    (a b : K) (hr : ReachedBy occ step occ') (ha : chargeBias penalty t n occ = some a)
    (hb : chargeBias penalty t n occ' = some b) :
    chargeBiasChange penalty t n occ step = some (b - a) := by
  rw [(reachedBy_iff _ _ _).1 hr] at hb
  simp [chargeBiasChange, defaultBiasChange, ha, hb]

/-- C19. SquareChargeBias: the value is minus the penalty times the square of the total charge of
the species held. -/
theorem C19_charge_value [LinearOrder K] (sls : List Sublattice) (h : SublatticesOk sls)
    (charge : ℕ → K) (penalty : K) (t : ValTable K) (ht : chargeTableOf charge penalty sls = some t)
    (n : ℕ) (hn : n = (sls.map fun sl => sl.sites.length).sum) (occ : Occ) (held : ℕ → ℕ)
    (hheld : ∀ s < n, ∃ sl ∈ sls, s ∈ sl.sites ∧ ∃ i : ℕ, sl.encoding[i]? = some (occ s) ∧
      sl.species[i]? = some (held s)) :
    0 < penalty ∧
    chargeBias penalty t n occ = some (-penalty * (∑ s ∈ Finset.range n, charge (held s)) ^ 2) := by
  unfold chargeTableOf at ht
  split at ht
  · cases ht
  rename_i hpen
  refine ⟨not_le.1 hpen, ?_⟩
  simp only [Option.some.injEq] at ht
  subst ht
  unfold chargeBias
  rw [if_pos]
  · rw [← list_range_sum]
    congr 4
    apply List.map_congr_left
    intro s hs
    obtain ⟨sl, hsl, hsm, i, hi, hsp⟩ := hheld s (List.mem_range.1 hs)
    obtain ⟨hc, hsp'⟩ := species_of_code sl (h.encoding sl hsl).1 i (occ s) _ hi hsp
    simp only
    rw [fillTable_at _ _ s (occ s) ?_ (sl, charge) (List.mem_map.2 ⟨sl, hsl, rfl⟩) hsm hc]
    · simp only
      rw [hsp']
    · rw [List.pairwise_map]; exact h.disjoint
  · intro s hs
    obtain ⟨sl, hsl, hsm, i, hi, hsp⟩ := hheld s hs
    refine ⟨?_, code_lt_shape sls sl hsl _ (List.mem_of_getElem? hi)⟩
    simp only [tableShape]; omega

/-- C19. SquareHyperplaneBias: the change is the value after minus before. -/
theorem C19_hyperplane_change (penalty : K) (A : List (List ℤ)) (v : List ℤ) (t : DimTable × ℕ)
    (n : ℕ) (occ occ' : Occ) (step : Step) (a b : K) (hr : ReachedBy occ step occ')
    (ha : hyperplaneBias penalty A v t n occ = some a)
    (hb : hyperplaneBias penalty A v t n occ' = some b) :
    hyperplaneBiasChange penalty A v t n occ step = some (b - a) := by
  rw [(reachedBy_iff _ _ _).1 hr] at hb
  simp [hyperplaneBiasChange, defaultBiasChange, ha, hb]

/-- C19. SquareHyperplaneBias: the value is minus the penalty times the sum over hyperplanes of the
squared deviation of the species counts of the occupancy. -/
theorem C19_hyperplane_value [LinearOrder K] (sls : List Sublattice) (h : SublatticesOk sls)
    (hsp : ∀ sl ∈ sls, sl.species.length = sl.encoding.length) (penalty : K) (A : List (List ℤ))
    (v : List ℤ) (t : DimTable × ℕ) (ht : hyperplaneInit penalty sls = some t)
    (hA : A.length = v.length)
    (hrow : ∀ row ∈ A, row.length = (sls.map fun sl => sl.species.length).sum)
    (n : ℕ) (hn : n = (sls.map fun sl => sl.sites.length).sum) (occ : Occ)
    (hcover : ∀ s < n, ∃ sl ∈ sls, s ∈ sl.sites ∧ occ s ∈ sl.encoding) :
    0 < penalty ∧ hyperplaneBias penalty A v t n occ =
      some (-penalty * ((List.zipWith (fun row x => ((List.zipWith (fun (a : ℤ) p =>
        a * ((p.1.filter fun s => occ s == p.2).length : ℤ)) row
        (sls.flatMap fun sl => sl.encoding.map fun c => (sl.sites, c))).sum - x) ^ 2) A v).sum : ℤ))
    := by
  unfold hyperplaneInit at ht
  split at ht
  · cases ht
  rename_i hpen
  refine ⟨not_le.1 hpen, ?_⟩
  obtain ⟨t', ht', hc, _⟩ := C18_counts_and_species_list false sls h occ n hn hcover
  rw [ht', Option.map_some, Option.some.injEq] at ht
  subst ht
  have hd : (countDimensions false sls).length = (sls.map fun sl => sl.species.length).sum := by
    unfold countDimensions
    rw [List.length_flatMap]
    congr 1
    apply List.map_congr_left
    intro sl hsl
    rw [List.length_map, hsp sl hsl]
  have hdim : countDimensions false sls =
      sls.flatMap fun sl => sl.encoding.map fun c => (sl.sites, c) := by
    simp [countDimensions]
  unfold hyperplaneBias
  simp only
  rw [← hd, hc, Option.bind_some, if_pos]
  · rw [← hdim]
    congr 5
    funext row x
    unfold hyperplaneGap
    rw [List.zipWith_map_right]
  · refine ⟨hA, fun row hr => ?_⟩
    rw [List.length_map, hd]
    exact hrow row hr

end Square

/-! ### Examples -/

/-- fractions 1/4, 1/4, 1/2 on the first sublattice, 1/3, 2/3 on the second are accepted -/
example : (setFugacity exampleSublattices (exampleSublattices.filter Sublattice.isActive)
    [[7, 8, 9], [5, 6]] [[(8, 1 / 4), (7, 1 / 4), (9, 1 / 2)], [(5, 1 / 3), (6, (2 / 3 : ℚ))]]).map
      (fun t => (t.entry 0 1, t.entry 2 2, t.entry 3 2, t.entry 9 0)) =
      some (1 / 4, 1 / 2, 2 / 3, 1) := by decide +kernel

/-- fractions for the wrong species are refused -/
example : (setFugacity exampleSublattices (exampleSublattices.filter Sublattice.isActive)
    [[7, 8, 9], [5, 6]] [[(8, 1 / 4), (7, 3 / 4)], [(5, 1 / 3), (6, (2 / 3 : ℚ))]]).isNone := by
  decide +kernel

/-- a step naming site 0 twice: only its last flip counts -/
example : dictOf [(0, 2), (1, 0), (0, 1)] = [(0, 1), (1, 0)] := by decide

/-- the hypotheses of the fugacity theorem hold for positive tables -/
example : ∃ a b, fugacityBias ⟨2, 2, fun _ c => if c = 0 then 1 / 4 else 3 / 4⟩ 2 (fun _ => 0) =
    some a ∧ fugacityBias ⟨2, 2, fun _ c => if c = 0 then 1 / 4 else 3 / 4⟩ 2
      (applyStep (fun _ => 0) [(0, 0), (0, 1)]) = some b ∧ a < b := by
  have hstep : applyStep (fun _ => 0) [(0, 0), (0, 1)] = fun s => if s = 0 then 1 else 0 := by
    funext s
    simp only [applyStep, Function.update_apply]
    split <;> rfl
  have h : ∀ occ : Occ, (∀ s, occ s < 2) →
      ∀ s < 2, (⟨2, 2, fun _ c => if c = 0 then 1 / 4 else 3 / 4⟩ : ValTable ℝ).LogOk s (occ s) := by
    intro occ ho s hs
    refine ⟨hs, ho s, ?_⟩
    simp only
    split <;> norm_num
  rw [hstep]
  unfold fugacityBias
  rw [if_pos (h _ (by intro s; norm_num)), if_pos (h _ (by intro s; split <;> norm_num))]
  refine ⟨_, _, rfl, rfl, ?_⟩
  have : Real.log (1 / 4) < Real.log (3 / 4) := Real.log_lt_log (by norm_num) (by norm_num)
  simp only [List.range_succ, List.range_zero]
  norm_num at this ⊢
  linarith

/-- charges of a five-site cell -/
example : (chargeTableOf (fun sp => if sp = 7 then 1 else if sp = 9 then -2 else (0 : ℚ)) (1 / 2)
    exampleSublattices).bind (fun t => (chargeBias (1 / 2) t 5 fun _ => 0).bind fun b =>
      (chargeBiasChange (1 / 2) t 5 (fun _ => 0) [(0, 1), (0, 2)]).map fun c => (b, c)) =
      some (-9 / 2, 9 / 2) := by decide +kernel

/-- a hyperplane on the counts of the five-site cell -/
example : (hyperplaneInit (1 / 2 : ℚ) exampleSublattices).bind (fun t =>
    (hyperplaneBias (1 / 2 : ℚ) [[1, 0, -1, 0, 2], [0, 1, 0, 0, 0]] [1, 0] t 5 fun _ => 0).bind fun b =>
      (hyperplaneBiasChange (1 / 2 : ℚ) [[1, 0, -1, 0, 2], [0, 1, 0, 0, 0]] [1, 0] t 5 (fun _ => 0)
        [(0, 1), (1, 2)]).map fun c => (b, c)) = some (-2, -3) := by decide +kernel

end Smol
