import Verif.Model.FromExpansion
import Verif.Props.Decomposition
import Verif.Props.Energy
import Verif.Props.Sampler
import Verif.Props.SiteSpace

/-!
# C69 An ensemble made from an expansion samples the energy the expansion predicts
-/

namespace Smol
open Spec

variable {K : Type*} [Field K]

/-- The energy an expansion with external electrostatic terms stands for: the cluster expansion
plus, for every external term, its coefficient times the sum of pair interactions. -/
def Expansion.energy (E : Expansion K) (geom : ℕ → OrbitGeom K) (size : ℕ)
    (ext : List (EwaldData K)) (occ : Occ) : K :=
  expansionEnergy size (E.coefs.getD 0 0) (E.terms geom) occ +
    (ext.zipIdx.map fun t => E.coefs.getD (E.space.numCorr + t.2) 0 *
      pairEnergy t.1.numSites t.1.matrix fun k =>
        if t.1.inds k (occ k) = -1 then none else some (t.1.inds k (occ k)).toNat).sum

/-- A site that is in a cluster of some orbit. -/
def OrbitSpace.Covers (S : OrbitSpace) (geom : ℕ → OrbitGeom K) (s : ℕ) : Prop :=
  ∃ o ∈ S.orbits, ∃ row ∈ (geom o.tag).rows, s ∈ row

theorem npDot_eq (a b : List K) (h : a.length = b.length) : npDot a b = some (dot a b) := by
  unfold npDot dot; rw [if_pos h]

theorem npDot_some {a b : List K} {v : K} (h : npDot a b = some v) :
    a.length = b.length ∧ dot a b = v := by
  unfold npDot at h
  split at h
  · exact ⟨by assumption, by simpa [dot] using h⟩
  · cases h

theorem dot_zipIdx (cs : List K) (f : ℕ → K) (h : ∀ i < cs.length, f i = cs.getD i 0)
    {α : Type*} (l : List α) (g : α → K) (hl : l.length = cs.length) :
    dot cs (l.map g) = (l.zipIdx.map fun p => f p.2 * g p.1).sum := by
  induction l generalizing cs f with
  | nil => simp [dot]
  | cons a l ih =>
    cases cs with
    | nil => simp at hl
    | cons c cs =>
      simp only [List.length_cons, Nat.add_right_cancel_iff] at hl
      have h0 := h 0 (by simp)
      have := ih cs (fun i => f (i + 1)) (fun i hi => by
        rw [h (i + 1) (by simpa using hi)]; simp) hl
      simp only [List.map_cons, List.zipIdx_cons', List.sum_cons, List.map_map]
      rw [show dot (c :: cs) (g a :: l.map g) = c * g a + dot cs (l.map g) by simp [dot], this]
      simp [h0, Function.comp_def]

/-- C69. What an expansion predicts: for every legal occupancy the energy above, and with
`normalized=True` the same number per prim cell.  Any number of external terms. -/
theorem C69_prediction [CharZero K] (E : Expansion K) (hR : E.space.Reachable)
    (hlen : E.coefs.length = E.numTerms) (geom : ℕ → OrbitGeom K)
    (hg : E.space.FitsGeom geom) (size : ℕ) (hs : size ≠ 0) (ext : List (EwaldData K))
    (hext : ext.length = E.nExt) (hE : ∀ t ∈ ext, t.WellFormed) (occ : Occ)
    (hocc : E.space.Legal geom occ) :
    E.predictOccu geom size ext false occ = some (E.energy geom size ext occ) ∧
    E.predictOccu geom size ext true occ = some (E.energy geom size ext occ / size) := by
  have hsz : (size : K) ≠ 0 := Nat.cast_ne_zero.2 hs
  have hl : E.coefs.length = E.space.numCorr + E.nExt := hlen
  have h1 := C47_expansion_energy E hR hlen geom hg size occ hocc
  have hcf : ∀ n, (corrVector E.space geom size ext n occ).length = E.coefs.length := by
    intro n
    unfold corrVector
    split <;> simp [hl, hext]
  have hv : corrVector E.space geom size ext false occ =
      (List.range E.space.numCorr).map ((ceProcessor E.space geom size).featureVector occ) ++
        ext.map fun t => t.featureVector occ := by
    unfold corrVector
    simp only [Bool.false_eq_true, if_false, List.map_append, List.map_map]
    congr 1
    apply List.map_congr_left
    intro t _
    simp [hsz]
  have hfirst : E.predictOccu geom size ext false occ = some (E.energy geom size ext occ) := by
    unfold Expansion.predictOccu
    rw [npDot_eq _ _ (hcf _).symm, hv]
    unfold CEProcessor.property propertyOf at h1
    rw [show (ceProcessor E.space geom size).numCorr = E.space.numCorr from rfl] at h1
    obtain ⟨h2, h3⟩ := npDot_some h1
    have hsplit : E.coefs = dropExt E.nExt E.coefs ++ E.coefs.drop E.space.numCorr := by
      rw [dropExt, hl, Nat.add_sub_cancel, List.take_append_drop]
    conv_lhs => rw [hsplit]
    rw [dot_append _ _ _ _ h2, Expansion.energy]
    rw [h3]
    congr 2
    rw [dot_zipIdx _ (fun i => E.coefs.getD (E.space.numCorr + i) 0) (by
      intro i _; simp [List.getD_eq_getElem?_getD]) _ _ (by simp [hl, hext])]
    congr 1
    apply List.map_congr_left
    rintro ⟨t, i⟩ ht
    have : t ∈ ext := by
      have := List.mem_zipIdx_iff_getElem?.1 ht
      exact List.mem_of_getElem? this
    simp only
    rw [C04_energy_value t (hE t this)]
  refine ⟨hfirst, ?_⟩
  unfold Expansion.predictOccu at hfirst ⊢
  obtain ⟨-, h5⟩ := npDot_some hfirst
  rw [npDot_eq _ _ (hcf _).symm, ← h5]
  congr 1
  rw [eq_div_iff hsz]
  have hmap : corrVector E.space geom size ext false occ =
      (corrVector E.space geom size ext true occ).map fun x => x * (size : K) := by
    simp [corrVector]
  rw [hmap]
  generalize corrVector E.space geom size ext true occ = l
  generalize E.coefs = c
  induction c generalizing l with
  | nil => simp [dot]
  | cons a c ih =>
    cases l with
    | nil => simp [dot]
    | cons b l =>
      have := ih l
      simp only [dot, List.zipWith_cons_cons, List.sum_cons, List.map_cons] at this ⊢
      rw [add_mul, this]; ring

/-- Facts about the processor besides the external term. -/
structure MadePart.Fits (m : MadePart K) (S : OrbitSpace) (geom : ℕ → OrbitGeom K)
    (energy : Occ → K) : Prop where
  vector : m.scalar = false
  length : ∀ occ, (m.feature occ).length = m.coefs.length
  value : ∀ occ, S.Legal geom occ → dot m.coefs (m.feature occ) = energy occ
  raises : ∀ occ flips, m.change occ flips = none ↔ ∃ f ∈ flips, ¬ S.Covers geom f.1
  change : ∀ occ flips occ' d, ReachedBy occ flips occ' → m.change occ flips = some d →
    d = List.zipWith (· - ·) (m.feature occ') (m.feature occ)

theorem zipWith_sub_map (f g : ℕ → K) (l : List ℕ) :
    List.zipWith (· - ·) (l.map f) (l.map g) = l.map fun i => f i - g i := by
  rw [List.zipWith_map, List.zipWith_self]

theorem mainProc_fits [CharZero K] (E : Expansion K) (hR : E.space.Reachable)
    (hlen : E.coefs.length = E.numTerms) (geom : ℕ → OrbitGeom K)
    (hg : E.space.FitsGeom geom) (size : ℕ) (ty : ProcType) (hty : ty ≠ .other) :
    ∃ m, mainProc E geom size ty (dropExt E.nExt E.coefs) = some m ∧
      m.Fits E.space geom (expansionEnergy size (E.coefs.getD 0 0) (E.terms geom)) := by
  have hS := hR.ok
  have hl : (dropExt E.nExt E.coefs).length = E.space.numCorr := by
    rw [dropExt, List.length_take, hlen, Expansion.numTerms]; omega
  have hcov : ∀ f : ℕ × ℕ, (∀ p ∈ (ceProcessor E.space geom size).orbits, ∀ cl ∈ p.2, f.1 ∉ cl) ↔
      ¬ E.space.Covers geom f.1 := by
    intro f
    simp [ceProcessor, OrbitSpace.Covers]
  cases ty with
  | other => exact absurd rfl hty
  | expansion =>
    refine ⟨_, if_neg (not_not.2 hl), ⟨rfl, fun occ => ?_, fun occ hocc => ?_, fun occ flips => ?_,
      fun occ flips occ' d hr hd => ?_⟩⟩
    · simp [CEProcessor.part, hl, ceProcessor]
    · exact (npDot_some (C47_expansion_energy E hR hlen geom hg size occ hocc)).2
    · simp only [CEProcessor.part, Option.map_eq_none_iff]
      rw [C02_change_error_iff]
      exact exists_congr fun f => and_congr_right fun _ => hcov f
    · simp only [CEProcessor.part, Option.map_eq_some_iff] at hd
      obtain ⟨e, he, rfl⟩ := hd
      simp only [CEProcessor.part]
      rw [zipWith_sub_map]
      exact List.map_congr_left fun i _ => C02_change_is_difference _
        (ceProcessor_wellFormed hS geom size) occ occ' flips hr e he i
  | decomposition =>
    obtain ⟨P, hP, hval⟩ := C47_decomposition_energy E hR hlen geom hg size
    have hwf := cdProcessor_wellFormed hS geom size P hP
    have hn : P.numOrbits = E.space.numOrbits := by
      unfold cdProcessor at hP
      obtain ⟨eci, -, rfl⟩ := Option.map_eq_some_iff.1 hP
      rfl
    have hcov' : ∀ f : ℕ × ℕ, (∀ p ∈ P.orbits, ∀ cl ∈ p.2, f.1 ∉ cl) ↔
        ¬ E.space.Covers geom f.1 := by
      intro f
      unfold cdProcessor at hP
      obtain ⟨eci, -, rfl⟩ := Option.map_eq_some_iff.1 hP
      simp [OrbitSpace.Covers]
    refine ⟨_, by unfold mainProc; rw [hP]; rfl, ⟨rfl, fun occ => ?_, fun occ hocc => ?_,
      fun occ flips => ?_, fun occ flips occ' d hr hd => ?_⟩⟩
    · simp [CDProcessor.part, hn, hS.numOrbits, OrbitSpace.orbitMults, Nat.add_comm]
    · exact (npDot_some (hval occ hocc)).2
    · simp only [CDProcessor.part, Option.map_eq_none_iff]
      rw [C03_change_error_iff]
      exact exists_congr fun f => and_congr_right fun _ => hcov' f
    · simp only [CDProcessor.part, Option.map_eq_some_iff] at hd
      obtain ⟨e, he, rfl⟩ := hd
      simp only [CDProcessor.part]
      rw [zipWith_sub_map]
      exact List.map_congr_left fun i _ => C03_change_is_difference _ hwf occ occ' flips hr e he i

/-- Facts about the whole processor. -/
structure Proc.Fits (p : Proc K) (E : Expansion K) (geom : ℕ → OrbitGeom K) (size : ℕ)
    (ext : List (EwaldData K)) : Prop where
  feature : ∀ occ, ∃ F, p.feature occ = some F ∧ F.length = p.coefs.length ∧
    (E.space.Legal geom occ → dot p.coefs F = E.energy geom size ext occ)
  property : ∀ occ, E.space.Legal geom occ → p.property occ = some (E.energy geom size ext occ)
  raises : ∀ occ flips, (p.change occ flips = none ↔ ∃ f ∈ flips, ¬ E.space.Covers geom f.1) ∧
    (p.propertyChange occ flips = none ↔ ∃ f ∈ flips, ¬ E.space.Covers geom f.1)
  change : ∀ occ flips occ' d F F', ReachedBy occ flips occ' →
    (∀ f ∈ flips, ∀ t ∈ ext, f.1 < t.numSites) → p.change occ flips = some d →
    p.feature occ = some F → p.feature occ' = some F' →
    d = List.zipWith (· - ·) F' F ∧ p.propertyChange occ flips = some (dot p.coefs d)

theorem fromExpansion_fits [CharZero K] (E : Expansion K) (hR : E.space.Reachable)
    (hlen : E.coefs.length = E.numTerms) (geom : ℕ → OrbitGeom K)
    (hg : E.space.FitsGeom geom) (size : ℕ) (ext : List (EwaldData K))
    (hext : ext.length = E.nExt) (hE : ∀ t ∈ ext, t.WellFormed) (h1 : E.nExt ≤ 1)
    (ty : ProcType) (hty : ty ≠ .other) :
    ∃ p, fromExpansion E geom size ext ty = some p ∧ p.Fits E geom size ext := by
  obtain ⟨m, hm, hf⟩ := mainProc_fits E hR hlen geom hg size ty hty
  have hchl : ∀ occ flips d, m.change occ flips = some d → m.coefs.length = d.length := by
    intro occ flips d hd
    rw [hf.change occ flips _ d ((reachedBy_iff _ _ _).2 rfl) hd]
    simp [hf.length]
  match ext, hext, hE with
  | [], hext, _ =>
    have h0 : E.nExt = 0 := by simpa using hext.symm
    have hm' : mainProc E geom size ty E.coefs = some m := by simpa [h0, dropExt] using hm
    refine ⟨.plain m, by simp [fromExpansion, hm'], ⟨fun occ => ⟨_, rfl, hf.length occ, fun h => ?_⟩,
      fun occ h => ?_, fun occ flips => ⟨hf.raises occ flips, ?_⟩,
      fun occ flips occ' d F F' hr hs hd hF hF' => ?_⟩⟩
    · show dot m.coefs _ = _
      rw [hf.value occ h]; simp [Expansion.energy]
    · show npDot m.coefs (m.feature occ) = _
      rw [npDot_eq _ _ (hf.length occ).symm, hf.value occ h]; simp [Expansion.energy]
    · rw [← hf.raises occ flips]
      unfold Proc.propertyChange
      cases hd : m.change occ flips with
      | none => simp [hd]
      | some d => simp [hd, npDot_eq _ _ (hchl occ flips d hd)]
    · simp only [Proc.feature, Option.some.injEq] at hF hF'
      subst hF hF'
      refine ⟨hf.change occ flips occ' d hr hd, ?_⟩
      have hd' : m.change occ flips = some d := hd
      simp [Proc.propertyChange, hd', npDot_eq _ _ (hchl occ flips d hd'), Proc.coefs]
  | [t], hext, hE =>
    have h0 : E.nExt = 1 := by simpa using hext.symm
    have hl : E.coefs.length = E.space.numCorr + 1 := by rw [hlen, Expansion.numTerms, h0]
    have hm' : mainProc E geom size ty E.coefs.dropLast = some m := by
      rw [List.dropLast_eq_take]; simpa [h0, dropExt] using hm
    have hlast : E.coefs.getLast? = some (E.coefs.getD E.space.numCorr 0) := by
      rw [List.getLast?_eq_getElem?, hl, Nat.add_sub_cancel, List.getD_eq_getElem?_getD,
        List.getElem?_eq_getElem (by omega)]
      rfl
    have ht := hE t (by simp)
    have hen : ∀ occ, E.energy geom size [t] occ =
        expansionEnergy size (E.coefs.getD 0 0) (E.terms geom) occ +
          E.coefs.getD E.space.numCorr 0 * t.featureVector occ := by
      intro occ
      rw [C04_energy_value t ht]
      simp [Expansion.energy]
    set c := E.coefs.getD E.space.numCorr 0 with hc
    have hone : ∀ x : K, dot [c] [x] = c * x := by intro x; simp [dot]
    have hnp : ∀ x : K, npDot [c] [x] = some (c * x) := by intro x; simp [npDot]
    have hco : (Proc.composite [m, t.part c]).coefs = m.coefs ++ [c] := by
      simp [Proc.coefs, EwaldData.part]
    have hfe : ∀ occ, (Proc.composite [m, t.part c]).feature occ =
        some (m.feature occ ++ [t.featureVector occ]) := by
      intro occ; simp [Proc.feature, npAppendAll, EwaldData.part]
    refine ⟨.composite [m, t.part c], by simp [fromExpansion, hm', hlast],
      ⟨fun occ => ⟨_, hfe occ, by simp [hco, hf.length], fun h => ?_⟩, fun occ h => ?_,
      fun occ flips => ⟨?_, ?_⟩, fun occ flips occ' d F F' hr hs hd hF hF' => ?_⟩⟩
    · rw [hco, dot_append _ _ _ _ (hf.length occ).symm, hf.value occ h, hone, hen]
    · rw [hen]
      simp [Proc.property, npDot_eq _ _ (hf.length occ).symm, EwaldData.part, hnp,
        hf.value occ h]
    · rw [← hf.raises occ flips]
      cases hd : m.change occ flips <;> simp [Proc.change, hd, EwaldData.part, npAppendAll]
    · rw [← hf.raises occ flips]
      cases hd : m.change occ flips with
      | none => simp [Proc.propertyChange, hd]
      | some d => simp [Proc.propertyChange, hd, EwaldData.part, npDot_eq _ _ (hchl occ flips d hd),
          hnp]
    · rw [hfe, Option.some.injEq] at hF hF'
      subst hF hF'
      cases hm2 : m.change occ flips with
      | none => simp [Proc.change, hm2] at hd
      | some dm =>
        have hd2 : d = dm ++ [t.featureVectorChange occ flips] := by
          simpa [Proc.change, hm2, EwaldData.part, npAppendAll, eq_comm] using hd
        subst hd2
        constructor
        · rw [List.zipWith_append (by rw [hf.length, hf.length]),
            ← hf.change occ flips occ' dm hr hm2,
            C04_change_is_difference t ht occ occ' flips (fun f hf => hs f hf t (by simp)) hr]
          simp
        · rw [hco, dot_append _ _ _ _ (hchl occ flips dm hm2), hone]
          simp [Proc.propertyChange, hm2, EwaldData.part, npDot_eq _ _ (hchl occ flips dm hm2),
            hnp]
  | _ :: _ :: _, hext, _ => simp at hext; omega

/-- C69. Both kinds of ensemble can be made from every expansion with at most one external term.
For every legal occupancy the processor's property is the energy the expansion predicts, and so is
the scalar product of the ensemble's parameters with its features. -/
theorem C69_energy [CharZero K] (E : Expansion K) (hR : E.space.Reachable)
    (hlen : E.coefs.length = E.numTerms) (geom : ℕ → OrbitGeom K)
    (hg : E.space.FitsGeom geom) (size : ℕ) (hs : size ≠ 0) (ext : List (EwaldData K))
    (hext : ext.length = E.nExt) (hE : ∀ t ∈ ext, t.WellFormed) (h1 : E.nExt ≤ 1)
    (ty : ProcType) (hty : ty ≠ .other) :
    ∃ p, fromExpansion E geom size ext ty = some p ∧
      ∀ occ, E.space.Legal geom occ → ∃ F, p.feature occ = some F ∧
        p.property occ = some (E.energy geom size ext occ) ∧
        p.property occ = E.predictOccu geom size ext false occ ∧
        npDot p.coefs F = E.predictOccu geom size ext false occ := by
  obtain ⟨p, hp, hf⟩ := fromExpansion_fits E hR hlen geom hg size ext hext hE h1 ty hty
  refine ⟨p, hp, fun occ h => ?_⟩
  obtain ⟨F, hF, hFl, hFv⟩ := hf.feature occ
  have hpr := (C69_prediction E hR hlen geom hg size hs ext hext hE occ h).1
  exact ⟨F, hF, hf.property occ h, by rw [hf.property occ h, hpr],
    by rw [npDot_eq _ _ hFl.symm, hFv h, hpr]⟩

/-- C69. The energy change it reports for a list of flips is the difference of the two predictions;
it raises exactly when a flipped site is in no cluster. -/
theorem C69_energy_change [CharZero K] (E : Expansion K) (hR : E.space.Reachable)
    (hlen : E.coefs.length = E.numTerms) (geom : ℕ → OrbitGeom K)
    (hg : E.space.FitsGeom geom) (size : ℕ) (hs : size ≠ 0) (ext : List (EwaldData K))
    (hext : ext.length = E.nExt) (hE : ∀ t ∈ ext, t.WellFormed) (h1 : E.nExt ≤ 1)
    (ty : ProcType) (hty : ty ≠ .other) (p : Proc K)
    (hp : fromExpansion E geom size ext ty = some p) (occ occ' : Occ) (flips : Step)
    (hr : ReachedBy occ flips occ') (hsite : ∀ f ∈ flips, ∀ t ∈ ext, f.1 < t.numSites)
    (h : E.space.Legal geom occ) (h' : E.space.Legal geom occ') :
    (p.propertyChange occ flips = none ↔ ∃ f ∈ flips, ¬ E.space.Covers geom f.1) ∧
    ∀ v, p.propertyChange occ flips = some v → ∃ x y,
      E.predictOccu geom size ext false occ = some x ∧
      E.predictOccu geom size ext false occ' = some y ∧ v = y - x := by
  obtain ⟨q, hq, hf⟩ := fromExpansion_fits E hR hlen geom hg size ext hext hE h1 ty hty
  obtain rfl : p = q := by rw [hp] at hq; exact Option.some.inj hq
  refine ⟨(hf.raises occ flips).2, fun v hv => ⟨_, _,
    (C69_prediction E hR hlen geom hg size hs ext hext hE occ h).1,
    (C69_prediction E hR hlen geom hg size hs ext hext hE occ' h').1, ?_⟩⟩
  obtain ⟨F, hF, hFl, hFv⟩ := hf.feature occ
  obtain ⟨F', hF', hFl', hFv'⟩ := hf.feature occ'
  cases hd : p.change occ flips with
  | none =>
    rw [(hf.raises occ flips).2.2 ((hf.raises occ flips).1.1 hd)] at hv
    cases hv
  | some d =>
    obtain ⟨hd1, hd2⟩ := hf.change occ flips occ' d F F' hr hsite hd hF hF'
    rw [hd2, Option.some.injEq] at hv
    rw [← hv, ← hFv h, ← hFv' h', hd1]
    generalize p.coefs = c at *
    clear hF hF' hFv hFv' hd1 hd2 hv hd
    induction c generalizing F F' with
    | nil => simp [dot]
    | cons a c ih =>
      cases F with
      | nil => simp at hFl
      | cons b F =>
        cases F' with
        | nil => simp at hFl'
        | cons b' F' =>
          have := ih F F' (by simpa using hFl) (by simpa using hFl')
          simp only [dot, List.zipWith_cons_cons, List.sum_cons] at this ⊢
          rw [this]; ring

/-- C69. A processor of another type is refused. -/
theorem C69_type_refused (E : Expansion K) (geom : ℕ → OrbitGeom K) (size : ℕ)
    (ext : List (EwaldData K)) : fromExpansion E geom size ext .other = none := by
  cases ext <;> rfl

/-- C69. With a second external term no ensemble of the type "expansion" can be made. -/
theorem C69_second_term_refused (E : Expansion K) (hlen : E.coefs.length = E.numTerms)
    (geom : ℕ → OrbitGeom K) (size : ℕ) (ext : List (EwaldData K)) (hext : ext.length = E.nExt)
    (h2 : 2 ≤ E.nExt) : fromExpansion E geom size ext .expansion = none := by
  match ext, hext with
  | [], hext => simp at hext; omega
  | t :: ts, _ =>
    have : E.coefs.dropLast.length ≠ E.space.numCorr := by
      rw [List.length_dropLast, hlen, Expansion.numTerms]; omega
    unfold fromExpansion mainProc
    simp only
    rw [if_pos this]
    rfl

theorem subspaceCodes_eq (k : VacKind) (allowed : List (List ℕ)) (st : Struc) :
    subspaceCodes k allowed st = processorOccupancy k allowed st := by
  unfold subspaceCodes processorOccupancy occupancyFromStructure encodeOccupancy
  have key : ∀ l : List (List ℕ × ℕ),
      (l.mapM fun p => if specAt k st p.2 ∈ p.1 then some (p.1.idxOf (specAt k st p.2)) else none) =
      ((l.mapM fun p => if specAt k st p.2 ∈ p.1 then some (specAt k st p.2) else none).bind
        fun occ => ((l.map Prod.fst).zip occ).mapM fun p => indexOf? p.1 p.2) := by
    intro l
    induction l with
    | nil => rfl
    | cons a l ih =>
      simp only [List.mapM_cons, List.map_cons]
      by_cases ha : specAt k st a.2 ∈ a.1
      · simp only [if_pos ha, Option.bind_eq_bind, Option.bind_some, Option.pure_def, ih]
        cases (l.mapM fun p => if specAt k st p.2 ∈ p.1 then some (specAt k st p.2) else none) with
        | none => rfl
        | some occ => simp [indexOf?, ha]
      · simp [if_neg ha]
  have := key allowed.zipIdx
  rw [List.zipIdx_map_fst] at this
  exact this

/-- C69. The prediction for the structure of an occupancy, its sites in any order, is the energy
the processor has for the occupancy. -/
theorem C69_structure [CharZero K] (E : Expansion K) (hR : E.space.Reachable)
    (hlen : E.coefs.length = E.numTerms) (geom : ℕ → OrbitGeom K)
    (hg : E.space.FitsGeom geom) (size : ℕ) (hs : size ≠ 0) (ext : List (EwaldData K))
    (hext : ext.length = E.nExt) (hE : ∀ t ∈ ext, t.WellFormed) (h1 : E.nExt ≤ 1)
    (ty : ProcType) (hty : ty ≠ .other) (p : Proc K)
    (hp : fromExpansion E geom size ext ty = some p) (k : VacKind) (allowed : List (List ℕ))
    (hn : ∀ a ∈ allowed, a.Nodup) (codes : List ℕ) (hc : LegalCodes allowed codes)
    (hocc : E.space.Legal geom fun i => codes.getD i 0) :
    ∃ st, structureFromOccupancy k allowed codes = some st ∧ ∀ st', st'.Perm st →
      E.predictStructure geom size ext false k allowed st' = p.property fun i => codes.getD i 0 := by
  obtain ⟨st, hst, -, hback⟩ := C61_round_trip k allowed hn codes hc
  refine ⟨st, hst, fun st' hperm => ?_⟩
  obtain ⟨q, hq, hv⟩ := C69_energy E hR hlen geom hg size hs ext hext hE h1 ty hty
  obtain rfl : p = q := by rw [hp] at hq; exact Option.some.inj hq
  obtain ⟨F, -, -, h3, -⟩ := hv _ hocc
  unfold Expansion.predictStructure
  rw [subspaceCodes_eq, hback st' hperm, h3]
  rfl

/-- C69. A sampler run on an ensemble made from an expansion, after any history of changes of
chemical potentials, restrictions and splits: the enthalpy of every recorded row is what the
expansion predicts for the recorded occupancy, less the chemical work.  Only the sites that can be
flipped have to be in a cluster. -/
theorem C69_trace [CharZero K] [DecidableEq K] (E : Expansion K) (hR : E.space.Reachable)
    (hlen : E.coefs.length = E.numTerms) (geom : ℕ → OrbitGeom K)
    (hg : E.space.FitsGeom geom) (size : ℕ) (hs : size ≠ 0) (ext : List (EwaldData K))
    (hext : ext.length = E.nExt) (hE : ∀ t ∈ ext, t.WellFormed) (h1 : E.nExt ≤ 1)
    (ty : ProcType) (hty : ty ≠ .other) (p : Proc K)
    (hp : fromExpansion E geom size ext ty = some p)
    (subl : List Sublattice) (e₀ : Ens K) (he₀ : Ens.init p.coefs subl = some e₀)
    (ops : List (EnsOp K)) (n : ℕ) (hn : ∀ t ∈ ext, t.numSites = n)
    (sls : List Sublattice) (h : SublatticesOk sls)
    (hact : ∀ sl ∈ sls, ∀ s ∈ sl.active, E.space.Covers geom s ∧ s < n)
    (hleg : ∀ x, FullLegal sls x → E.space.Legal geom x)
    (us : ℕ → Usher) (hu : ∀ i, (us i).Over sls) (dec : Decisions)
    (hdec : ∀ r i x, FullLegal sls x → ((us i).propose x).Outcome (dec r i x).1)
    (walkers nsteps thin : ℕ) (init : List Occ) (hinit : ∀ o ∈ init, FullLegal sls o)
    (out : List (List (Row K)))
    (hout : sample (List.replicate walkers (Kern.ofEnsemble (e₀.run ops) p.toPart n none
      fun _ _ => 0)) dec nsteps thin init = some out) :
    ∀ rows ∈ out, ∀ row ∈ rows, ∃ v,
      E.predictOccu geom size ext false row.occ = some v ∧
      row.enthalpy = v - match (e₀.run ops).mu with
        | none => 0
        | some m => ∑ s ∈ Finset.range n, m.table s (row.occ s) := by
  obtain ⟨q, hq, hf⟩ := fromExpansion_fits E hR hlen geom hg size ext hext hE h1 ty hty
  obtain rfl : p = q := by rw [hp] at hq; exact Option.some.inj hq
  have hfeat : ∀ occ, (p.toPart.feature occ).length = p.coefs.length := by
    intro occ
    obtain ⟨F, hF, hFl, -⟩ := hf.feature occ
    simp [Proc.toPart, hF, hFl]
  have hex : p.toPart.Exact fun s => E.space.Covers geom s ∧ s < n := by
    refine ⟨fun x y => by rw [hfeat, hfeat], fun occ flips occ' hA hr => ?_⟩
    obtain ⟨F, hF, -⟩ := hf.feature occ
    obtain ⟨F', hF', -⟩ := hf.feature occ'
    cases hd : p.change occ flips with
    | none =>
      obtain ⟨f, hf1, hf2⟩ := (hf.raises occ flips).1.1 hd
      exact absurd (hA f hf1).1 hf2
    | some d =>
      simp only [Proc.toPart, hd, hF, hF', Option.getD_some]
      exact (hf.change occ flips occ' d F F' hr (fun f hf1 t ht => by
        rw [hn t ht]; exact (hA f hf1).2) hd hF hF').1
  have hpar : ParamsOk (e₀.run ops) ∧ (e₀.run ops).coefs = p.coefs := by
    obtain ⟨e₁, he₁, hc, hm0, hm1, hb⟩ := C17_parameters_in_step p.coefs subl ops
    obtain rfl : e₀ = e₁ := by rw [he₀] at he₁; exact Option.some.inj he₁
    refine ⟨⟨?_, hb⟩, hc⟩
    rw [hc]
    cases hm : (e₀.run ops).mu with
    | none => simpa using hm0 hm
    | some m => simpa using hm1 m hm
  intro rows hrows row hrow
  have hfl : FullLegal sls row.occ := by
    obtain ⟨i, hi, rfl⟩ := List.getElem_of_mem hrow
    exact sample_occ_inv _ dec (fun _ => FullLegal sls)
      (fun r i x hx _ => legal_after h (hu i) hx (hdec r i x hx)) nsteps thin init out
      (fun i o ho => hinit o (List.mem_of_getElem? ho)) hout rows hrows i _
      (List.getElem?_eq_getElem hi)
  have hpr := (C69_prediction E hR hlen geom hg size hs ext hext hE row.occ (hleg _ hfl)).1
  refine ⟨_, hpr, ?_⟩
  have := (C01_ensemble_trace_matches (e₀.run ops) p.toPart n _ hex none (fun _ _ => 0) (by simp)
    sls h (fun sl hsl s hs => ⟨hact sl hsl s hs, (hact sl hsl s hs).2⟩) us hu dec hdec walkers
    nsteps thin init hinit out hout rows hrows row hrow).2.1
  rw [this]
  have h17 := C17_enthalpy (e₀.run ops) hpar.1 p.toPart hpar.2.symm hfeat n row.occ
  unfold dot at h17
  rw [h17]
  congr 1
  obtain ⟨F, hF, hFl, hFv⟩ := hf.feature row.occ
  rw [← hFv (hleg _ hfl)]
  simp [PartProc.property, Proc.toPart, hF]

/-- The electrostatic term of the ring of `ringExpansion`: two species and the vacancy. -/
def ringEwald : EwaldData ℚ :=
  { numSites := 4
    numEwald := (ewaldStructureInds 0 (List.replicate 4 [false, false, true])).2
    matrix := fun i j => (i + 1) * (j + 1)
    inds := ewaldIndex (ewaldStructureInds 0 (List.replicate 4 [false, false, true])).1 }

theorem ringEwald_ok : ringEwald.WellFormed :=
  C04_index_array_well_formed (List.replicate 4 [false, false, true]) _ fun i j => by ring

theorem ring_fits : ringExpansion.space.Reachable ∧
    ringExpansion.coefs.length = ringExpansion.numTerms ∧
    ringExpansion.space.FitsGeom ringGeom := by
  refine ⟨⟨_, [], by decide, rfl⟩, by decide, ⟨by decide, by decide, ?_⟩⟩
  have hd : ∀ o ∈ ringSpace.orbits, ∀ c ∈ o.combos,
      ∃ cl ∈ (ringGeom o.tag).classes[c.1]?, c.2 = cl.length ∧ cl ≠ [] ∧
        ∀ b ∈ cl, b.length = (ringGeom o.tag).shape.length := by decide +kernel
  intro o ho c hc
  obtain ⟨cl, h1, h2⟩ := hd o ho c hc
  exact ⟨cl, h1, h2⟩

/-- C69: an expansion with an electrostatic term, both types of processor, a legal occupancy and a
step of two flips -/
example : ringExpansion.space.Legal ringGeom (fun i => [0, 1, 1, 2].getD i 0) ∧
    [ringEwald].length = ringExpansion.nExt ∧
    ((fromExpansion ringExpansion ringGeom 4 [ringEwald] .expansion).bind fun p =>
      p.property fun i => [0, 1, 1, 2].getD i 0) = some 880 ∧
    ((fromExpansion ringExpansion ringGeom 4 [ringEwald] .decomposition).bind fun p =>
      p.property fun i => [0, 1, 1, 2].getD i 0) = some 880 ∧
    ringExpansion.predictOccu ringGeom 4 [ringEwald] false (fun i => [0, 1, 1, 2].getD i 0) =
      some 880 ∧
    ((fromExpansion ringExpansion ringGeom 4 [ringEwald] .decomposition).bind fun p =>
      p.propertyChange (fun i => [0, 1, 1, 2].getD i 0) [(3, 1), (1, 2)]) = some 728 ∧
    ((fromExpansion ringExpansion ringGeom 4 [ringEwald] .expansion).bind fun p =>
      p.propertyChange (fun i => [0, 1, 1, 2].getD i 0) [(4, 1)]) = none := by
  refine ⟨?_, rfl, by decide +kernel, by decide +kernel, by decide +kernel, by decide +kernel,
    by decide +kernel⟩
  show ∀ o ∈ ringSpace.orbits, _
  decide +kernel

def ringSublattice : Sublattice := Sublattice.new [1, 2, 100] [0, 1, 2, 3]

/-- C69: everything assumed by `C69_trace`, for two walkers that flip and swap species on the ring
at given chemical potentials -/
example : ∃ (p : Proc ℚ) (e₀ : Ens ℚ) (dec : Decisions) (out : List (List (Row ℚ))),
    fromExpansion ringExpansion ringGeom 4 [ringEwald] .decomposition = some p ∧
    Ens.init p.coefs [ringSublattice] = some e₀ ∧
    (e₀.run [.setMu [(1, 1), (2, 3), (100, 0)]]).mu.isSome ∧
    SublatticesOk [ringSublattice] ∧
    (∀ sl ∈ [ringSublattice], ∀ s ∈ sl.active, ringSpace.Covers ringGeom s ∧ s < 4) ∧
    (∀ x, FullLegal [ringSublattice] x → ringSpace.Legal ringGeom x) ∧
    (Usher.flip .shared [ringSublattice] [1]).Over [ringSublattice] ∧
    (∀ r i x, FullLegal [ringSublattice] x →
      ((Usher.flip .shared [ringSublattice] [1]).propose x).Outcome (dec r i x).1) ∧
    FullLegal [ringSublattice] (fun i => [0, 1, 1, 2].getD i 0) ∧
    sample (List.replicate 2 (Kern.ofEnsemble (e₀.run [.setMu [(1, 1), (2, 3), (100, 0)]]) p.toPart
      4 none fun _ _ => 0)) dec 10 3 [fun i => [0, 1, 1, 2].getD i 0, fun _ => 1] = some out := by
  have hok : SublatticesOk [ringSublattice] := by constructor <;> decide +kernel
  have hov : (Usher.flip .shared [ringSublattice] [1]).Over [ringSublattice] := by
    show ∀ sl ∈ _, _; decide
  obtain ⟨dec, hdec, -⟩ := decisions_exist [ringSublattice] hok
    (fun _ => .flip .shared [ringSublattice] [1]) (fun _ => hov) (fun _ => by
      refine ⟨⟨by decide, by decide⟩, ⟨rfl, by simp, by simp⟩⟩)
  obtain ⟨p, hp, -⟩ := fromExpansion_fits ringExpansion ring_fits.1 ring_fits.2.1 ringGeom
    ring_fits.2.2 4 [ringEwald] rfl (by simpa using ringEwald_ok) (by decide) .decomposition
    (by decide)
  obtain ⟨e₀, he, -⟩ := C17_parameters_in_step p.coefs [ringSublattice]
    [.setMu [(1, 1), (2, 3), (100, 0)]]
  have he' : e₀ = ⟨p.coefs, p.coefs, none, none, [ringSublattice]⟩ := by
    have : Ens.init p.coefs [ringSublattice] =
        some ⟨p.coefs, p.coefs, none, none, [ringSublattice]⟩ := by
      simp [Ens.init, Ens.delMu]
    rw [he] at this; exact Option.some.inj this
  have hset : (Ens.setMu (⟨p.coefs, p.coefs, none, none, [ringSublattice]⟩ : Ens ℚ)
      [(1, 1), (2, 3), (100, 0)]).isSome := by
    obtain ⟨e', h⟩ := (C17_set_succeeds_iff ⟨p.coefs, p.coefs, none, none, [ringSublattice]⟩
      ⟨by simp, rfl⟩ [(1, 1), (2, 3), (100, 0)]).1.2 ⟨by decide, by
        intro sl hsl _ sp hsp
        simp only [List.mem_singleton] at hsl
        subst hsl
        have : sp ∈ [1, 2, 100] := hsp
        simp only [List.mem_cons, List.not_mem_nil, or_false] at this
        rcases this with rfl | rfl | rfl
        · exact ⟨1, by simp⟩
        · exact ⟨3, by simp⟩
        · exact ⟨0, by simp⟩⟩
    rw [h]; rfl
  refine ⟨p, e₀, dec, _, hp, he, ?_, hok, ?_, ?_, hov, hdec, ?_, rfl⟩
  · obtain ⟨e', h⟩ := Option.isSome_iff_exists.1 hset
    obtain ⟨_, _, _, hmu, _⟩ := setMu_spec _ _ _ h ⟨by simp, rfl⟩
    subst he'
    simp [Ens.run, Ens.step, h, hmu]
  · have : ∀ s ∈ [0, 1, 2, 3], (∃ o ∈ ringSpace.orbits, ∃ row ∈ (ringGeom o.tag).rows, s ∈ row) ∧
        s < 4 := by decide +kernel
    intro sl hsl s hs
    simp only [List.mem_singleton] at hsl
    subst hsl
    exact this s hs
  · intro x hx
    have hlt : ∀ s ∈ [0, 1, 2, 3], x s < 3 := by
      intro s hs
      have := hx ringSublattice (by simp) s hs
      have h3 : x s ∈ [0, 1, 2] := this
      simp only [List.mem_cons, List.not_mem_nil, or_false] at h3
      omega
    have hrows : ∀ o ∈ ringSpace.orbits, ∀ row ∈ (ringGeom o.tag).rows,
        row.length = (ringGeom o.tag).shape.length ∧ (∀ d ∈ (ringGeom o.tag).shape, d = 3) ∧
        ∀ s ∈ row, s ∈ [0, 1, 2, 3] := by decide +kernel
    intro o ho row hrow
    obtain ⟨h1, h2, h3⟩ := hrows o ho row hrow
    rw [List.forall₂_iff_get]
    refine ⟨h1, fun i hi hj => ?_⟩
    rw [h2 _ (List.get_mem _ _)]
    exact hlt _ (h3 _ (List.get_mem _ _))
  · show ∀ sl ∈ [ringSublattice], ∀ s ∈ sl.sites, _
    decide +kernel

end Smol
