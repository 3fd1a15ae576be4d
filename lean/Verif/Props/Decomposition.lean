import Verif.Lemmas.Decomposition
import Verif.Spec.Decomposition

/-!
# C47 Expansion and decomposition processors give the same energies
-/

namespace Smol
open Spec

variable {K : Type*} [Field K]

/-- Orbits as they come out of a cluster subspace: a positive number of clusters, at least one
site, labels of existing classes with the right numbers of orderings. -/
structure OrbitSpace.FitsGeom (S : OrbitSpace) (geom : ℕ → OrbitGeom K) : Prop where
  mult : ∀ o ∈ S.orbits, 0 < o.mult
  shape : ∀ o ∈ S.orbits, (geom o.tag).shape ≠ []
  label : ∀ o ∈ S.orbits, ∀ c ∈ o.combos, ∃ cl, (geom o.tag).classes[c.1]? = some cl ∧
    c.2 = cl.length ∧ cl ≠ [] ∧ ∀ b ∈ cl, b.length = (geom o.tag).shape.length

/-- Every site of a cluster holds one of the codes of its orbit. -/
def OrbitSpace.Legal (S : OrbitSpace) (geom : ℕ → OrbitGeom K) (occ : Occ) : Prop :=
  ∀ o ∈ S.orbits, ∀ row ∈ (geom o.tag).rows,
    List.Forall₂ (fun site d => occ site < d) row (geom o.tag).shape

/-- The orbits of an expansion with their coefficients. -/
def Expansion.terms (E : Expansion K) (geom : ℕ → OrbitGeom K) :
    List ((ℕ → ℕ → ℕ → K) × List (List ℕ) × List (K × List (List ℕ))) :=
  E.space.orbits.map fun o => ((geom o.tag).phi, (geom o.tag).rows,
    o.combos.zipIdx.map fun p =>
      (E.coefs.getD (o.bitId + p.2) 0, (geom o.tag).classes.getD p.1.1 []))

/-- C47. The energy computed by the expansion processor. -/
theorem C47_expansion_energy (E : Expansion K) (hR : E.space.Reachable)
    (hlen : E.coefs.length = E.numTerms) (geom : ℕ → OrbitGeom K)
    (hg : E.space.FitsGeom geom) (size : ℕ) (occ : Occ) (hocc : E.space.Legal geom occ) :
    (ceProcessor E.space geom size).property (dropExt E.nExt E.coefs) occ =
      some (expansionEnergy size (E.coefs.getD 0 0) (E.terms geom) occ) := by
  have hS := hR.ok
  set P := ceProcessor E.space geom size with hP
  have hwf : P.WellFormed := ceProcessor_wellFormed hS geom size
  have hl : (dropExt E.nExt E.coefs).length = E.space.numCorr := by
    rw [dropExt, List.length_take, hlen, Expansion.numTerms]; omega
  have hget : ∀ i < E.space.numCorr, (dropExt E.nExt E.coefs).getD i 0 = E.coefs.getD i 0 := by
    intro i hi
    have : i < E.coefs.length - E.nExt := by rw [hlen, Expansion.numTerms]; omega
    rw [dropExt, List.getD_eq_getElem?_getD, List.getD_eq_getElem?_getD,
      List.getElem?_take_of_lt this]
  unfold CEProcessor.property
  rw [npDot_range _ _ _ (by rw [hl]; rfl)]
  congr 1
  rw [List.map_congr_left (g := fun i => E.coefs.getD i 0 * P.featureVector occ i) (by
    intro i hi; rw [hget i (List.mem_range.1 hi)])]
  rw [show P.numCorr = E.space.numCorr from rfl, sum_slots hS,
    (C02_feature_vector_value P hwf occ).1]
  unfold expansionEnergy Expansion.terms
  rw [add_mul, List.map_map, ← List.sum_map_mul_right]
  congr 2
  apply List.map_congr_left
  intro o ho
  simp only [Function.comp_apply, List.map_map]
  rw [← List.sum_map_mul_right]
  refine Eq.trans ?_ (sum_zipIdx o.combos (0, 0) (fun c k => E.coefs.getD (o.bitId + k) 0 *
    clusterAverage (fun row => correlation (geom o.tag).phi ((geom o.tag).classes.getD c.1 [])
      (row.map occ)) (geom o.tag).rows * (size : K))).symm
  congr 1
  apply List.map_congr_left
  intro k hk
  have hk' : k < o.combos.length := List.mem_range.1 hk
  have hkl : k < (o.kept (geom o.tag)).length := by simpa [Orb.kept] using hk'
  have hmem : (o.data (geom o.tag), (geom o.tag).rows) ∈ P.orbits :=
    List.mem_map.2 ⟨o, ho, rfl⟩
  have := C46_correlation_vector P hwf o.id o.bitId (geom o.tag).phi (geom o.tag).shape
    (o.kept (geom o.tag)) (geom o.tag).rows hmem (hg.shape o ho) (by
      intro cl hcl b hb
      obtain ⟨c, hc, rfl⟩ := List.mem_map.1 hcl
      obtain ⟨cl, h1, -, -, h2⟩ := hg.label o ho c hc
      rw [List.getD_eq_getElem?_getD, h1] at hb
      exact h2 b hb) occ (hocc o ho) k hkl
  rw [this]
  simp only [mul_assoc]
  congr 3
  funext row
  congr 1
  simp [Orb.kept, List.getD_eq_getElem?_getD, hk']

/-- C47. The share of one orbit: its interaction, times the multiplicity that is its coefficient, is
the sum over the functions of the orbit of coefficient times feature of the expansion. -/
theorem C47_orbit_share [CharZero K] (E : Expansion K) (hR : E.space.Reachable)
    (hlen : E.coefs.length = E.numTerms) (geom : ℕ → OrbitGeom K)
    (hg : E.space.FitsGeom geom) (size : ℕ) {P : CDProcessor K} (hP : cdProcessor E geom size = some P)
    {occ : Occ} (hocc : E.space.Legal geom occ) {o : Orb} (ho : o ∈ E.space.orbits) :
    (o.mult : K) * P.featureVector occ o.id = (o.combos.zipIdx.map fun p =>
      E.coefs.getD (o.bitId + p.2) 0 * clusterAverage (fun row => correlation (geom o.tag).phi
        ((geom o.tag).classes.getD p.1.1 []) (row.map occ)) (geom o.tag).rows).sum * size := by
  have hS := hR.ok
  obtain ⟨eci, he, hsel, -⟩ := selects_exists E hS hlen true
  simp only [if_true] at he
  unfold Selects at hsel
  rw [if_pos rfl] at hsel
  obtain ⟨m, hel, hem, -, hmm⟩ := hsel
  have hwf := cdProcessor_wellFormed hS geom size P hP
  unfold cdProcessor at hP
  rw [he, Option.map_some, Option.some.injEq] at hP
  have hval := C03_feature_vector_value P hwf occ
  have hsz : P.size = size := by rw [← hP]
  have hmem : ((o.data (geom o.tag), flatInteraction eci o (geom o.tag)), (geom o.tag).rows)
      ∈ P.orbits := by rw [← hP]; exact List.mem_map.2 ⟨o, ho, rfl⟩
  have h1 := hval.2 _ hmem
  simp only [] at h1
  have h2 : P.featureVector occ o.id = P.featureVector occ (o.data (geom o.tag)).id := rfl
  rw [h2, h1, hsz]
  rw [← mul_assoc]
  congr 1
  refine Eq.trans ?_ (sum_zipIdx o.combos (0, 0) (fun c k => E.coefs.getD (o.bitId + k) 0 *
    clusterAverage (fun row => correlation (geom o.tag).phi ((geom o.tag).classes.getD c.1 [])
      (row.map occ)) (geom o.tag).rows)).symm
  -- the interaction table at the codes of a cluster
  have htab : ∀ row ∈ (geom o.tag).rows,
      tableAt (flatInteraction eci o (geom o.tag)) (o.data (geom o.tag)).tensorIndices
        (row.map occ) =
      ((List.range o.combos.length).map fun k =>
        (((o.combos.getD k (0, 0)).2 : K) * eci.getD (o.bitId + k) 0 *
          correlation (geom o.tag).phi ((geom o.tag).classes.getD (o.combos.getD k (0, 0)).1 [])
            (row.map occ))).sum := by
    intro row hrow
    have hin : InShape (geom o.tag).shape (row.map occ) := by
      unfold InShape; rw [List.forall₂_map_left_iff]; exact hocc o ho row hrow
    show ((cOrder (geom o.tag).shape).map _).getD (flatPos (geom o.tag).shape (row.map occ)) 0 = _
    rw [List.getD_eq_getElem?_getD, List.getElem?_map, get_cOrder (hg.shape o ho) hin,
      Option.map_some, Option.getD_some]
    unfold interactionAt
    rw [sum_zipIdx (o.kept (geom o.tag)) [] (fun c k => (c.length : K) * eci.getD (o.bitId + k) 0 *
      corrTensor (geom o.tag).phi c (row.map occ))]
    have hkl : (o.kept (geom o.tag)).length = o.combos.length := by simp [Orb.kept]
    rw [hkl]
    congr 1
    apply List.map_congr_left
    intro k hk
    have hk' : k < o.combos.length := List.mem_range.1 hk
    have hkc : (o.kept (geom o.tag)).getD k [] =
        (geom o.tag).classes.getD (o.combos.getD k (0, 0)).1 [] := by
      unfold Orb.kept; rw [getD_map _ _ _ (0, 0) _ hk']
    obtain ⟨cl, hc1, hc2, -, hc3⟩ := hg.label o ho (o.combos.getD k (0, 0)) (by
      simp [List.getD_eq_getElem?_getD, hk'])
    have hcl : (geom o.tag).classes.getD (o.combos.getD k (0, 0)).1 [] = cl := by
      rw [List.getD_eq_getElem?_getD, hc1]; rfl
    rw [hkc, hcl, ← hc2, corrTensor_eq]
    intro b hb
    rw [hc3 b hb]; exact (List.Forall₂.length_eq hin).symm
  unfold clusterAverage
  rw [List.map_congr_left htab, sum_map_comm, ← mul_div_assoc, ← List.sum_map_mul_left,
    div_eq_mul_inv, ← List.sum_map_mul_right]
  congr 1
  apply List.map_congr_left
  intro k hk
  have hk' : k < o.combos.length := List.mem_range.1 hk
  have hck : o.combos[k]? = some (o.combos.getD k (0, 0)) := by
    simp [List.getD_eq_getElem?_getD, hk']
  obtain ⟨cl, hc1, hc2, hc4, -⟩ := hg.label o ho (o.combos.getD k (0, 0)) (by
      simp [List.getD_eq_getElem?_getD, hk'])
  have hlt : o.bitId + k < E.space.numCorr := by
    obtain ⟨j, hj, rfl⟩ := List.getElem_of_mem ho
    have := get_funsOf _ _ _ (List.getElem?_eq_getElem hj) k _ hck
    have := (List.getElem?_eq_some_iff.1 this).1
    rw [length_funsOf] at this
    rw [(hS.get j _ (List.getElem?_eq_getElem hj)).2, hS.numCorr]
    omega
  have hmne : (m (o.bitId + k) : K) ≠ 0 := by
    rw [hmm o ho k _ hck]
    have h5 : 0 < (o.combos.getD k (0, 0)).2 := by
      rw [hc2]; exact List.length_pos_of_ne_nil hc4
    exact Nat.cast_ne_zero.2 (Nat.mul_ne_zero (hg.mult o ho).ne' h5.ne')
  have hcoef : (o.mult : K) * ((o.combos.getD k (0, 0)).2 * eci.getD (o.bitId + k) 0) =
      E.coefs.getD (o.bitId + k) 0 := by
    rw [hem _ hlt, ← mul_assoc, ← Nat.cast_mul, ← hmm o ho k _ hck, mul_div_cancel₀ _ hmne]
  rw [List.sum_map_mul_left]
  rw [← hcoef, div_eq_mul_inv]
  ring

/-- C47. The decomposition processor with the expansion's interaction tensors exists and computes
the same energy, for every legal occupancy. -/
theorem C47_decomposition_energy [CharZero K] (E : Expansion K) (hR : E.space.Reachable)
    (hlen : E.coefs.length = E.numTerms) (geom : ℕ → OrbitGeom K)
    (hg : E.space.FitsGeom geom) (size : ℕ) :
    ∃ P, cdProcessor E geom size = some P ∧ ∀ occ, E.space.Legal geom occ →
      P.property E.space occ =
        some (expansionEnergy size (E.coefs.getD 0 0) (E.terms geom) occ) := by
  have hS := hR.ok
  obtain ⟨eci, he, -, -⟩ := selects_exists E hS hlen true
  simp only [if_true] at he
  have hex : ∃ P, cdProcessor E geom size = some P := by
    unfold cdProcessor; rw [he]; exact ⟨_, rfl⟩
  obtain ⟨P, hP⟩ := hex
  refine ⟨P, hP, fun occ hocc => ?_⟩
  have hP0 := hP
  have hwf := cdProcessor_wellFormed hS geom size P hP
  unfold cdProcessor at hP
  rw [he, Option.map_some, Option.some.injEq] at hP
  have hval := C03_feature_vector_value P hwf occ
  have hn : P.numOrbits = E.space.numOrbits := by rw [← hP]
  have hoff : P.offset = E.coefs.getD 0 0 := by rw [← hP]
  have hsz : P.size = size := by rw [← hP]
  unfold CDProcessor.property
  rw [npDot_range _ _ _ (by
    rw [List.length_map, hn, hS.numOrbits, OrbitSpace.orbitMults, List.length_cons,
      List.length_map]; omega)]
  congr 1
  rw [hn, sum_ids hS, hval.1, hoff, hsz]
  unfold expansionEnergy Expansion.terms
  rw [add_mul, List.map_map, ← List.sum_map_mul_right]
  congr 1
  · simp [OrbitSpace.orbitMults]
  congr 1
  apply List.map_congr_left
  intro o ho
  have hid : o.id < E.space.orbitMults.length := by
    obtain ⟨j, hj, rfl⟩ := List.getElem_of_mem ho
    rw [(hS.get j _ (List.getElem?_eq_getElem hj)).1, OrbitSpace.orbitMults, List.length_cons,
      List.length_map]
    omega
  have h3 : (E.space.orbitMults.map fun m : ℕ => (m : K)).getD o.id 0 = (o.mult : K) := by
    rw [getD_map _ _ _ 0 _ hid, orbitMults_get hS o ho]
  rw [h3, C47_orbit_share E hR hlen geom hg size hP0 hocc ho]
  simp only [Function.comp_apply, List.map_map, Function.comp_def]

/-- C47. Both processors also report the same energy change for every list of flips that keeps the
occupancy legal, and raise for the same ones. -/
theorem C47_energy_change [CharZero K] (E : Expansion K) (hR : E.space.Reachable)
    (hlen : E.coefs.length = E.numTerms) (geom : ℕ → OrbitGeom K)
    (hg : E.space.FitsGeom geom) (size : ℕ) (P : CDProcessor K)
    (hP : cdProcessor E geom size = some P) (occ occ' : Occ) (flips : Step)
    (hr : ReachedBy occ flips occ') (h : E.space.Legal geom occ) (h' : E.space.Legal geom occ') :
    P.propertyChange E.space occ flips =
        (ceProcessor E.space geom size).propertyChange (dropExt E.nExt E.coefs) occ flips ∧
    ∀ v, P.propertyChange E.space occ flips = some v →
      v = expansionEnergy size (E.coefs.getD 0 0) (E.terms geom) occ' -
        expansionEnergy size (E.coefs.getD 0 0) (E.terms geom) occ := by
  have hS := hR.ok
  set Q := ceProcessor E.space geom size with hQ
  have hwP := cdProcessor_wellFormed hS geom size P hP
  have hwQ : Q.WellFormed := ceProcessor_wellFormed hS geom size
  obtain ⟨P', hP', hval⟩ := C47_decomposition_energy E hR hlen geom hg size
  obtain rfl : P = P' := by rw [hP] at hP'; exact Option.some.inj hP'
  have hl : (dropExt E.nExt E.coefs).length = Q.numCorr := by
    show _ = E.space.numCorr
    rw [dropExt, List.length_take, hlen, Expansion.numTerms]; omega
  have hn : P.numOrbits = E.space.numOrbits := by
    unfold cdProcessor at hP
    obtain ⟨eci, -, rfl⟩ := Option.map_eq_some_iff.1 hP
    rfl
  have hm : (E.space.orbitMults.map fun m : ℕ => (m : K)).length = P.numOrbits := by
    rw [List.length_map, hn, hS.numOrbits, OrbitSpace.orbitMults, List.length_cons,
      List.length_map]; omega
  have hlin : ∀ (coefs : List K) (n : ℕ) (d a b : ℕ → K) (x y : K), coefs.length = n →
      (∀ i, d i = a i - b i) → propertyOf coefs n a = some x → propertyOf coefs n b = some y →
      propertyOf coefs n d = some (x - y) := by
    intro coefs n d a b x y hc hd ha hb
    rw [npDot_range _ _ _ hc, Option.some.injEq] at ha hb ⊢
    rw [← ha, ← hb, ← sum_map_sub']
    congr 1
    apply List.map_congr_left
    intro i _
    rw [hd]; ring
  have hrows : ∀ f : ℕ × ℕ, (∀ p ∈ P.orbits, ∀ cluster ∈ p.2, f.1 ∉ cluster) ↔
      ∀ p ∈ Q.orbits, ∀ cluster ∈ p.2, f.1 ∉ cluster := by
    intro f
    unfold cdProcessor at hP
    obtain ⟨eci, -, rfl⟩ := Option.map_eq_some_iff.1 hP
    rw [hQ]
    simp [ceProcessor]
  have key : ∀ v, P.propertyChange E.space occ flips = some v →
      v = expansionEnergy size (E.coefs.getD 0 0) (E.terms geom) occ' -
        expansionEnergy size (E.coefs.getD 0 0) (E.terms geom) occ := by
    intro v hv
    unfold CDProcessor.propertyChange at hv
    obtain ⟨d, hd, hv⟩ := Option.bind_eq_some_iff.1 hv
    have := hlin _ _ d _ _ _ _ hm (C03_change_is_difference P hwP occ occ' flips hr d hd)
      (hval occ' h') (hval occ h)
    rw [this, Option.some.injEq] at hv
    exact hv.symm
  refine ⟨?_, key⟩
  unfold CDProcessor.propertyChange CEProcessor.propertyChange
  cases hd : P.featureVectorChange occ flips with
  | none =>
    have h1 := (C03_change_error_iff P occ flips).1 hd
    have : Q.featureVectorChange occ flips = none := by
      rw [C02_change_error_iff]
      obtain ⟨f, hf, hx⟩ := h1
      exact ⟨f, hf, (hrows f).1 hx⟩
    rw [this]
    rfl
  | some d =>
    cases he : Q.featureVectorChange occ flips with
    | none =>
      obtain ⟨f, hf, hx⟩ := (C02_change_error_iff Q occ flips).1 he
      have := (C03_change_error_iff P occ flips).2 ⟨f, hf, (hrows f).2 hx⟩
      rw [this] at hd; cases hd
    | some e =>
      rw [Option.bind_some, Option.bind_some,
        hlin _ _ d _ _ _ _ hm (C03_change_is_difference P hwP occ occ' flips hr d hd)
          (hval occ' h') (hval occ h),
        hlin _ _ e _ _ _ _ hl (C02_change_is_difference Q hwQ occ occ' flips hr e he)
          (C47_expansion_energy E hR hlen geom hg size occ' h')
          (C47_expansion_energy E hR hlen geom hg size occ h)]

/-- points and nearest-neighbour pairs of a ring of four sites with three species -/
def ringSpace : OrbitSpace :=
  OrbitSpace.assigned [(1, [⟨0, 1, [(0, 1), (1, 1)], 0, 0⟩]), (2, [⟨1, 1, [(0, 1), (1, 2), (2, 1)], 0, 0⟩])]

def ringGeom (t : ℕ) : OrbitGeom ℚ :=
  if t = 0 then ⟨fun _ b c => if c = b then 1 else 0, [3], bitCombos [[0, 1]] [[0]],
    [[0], [1], [2], [3]]⟩
  else ⟨fun _ b c => if c = b then 1 else 0, [3, 3], bitCombos [[0, 1], [0, 1]] swapPerms,
    [[0, 1], [1, 2], [2, 3], [3, 0]]⟩

/-- coefficients, the last one of an external term -/
def ringExpansion : Expansion ℚ := ⟨ringSpace, 1, [5, 1, 2, 3, 4, 6, 7]⟩

example : ringExpansion.space.Reachable ∧ ringExpansion.coefs.length = ringExpansion.numTerms ∧
    ringExpansion.space.FitsGeom ringGeom ∧
    ringExpansion.space.Legal ringGeom (fun i => [0, 1, 1, 2].getD i 0) ∧
    (ceProcessor ringExpansion.space ringGeom 4).property [5, 1, 2, 3, 4, 6]
      (fun i => [0, 1, 1, 2].getD i 0) = some 33 ∧
    (cdProcessor ringExpansion ringGeom 4).map (fun P => P.property ringSpace
      (fun i => [0, 1, 1, 2].getD i 0)) = some (some 33) := by
  refine ⟨⟨_, [], by decide, rfl⟩, by decide, ⟨by decide, by decide, ?_⟩, ?_, by decide +kernel,
    by decide +kernel⟩
  · have hd : ∀ o ∈ ringSpace.orbits, ∀ c ∈ o.combos,
        ∃ cl ∈ (ringGeom o.tag).classes[c.1]?, c.2 = cl.length ∧ cl ≠ [] ∧
          ∀ b ∈ cl, b.length = (ringGeom o.tag).shape.length := by decide +kernel
    intro o ho c hc
    obtain ⟨cl, h1, h2⟩ := hd o ho c hc
    exact ⟨cl, h1, h2⟩
  · show ∀ o ∈ ringSpace.orbits, _
    decide +kernel

end Smol
