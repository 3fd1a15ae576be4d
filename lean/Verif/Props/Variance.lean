import Verif.Lemmas.VarianceMain

/-!
# C77 Mean and variance of the property in random occupancies

The numbers `ECI-based Property : mean … std …` and the effective cluster weights of an expansion.
Models: `Verif/Model/Variance.lean`, `Verif/Model/Decomposition.lean` (processors),
`Verif/Model/Expansion.lean`.
-/

namespace Smol
open Spec

section
variable {geom : ℕ → OrbitGeom ℝ} {n : ℕ} {q : ℕ → ℕ} {B : ∀ i, SiteBasis (q i)} {size : ℕ}

/-- the sum over functions by their number -/
theorem sum_functions {S : OrbitSpace} (hS : S.Ok) (f : ℕ → ℝ → ℝ) :
    (S.orbits.map fun o => ((List.range o.combos.length).map fun k => f (o.bitId + k)
        ((o.mult * (o.combos.getD k (0, 0)).2 : ℕ) : ℝ)).sum).sum =
      ((List.range S.numCorr).map fun s => if s = 0 then 0 else f s (S.totalMults.getD s 0 : ℝ)).sum := by
  rw [sum_slots hS, if_pos rfl, zero_add]
  congr 1
  apply List.map_congr_left
  intro o ho
  congr 1
  apply List.map_congr_left
  intro k hk
  have hk' := List.mem_range.1 hk
  have h0 : o.bitId + k ≠ 0 := by
    obtain ⟨j, hj, rfl⟩ := List.getElem_of_mem ho
    rw [(hS.get j _ (List.getElem?_eq_getElem hj)).2]
    omega
  have hc : o.combos.getD k (0, 0) = o.combos[k] := by simp [List.getD_eq_getElem?_getD, hk']
  rw [if_neg h0, (totalMults_get hS).2 o ho k _ (List.getElem?_eq_getElem hk'), hc]

theorem sum_range_singleR (n i : ℕ) (hi : i < n) (f : ℕ → ℝ) :
    ((List.range n).map fun s => if s = i then f s else 0).sum = f i := by
  rw [← List.sum_toFinset _ List.nodup_range]
  simp [hi]

/-- **C77.** With orthonormal site bases and no two clusters on the same sites, the entries of the
feature vector have mean zero over occupancies drawn with the concentrations of the bases, they are
uncorrelated, and their variance is the size over the total multiplicity of the function. -/
theorem C77_features {S : OrbitSpace} (hR : S.Reachable) (F : S.FitsGeom geom)
    (H : RandomCell S geom n q B size) (hon : ∀ i < n, (B i).isOrthonormal)
    (hone : ∀ i < n, UnitRow (B i)) (hq : ∀ i < n, 0 < q i) (hsize : 0 < size) (i j : ℕ)
    (hi : 0 < i ∧ i < S.numCorr) (hj : 0 < j ∧ j < S.numCorr) :
    meanOver n q (fun i => concentration (B i))
      (fun occ => (ceProcessor S geom size).featureVector occ i) = 0 ∧
    meanOver n q (fun i => concentration (B i))
      (fun occ => (ceProcessor S geom size).featureVector occ i *
        (ceProcessor S geom size).featureVector occ j) =
      if i = j then (size : ℝ) / (S.totalMults.getD i 0 : ℝ) else 0 := by
  have hS := hR.ok
  set fv := fun occ i => (ceProcessor S geom size).featureVector occ i with hfv
  have key : ∀ g : ℕ → ℝ, g 0 = 0 →
      meanOver n q (fun i => concentration (B i)) (fun occ => ((List.range S.numCorr).map fun s =>
        g s * fv occ s).sum) = 0 ∧
      meanOver n q (fun i => concentration (B i)) (fun occ => ((List.range S.numCorr).map fun s =>
        g s * fv occ s).sum ^ 2) =
      ((List.range S.numCorr).map fun s => if s = 0 then 0 else
        g s ^ 2 * (size / (S.totalMults.getD s 0 : ℝ))).sum := by
    intro g hg
    obtain ⟨h1, h2⟩ := H.features_mean_var hS F hon hone hq hsize g (fun occ =>
      ((List.range S.numCorr).map fun s => g s * fv occ s).sum) fun occ _ => rfl
    rw [hg, mul_zero] at h1
    refine ⟨h1, ?_⟩
    rw [sum_functions hS fun s m => g s ^ 2 * (size / m)] at h2
    rw [← h2, varianceOver, h1]
    simp
  have hone1 : ∀ a, 0 < a → a < S.numCorr → ∀ occ, ((List.range S.numCorr).map fun s =>
      (if s = a then (1 : ℝ) else 0) * fv occ s).sum = fv occ a := by
    intro a _ ha occ
    simp only [ite_mul, one_mul, zero_mul]
    exact sum_range_singleR _ a ha fun s => fv occ s
  have hsq : ∀ a, 0 < a → a < S.numCorr → meanOver n q (fun i => concentration (B i))
      (fun occ => fv occ a ^ 2) = size / (S.totalMults.getD a 0 : ℝ) := by
    intro a ha ha'
    have h := (key (fun s => if s = a then 1 else 0) (by simp; omega)).2
    simp only [hone1 a ha ha'] at h
    rw [h, ← sum_range_singleR _ a ha' fun s => (size : ℝ) / (S.totalMults.getD s 0 : ℝ)]
    congr 1
    apply List.map_congr_left
    intro s _
    by_cases hs : s = a
    · subst hs; simp; omega
    · simp [hs]
  constructor
  · have h := (key (fun s => if s = i then 1 else 0) (by simp; omega)).1
    simpa only [hone1 i hi.1 hi.2] using h
  · split
    · rename_i hij
      subst hij
      rw [← hsq i hi.1 hi.2]
      congr 1
      funext occ
      rw [pow_two]
    · rename_i hij
      have h := (key (fun s => (if s = i then (1 : ℝ) else 0) + if s = j then (1 : ℝ) else 0)
        (by rw [if_neg (by omega), if_neg (by omega), add_zero])).2
      have e1 : ∀ occ, ((List.range S.numCorr).map fun s => ((if s = i then (1 : ℝ) else 0) +
          if s = j then 1 else 0) * fv occ s).sum = fv occ i + fv occ j := by
        intro occ
        simp only [add_mul]
        rw [List.sum_map_add, hone1 i hi.1 hi.2, hone1 j hj.1 hj.2]
      simp only [e1] at h
      have e2 : ((List.range S.numCorr).map fun s => if s = 0 then 0 else
          ((if s = i then (1 : ℝ) else 0) + if s = j then 1 else 0) ^ 2 *
            (size / (S.totalMults.getD s 0 : ℝ))).sum =
          size / (S.totalMults.getD i 0 : ℝ) + size / (S.totalMults.getD j 0 : ℝ) := by
        rw [← sum_range_singleR _ i hi.2 fun s => (size : ℝ) / (S.totalMults.getD s 0 : ℝ),
          ← sum_range_singleR _ j hj.2 fun s => (size : ℝ) / (S.totalMults.getD s 0 : ℝ),
          ← List.sum_map_add]
        congr 1
        apply List.map_congr_left
        intro s _
        by_cases h1 : s = i
        · subst h1; simp [hij]; omega
        · by_cases h2 : s = j
          · subst h2; simp [h1]; omega
          · simp [h1, h2]
      rw [e2] at h
      have e3 : (fun occ => (fv occ i + fv occ j) ^ 2) = fun occ => (fv occ i ^ 2 + fv occ j ^ 2) +
          2 * (fv occ i * fv occ j) := by
        funext occ; ring
      rw [e3, meanOver_add, meanOver_add, hsq i hi.1 hi.2, hsq j hj.1 hj.2, meanOver_smul] at h
      have h' : (2 : ℝ) * meanOver n q (fun i => concentration (B i))
        (fun occ => fv occ i * fv occ j) = 0 := by linarith
      have := (mul_eq_zero.1 h').resolve_left (by norm_num)
      simpa only [hfv] using this

/-- **C77.** Under the same conditions the numbers printed for an expansion are the mean of the
property per cell and its variance per cell: the property the processor computes for the supercell
has the size times these as mean and variance. -/
theorem C77_property_partial (E : Expansion ℝ) (hR : E.space.Reachable)
    (hlen : E.coefs.length = E.numTerms) (F : E.space.FitsGeom geom)
    (H : RandomCell E.space geom n q B size) (hon : ∀ i < n, (B i).isOrthonormal)
    (hone : ∀ i < n, UnitRow (B i)) (hq : ∀ i < n, 0 < q i) (hsize : 0 < size) :
    ∃ (X : Occ → ℝ) (mean var : ℝ), E.fitMean = some mean ∧ E.fitVar = some var ∧
      (∀ occ, (∀ i < n, occ i < q i) →
        (ceProcessor E.space geom size).property (dropExt E.nExt E.coefs) occ = some (X occ)) ∧
      meanOver n q (fun i => concentration (B i)) X = size * mean ∧
      varianceOver n q (fun i => concentration (B i)) X = size * var := by
  have hS := hR.ok
  obtain ⟨eci, he, hsel, -⟩ := selects_exists E hS hlen true
  simp only [if_true] at he
  unfold Selects at hsel
  rw [if_pos rfl] at hsel
  obtain ⟨m, hel, hem, hm0, hmm⟩ := hsel
  have hl : (dropExt E.nExt E.coefs).length = E.space.numCorr := by
    rw [dropExt, List.length_take, hlen, Expansion.numTerms]; omega
  have hget : ∀ i < E.space.numCorr, (dropExt E.nExt E.coefs).getD i 0 = E.coefs.getD i 0 := by
    intro i hi
    have : i < E.coefs.length - E.nExt := by rw [hlen, Expansion.numTerms]; omega
    rw [dropExt, List.getD_eq_getElem?_getD, List.getD_eq_getElem?_getD,
      List.getElem?_take_of_lt this]
  have h0 : 0 < E.space.numCorr := by rw [hS.numCorr]; omega
  refine ⟨fun occ => ((List.range E.space.numCorr).map fun s => E.coefs.getD s 0 *
    (ceProcessor E.space geom size).featureVector occ s).sum, eci.getD 0 0, _,
    by unfold Expansion.fitMean; rw [he]; rfl, fitVar_eq hS he hel, ?_, ?_, ?_⟩
  · intro occ _
    unfold CEProcessor.property
    rw [npDot_range _ _ _ (by rw [hl]; rfl)]
    congr 2
    apply List.map_congr_left
    intro i hi
    rw [hget i (List.mem_range.1 hi)]
  · rw [(H.features_mean_var hS F hon hone hq hsize (fun s => E.coefs.getD s 0) _ fun _ _ => rfl).1,
      hem 0 h0, hm0, Nat.cast_one, div_one]
  · rw [(H.features_mean_var hS F hon hone hq hsize (fun s => E.coefs.getD s 0) _ fun _ _ => rfl).2,
      ← List.sum_map_mul_left]
    congr 1
    apply List.map_congr_left
    intro o ho
    rw [← List.sum_map_mul_left]
    congr 1
    apply List.map_congr_left
    intro k hk
    have hk' := List.mem_range.1 hk
    have hck : o.combos[k]? = some (o.combos.getD k (0, 0)) := by
      simp [List.getD_eq_getElem?_getD, hk']
    have hlt : o.bitId + k < E.space.numCorr := by
      obtain ⟨j, hj, rfl⟩ := List.getElem_of_mem ho
      have := get_funsOf _ _ _ (List.getElem?_eq_getElem hj) k _ hck
      have := (List.getElem?_eq_some_iff.1 this).1
      rw [length_funsOf] at this
      rw [(hS.get j _ (List.getElem?_eq_getElem hj)).2, hS.numCorr]
      omega
    obtain ⟨-, hcl, hne, -⟩ := H.classOf' F ho (List.mem_of_getElem? hck)
    have h2 : ((o.mult * (o.combos.getD k (0, 0)).2 : ℕ) : ℝ) ≠ 0 := by
      have h3 : (o.combos.getD k (0, 0)).2 ≠ 0 := by
        rw [← hcl]
        exact fun h => hne (List.eq_nil_of_length_eq_zero h)
      exact_mod_cast Nat.mul_ne_zero (F.mult o ho).ne' h3
    rw [hem _ hlt, hmm o ho k _ hck]
    field_simp

/-- **C77.** Effective cluster weights: that of an orbit, times the multiplicity of the orbit, is the
variance per cell of the orbit's share in the property (the interaction the decomposition processor
computes, times its coefficient), whose mean is zero; the shares of all orbits add up to the printed
variance; the first weight is the square of the printed mean. -/
theorem C77_weights_partial (E : Expansion ℝ) (hR : E.space.Reachable)
    (hlen : E.coefs.length = E.numTerms) (F : E.space.FitsGeom geom)
    (H : RandomCell E.space geom n q B size) (hon : ∀ i < n, (B i).isOrthonormal)
    (hone : ∀ i < n, UnitRow (B i)) (hq : ∀ i < n, 0 < q i) (hsize : 0 < size) :
    ∃ (P : CDProcessor ℝ) (ws : List ℝ) (mean var : ℝ), cdProcessor E geom size = some P ∧
      E.clusterWeights = some ws ∧ E.fitMean = some mean ∧ E.fitVar = some var ∧
      (∀ o ∈ E.space.orbits,
        meanOver n q (fun i => concentration (B i)) (fun occ => (o.mult : ℝ) * P.featureVector occ o.id) = 0 ∧
        varianceOver n q (fun i => concentration (B i))
          (fun occ => (o.mult : ℝ) * P.featureVector occ o.id) = size * (o.mult * ws.getD o.id 0)) ∧
      var = (E.space.orbits.map fun o => (o.mult : ℝ) * ws.getD o.id 0).sum ∧
      ws.length = E.space.orbits.length + 1 ∧ ws.getD 0 0 = mean ^ 2 := by
  have hS := hR.ok
  obtain ⟨eci, he, hsel, -⟩ := selects_exists E hS hlen true
  simp only [if_true] at he
  unfold Selects at hsel
  rw [if_pos rfl] at hsel
  obtain ⟨m, hel, hem, hm0, hmm⟩ := hsel
  obtain ⟨P, hP, -⟩ := C47_decomposition_energy E hR hlen geom F size
  obtain ⟨ws, hws, hwl, hw0, hwo⟩ := clusterWeights_eq hS he hel
  refine ⟨P, ws, eci.getD 0 0, _, hP, hws, by unfold Expansion.fitMean; rw [he]; rfl, fitVar_eq hS he hel, ?_, ?_,
    hwl, hw0⟩
  · intro o ho
    obtain ⟨h1, h2⟩ := H.orbit_mean_var F hon hone hq hsize (fun s => E.coefs.getD s 0) ho
      (fun occ => (o.mult : ℝ) * P.featureVector occ o.id) (by
        intro occ hocc
        rw [mul_comm (size : ℝ)]
        exact C47_orbit_share E hR hlen geom F size hP (H.legal hocc) ho)
    refine ⟨h1, ?_⟩
    rw [h2, hwo o ho, ← mul_assoc, ← List.sum_map_mul_left]
    congr 1
    apply List.map_congr_left
    intro k hk
    have hk' := List.mem_range.1 hk
    have hck : o.combos[k]? = some (o.combos.getD k (0, 0)) := by
      simp [List.getD_eq_getElem?_getD, hk']
    have hlt : o.bitId + k < E.space.numCorr := by
      obtain ⟨j, hj, rfl⟩ := List.getElem_of_mem ho
      have := get_funsOf _ _ _ (List.getElem?_eq_getElem hj) k _ hck
      have := (List.getElem?_eq_some_iff.1 this).1
      rw [length_funsOf] at this
      rw [(hS.get j _ (List.getElem?_eq_getElem hj)).2, hS.numCorr]
      omega
    obtain ⟨-, hcl, hne, -⟩ := H.classOf' F ho (List.mem_of_getElem? hck)
    have h3 : ((o.combos.getD k (0, 0)).2 : ℝ) ≠ 0 := by
      have h3 : (o.combos.getD k (0, 0)).2 ≠ 0 := by
        rw [← hcl]
        exact fun h => hne (List.eq_nil_of_length_eq_zero h)
      exact_mod_cast h3
    have h4 : (o.mult : ℝ) ≠ 0 := by exact_mod_cast (F.mult o ho).ne'
    rw [hem _ hlt, hmm o ho k _ hck]
    push_cast
    field_simp
  · congr 1
    apply List.map_congr_left
    intro o ho
    rw [hwo o ho, ← List.sum_map_mul_left]
    congr 1
    apply List.map_congr_left
    intro k _
    push_cast
    ring

end


/-! ### The weight of an orbit in terms of its own cluster -/

/-- **C77.** The effective cluster weight of an orbit is the mean square of its cluster interaction
over the species of one cluster, drawn with the concentrations of its site bases; this mean square is
the variance, the mean being zero. -/
theorem C77_weight_mean_square (E : Expansion ℝ) (hR : E.space.Reachable)
    (hlen : E.coefs.length = E.numTerms) (geom : ℕ → OrbitGeom ℝ) (F : E.space.FitsGeom geom)
    {o : Orb} (ho : o ∈ E.space.orbits) {n : ℕ} {m : ℕ → ℕ} (B : ∀ k, SiteBasis (m k))
    (hshape : (geom o.tag).shape = fullShape n m)
    (hphi : (geom o.tag).phi = fun k => siteFunction (B k)) {perms : List (List ℕ)}
    (G : PermGroup n perms) (hm : ∀ p ∈ perms, ∀ (i j : ℕ), p[i]? = some j → m j = m i)
    (hcl : (geom o.tag).classes = bitCombos (fullBits n m) perms)
    (hlab : (o.combos.map Prod.fst).Nodup) (hon : ∀ k < n, (B k).isOrthonormal)
    (hone : ∀ k < n, UnitRow (B k)) :
    ∃ eci ws, E.eci = some eci ∧ E.clusterWeights = some ws ∧
      ws.getD o.id 0 = expect (fun k => concentration (B k)) 0 (geom o.tag).shape
        (fun codes => interactionAt eci o (geom o.tag) codes ^ 2) ∧
      expect (fun k => concentration (B k)) 0 (geom o.tag).shape
        (fun codes => interactionAt eci o (geom o.tag) codes) = 0 := by
  have hS := hR.ok
  obtain ⟨eci, he, hsel, -⟩ := selects_exists E hS hlen true
  simp only [if_true] at he
  unfold Selects at hsel
  rw [if_pos rfl] at hsel
  obtain ⟨-, hel, -⟩ := hsel
  obtain ⟨ws, hws, -, -, hwo⟩ := clusterWeights_eq hS he hel
  have G' : PermGroup (fullBits n m).length perms := by rw [fullBits_length]; exact G
  obtain ⟨hne, hdis, hch, -⟩ := C45_partition _ perms G' (respects_fullBits G hm)
  have hn : 0 < n := by
    have h := F.shape o ho
    rw [hshape] at h
    rcases Nat.eq_zero_or_pos n with rfl | h0
    · exact absurd rfl h
    · exact h0
  -- the classes of the orbit
  have hkl : (o.kept (geom o.tag)).length = o.combos.length := by simp [Orb.kept]
  have hk : ∀ k < o.combos.length, (o.kept (geom o.tag)).getD k [] ∈ bitCombos (fullBits n m) perms ∧
      ((o.kept (geom o.tag)).getD k []).length = (o.combos.getD k (0, 0)).2 ∧
      (o.kept (geom o.tag)).getD k [] ≠ [] ∧
      (bitCombos (fullBits n m) perms)[(o.combos.getD k (0, 0)).1]? =
        some ((o.kept (geom o.tag)).getD k []) := by
    intro k hk
    have hc : o.combos.getD k (0, 0) ∈ o.combos := by
      simp [List.getD_eq_getElem?_getD, hk]
    obtain ⟨cl, h1, h2, h3, -⟩ := F.label o ho _ hc
    have hkc : (o.kept (geom o.tag)).getD k [] = cl := by
      unfold Orb.kept
      rw [getD_map _ _ _ (0, 0) _ hk, List.getD_eq_getElem?_getD, h1, Option.getD_some]
    rw [hkc]
    rw [hcl] at h1
    exact ⟨List.mem_of_getElem? h1, h2.symm, h3, h1⟩
  have hinj : ∀ k < o.combos.length, ∀ l < o.combos.length,
      (o.kept (geom o.tag)).getD k [] = (o.kept (geom o.tag)).getD l [] → k = l := by
    intro k hk1 l hl1 heq
    obtain ⟨-, -, h3, h4⟩ := hk k hk1
    obtain ⟨-, -, -, h4'⟩ := hk l hl1
    have hlab' : (o.combos.getD k (0, 0)).1 = (o.combos.getD l (0, 0)).1 := by
      by_contra hne'
      obtain ⟨i1, e1⟩ := List.getElem?_eq_some_iff.1 h4
      obtain ⟨i2, e2⟩ := List.getElem?_eq_some_iff.1 h4'
      obtain ⟨b, hb⟩ := List.exists_mem_of_ne_nil _ h3
      rw [List.pairwise_iff_getElem] at hdis
      rcases Nat.lt_or_gt_of_ne hne' with h | h
      · exact hdis _ _ i1 i2 h b (by rw [e1]; exact hb) (by rw [e2, ← heq]; exact hb)
      · exact hdis _ _ i2 i1 h b (by rw [e2, ← heq]; exact hb) (by rw [e1]; exact hb)
    have := (List.nodup_iff_injective_get.1 hlab)
    have h5 : (⟨k, by simpa using hk1⟩ : Fin (o.combos.map Prod.fst).length) =
        ⟨l, by simpa using hl1⟩ := by
      apply this
      simp only [List.get_eq_getElem, List.getElem_map]
      simpa [List.getD_eq_getElem?_getD, hk1, hl1] using hlab'
    simpa using h5
  set cls := fun k => (o.kept (geom o.tag)).getD k [] with hcls
  set w := fun k => ((cls k).length : ℝ) * eci.getD (o.bitId + k) 0 with hw
  have hint : ∀ codes, interactionAt eci o (geom o.tag) codes =
      ((List.range o.combos.length).map fun k => w k *
        corrTensor (fun k => siteFunction (B k)) (cls k) codes).sum := by
    intro codes
    unfold interactionAt
    rw [sum_zipIdx (o.kept (geom o.tag)) [] (fun c k => (c.length : ℝ) * eci.getD (o.bitId + k) 0 *
      corrTensor (geom o.tag).phi c codes), hkl, hphi]
  refine ⟨eci, ws, he, hws, ?_, ?_⟩
  · rw [hwo o ho, hshape]
    have e1 : ∀ c : List ℕ, c.length = (fullShape n m).length →
        interactionAt eci o (geom o.tag) c ^ 2 =
        ((List.range o.combos.length).map fun k => ((List.range o.combos.length).map fun l =>
          w k * w l * (corrTensor (fun k => siteFunction (B k)) (cls k) c *
            corrTensor (fun k => siteFunction (B k)) (cls l) c)).sum).sum := by
      intro c _
      rw [hint, pow_two, ← List.sum_map_mul_right]
      congr 1
      apply List.map_congr_left
      intro k _
      rw [← List.sum_map_mul_left]
      congr 1
      apply List.map_congr_left
      intro l _
      ring
    rw [expect_congr _ _ _ _ _ e1, expect_list_sum]
    congr 1
    apply List.map_congr_left
    intro k hk1
    have hk1' := List.mem_range.1 hk1
    rw [expect_list_sum]
    have e2 : ∀ l ∈ List.range o.combos.length, expect (fun k => concentration (B k)) 0 (fullShape n m)
        (fun c => w k * w l * (corrTensor (fun k => siteFunction (B k)) (cls k) c *
            corrTensor (fun k => siteFunction (B k)) (cls l) c)) =
        if l = k then w l * w l * (1 / ((cls l).length : ℝ)) else 0 := by
      intro l hl
      have hl' := List.mem_range.1 hl
      rw [expect_mul_left, C66_orthogonal B perms G hm hon _ _ (hk k hk1').1 (hk l hl').1]
      by_cases h : l = k
      · subst h; rw [if_pos rfl, if_pos rfl]
      · rw [if_neg (fun e => h (hinj k hk1' l hl' e).symm), if_neg h, mul_zero]
    rw [List.map_congr_left e2, sum_range_singleR _ k hk1' fun l => w l * w l * (1 / ((cls l).length : ℝ))]
    obtain ⟨-, h2, h3, -⟩ := hk k hk1'
    have h4 : ((cls k).length : ℝ) ≠ 0 := by
      have : (cls k).length ≠ 0 := fun h => h3 (List.eq_nil_of_length_eq_zero h)
      exact_mod_cast this
    rw [← h2]
    show ((cls k).length : ℝ) * eci.getD (o.bitId + k) 0 ^ 2 = _
    simp only [hw]
    field_simp
  · rw [hshape]
    have e1 : ∀ c : List ℕ, c.length = (fullShape n m).length →
        interactionAt eci o (geom o.tag) c =
        ((List.range o.combos.length).map fun k =>
          w k * corrTensor (fun k => siteFunction (B k)) (cls k) c).sum := fun c _ => hint c
    rw [expect_congr _ _ _ _ _ e1, expect_list_sum]
    apply List.sum_eq_zero
    intro y hy
    obtain ⟨k, hk1, rfl⟩ := List.mem_map.1 hy
    have hk1' := List.mem_range.1 hk1
    rw [expect_mul_left, C66_mean_zero hn B perms G hm hon hone _ (hk k hk1').1, mul_zero]


/-! ### Where the numbers are not these -/

/-- two species with equal concentrations and the functions 1, ±1 -/
noncomputable def spinBasis : SiteBasis 2 := ⟨fun _ => 1 / 2, !![1, 1; -1, 1], none, 1⟩

/-- two species with equal concentrations and the indicator function of the first -/
noncomputable def indicatorBasis : SiteBasis 2 := ⟨fun _ => 1 / 2, !![1, 1; 1, 0], none, 1⟩

theorem spinBasis_orthonormal : spinBasis.isOrthonormal := by
  ext i j
  fin_cases i <;> fin_cases j <;> norm_num [SiteBasis.prods, spinBasis, Fin.sum_univ_two]

theorem spinBasis_unit : UnitRow spinBasis := by
  intro z s hz
  obtain rfl : z = 0 := Fin.ext hz
  fin_cases s <;> simp [spinBasis]

theorem indicatorBasis_unit : UnitRow indicatorBasis := by
  intro z s hz
  obtain rfl : z = 0 := Fin.ext hz
  fin_cases s <;> simp [indicatorBasis]

/-- the indicator basis that the code constructs -/
theorem indicatorBasis_init : SiteBasis.init .indicator (fun _ : Fin 2 => (1 / 2 : ℝ)) = some indicatorBasis := by
  have h : funRows .indicator 2 = some [[1, 1], [1, 0]] := by
    simp [funRows, siteFn, List.range_succ]
  unfold SiteBasis.init
  rw [h, Option.map_some]
  congr 2
  ext i j
  fin_cases i <;> fin_cases j <;> rfl

/-- points and nearest neighbour pairs on a ring -/
def chainSpace : OrbitSpace :=
  OrbitSpace.assigned [(1, [⟨0, 1, [(0, 1)], 0, 0⟩]), (2, [⟨1, 1, [(0, 1)], 0, 0⟩])]

noncomputable def chainGeom (B : SiteBasis 2) (points pairs : ClusterRows) (t : ℕ) : OrbitGeom ℝ :=
  if t = 0 then ⟨fun _ => siteFunction B, [2], bitCombos [[0]] [[0]], points⟩
  else ⟨fun _ => siteFunction B, [2, 2], bitCombos [[0], [0]] [[0, 1], [1, 0]], pairs⟩

theorem chainSpace_orbits : chainSpace.orbits = [⟨0, 1, [(0, 1)], 1, 1⟩, ⟨1, 1, [(0, 1)], 2, 2⟩] := by
  decide

theorem chainSpace_reachable : chainSpace.Reachable := ⟨_, [], by decide, rfl⟩

theorem chain_fits (B : SiteBasis 2) (points pairs : ClusterRows) :
    chainSpace.FitsGeom (chainGeom B points pairs) := by
  have h1 : bitCombos [[0]] [[0]] = [[[0]]] := by decide
  have h2 : bitCombos [[0], [0]] [[0, 1], [1, 0]] = [[[0, 0]]] := by decide
  constructor <;> rw [chainSpace_orbits] <;> simp [chainGeom, h1, h2]

theorem chain_cell (B : SiteBasis 2) (n : ℕ) (points pairs : ClusterRows)
    (h1 : points.length = n) (h2 : pairs.length = n)
    (h3 : ∀ r ∈ points, r.Nodup ∧ r.length = 1 ∧ ∀ i ∈ r, i < n)
    (h4 : ∀ r ∈ pairs, r.Nodup ∧ r.length = 2 ∧ ∀ i ∈ r, i < n) :
    CellOf chainSpace (chainGeom B points pairs) n (fun _ => 2) (fun _ => B) n := by
  have hs : ∀ (sh r : List ℕ), (∀ d ∈ sh, d = 2) → r.length = sh.length → ∀ (k i : ℕ),
      r[k]? = some i → sh[k]? = some 2 := by
    intro sh r hsh hl k i hk
    have hk' := (List.getElem?_eq_some_iff.1 hk).1
    have : k < sh.length := by omega
    rw [List.getElem?_eq_getElem this, hsh _ (List.getElem_mem this)]
  have g1 : PermGroup 1 [[0]] := ⟨by decide, by decide, by decide, by decide⟩
  have g2 : PermGroup 2 [[0, 1], [1, 0]] := ⟨by decide, by decide, by decide, by decide⟩
  constructor <;> rw [chainSpace_orbits] <;>
    simp only [List.mem_cons, List.not_mem_nil, or_false, forall_eq_or_imp, forall_eq]
  · refine ⟨⟨[[0]], g1, ?_, rfl⟩, ⟨[[0, 1], [1, 0]], g2, ?_, rfl⟩⟩
    · intro p hp i j hij
      simp only [List.mem_cons, List.not_mem_nil, or_false] at hp
      subst hp
      match i, j, hij with
      | 0, 0, _ => rfl
    · intro p hp i j hij
      simp only [List.mem_cons, List.not_mem_nil, or_false] at hp
      rcases hp with rfl | rfl
      · match i, j, hij with
        | 0, 0, _ => rfl
        | 1, 1, _ => rfl
      · match i, j, hij with
        | 0, 1, _ => rfl
        | 1, 0, _ => rfl
  · simp
  · exact ⟨fun r hr => (h3 r hr).1, fun r hr => (h4 r hr).1⟩
  · exact ⟨fun r hr => (h3 r hr).2.1, fun r hr => (h4 r hr).2.1⟩
  · exact ⟨fun r hr k i hk => ⟨(h3 r hr).2.2 i (List.mem_of_getElem? hk),
        hs [2] r (by simp) (h3 r hr).2.1 k i hk, rfl⟩,
      fun r hr k i hk => ⟨(h4 r hr).2.2 i (List.mem_of_getElem? hk),
        hs [2, 2] r (by simp) (h4 r hr).2.1 k i hk, rfl⟩⟩
  · simp [chainGeom, h1, h2]

/-- a ring of three cells, on which the clusters have different sites -/
theorem ring_three : RandomCell chainSpace
    (chainGeom spinBasis [[0], [1], [2]] [[0, 1], [1, 2], [2, 0]]) 3 (fun _ => 2)
    (fun _ => spinBasis) 3 where
  toCellOf := chain_cell _ 3 _ _ rfl rfl (by decide) (by decide)
  distinct := by
    rw [chainSpace_orbits]
    show List.Pairwise _ [[0], [1], [2], [0, 1], [1, 2], [2, 0]]
    have key : ∀ r r' : List ℕ, (∀ i, i ∈ r ↔ i ∈ r') ↔ (∀ i ∈ r, i ∈ r') ∧ ∀ i ∈ r', i ∈ r :=
      fun r r' => ⟨fun h => ⟨fun i hi => (h i).1 hi, fun i hi => (h i).2 hi⟩,
        fun h i => ⟨h.1 i, h.2 i⟩⟩
    simp only [key]
    decide

/-- An expansion on it: the printed variance is 2²·1 + 3²·1, the weights are 5², 2², 3². -/
example : let E : Expansion ℝ := ⟨chainSpace, 0, [5, 2, 3]⟩
    E.space.Reachable ∧ E.coefs.length = E.numTerms ∧
    E.space.FitsGeom (chainGeom spinBasis [[0], [1], [2]] [[0, 1], [1, 2], [2, 0]]) ∧
    (∀ i < 3, ((fun _ => spinBasis : ℕ → SiteBasis 2) i).isOrthonormal ∧ UnitRow spinBasis) ∧
    E.fitMean = some 5 ∧ E.fitVar = some 13 ∧ E.clusterWeights = some [25, 4, 9] := by
  intro E
  have ht : E.space.totalMults = [1, 1, 1] := by decide
  have hE : E.eci = some [5, 2, 3] := by
    unfold Expansion.eci
    rw [ht]
    simp [arrDiv, dropExt, E]
  refine ⟨chainSpace_reachable, by decide, chain_fits _ _ _,
    fun _ _ => ⟨spinBasis_orthonormal, spinBasis_unit⟩, ?_, ?_, ?_⟩
  · unfold Expansion.fitMean; rw [hE]; rfl
  · unfold Expansion.fitVar; rw [hE, ht]; norm_num
  · have h1 : E.space.functionOrbitIds = [0, 1, 2] := by decide
    have h2 : E.space.orderingMults = [1, 1, 1] := by decide
    have h3 : E.space.orbits.length = 2 := by decide
    unfold Expansion.clusterWeights
    rw [hE, h1, h2, h3]
    norm_num [maskEq, List.range_succ]

theorem siteFunction_rowAt (B : SiteBasis 2) (c : ℕ) (hc : c < 2) :
    siteFunction B 0 c = rowAt B 1 c := (rowAt_succ B 0 c (by omega) hc).symm

/-- **C77 fails** for a supercell in which clusters coincide: on a ring of two cells the two pairs are
on the same two sites, and the variance of the property is not the printed one times the size. -/
theorem C77_aliased_fails : ∃ (E : Expansion ℝ) (geom : ℕ → OrbitGeom ℝ) (X : Occ → ℝ) (var : ℝ),
    E.space.Reachable ∧ E.coefs.length = E.numTerms ∧ E.space.FitsGeom geom ∧
    CellOf E.space geom 2 (fun _ => 2) (fun _ => spinBasis) 2 ∧ E.fitVar = some var ∧
    (∀ occ, (∀ i < 2, occ i < 2) →
      (ceProcessor E.space geom 2).property (dropExt E.nExt E.coefs) occ = some (X occ)) ∧
    varianceOver 2 (fun _ => 2) (fun _ => concentration spinBasis) X ≠ 2 * var := by
  set E : Expansion ℝ := ⟨chainSpace, 0, [0, 0, 1]⟩ with hEdef
  set geom := chainGeom spinBasis [[0], [1]] [[0, 1], [1, 0]] with hgeom
  have hcell : CellOf E.space geom 2 (fun _ => 2) (fun _ => spinBasis) 2 :=
    chain_cell _ 2 _ _ rfl rfl (by decide) (by decide)
  have hlegal : ∀ occ : Occ, (∀ i < 2, occ i < 2) → E.space.Legal geom occ := by
    intro occ hocc o ho
    rw [show E.space.orbits = _ from chainSpace_orbits] at ho
    have h0 := hocc 0 (by omega)
    have h1 := hocc 1 (by omega)
    simp only [List.mem_cons, List.not_mem_nil, or_false] at ho
    rcases ho with rfl | rfl <;> simp [hgeom, chainGeom, h0, h1]
  have ht : E.space.totalMults = [1, 1, 1] := by decide
  have hE : E.eci = some [0, 0, 1] := by
    unfold Expansion.eci
    rw [ht]
    simp [arrDiv, dropExt, E]
  have hlen : E.coefs.length = E.numTerms := by decide
  refine ⟨E, geom, fun occ => expansionEnergy 2 (E.coefs.getD 0 0) (E.terms geom) occ, 1,
    chainSpace_reachable, hlen, chain_fits _ _ _, hcell, ?_, ?_, ?_⟩
  · unfold Expansion.fitVar; rw [hE, ht]; norm_num
  · intro occ hocc
    exact C47_expansion_energy E chainSpace_reachable hlen geom (chain_fits _ _ _) 2 occ
      (hlegal occ hocc)
  · have hc1 : bitCombos [[0]] [[0]] = [[[0]]] := by decide
    have hc2 : bitCombos [[0], [0]] [[0, 1], [1, 0]] = [[[0, 0]]] := by decide
    have hX : ∀ occ : Occ, (∀ i < 2, occ i < 2) →
        expansionEnergy 2 (E.coefs.getD 0 0) (E.terms geom) occ =
        2 * labelProd 2 (fun _ => spinBasis) (fun _ => 1) occ := by
      intro occ hocc
      have h0 := hocc 0 (by omega)
      have h1 := hocc 1 (by omega)
      unfold expansionEnergy Expansion.terms
      rw [show E.space.orbits = _ from chainSpace_orbits]
      simp only [hEdef, hgeom, chainGeom, clusterAverage, correlation, clusterFunction, labelProd,
        Fin.prod_univ_two, hc1, hc2, List.map_cons, List.map_nil, List.zipIdx_cons, List.zipIdx_nil,
        List.getD_cons_zero, List.getD_cons_succ, List.sum_cons, List.sum_nil, if_true,
        Nat.one_ne_zero, if_false, List.length_cons, List.length_nil]
      rw [siteFunction_rowAt _ _ h0, siteFunction_rowAt _ _ h1]
      push_cast
      simp
      ring
    have hon : ∀ i < 2, ((fun _ => spinBasis : ℕ → SiteBasis 2) i).isOrthonormal :=
      fun _ _ => spinBasis_orthonormal
    have hone : ∀ i < 2, UnitRow ((fun _ => spinBasis : ℕ → SiteBasis 2) i) :=
      fun _ _ => spinBasis_unit
    have hm : meanOver 2 (fun _ => 2) (fun _ => concentration spinBasis)
        (fun occ => expansionEnergy 2 (E.coefs.getD 0 0) (E.terms geom) occ) = 0 := by
      rw [meanOver_congr hX, meanOver_smul]
      have := mean_labelProd (n := 2) (q := fun _ => 2) (B := fun _ => spinBasis) hon hone
        (fun _ _ => by norm_num) (fun _ => 1) (fun _ _ => by norm_num)
      rw [if_neg (fun h => absurd (h 0 (by omega)) (by omega))] at this
      rw [this, mul_zero]
    unfold varianceOver
    rw [hm]
    have hsq : ∀ occ : Occ, (∀ i < 2, occ i < 2) →
        (expansionEnergy 2 (E.coefs.getD 0 0) (E.terms geom) occ - 0) ^ 2 =
        4 * (labelProd 2 (fun _ => spinBasis) (fun _ => 1) occ *
          labelProd 2 (q := fun _ => 2) (fun _ => spinBasis) (fun _ => 1) occ) := by
      intro occ hocc
      rw [hX occ hocc]
      ring
    rw [meanOver_congr hsq, meanOver_smul, mean_labelProd_mul hon _ _ (fun _ _ => by norm_num)
      (fun _ _ => by norm_num), if_pos (fun _ _ => rfl)]
    norm_num

/-- points only -/
def pointSpace : OrbitSpace := OrbitSpace.assigned [(1, [⟨0, 1, [(0, 1)], 0, 0⟩])]

theorem pointSpace_orbits : pointSpace.orbits = [⟨0, 1, [(0, 1)], 1, 1⟩] := by decide

/-- **C77 fails** for bases that are not orthonormal, such as the indicator basis (the default):
neither the mean nor the variance is the printed one. -/
theorem C77_indicator_fails : ∃ (E : Expansion ℝ) (geom : ℕ → OrbitGeom ℝ) (B : SiteBasis 2)
    (X : Occ → ℝ) (mean var : ℝ), SiteBasis.init .indicator (fun _ : Fin 2 => 1 / 2) = some B ∧
    E.space.Reachable ∧ E.coefs.length = E.numTerms ∧ E.space.FitsGeom geom ∧
    RandomCell E.space geom 1 (fun _ => 2) (fun _ => B) 1 ∧ UnitRow B ∧
    E.fitMean = some mean ∧ E.fitVar = some var ∧
    (∀ occ, (∀ i < 1, occ i < 2) →
      (ceProcessor E.space geom 1).property (dropExt E.nExt E.coefs) occ = some (X occ)) ∧
    meanOver 1 (fun _ => 2) (fun _ => concentration B) X ≠ 1 * mean ∧
    varianceOver 1 (fun _ => 2) (fun _ => concentration B) X ≠ 1 * var := by
  set E : Expansion ℝ := ⟨pointSpace, 0, [0, 1]⟩ with hEdef
  set geom := chainGeom indicatorBasis [[0]] [] with hgeom
  have hR : E.space.Reachable := ⟨_, [], by decide, rfl⟩
  have hc1 : bitCombos [[0]] [[0]] = [[[0]]] := by decide
  have hfit : E.space.FitsGeom geom := by
    constructor <;> rw [show E.space.orbits = _ from pointSpace_orbits] <;>
      simp [hgeom, chainGeom, hc1]
  have g1 : PermGroup 1 [[0]] := ⟨by decide, by decide, by decide, by decide⟩
  have hcell : RandomCell E.space geom 1 (fun _ => 2) (fun _ => indicatorBasis) 1 := by
    refine ⟨?_, ?_⟩
    · constructor <;> rw [show E.space.orbits = _ from pointSpace_orbits] <;>
        simp only [List.mem_cons, List.not_mem_nil, or_false, forall_eq]
      · refine ⟨[[0]], g1, ?_, rfl⟩
        intro p hp i j hij
        simp only [List.mem_cons, List.not_mem_nil, or_false] at hp
        subst hp
        match i, j, hij with
        | 0, 0, _ => rfl
      · simp
      · simp [hgeom, chainGeom]
      · simp [hgeom, chainGeom]
      · intro row hrow k i hk
        have : row = [0] := by simpa [hgeom, chainGeom] using hrow
        subst this
        match k, i, hk with
        | 0, 0, _ => exact ⟨by omega, rfl, rfl⟩
      · simp [hgeom, chainGeom]
    · rw [show E.space.orbits = _ from pointSpace_orbits]
      simp [hgeom, chainGeom]
  have ht : E.space.totalMults = [1, 1] := by decide
  have hE : E.eci = some [0, 1] := by
    unfold Expansion.eci
    rw [ht]
    simp [arrDiv, dropExt, E]
  have hlen : E.coefs.length = E.numTerms := by decide
  have hlegal : ∀ occ : Occ, (∀ i < 1, occ i < 2) → E.space.Legal geom occ := by
    intro occ hocc
    have h0 := hocc 0 (by omega)
    unfold OrbitSpace.Legal
    rw [show E.space.orbits = _ from pointSpace_orbits]
    simp [hgeom, chainGeom, h0]
  set X : Occ → ℝ := fun occ => expansionEnergy 1 (E.coefs.getD 0 0) (E.terms geom) occ with hXdef
  have hX : ∀ occ : Occ, X occ = ∏ i : Fin 1, siteFunction indicatorBasis 0 (occ i) := by
    intro occ
    rw [hXdef]
    unfold expansionEnergy Expansion.terms
    rw [show E.space.orbits = _ from pointSpace_orbits]
    simp [hEdef, hgeom, chainGeom, clusterAverage, correlation, clusterFunction, hc1]
  have hv0 : siteFunction indicatorBasis 0 0 = 1 := by
    rw [siteFunction_eq _ _ _ (by omega) (by omega)]; simp [indicatorBasis]
  have hv1 : siteFunction indicatorBasis 0 1 = 0 := by
    rw [siteFunction_eq _ _ _ (by omega) (by omega)]; simp [indicatorBasis]
  have hp0 : concentration indicatorBasis 0 = 1 / 2 := by simp [concentration, indicatorBasis]
  have hp1 : concentration indicatorBasis 1 = 1 / 2 := by simp [concentration, indicatorBasis]
  have hm : meanOver 1 (fun _ => 2) (fun _ => concentration indicatorBasis) X = 1 / 2 := by
    rw [meanOver_congr fun occ _ => hX occ,
      meanOver_prod (q := fun _ => 2) (mu := fun _ => concentration indicatorBasis)
        fun _ => siteFunction indicatorBasis 0]
    simp [Finset.sum_range_succ, hv0, hv1, hp0]
  have hvar : varianceOver 1 (fun _ => 2) (fun _ => concentration indicatorBasis) X = 1 / 4 := by
    unfold varianceOver
    rw [hm]
    have : ∀ occ : Occ, (∀ i < 1, occ i < 2) → (X occ - 1 / 2) ^ 2 = ∏ i : Fin 1,
        (siteFunction indicatorBasis 0 (occ i) - 1 / 2) ^ 2 := by
      intro occ _
      rw [hX]
      simp
    rw [meanOver_congr this,
      meanOver_prod (q := fun _ => 2) (mu := fun _ => concentration indicatorBasis)
        fun _ c => (siteFunction indicatorBasis 0 c - 1 / 2) ^ 2]
    norm_num [Finset.sum_range_succ, hv0, hv1, hp0, hp1]
  refine ⟨E, geom, indicatorBasis, X, 0, 1, indicatorBasis_init, hR, hlen, hfit, hcell,
    indicatorBasis_unit, ?_, ?_, ?_, ?_, ?_⟩
  · unfold Expansion.fitMean; rw [hE]; rfl
  · unfold Expansion.fitVar; rw [hE, ht]; norm_num
  · intro occ hocc
    exact C47_expansion_energy E hR hlen geom hfit 1 occ (hlegal occ hocc)
  · rw [hm]; norm_num
  · rw [hvar]; norm_num

end Smol
