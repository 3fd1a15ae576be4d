import Verif.Lemmas.VarianceSum
import Verif.Lemmas.VarianceWeights

namespace Smol
open Spec

/-- the feature of a function -/
theorem ce_feature {K : Type*} [Field K] {S : OrbitSpace} (hS : S.Ok) (geom : ℕ → OrbitGeom K)
    (F : S.FitsGeom geom) (size : ℕ) {occ : Occ} (hocc : S.Legal geom occ) {o : Orb}
    (ho : o ∈ S.orbits) {k : ℕ} {c : ℕ × ℕ} (hc : o.combos[k]? = some c) :
    (ceProcessor S geom size).featureVector occ (o.bitId + k) =
      clusterAverage (fun row => correlation (geom o.tag).phi ((geom o.tag).classes.getD c.1 [])
        (row.map occ)) (geom o.tag).rows * size := by
  obtain ⟨hk', rfl⟩ := List.getElem?_eq_some_iff.1 hc
  have hwf := ceProcessor_wellFormed hS geom size
  have hkl : k < (o.kept (geom o.tag)).length := by simpa [Orb.kept] using hk'
  have hmem : (o.data (geom o.tag), (geom o.tag).rows) ∈ (ceProcessor S geom size).orbits :=
    List.mem_map.2 ⟨o, ho, rfl⟩
  have := C46_correlation_vector _ hwf o.id o.bitId (geom o.tag).phi (geom o.tag).shape
    (o.kept (geom o.tag)) (geom o.tag).rows hmem (F.shape o ho) (by
      intro cl hcl b hb
      obtain ⟨c, hc, rfl⟩ := List.mem_map.1 hcl
      obtain ⟨cl, h1, -, -, h2⟩ := F.label o ho c hc
      rw [List.getD_eq_getElem?_getD, h1] at hb
      exact h2 b hb) occ (hocc o ho) k hkl
  rw [this]
  congr 2
  funext row
  congr 1
  simp [Orb.kept]

namespace RandomCell
variable {S : OrbitSpace} {geom : ℕ → OrbitGeom ℝ} {n : ℕ} {q : ℕ → ℕ} {B : ∀ i, SiteBasis (q i)}
  {size : ℕ}

/-- the products of site functions in the share of an orbit -/
noncomputable def orbitTerms (geom : ℕ → OrbitGeom ℝ) (g : ℕ → ℝ) (o : Orb) :
    List (ℝ × List ℕ × List ℕ) :=
  o.combos.zipIdx.flatMap fun p =>
    funTerms (g (o.bitId + p.2) / ((geom o.tag).rows.length * (p.1.2 : ℝ))) (geom o.tag).rows
      ((geom o.tag).classes.getD p.1.1 [])

theorem orbitTerms_good (H : RandomCell S geom n q B size) (F : S.FitsGeom geom)
    (hq : ∀ i < n, 0 < q i) (g : ℕ → ℝ) {o : Orb} (ho : o ∈ S.orbits) :
    ∀ a ∈ orbitTerms geom g o, GoodTerm n q a := by
  intro a ha
  obtain ⟨p, hp, ha⟩ := List.mem_flatMap.1 ha
  exact H.good F hq ho (List.fst_mem_of_mem_zipIdx hp) _ a ha

theorem orbitTerms_nodup (H : RandomCell S geom n q B size) (F : S.FitsGeom geom) (g : ℕ → ℝ) :
    ((S.orbits.flatMap (orbitTerms geom g)).map fun a => siteLabels n a.2.1 a.2.2).Nodup :=
  H.nodup_terms F fun o p => g (o.bitId + p.2) / ((geom o.tag).rows.length * (p.1.2 : ℝ))

theorem orbitTerms_value (H : RandomCell S geom n q B size) (F : S.FitsGeom geom)
    (hone : ∀ i < n, UnitRow (B i)) (g : ℕ → ℝ) {o : Orb} (ho : o ∈ S.orbits) {occ : Occ}
    (hocc : ∀ i < n, occ i < q i) :
    (o.combos.zipIdx.map fun p => g (o.bitId + p.2) * clusterAverage (fun row =>
      correlation (geom o.tag).phi ((geom o.tag).classes.getD p.1.1 []) (row.map occ))
      (geom o.tag).rows).sum = sumTerms n B (orbitTerms geom g o) occ := by
  unfold orbitTerms
  rw [sumTerms_flatMap]
  congr 1
  apply List.map_congr_left
  intro p hp
  exact H.average_eq F hone ho (List.fst_mem_of_mem_zipIdx hp) _ hocc

theorem orbitTerms_sq (H : RandomCell S geom n q B size) (F : S.FitsGeom geom) (hsize : 0 < size)
    (g : ℕ → ℝ) {o : Orb} (ho : o ∈ S.orbits) :
    (size : ℝ) ^ 2 * ((orbitTerms geom g o).map fun a => a.1 ^ 2).sum =
      ((List.range o.combos.length).map fun k => g (o.bitId + k) ^ 2 * (size /
        ((o.mult * (o.combos.getD k (0, 0)).2 : ℕ) : ℝ))).sum := by
  rw [← sum_zipIdx o.combos (0, 0) (fun c k => g (o.bitId + k) ^ 2 * (size /
        ((o.mult * c.2 : ℕ) : ℝ)))]
  unfold orbitTerms
  rw [sum_flatMap_mapR, ← List.sum_map_mul_left]
  congr 1
  apply List.map_congr_left
  intro p hp
  have hc := List.fst_mem_of_mem_zipIdx hp
  obtain ⟨-, hcl, hne, -⟩ := H.classOf' F ho hc
  rw [funTerms_sq, hcl, H.count o ho]
  have h1 : (o.mult : ℝ) ≠ 0 := by exact_mod_cast (F.mult o ho).ne'
  have h2 : (p.1.2 : ℝ) ≠ 0 := by
    have : p.1.2 ≠ 0 := by
      rw [← hcl]
      exact fun h => hne (List.eq_nil_of_length_eq_zero h)
    exact_mod_cast this
  have h3 : (size : ℝ) ≠ 0 := by exact_mod_cast hsize.ne'
  push_cast
  field_simp

/-- mean and variance of a linear combination of features -/
theorem features_mean_var (H : RandomCell S geom n q B size) (hS : S.Ok) (F : S.FitsGeom geom)
    (hon : ∀ i < n, (B i).isOrthonormal) (hone : ∀ i < n, UnitRow (B i)) (hq : ∀ i < n, 0 < q i)
    (hsize : 0 < size) (g : ℕ → ℝ) (X : Occ → ℝ)
    (hX : ∀ occ, (∀ i < n, occ i < q i) → X occ = ((List.range S.numCorr).map fun s =>
      g s * (ceProcessor S geom size).featureVector occ s).sum) :
    meanOver n q (fun i => concentration (B i)) X = size * g 0 ∧
    varianceOver n q (fun i => concentration (B i)) X = (S.orbits.map fun o =>
      ((List.range o.combos.length).map fun k => g (o.bitId + k) ^ 2 * (size /
        ((o.mult * (o.combos.getD k (0, 0)).2 : ℕ) : ℝ))).sum).sum := by
  have hgood : ∀ a ∈ S.orbits.flatMap (orbitTerms geom g), GoodTerm n q a := by
    intro a ha
    obtain ⟨o, ho, ha⟩ := List.mem_flatMap.1 ha
    exact H.orbitTerms_good F hq g ho a ha
  obtain ⟨h1, h2⟩ := mean_var_sumTerms hon hone hq _ hgood (H.orbitTerms_nodup F g) (g 0) size X (by
    intro occ hocc
    rw [hX occ hocc, sum_slots hS,
      (C02_feature_vector_value _ (ceProcessor_wellFormed hS geom size) occ).1, sumTerms_flatMap,
      mul_add, mul_comm (g 0)]
    congr 1
    rw [← List.sum_map_mul_left]
    congr 1
    apply List.map_congr_left
    intro o ho
    rw [← H.orbitTerms_value F hone g ho hocc, sum_zipIdx o.combos (0, 0) (fun c k =>
      g (o.bitId + k) * clusterAverage (fun row =>
      correlation (geom o.tag).phi ((geom o.tag).classes.getD c.1 []) (row.map occ))
      (geom o.tag).rows), ← List.sum_map_mul_left]
    congr 1
    apply List.map_congr_left
    intro k hk
    have hk' := List.mem_range.1 hk
    rw [ce_feature hS geom F size (H.legal hocc) ho (List.getElem?_eq_getElem hk')]
    have : o.combos.getD k (0, 0) = o.combos[k] := by simp [List.getD_eq_getElem?_getD, hk']
    rw [this]
    ring)
  refine ⟨h1, ?_⟩
  rw [h2, sum_flatMap_mapR, ← List.sum_map_mul_left]
  congr 1
  apply List.map_congr_left
  intro o ho
  exact H.orbitTerms_sq F hsize g ho

/-- the same for one orbit -/
theorem orbit_mean_var (H : RandomCell S geom n q B size) (F : S.FitsGeom geom)
    (hon : ∀ i < n, (B i).isOrthonormal) (hone : ∀ i < n, UnitRow (B i)) (hq : ∀ i < n, 0 < q i)
    (hsize : 0 < size) (g : ℕ → ℝ) {o : Orb} (ho : o ∈ S.orbits) (X : Occ → ℝ)
    (hX : ∀ occ, (∀ i < n, occ i < q i) → X occ = size * (o.combos.zipIdx.map fun p =>
      g (o.bitId + p.2) * clusterAverage (fun row =>
      correlation (geom o.tag).phi ((geom o.tag).classes.getD p.1.1 []) (row.map occ))
      (geom o.tag).rows).sum) :
    meanOver n q (fun i => concentration (B i)) X = 0 ∧
    varianceOver n q (fun i => concentration (B i)) X =
      ((List.range o.combos.length).map fun k => g (o.bitId + k) ^ 2 * (size /
        ((o.mult * (o.combos.getD k (0, 0)).2 : ℕ) : ℝ))).sum := by
  have hnd := H.orbitTerms_nodup F g
  rw [List.map_flatMap, List.nodup_flatMap] at hnd
  obtain ⟨h1, h2⟩ := mean_var_sumTerms hon hone hq _ (H.orbitTerms_good F hq g ho) (hnd.1 o ho) 0 size X (by
    intro occ hocc
    rw [hX occ hocc, H.orbitTerms_value F hone g ho hocc, zero_add])
  exact ⟨by rw [h1, mul_zero], by rw [h2, H.orbitTerms_sq F hsize g ho]⟩

end RandomCell

end Smol
