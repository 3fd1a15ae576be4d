import Verif.Lemmas.Variance
import Verif.Props.Decomposition

namespace Smol
open Spec

/-- The orbits of a subspace in a supercell with `n` sites, site `i` having `q i` species and the
basis `B i`: the classes of functions are those of a group of permutations of the cluster (no class
twice), the rows of the index arrays name different sites with the numbers of species and bases the
orbit has, and there are as many as the multiplicity times the number of cells. -/
structure CellOf (S : OrbitSpace) (geom : ℕ → OrbitGeom ℝ) (n : ℕ) (q : ℕ → ℕ)
    (B : ∀ i, SiteBasis (q i)) (size : ℕ) : Prop where
  classes : ∀ o ∈ S.orbits, ∃ perms, PermGroup (geom o.tag).shape.length perms ∧
    Respects perms (geom o.tag).shape ∧
    (geom o.tag).classes = bitCombos ((geom o.tag).shape.map fun d => List.range (d - 1)) perms
  labels : ∀ o ∈ S.orbits, (o.combos.map Prod.fst).Nodup
  nodup : ∀ o ∈ S.orbits, ∀ row ∈ (geom o.tag).rows, row.Nodup
  length : ∀ o ∈ S.orbits, ∀ row ∈ (geom o.tag).rows, row.length = (geom o.tag).shape.length
  sites : ∀ o ∈ S.orbits, ∀ row ∈ (geom o.tag).rows, ∀ (k i : ℕ), row[k]? = some i →
    i < n ∧ (geom o.tag).shape[k]? = some (q i) ∧ (geom o.tag).phi k = siteFunction (B i)
  count : ∀ o ∈ S.orbits, (geom o.tag).rows.length = o.mult * size

/-- Besides, no two clusters have the same sites. -/
structure RandomCell (S : OrbitSpace) (geom : ℕ → OrbitGeom ℝ) (n : ℕ) (q : ℕ → ℕ)
    (B : ∀ i, SiteBasis (q i)) (size : ℕ) : Prop extends CellOf S geom n q B size where
  distinct : (S.orbits.flatMap fun o => (geom o.tag).rows).Pairwise
    fun r r' => ¬ ∀ i, i ∈ r ↔ i ∈ r'

/-- labels of the sites `0 … n-1` -/
def siteLabels (n : ℕ) (r b : List ℕ) : Fin n → ℕ := fun i => labelOf r b i

theorem siteLabels_sets {n : ℕ} {r r' b b' : List ℕ} (hr : ∀ i ∈ r, i < n) (hr' : ∀ i ∈ r', i < n)
    (h : siteLabels n r b = siteLabels n r' b') (i : ℕ) : i ∈ r ↔ i ∈ r' := by
  by_cases hi : i < n
  · have := congrFun h ⟨i, hi⟩
    simp only [siteLabels, labelOf] at this
    by_cases h1 : i ∈ r <;> by_cases h2 : i ∈ r' <;> simp_all
  · exact ⟨fun h1 => absurd (hr i h1) hi, fun h1 => absurd (hr' i h1) hi⟩

theorem siteLabels_inj {n : ℕ} {r b b' : List ℕ} (hr : ∀ i ∈ r, i < n) (hnd : r.Nodup)
    (hb : b.length = r.length) (hb' : b'.length = r.length)
    (h : siteLabels n r b = siteLabels n r b') : b = b' := by
  apply List.ext_getElem (by omega)
  intro k h1 h2
  have hk : k < r.length := by omega
  have := congrFun h ⟨r[k], hr _ (List.getElem_mem hk)⟩
  simp only [siteLabels, labelOf, List.getElem_mem, if_true, hnd.idxOf_getElem,
    List.getD_eq_getElem?_getD, List.getElem?_eq_getElem h1, List.getElem?_eq_getElem h2,
    Option.getD_some] at this
  omega

/-- the products of site functions in `coef` times a correlation function -/
def funTerms {α : Type*} (w : α) (rows : ClusterRows) (cl : List (List ℕ)) :
    List (α × List ℕ × List ℕ) :=
  rows.flatMap fun r => cl.map fun b => (w, r, b)

namespace RandomCell
variable {S : OrbitSpace} {geom : ℕ → OrbitGeom ℝ} {n : ℕ} {q : ℕ → ℕ} {B : ∀ i, SiteBasis (q i)}
  {size : ℕ}

theorem lt (H : RandomCell S geom n q B size) {o : Orb} (ho : o ∈ S.orbits) {row : List ℕ}
    (hrow : row ∈ (geom o.tag).rows) : ∀ i ∈ row, i < n := by
  intro i hi
  obtain ⟨k, hk, rfl⟩ := List.getElem_of_mem hi
  exact (H.sites o ho row hrow k _ (List.getElem?_eq_getElem hk)).1

theorem classOf' (H : RandomCell S geom n q B size) (F : S.FitsGeom geom) {o : Orb}
    (ho : o ∈ S.orbits) {c : ℕ × ℕ} (hc : c ∈ o.combos) :
    (geom o.tag).classes.getD c.1 [] ∈ (geom o.tag).classes ∧
    ((geom o.tag).classes.getD c.1 []).length = c.2 ∧
    (geom o.tag).classes.getD c.1 [] ≠ [] ∧
    ((geom o.tag).classes.getD c.1 []).Nodup ∧
    ∀ b ∈ (geom o.tag).classes.getD c.1 [], b.length = (geom o.tag).shape.length ∧
      ∀ (k d j : ℕ), b[k]? = some j → (geom o.tag).shape[k]? = some d → j + 1 < d := by
  obtain ⟨cl, h1, h2, h3, h4⟩ := F.label o ho c hc
  obtain ⟨perms, G, hR, hcl⟩ := H.classes o ho
  have hmem := List.mem_of_getElem? h1
  have G' : PermGroup ((geom o.tag).shape.map fun d => List.range (d - 1)).length perms := by
    rw [List.length_map]; exact G
  have hR' : Respects perms ((geom o.tag).shape.map fun d => List.range (d - 1)) := by
    intro p hp i j hij
    rw [List.getElem?_map, List.getElem?_map, hR p hp i j hij]
  obtain ⟨hne, -, hch, -⟩ := C45_partition _ perms G' hR'
  rw [List.getD_eq_getElem?_getD, h1, Option.getD_some]
  refine ⟨hmem, h2.symm, h3, (hne cl (hcl ▸ hmem)).2, ?_⟩
  intro b hb
  refine ⟨h4 b hb, ?_⟩
  intro k d j hk hd
  have hC := (hch b).1 ⟨cl, hcl ▸ hmem, hb⟩
  have hkb := (List.getElem?_eq_some_iff.1 hk)
  have hds := (List.getElem?_eq_some_iff.1 hd)
  obtain ⟨hk1, rfl⟩ := hkb
  obtain ⟨hd1, rfl⟩ := hds
  have := (List.forall₂_iff_get.1 hC).2 k hk1 (by simpa using hd1)
  simp only [List.get_eq_getElem, List.getElem_map, List.mem_range] at this
  omega

theorem class_disjoint (H : RandomCell S geom n q B size) (F : S.FitsGeom geom) {o : Orb}
    (ho : o ∈ S.orbits) {c c' : ℕ × ℕ} (hc : c ∈ o.combos) (hc' : c' ∈ o.combos) (hne : c.1 ≠ c'.1)
    {b : List ℕ} (hb : b ∈ (geom o.tag).classes.getD c.1 [])
    (hb' : b ∈ (geom o.tag).classes.getD c'.1 []) : False := by
  obtain ⟨cl, h1, -⟩ := F.label o ho c hc
  obtain ⟨cl', h1', -⟩ := F.label o ho c' hc'
  obtain ⟨perms, G, hR, hcl⟩ := H.classes o ho
  have G' : PermGroup ((geom o.tag).shape.map fun d => List.range (d - 1)).length perms := by
    rw [List.length_map]; exact G
  have hR' : Respects perms ((geom o.tag).shape.map fun d => List.range (d - 1)) := by
    intro p hp i j hij
    rw [List.getElem?_map, List.getElem?_map, hR p hp i j hij]
  obtain ⟨-, hdis, -⟩ := C45_partition _ perms G' hR'
  rw [List.getD_eq_getElem?_getD, h1, Option.getD_some] at hb
  rw [List.getD_eq_getElem?_getD, h1', Option.getD_some] at hb'
  rw [hcl] at h1 h1'
  obtain ⟨i1, rfl⟩ := List.getElem?_eq_some_iff.1 h1
  obtain ⟨i1', rfl⟩ := List.getElem?_eq_some_iff.1 h1'
  rw [List.pairwise_iff_getElem] at hdis
  rcases Nat.lt_or_gt_of_ne hne with h | h
  · exact hdis _ _ i1 i1' h b hb hb'
  · exact hdis _ _ i1' i1 h b hb' hb

/-- rows of one orbit with the same sites are the same -/
theorem row_eq (H : RandomCell S geom n q B size) {o : Orb} (ho : o ∈ S.orbits) {r r' : List ℕ}
    (hr : r ∈ (geom o.tag).rows) (hr' : r' ∈ (geom o.tag).rows) (h : ∀ i, i ∈ r ↔ i ∈ r') :
    r = r' := by
  have hp := (List.pairwise_flatMap.1 H.distinct).1 o ho
  by_contra hne
  have : Std.Symm fun r r' : List ℕ => ¬ ∀ i, i ∈ r ↔ i ∈ r' :=
    ⟨fun x y h h' => h fun i => (h' i).symm⟩
  exact hp.forall hr hr' hne h

/-- no product of site functions occurs twice -/
theorem nodup_terms (H : RandomCell S geom n q B size) (F : S.FitsGeom geom) {α : Type*}
    (w : Orb → (ℕ × ℕ) × ℕ → α) :
    ((S.orbits.flatMap fun o => o.combos.zipIdx.flatMap fun p =>
      funTerms (w o p) (geom o.tag).rows ((geom o.tag).classes.getD p.1.1 [])).map
        fun a => siteLabels n a.2.1 a.2.2).Nodup := by
  have hmemz : ∀ {o : Orb} {p : (ℕ × ℕ) × ℕ}, p ∈ o.combos.zipIdx → p.1 ∈ o.combos := by
    intro o p hp
    exact List.fst_mem_of_mem_zipIdx hp
  rw [List.map_flatMap, List.nodup_flatMap]
  refine ⟨fun o ho => ?_, ?_⟩
  · rw [List.map_flatMap, List.nodup_flatMap]
    refine ⟨fun p hp => ?_, ?_⟩
    · obtain ⟨-, -, -, hnd, hb⟩ := H.classOf' F ho (hmemz hp)
      rw [funTerms, List.map_flatMap, List.nodup_flatMap]
      refine ⟨fun r hr => ?_, ?_⟩
      · rw [List.map_map]
        refine List.Nodup.map_on ?_ hnd
        intro b h1 b' h2 he
        exact siteLabels_inj (H.lt ho hr) (H.nodup o ho r hr)
          (by rw [(hb b h1).1, H.length o ho r hr]) (by rw [(hb b' h2).1, H.length o ho r hr]) he
      · refine (List.Pairwise.imp_of_mem ?_ ((List.pairwise_flatMap.1 H.distinct).1 o ho))
        intro r r' hr hr' hne x hx hx'
        simp only [List.map_map, List.mem_map, Function.comp_apply] at hx hx'
        obtain ⟨b, -, rfl⟩ := hx
        obtain ⟨b', -, he⟩ := hx'
        exact hne (siteLabels_sets (H.lt ho hr) (H.lt ho hr') he.symm)
    · have hl : (o.combos.zipIdx.map fun p => p.1.1).Nodup := by
        have := H.labels o ho
        rwa [show (o.combos.zipIdx.map fun p => p.1.1) = o.combos.map Prod.fst by
          rw [show (fun p : (ℕ × ℕ) × ℕ => p.1.1) = Prod.fst ∘ Prod.fst from rfl, ← List.map_map,
            List.zipIdx_map_fst]]
      rw [List.nodup_iff_pairwise_ne, List.pairwise_map] at hl
      refine List.Pairwise.imp_of_mem ?_ hl
      intro p p' hp hp' hne x hx hx'
      simp only [funTerms, List.map_flatMap, List.map_map, List.mem_flatMap, List.mem_map,
        Function.comp_apply] at hx hx'
      obtain ⟨r, hr, b, hb, rfl⟩ := hx
      obtain ⟨r', hr', b', hb', he⟩ := hx'
      obtain rfl := H.row_eq ho hr hr' (siteLabels_sets (H.lt ho hr) (H.lt ho hr') he.symm)
      obtain ⟨-, -, -, -, h1⟩ := H.classOf' F ho (hmemz hp)
      obtain ⟨-, -, -, -, h2⟩ := H.classOf' F ho (hmemz hp')
      obtain rfl := siteLabels_inj (H.lt ho hr) (H.nodup o ho r hr)
          (by rw [(h1 b hb).1, H.length o ho r hr]) (by rw [(h2 b' hb').1, H.length o ho r hr]) he.symm
      exact H.class_disjoint F ho (hmemz hp) (hmemz hp') hne hb hb'
  · refine List.Pairwise.imp_of_mem ?_ (List.pairwise_flatMap.1 H.distinct).2
    intro o o' ho ho' hne x hx hx'
    simp only [funTerms, List.map_flatMap, List.map_map, List.mem_flatMap, List.mem_map,
      Function.comp_apply] at hx hx'
    obtain ⟨p, hp, r, hr, b, hb, rfl⟩ := hx
    obtain ⟨p', hp', r', hr', b', hb', he⟩ := hx'
    exact hne r hr r' hr' (siteLabels_sets (H.lt ho hr) (H.lt ho' hr') he.symm)

end RandomCell

end Smol
