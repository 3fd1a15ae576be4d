import Verif.Lemmas.SupercellSymmetry
import Verif.Props.OrbitGen
import Verif.Props.Orbit

/-!
# C74 The index arrays of a supercell list its clusters; correlations have the symmetry of the crystal

Models: `Verif/Model/OrbitIndices.lean` (`_gen_orbit_indices` of smol/cofe/space/clusterspace.py),
`Verif/Model/OrbitGen.lean` (smol/cofe/space/orbit.py), `Verif/Model/Orbit.lean` (correlation
tensors), `Verif/Model/Evaluator.lean` (evaluator.pyx) and smol/moca/processor/expansion.py.
-/

namespace Smol
open Spec

variable {tol atol : ℚ} {prim : List Vec3} {M : Mat3} {ops : List (SymmOp 3 ℚ)}

/-- **C74.** The lattice points of a supercell represent each lattice vector exactly once, up to
lattice vectors of the supercell; there are as many as the determinant says. -/
theorem C74_lattice_points (hd : det3 M ≠ 0) (h0 : 0 ≤ tol) (ht : tol * |(det3 M : ℚ)| < 1) :
    (latticePoints tol M).length = (det3 M).natAbs ∧
    ∀ v : Fin 3 → ℤ, ∃! p, p ∈ latticePoints tol M ∧
      SameSite M (fun j => (v j : ℚ)) (superPoint M p) := by
  refine ⟨latticePoints_length hd h0 ht, fun v => ?_⟩
  simp only [sameSite_iff hd, fracOf_superPoint hd]
  exact latticePoints_repr hd h0 ht v

/-- **C74.** The sites of the supercell are the sites of the crystal, each once: there are as many
as sites in the cell times cells in the supercell, every site of the crystal is at exactly one of
them, which the search for its coordinates finds, and every one of them is a site of the crystal. -/
theorem C74_sites (F : SupercellFits tol atol prim M) :
    (supercellCoords tol prim M).length = prim.length * (det3 M).natAbs ∧
    (∀ i < (supercellCoords tol prim M).length, ∃ x, OfCell prim x ∧
      LocatedAt M (supercellCoords tol prim M) i x) ∧
    ∀ x, OfCell prim x → ∃! i, LocatedAt M (supercellCoords tol prim M) i x ∧
      siteAt atol (supercellCoords tol prim M) (fracOf M x) = some i := by
  refine ⟨?_, ?_, ?_⟩
  · unfold supercellCoords
    simp [List.length_flatMap, latticePoints_length F.det F.tol0 F.tolDet]
  · intro i hi
    exact ⟨_, ofCell_coords F (List.getElem_mem hi), _, List.getElem?_eq_getElem hi, SameSite.refl M _⟩
  · intro x hx
    obtain ⟨i, hi, hl⟩ := siteAt_located F hx
    exact ⟨i, ⟨hl, hi⟩, fun j hj => locatedAt_unique F hj.1 hl⟩

/-- **C74.** The index arrays exist and list the clusters of the orbits: the rows of each array are,
with their sites in order, images of the base cluster, every cluster of the crystal equivalent to it
is one row and only one up to lattice vectors of the supercell, and there are as many rows as the
multiplicity of the orbit times the cells of the supercell. -/
theorem C74_index_arrays (F : SupercellFits tol atol prim M) (G : SpaceGroup ops)
    (hops : ∀ g ∈ ops, ∀ x, OfCell prim x → OfCell prim (g.operate x)) {bases : List (List Vec3)}
    (hb : ∀ base ∈ bases, base ≠ [] ∧ base.Nodup ∧ ∀ x ∈ base, OfCell prim x)
    {orbits : List (List (List Vec3))}
    (ho : List.Forall₂ (fun base cl => orbitClusters ops base = .ok cl) bases orbits) :
    ∃ tables, genOrbitIndices tol atol prim orbits M = some tables ∧
      List.Forall₂ (ListsClusters ops M (supercellCoords tol prim M)) bases tables ∧
      List.Forall₂ (fun cl rows => rows.length = cl.length * (det3 M).natAbs) orbits tables := by
  have ho' : orbits = bases.map (orbitImages ops) := by
    clear F
    induction ho with
    | nil => rfl
    | cons h _ ih =>
      obtain ⟨h1, h2, -⟩ := hb _ List.mem_cons_self
      rw [orbitClusters_ok G h1 h2, Except.ok.injEq] at h
      rw [List.map_cons, h, ih fun base h => hb base (List.mem_cons_of_mem _ h)]
  subst ho'
  refine ⟨_, genOrbitIndices_eq F ?_, ?_, ?_⟩
  · intro o ho c hc x hx
    obtain ⟨base, hbase, rfl⟩ := List.mem_map.1 ho
    obtain ⟨f, ⟨g, hg, T, hT⟩, rfl⟩ := orbitImages_ordered G base c hc
    obtain ⟨y, hy, rfl⟩ := List.mem_map.1 hx
    rw [hT]
    exact (hops g hg y ((hb base hbase).2.2 y hy)).shift T
  · rw [List.map_map, List.forall₂_map_right_iff, List.forall₂_same]
    intro base hbase
    obtain ⟨h1, h2, h3⟩ := hb base hbase
    exact superImages_lists F G hops h1 h2 h3
  · rw [List.forall₂_map_right_iff, List.forall₂_same]
    intro o _
    unfold superImages
    simp [List.length_flatMap, latticePoints_length F.det F.tol0 F.tolDet]

/-- **C74.** An operation that keeps the crystal and the lattice of the supercell is carried out by a
renumbering of the sites of the supercell, which is a permutation of them. -/
theorem C74_site_permutation (F : SupercellFits tol atol prim M)
    (hops : ∀ g ∈ ops, ∀ x, OfCell prim x → OfCell prim (g.operate x)) {g : SymmOp 3 ℚ}
    (hg : g ∈ ops) (T : Fin 3 → ℤ) (hM : KeepsSupercell M fun x => shift T (g.operate x)) :
    ∃ π, CarriesOut M (supercellCoords tol prim M) (fun x => shift T (g.operate x)) π ∧
      Set.BijOn π {i | i < (supercellCoords tol prim M).length}
        {i | i < (supercellCoords tol prim M).length} := by
  set coords := supercellCoords tol prim M with hcoords
  have hlt : ∀ {i x}, LocatedAt M coords i x → i < coords.length := by
    rintro i x ⟨s, hs, -⟩
    exact (List.getElem?_eq_some_iff.1 hs).1
  have hc : CarriesOut M coords (fun x => shift T (g.operate x)) (fun i =>
      indexOf tol atol prim M (shift T (g.operate (superPoint M (coords.getD i 0))))) := by
    rintro i x ⟨s, hs, hx⟩
    obtain ⟨hi, rfl⟩ := List.getElem?_eq_some_iff.1 hs
    have h1 : OfCell prim (superPoint M coords[i]) := ofCell_coords F (List.getElem_mem hi)
    simp only
    rw [List.getD_eq_getElem?_getD, List.getElem?_eq_getElem hi, Option.getD_some]
    exact (indexOf_located F ((hops g hg _ h1).shift T)).same ((hM _ _).2 hx)
  refine ⟨_, hc, ?_⟩
  have hmaps : Set.MapsTo (fun i =>
      indexOf tol atol prim M (shift T (g.operate (superPoint M (coords.getD i 0)))))
      {i | i < coords.length} {i | i < coords.length} := fun i (hi : i < coords.length) =>
    hlt (hc i _ ⟨_, List.getElem?_eq_getElem hi, SameSite.refl M _⟩)
  have hinj : Set.InjOn (fun i =>
      indexOf tol atol prim M (shift T (g.operate (superPoint M (coords.getD i 0)))))
      {i | i < coords.length} := by
    intro i (hi : i < coords.length) j (hj : j < coords.length) hij
    have li : LocatedAt M coords i (superPoint M coords[i]) :=
      ⟨_, List.getElem?_eq_getElem hi, SameSite.refl M _⟩
    have lj : LocatedAt M coords j (superPoint M coords[j]) :=
      ⟨_, List.getElem?_eq_getElem hj, SameSite.refl M _⟩
    have h1 := hc i _ li
    have h2 := hc j _ lj
    simp only at h1 h2 hij
    rw [hij] at h1
    have := (hM _ _).1 (h1.sameSite h2)
    exact locatedAt_unique F li (lj.same this)
  exact ((Set.finite_lt_nat _).injOn_iff_bijOn_of_mapsTo hmaps).1 hinj

section correlations
variable {K : Type*} [Field K]

/-- **C74.** Correlation vectors have the symmetry of the crystal: for every operation and lattice
vector that keep the lattice of the supercell, and every legal occupancy, the processor computes the
same correlation vector for the occupancy and for its image. -/
theorem C74_correlations (F : SupercellFits tol atol prim M) (G : SpaceGroup ops) {kind : Vec3 → ℕ}
    (hk : KeepsKinds ops kind) (functions : ℕ → ℕ → ℕ → K) (species : ℕ → ℕ) (P : CEProcessor K)
    (hP : ∀ o ∈ P.orbits, ∃ id bitId base bits, base ≠ [] ∧ base.Nodup ∧
      bits.length = base.length ∧
      o.1 = orbitData id bitId (fun i => functions (kind (base.getD i 0)))
        (base.map fun x => species (kind x)) (bitCombos bits (clusterPermutations ops base)) ∧
      ListsClusters ops M (supercellCoords tol prim M) base o.2)
    {g : SymmOp 3 ℚ} (hg : g ∈ ops) (T : Fin 3 → ℤ)
    (hM : KeepsSupercell M fun x => shift T (g.operate x)) {π : ℕ → ℕ}
    (hπ : CarriesOut M (supercellCoords tol prim M) (fun x => shift T (g.operate x)) π) {occ : Occ}
    (hocc : LegalIn M (supercellCoords tol prim M) kind species occ) :
    P.featureVector (fun i => occ (π i)) = P.featureVector occ := by
  have hocc' : LegalIn M (supercellCoords tol prim M) kind species (occ ∘ π) := by
    intro i x h
    have := hocc _ _ (hπ i x h)
    rwa [hk.vec, hk.op g hg] at this
  have key : ∀ o ∈ P.orbits, corrWrites (occ ∘ π) o.1 o.2 = corrWrites occ o.1 o.2 := by
    rintro ⟨o, rows⟩ ho
    obtain ⟨id, bitId, base, bits, hne, hnd, hbits, rfl, hl⟩ := hP _ ho
    simp only at hl ⊢
    have PG := clusterPermutations_group G hne hnd
    have PG' : PermGroup bits.length (clusterPermutations ops base) := by rw [hbits]; exact PG
    obtain ⟨σ, hσ⟩ := rows_permuted F G hne hnd hl (f := fun x => shift T (g.operate x))
      ⟨g, hg, T, fun _ => rfl⟩ hM hπ
    set phi : ℕ → ℕ → ℕ → K := fun i => functions (kind (base.getD i 0)) with hphi
    have hsym : ∀ p ∈ clusterPermutations ops base, ∀ (i j : ℕ), p[i]? = some j → phi j = phi i := by
      intro p hp i j hij
      obtain ⟨a, ha, S, h⟩ := clusterPermutations_sites G hne hnd p hp
      obtain ⟨x, y, hx, hy, hxy⟩ := h i j hij
      simp only [hphi, List.getD_eq_getElem?_getD, hx, hy, Option.getD_some]
      rw [hxy, hk.vec, hk.op a ha]
    -- legal codes
    have hleg : ∀ {occ : Occ}, LegalIn M (supercellCoords tol prim M) kind species occ →
        ∀ row ∈ rows, List.Forall₂ (fun c d => c < d) (row.map occ)
          (base.map fun x => species (kind x)) := by
      intro occ hocc row hrow
      obtain ⟨imgs, h1, h2, -⟩ := hl
      obtain ⟨k, hkr, rfl⟩ := List.getElem_of_mem hrow
      have hki : k < imgs.length := by rw [h1.length_eq]; exact hkr
      have h3 := (List.forall₂_iff_get.1 h1).2 k hki hkr
      obtain ⟨a, ha, S, he⟩ := h2 _ (List.getElem_mem hki)
      simp only [List.get_eq_getElem] at h3
      rw [he] at h3
      rw [List.forall₂_map_left_iff, List.forall₂_map_right_iff]
      rw [List.forall₂_map_left_iff] at h3
      refine (h3.imp ?_).flip
      intro x i hx
      have := hocc _ _ hx
      rwa [hk.vec, hk.op a ha] at this
    have hcl : ∀ cl ∈ bitCombos bits (clusterPermutations ops base), ∀ b ∈ cl,
        b.length = (base.map fun x => species (kind x)).length := by
      intro cl hcl b hb
      rw [List.length_map, ← hbits]
      obtain ⟨c, hc, rfl⟩ := (bitCombos_inv PG').cls cl hcl
      obtain ⟨q, hq, rfl⟩ := (mem_classOf _ _ _).1 hb
      rw [length_permute, PG'.length hq]
    have hval : ∀ (occ : Occ), LegalIn M (supercellCoords tol prim M) kind species occ →
        ∀ k (hkl : k < (bitCombos bits (clusterPermutations ops base)).length),
        (rows.map fun r => (orbitData id bitId phi (base.map fun x => species (kind x))
          (bitCombos bits (clusterPermutations ops base))).corrData
            (k * (orbitData id bitId phi (base.map fun x => species (kind x))
          (bitCombos bits (clusterPermutations ops base))).tensorSize +
            flatIndex (orbitData id bitId phi (base.map fun x => species (kind x))
          (bitCombos bits (clusterPermutations ops base))).tensorIndices r occ)) =
        rows.map fun r => corrTensor phi (bitCombos bits (clusterPermutations ops base))[k] (r.map occ) := by
      intro occ hocc k hkl
      apply List.map_congr_left
      intro row hrow
      have h1 := (C46_lookup id bitId phi (base.map fun x => species (kind x))
        (bitCombos bits (clusterPermutations ops base)) (by simpa using hne) hcl k hkl (row.map occ)
        (hleg hocc row hrow)).2
      rw [corrTensor_eq, ← h1, tableAt, flatIndex_eq_zip]
      intro b hb
      rw [hcl _ (List.getElem_mem hkl) b hb, (hleg hocc row hrow).length_eq]
    unfold corrWrites
    apply List.map_congr_left
    intro k hkr
    have hkl : k < (bitCombos bits (clusterPermutations ops base)).length := by
      rw [List.mem_range] at hkr
      exact hkr
    rw [hval _ hocc' k hkl, hval _ hocc k hkl]
    rw [rows_sum_eq PG hσ (corrTensor phi (bitCombos bits (clusterPermutations ops base))[k])]
    intro codes hc q hq
    exact C45_symmetric bits _ PG' phi hsym _ (List.getElem_mem hkl) codes _ (by rw [hc, hbits])
      ((equivalent_iff_permute PG' codes _ (by rw [hc, hbits])).2 ⟨q, hq, rfl⟩)
  funext i
  unfold CEProcessor.featureVector correlationsFromOccupancy
  have : (P.orbits.flatMap fun p => corrWrites (fun i => occ (π i)) p.1 p.2) =
      P.orbits.flatMap fun p => corrWrites occ p.1 p.2 := List.flatMap_congr fun o ho => key o ho
  rw [this]

/-- **C74.** In particular for all lattice vectors: a translated occupancy has the same correlation
vector. -/
theorem C74_translation (F : SupercellFits tol atol prim M) (G : SpaceGroup ops) {kind : Vec3 → ℕ}
    (hk : KeepsKinds ops kind) (functions : ℕ → ℕ → ℕ → K) (species : ℕ → ℕ) (P : CEProcessor K)
    (hP : ∀ o ∈ P.orbits, ∃ id bitId base bits, base ≠ [] ∧ base.Nodup ∧
      bits.length = base.length ∧
      o.1 = orbitData id bitId (fun i => functions (kind (base.getD i 0)))
        (base.map fun x => species (kind x)) (bitCombos bits (clusterPermutations ops base)) ∧
      ListsClusters ops M (supercellCoords tol prim M) base o.2)
    (T : Fin 3 → ℤ) {π : ℕ → ℕ} (hπ : CarriesOut M (supercellCoords tol prim M) (shift T) π)
    {occ : Occ} (hocc : LegalIn M (supercellCoords tol prim M) kind species occ) :
    P.featureVector (fun i => occ (π i)) = P.featureVector occ := by
  obtain ⟨e, he, S, hS⟩ := G.one
  have hfun : (fun x => shift (fun i => - S i + T i) (e.operate x)) = (shift T : Vec3 → Vec3) := by
    funext x
    rw [hS, ← shift_shift, shift_neg]
  refine C74_correlations F G hk functions species P hP he (fun i => - S i + T i) ?_ (π := π) ?_ hocc
  · rw [hfun]
    intro x y
    constructor
    · rintro ⟨n, h⟩
      refine ⟨n, shift_inj T ?_⟩
      rw [h, shift_shift, shift_shift]
      congr 1
      funext i
      ring
    · rintro ⟨n, rfl⟩
      refine ⟨n, ?_⟩
      rw [shift_shift, shift_shift]
      congr 1
      funext i
      ring
  · rw [hfun]
    exact hπ

end correlations

/-! ## Examples: four cells of a cubic crystal -/

/-- the site in the middle of the cell -/
def midCell : List Vec3 := [fun _ => 1 / 2]

/-- four cells -/
def fourCells : Mat3 := !![2, 0, 0; 0, 2, 0; 0, 0, 1]

theorem ofCell_mid {x : Vec3} : OfCell midCell x ↔ ∃ m, x = pos m := by
  unfold OfCell midCell
  simp only [List.mem_singleton, exists_eq_left]
  rfl

theorem fourCells_fits : SupercellFits (1 / 10 ^ 10) (1 / 10 ^ 8) midCell fourCells := by
  refine ⟨by decide, by norm_num, ?_, by norm_num, by simp [midCell], ?_⟩
  · rw [show det3 fourCells = 4 by decide]
    norm_num
  · intro f g hf hg h
    obtain ⟨m, hm⟩ := ofCell_mid.1 hf
    obtain ⟨n, hn⟩ := ofCell_mid.1 hg
    funext i
    have key : ∀ (a b : ℚ) (d u v : ℤ), 0 < d → d ≤ 2 → a * d = 1 / 2 + u → b * d = 1 / 2 + v →
        |a - b| ≤ 1 / 10 ^ 8 → a = b := by
      intro a b d u v hd hd' ha hb hab
      have hdq : (0 : ℚ) < d := by exact_mod_cast hd
      have hdq' : (d : ℚ) ≤ 2 := by exact_mod_cast hd'
      have h1 : (a - b) * d = ((u - v : ℤ) : ℚ) := by push_cast; linarith
      have h2 : |((u - v : ℤ) : ℚ)| < 1 := by
        rw [← h1, abs_mul, abs_of_pos hdq]
        have h0 := abs_nonneg (a - b)
        calc _ ≤ (1 / 10 ^ 8) * (d : ℚ) := mul_le_mul_of_nonneg_right hab hdq.le
          _ ≤ (1 / 10 ^ 8) * 2 := by linarith
          _ < 1 := by norm_num
      have h3 : |u - v| < 1 := by exact_mod_cast h2
      have h4 : u - v = 0 := Int.abs_lt_one_iff.1 h3
      rw [h4, Int.cast_zero] at h1
      rcases mul_eq_zero.1 h1 with h | h
      · linarith
      · exact absurd h hdq.ne'
    fin_cases i
    · have e1 := congrFun hm 0
      have e2 := congrFun hn 0
      simp [superPoint, fourCells, pos] at e1 e2
      exact key _ _ 2 (m 0) (n 0) (by norm_num) (by norm_num) (by push_cast; linarith) (by push_cast; linarith) (h 0)
    · have e1 := congrFun hm 1
      have e2 := congrFun hn 1
      simp [superPoint, fourCells, pos] at e1 e2
      exact key _ _ 2 (m 1) (n 1) (by norm_num) (by norm_num) (by push_cast; linarith) (by push_cast; linarith) (h 1)
    · have e1 := congrFun hm 2
      have e2 := congrFun hn 2
      simp [superPoint, fourCells, pos] at e1 e2
      exact key _ _ 1 (m 2) (n 2) (by norm_num) (by norm_num) (by push_cast; linarith) (by push_cast; linarith) (h 2)

theorem mid_ops : ∀ g ∈ intOps ℚ reversals, ∀ x, OfCell midCell x → OfCell midCell (g.operate x) := by
  intro g hg x hx
  rw [ofCell_mid] at hx ⊢
  exact (isSite_mid.1 (cubic_crystal.maps g hg x 1 (isSite_mid.2 ⟨rfl, hx⟩))).2

/-- a pair of neighbours -/
def midPair : List Vec3 := [pos ![0, 0, 0], pos ![1, 0, 0]]

/-- The index array of the orbit of pairs along the first axis: four clusters of two sites, each
twice as its two sites are neighbours across both faces. -/
example : (orbitClusters (intOps ℚ reversals) midPair).toOption =
      some [[pos ![0, 0, 0], pos ![1, 0, 0]]] ∧
    supercellCoords (1 / 10 ^ 10) midCell fourCells =
      [![1/4, 1/4, 1/2], ![1/4, 3/4, 1/2], ![3/4, 1/4, 1/2], ![3/4, 3/4, 1/2]] ∧
    genOrbitIndices (1 / 10 ^ 10) (1 / 10 ^ 8) midCell [[midPair]] fourCells =
      some [[[0, 2], [1, 3], [2, 0], [3, 1]]] := by
  refine ⟨by decide +kernel, by decide +kernel, by decide +kernel⟩

/-- the diagonal supercell is kept by the reversals with any lattice vector -/
theorem fourCells_kept {g : SymmOp 3 ℚ} (hg : g ∈ intOps ℚ reversals) (T : Fin 3 → ℤ) :
    KeepsSupercell fourCells fun x => shift T (g.operate x) := by
  obtain ⟨R, hR, rfl⟩ := List.mem_map.1 hg
  have hs : ∀ i, (R i i : ℚ) * R i i = 1 := by
    intro i
    have := (reversals_diag R hR i).1
    rw [← sq]
    exact_mod_cast this
  have hsame : ∀ x y : Vec3, SameSite fourCells x y ↔ ∃ n : Fin 3 → ℤ, x 0 = y 0 + n 0 * 2 ∧
      x 1 = y 1 + n 1 * 2 ∧ x 2 = y 2 + n 2 := by
    intro x y
    unfold SameSite
    refine exists_congr fun n => ?_
    constructor
    · rintro rfl
      simp [Spec.shift, superVec, fourCells]
    · rintro ⟨h0, h1, h2⟩
      funext i
      fin_cases i
      · simpa [Spec.shift, superVec, fourCells] using h0
      · simpa [Spec.shift, superVec, fourCells] using h1
      · simpa [Spec.shift, superVec, fourCells] using h2
  intro x y
  rw [hsame, hsame]
  simp only [Spec.shift, reversals_operate hR]
  constructor
  · rintro ⟨n, h0, h1, h2⟩
    refine ⟨fun i => R i i * n i, ?_, ?_, ?_⟩ <;> push_cast
    · linear_combination (R 0 0 : ℚ) * h0 - (x 0 - y 0) * hs 0
    · linear_combination (R 1 1 : ℚ) * h1 - (x 1 - y 1) * hs 1
    · linear_combination (R 2 2 : ℚ) * h2 - (x 2 - y 2) * hs 2
  · rintro ⟨n, h0, h1, h2⟩
    refine ⟨fun i => R i i * n i, ?_, ?_, ?_⟩ <;> push_cast
    · linear_combination (R 0 0 : ℚ) * h0
    · linear_combination (R 1 1 : ℚ) * h1
    · linear_combination (R 2 2 : ℚ) * h2

/-- The hypotheses of the theorems are met: a processor with this orbit, for two species with one
function, the reversal of the first axis with a lattice vector, and any occupancy by two species. -/
example : ∃ (P : CEProcessor ℚ) (π : ℕ → ℕ), P.orbits ≠ [] ∧ KeepsKinds (intOps ℚ reversals) (fun _ => 0) ∧
    (∀ o ∈ P.orbits, ∃ id bitId base bits, base ≠ [] ∧ base.Nodup ∧ bits.length = base.length ∧
      o.1 = orbitData id bitId (fun i => (fun _ _ c => if c = 0 then -1 else 1 : ℕ → ℕ → ℕ → ℚ)
          ((fun _ => 0) (base.getD i 0)))
        (base.map fun x => (fun _ => 2) ((fun _ => 0) x))
        (bitCombos bits (clusterPermutations (intOps ℚ reversals) base)) ∧
      ListsClusters (intOps ℚ reversals) fourCells
        (supercellCoords (1 / 10 ^ 10) midCell fourCells) base o.2) ∧
    (∃ g ∈ intOps ℚ reversals, CarriesOut fourCells (supercellCoords (1 / 10 ^ 10) midCell fourCells)
      (fun x => shift ![0, 1, 0] (g.operate x)) π) ∧
    LegalIn fourCells (supercellCoords (1 / 10 ^ 10) midCell fourCells) (fun _ => 0) (fun _ => 2)
      (fun i => if i = 0 then 1 else 0) := by
  have hpair : ∀ x ∈ midPair, OfCell midCell x := by
    intro x hx
    unfold midPair at hx
    rw [ofCell_mid]
    simp only [List.mem_cons, List.not_mem_nil, or_false] at hx
    rcases hx with rfl | rfl
    · exact ⟨_, rfl⟩
    · exact ⟨_, rfl⟩
  have hb : ∀ base ∈ [midPair], base ≠ [] ∧ base.Nodup ∧ ∀ x ∈ base, OfCell midCell x := by
    intro base h
    rw [List.mem_singleton] at h
    subst h
    exact ⟨by simp [midPair], by decide +kernel, hpair⟩
  obtain ⟨h1, h2, h3⟩ := hb midPair (by simp)
  obtain ⟨tables, -, ht, -⟩ := C74_index_arrays fourCells_fits reversals_group mid_ops hb
    (List.Forall₂.cons (orbitClusters_ok reversals_group h1 h2) List.Forall₂.nil)
  cases ht with
  | cons ht hnil =>
    cases hnil
    rename_i rows
    have hg : (⟨fun i j => ((![![-1, 0, 0], ![0, 1, 0], ![0, 0, 1]] : Fin 3 → Fin 3 → ℤ) i j : ℚ),
        fun _ => 0⟩ : SymmOp 3 ℚ) ∈ intOps ℚ reversals :=
      List.mem_map.2 ⟨_, by decide +kernel, rfl⟩
    obtain ⟨π, hπ, -⟩ := C74_site_permutation fourCells_fits mid_ops hg ![0, 1, 0]
      (fourCells_kept hg _)
    refine ⟨⟨4, 2, [(orbitData 1 1 (fun _ _ c => if c = 0 then -1 else 1) [2, 2]
      (bitCombos [[0], [0]] (clusterPermutations (intOps ℚ reversals) midPair)), rows)]⟩, π,
      by simp, ⟨fun _ _ _ => rfl, fun _ _ => rfl⟩, ?_, ⟨_, hg, hπ⟩, ?_⟩
    · intro o ho
      rw [List.mem_singleton] at ho
      subst ho
      exact ⟨1, 1, midPair, [[0], [0]], h1, h2, rfl, rfl, ht⟩
    · intro i x _
      dsimp only
      split <;> omega

end Smol
