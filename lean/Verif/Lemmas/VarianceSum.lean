import Verif.Lemmas.VarianceCell

namespace Smol
open Spec

/-- sum of products of site functions -/
noncomputable def sumTerms (n : ℕ) {q : ℕ → ℕ} (B : ∀ i, SiteBasis (q i))
    (W : List (ℝ × List ℕ × List ℕ)) (occ : ℕ → ℕ) : ℝ :=
  (W.map fun a => a.1 * labelProd n B (labelOf a.2.1 a.2.2) occ).sum

/-- the labels name functions, and not only constant ones -/
def GoodTerm (n : ℕ) (q : ℕ → ℕ) (a : ℝ × List ℕ × List ℕ) : Prop :=
  (∀ i < n, labelOf a.2.1 a.2.2 i < q i) ∧ ∃ i < n, labelOf a.2.1 a.2.2 i ≠ 0

section
variable {n : ℕ} {q : ℕ → ℕ} {B : ∀ i, SiteBasis (q i)}

theorem sumTerms_append (W W' : List (ℝ × List ℕ × List ℕ)) (occ : ℕ → ℕ) :
    sumTerms n B (W ++ W') occ = sumTerms n B W occ + sumTerms n B W' occ := by
  simp [sumTerms]

theorem sumTerms_flatMap {α : Type*} (l : List α) (f : α → List (ℝ × List ℕ × List ℕ)) (occ : ℕ → ℕ) :
    sumTerms n B (l.flatMap f) occ = (l.map fun a => sumTerms n B (f a) occ).sum := by
  induction l with
  | nil => simp [sumTerms]
  | cons a l ih => rw [List.flatMap_cons, sumTerms_append, ih, List.map_cons, List.sum_cons]

theorem mean_sumTerms (hon : ∀ i < n, (B i).isOrthonormal) (hone : ∀ i < n, UnitRow (B i))
    (hq : ∀ i < n, 0 < q i) (W : List (ℝ × List ℕ × List ℕ)) (hW : ∀ a ∈ W, GoodTerm n q a) :
    meanOver n q (fun i => concentration (B i)) (sumTerms n B W) = 0 := by
  unfold sumTerms
  rw [meanOver_list]
  apply List.sum_eq_zero
  intro y hy
  obtain ⟨a, ha, rfl⟩ := List.mem_map.1 hy
  obtain ⟨h1, i, hi, h2⟩ := hW a ha
  rw [meanOver_smul]
  have := mean_labelProd hon hone hq (labelOf a.2.1 a.2.2) h1
  rw [if_neg (fun h => h2 (h i hi))] at this
  show a.1 * meanOver n q (fun i => concentration (B i)) (labelProd n B (labelOf a.2.1 a.2.2)) = 0
  rw [this, mul_zero]

theorem mean_sumTerms_mul (hon : ∀ i < n, (B i).isOrthonormal)
    (W W' : List (ℝ × List ℕ × List ℕ)) (hW : ∀ a ∈ W, GoodTerm n q a)
    (hW' : ∀ a ∈ W', GoodTerm n q a) :
    meanOver n q (fun i => concentration (B i)) (fun o => sumTerms n B W o * sumTerms n B W' o) =
      (W.map fun a => (W'.map fun b => a.1 * b.1 *
        if siteLabels n a.2.1 a.2.2 = siteLabels n b.2.1 b.2.2 then (1 : ℝ) else 0).sum).sum := by
  have h1 : (fun o => sumTerms n B W o * sumTerms n B W' o) = fun o => (W.map fun a =>
      (W'.map fun b => (a.1 * b.1) * (labelProd n B (labelOf a.2.1 a.2.2) o *
        labelProd n B (labelOf b.2.1 b.2.2) o)).sum).sum := by
    funext o
    simp only [sumTerms]
    rw [← List.sum_map_mul_right]
    congr 1
    apply List.map_congr_left
    intro a _
    rw [← List.sum_map_mul_left]
    congr 1
    apply List.map_congr_left
    intro b _
    ring
  rw [h1, meanOver_list]
  congr 1
  apply List.map_congr_left
  intro a ha
  rw [meanOver_list]
  congr 1
  apply List.map_congr_left
  intro b hb
  rw [meanOver_smul, mean_labelProd_mul hon _ _ (hW a ha).1 (hW' b hb).1]
  congr 1
  have : (∀ i < n, labelOf a.2.1 a.2.2 i = labelOf b.2.1 b.2.2 i) ↔
      siteLabels n a.2.1 a.2.2 = siteLabels n b.2.1 b.2.2 :=
    ⟨fun h => funext fun i => h i i.2, fun h i hi => congrFun h ⟨i, hi⟩⟩
  simp only [this]

theorem mean_sumTerms_sq (hon : ∀ i < n, (B i).isOrthonormal)
    (W : List (ℝ × List ℕ × List ℕ)) (hW : ∀ a ∈ W, GoodTerm n q a)
    (hnd : (W.map fun a => siteLabels n a.2.1 a.2.2).Nodup) :
    meanOver n q (fun i => concentration (B i)) (fun o => sumTerms n B W o ^ 2) =
      (W.map fun a => a.1 ^ 2).sum := by
  simp only [pow_two]
  rw [mean_sumTerms_mul hon W W hW hW]
  have := double_sum_self (fun a : ℝ × List ℕ × List ℕ => a.1)
    (fun a => siteLabels n a.2.1 a.2.2) W hnd
  simpa only [pow_two] using this

theorem meanOver_const (hon : ∀ i < n, (B i).isOrthonormal) (hone : ∀ i < n, UnitRow (B i))
    (hq : ∀ i < n, 0 < q i) (c : ℝ) :
    meanOver n q (fun i => concentration (B i)) (fun _ => c) = c := by
  have h := mean_labelProd hon hone hq (fun _ => 0) hq
  rw [if_pos (fun _ _ => rfl)] at h
  have h2 : meanOver n q (fun i => concentration (B i)) (fun _ => c) =
      meanOver n q (fun i => concentration (B i)) (fun o => c * labelProd n B (fun _ => 0) o) :=
    meanOver_congr fun occ hocc => by rw [labelProd_zero hone occ hocc, mul_one]
  rw [h2, meanOver_smul, h, mul_one]

/-- mean and variance of a constant plus a sum of different products -/
theorem mean_var_sumTerms (hon : ∀ i < n, (B i).isOrthonormal) (hone : ∀ i < n, UnitRow (B i))
    (hq : ∀ i < n, 0 < q i) (W : List (ℝ × List ℕ × List ℕ)) (hW : ∀ a ∈ W, GoodTerm n q a)
    (hnd : (W.map fun a => siteLabels n a.2.1 a.2.2).Nodup) (c s : ℝ) (F : (ℕ → ℕ) → ℝ)
    (hF : ∀ occ, (∀ i < n, occ i < q i) → F occ = s * (c + sumTerms n B W occ)) :
    meanOver n q (fun i => concentration (B i)) F = s * c ∧
    varianceOver n q (fun i => concentration (B i)) F = s ^ 2 * (W.map fun a => a.1 ^ 2).sum := by
  have hm : meanOver n q (fun i => concentration (B i)) F = s * c := by
    rw [meanOver_congr hF, meanOver_smul, meanOver_add, meanOver_const hon hone hq,
      mean_sumTerms hon hone hq W hW, add_zero]
  refine ⟨hm, ?_⟩
  unfold varianceOver
  rw [hm, ← mean_sumTerms_sq hon W hW hnd, ← meanOver_smul]
  apply meanOver_congr
  intro occ hocc
  rw [hF occ hocc]
  ring

end

theorem funTerms_sq (w : ℝ) (rows : ClusterRows) (cl : List (List ℕ)) :
    ((funTerms w rows cl).map fun a => a.1 ^ 2).sum = (rows.length : ℝ) * (cl.length : ℝ) * w ^ 2 := by
  induction rows with
  | nil => simp [funTerms]
  | cons r rows ih =>
    have : funTerms w (r :: rows) cl = (cl.map fun b => (w, r, b)) ++ funTerms w rows cl := rfl
    rw [this, List.map_append, List.sum_append, ih, List.map_map]
    have h2 : (cl.map ((fun a : ℝ × List ℕ × List ℕ => a.1 ^ 2) ∘ fun b => (w, r, b))).sum =
        (cl.length : ℝ) * w ^ 2 := by
      rw [show ((fun a : ℝ × List ℕ × List ℕ => a.1 ^ 2) ∘ fun b : List ℕ => (w, r, b)) =
        fun _ => w ^ 2 from rfl, List.map_const', List.sum_replicate, nsmul_eq_mul]
    rw [h2, List.length_cons]
    push_cast
    ring

theorem sum_flatMap_mapR {α β : Type*} (l : List α) (f : α → List β) (g : β → ℝ) :
    ((l.flatMap f).map g).sum = (l.map fun a => ((f a).map g).sum).sum := by
  induction l with
  | nil => rfl
  | cons a l ih => simp [ih]

namespace RandomCell
variable {S : OrbitSpace} {geom : ℕ → OrbitGeom ℝ} {n : ℕ} {q : ℕ → ℕ} {B : ∀ i, SiteBasis (q i)}
  {size : ℕ}

theorem good (H : RandomCell S geom n q B size) (F : S.FitsGeom geom) (hq : ∀ i < n, 0 < q i)
    {o : Orb} (ho : o ∈ S.orbits) {c : ℕ × ℕ} (hc : c ∈ o.combos) (w : ℝ) :
    ∀ a ∈ funTerms w (geom o.tag).rows ((geom o.tag).classes.getD c.1 []), GoodTerm n q a := by
  intro a ha
  unfold funTerms at ha
  obtain ⟨r, hr, ha⟩ := List.mem_flatMap.1 ha
  obtain ⟨b, hb, rfl⟩ := List.mem_map.1 ha
  obtain ⟨-, -, -, -, hcl⟩ := H.classOf' F ho hc
  obtain ⟨hbl, hbd⟩ := hcl b hb
  have hrl := H.length o ho r hr
  constructor
  · intro i hi
    simp only [labelOf]
    split
    · rename_i hir
      have hk := List.idxOf_lt_length_of_mem hir
      have hget : r[r.idxOf i]? = some i := by
        rw [List.getElem?_eq_getElem hk, List.getElem_idxOf]
      have h2 := (H.sites o ho r hr _ i hget).2.1
      have hkb : r.idxOf i < b.length := by omega
      have := hbd _ _ _ (List.getElem?_eq_getElem hkb) h2
      rwa [List.getD_eq_getElem?_getD, List.getElem?_eq_getElem hkb, Option.getD_some]
    · exact hq i hi
  · have hne : r ≠ [] := by
      intro h
      rw [h] at hrl
      exact F.shape o ho (List.eq_nil_of_length_eq_zero hrl.symm)
    obtain ⟨i, hi⟩ := List.exists_mem_of_ne_nil _ hne
    refine ⟨i, H.lt ho hr i hi, ?_⟩
    simp [labelOf, hi]

theorem legal (H : RandomCell S geom n q B size) {occ : Occ} (hocc : ∀ i < n, occ i < q i) :
    S.Legal geom occ := by
  intro o ho row hrow
  rw [List.forall₂_iff_get]
  refine ⟨H.length o ho row hrow, fun k h1 h2 => ?_⟩
  obtain ⟨h3, h4, -⟩ := H.sites o ho row hrow k _ (List.getElem?_eq_getElem h1)
  simp only [List.get_eq_getElem]
  rw [List.getElem?_eq_getElem h2, Option.some.injEq] at h4
  rw [h4]
  exact hocc _ h3

/-- coefficient times average of a correlation function as a sum of products -/
theorem average_eq (H : RandomCell S geom n q B size) (F : S.FitsGeom geom)
    (hone : ∀ i < n, UnitRow (B i)) {o : Orb} (ho : o ∈ S.orbits) {c : ℕ × ℕ} (hc : c ∈ o.combos)
    (coef : ℝ) {occ : Occ} (hocc : ∀ i < n, occ i < q i) :
    coef * clusterAverage (fun row => correlation (geom o.tag).phi
      ((geom o.tag).classes.getD c.1 []) (row.map occ)) (geom o.tag).rows =
    sumTerms n B (funTerms (coef / ((geom o.tag).rows.length * (c.2 : ℝ))) (geom o.tag).rows
      ((geom o.tag).classes.getD c.1 [])) occ := by
  obtain ⟨-, hcl, -, -, hbits⟩ := H.classOf' F ho hc
  set cl := (geom o.tag).classes.getD c.1 [] with hcldef
  unfold clusterAverage funTerms
  rw [sumTerms_flatMap]
  have : ∀ r ∈ (geom o.tag).rows, sumTerms n B (cl.map fun b =>
      (coef / ((geom o.tag).rows.length * (c.2 : ℝ)), r, b)) occ =
      coef / ((geom o.tag).rows.length : ℝ) * correlation (geom o.tag).phi cl (r.map occ) := by
    intro r hr
    have hb : ∀ b ∈ cl, labelProd n B (labelOf r b) occ =
        clusterFunction (geom o.tag).phi 0 b (r.map occ) := by
      intro b hb
      refine (clusterFunction_labelProd hone _ occ hocc r b 0 (H.nodup o ho r hr)
        (by rw [(hbits b hb).1, H.length o ho r hr]) (H.lt ho hr) ?_).symm
      intro k i d hk hd
      obtain ⟨-, h2, h3⟩ := H.sites o ho r hr k i hk
      exact ⟨(hbits b hb).2 k _ d hd h2, by rw [Nat.zero_add]; exact h3⟩
    unfold sumTerms correlation
    rw [List.map_map, hcl, List.map_congr_left (g := fun b =>
      coef / ((geom o.tag).rows.length * (c.2 : ℝ)) *
        clusterFunction (geom o.tag).phi 0 b (r.map occ))
      (fun b h => by simp only [Function.comp_apply]; rw [hb b h]), List.sum_map_mul_left]
    ring
  rw [List.map_congr_left this, List.sum_map_mul_left]
  ring

end RandomCell

end Smol
