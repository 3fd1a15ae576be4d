import Verif.Model.Variance
import Verif.Spec.Variance
import Verif.Props.OrbitRotation

namespace Smol
open Spec

section mean
variable {n : ℕ} {q : ℕ → ℕ} {mu : ℕ → ℕ → ℝ}

theorem occOf_apply {n : ℕ} (σ : Fin n → ℕ) (i : Fin n) : occOf σ i = σ i := by
  simp [occOf]

theorem meanOver_congr {F G : (ℕ → ℕ) → ℝ} (h : ∀ occ, (∀ i < n, occ i < q i) → F occ = G occ) :
    meanOver n q mu F = meanOver n q mu G := by
  unfold meanOver
  apply Finset.sum_congr rfl
  intro σ hσ
  rw [h]
  intro i hi
  rw [Fintype.mem_piFinset] at hσ
  have := Finset.mem_range.1 (hσ ⟨i, hi⟩)
  simpa [occOf, hi] using this

theorem meanOver_add (F G : (ℕ → ℕ) → ℝ) :
    meanOver n q mu (fun o => F o + G o) = meanOver n q mu F + meanOver n q mu G := by
  simp [meanOver, mul_add, Finset.sum_add_distrib]

theorem meanOver_smul (a : ℝ) (F : (ℕ → ℕ) → ℝ) :
    meanOver n q mu (fun o => a * F o) = a * meanOver n q mu F := by
  unfold meanOver
  rw [Finset.mul_sum]
  exact Finset.sum_congr rfl fun σ _ => by ring

theorem meanOver_zero : meanOver n q mu (fun _ => 0) = 0 := by simp [meanOver]

theorem meanOver_list {α : Type*} (l : List α) (F : α → (ℕ → ℕ) → ℝ) :
    meanOver n q mu (fun o => (l.map fun a => F a o).sum) =
      (l.map fun a => meanOver n q mu (F a)).sum := by
  induction l with
  | nil => simp [meanOver_zero]
  | cons a l ih => simp only [List.map_cons, List.sum_cons, meanOver_add, ih]

/-- the mean of a product over the sites -/
theorem meanOver_prod (f : ℕ → ℕ → ℝ) :
    meanOver n q mu (fun o => ∏ i : Fin n, f i (o i)) =
      ∏ i : Fin n, ∑ c ∈ Finset.range (q i), mu i c * f i c := by
  rw [Finset.prod_univ_sum]
  unfold meanOver
  apply Finset.sum_congr rfl
  intro σ _
  rw [← Finset.prod_mul_distrib]
  exact Finset.prod_congr rfl fun i _ => by rw [occOf_apply]

end mean

/-- function `j` of a basis, the constant one included, at species `c` -/
noncomputable def rowAt {m : ℕ} (B : SiteBasis m) (j c : ℕ) : ℝ :=
  if h : j < m ∧ c < m then B.f ⟨j, h.1⟩ ⟨c, h.2⟩ else 0

theorem rowAt_succ {m : ℕ} (B : SiteBasis m) (b c : ℕ) (hb : b + 1 < m) (hc : c < m) :
    rowAt B (b + 1) c = siteFunction B b c := by
  rw [siteFunction_eq B b c hb hc, rowAt, dif_pos ⟨hb, hc⟩]

theorem rowAt_inner {m : ℕ} (B : SiteBasis m) (hon : B.isOrthonormal) (j k : ℕ) (hj : j < m)
    (hk : k < m) :
    ∑ c ∈ Finset.range m, concentration B c * (rowAt B j c * rowAt B k c) =
      if j = k then 1 else 0 := by
  have h := congrFun (congrFun hon ⟨j, hj⟩) ⟨k, hk⟩
  rw [Matrix.one_apply] at h
  simp only [Fin.mk.injEq] at h
  rw [← h, Finset.sum_range, SiteBasis.prods]
  apply Finset.sum_congr rfl
  intro c _
  simp [concentration, rowAt, hj, hk, mul_assoc]

/-- the function each site has in the product for the sites `row` with functions `b` -/
def labelOf (row b : List ℕ) (i : ℕ) : ℕ :=
  if i ∈ row then b.getD (row.idxOf i) 0 + 1 else 0

/-- bases whose first function is one -/
def UnitRow {m : ℕ} (B : SiteBasis m) : Prop := ∀ z s : Fin m, (z : ℕ) = 0 → B.f z s = 1

/-- product of the site functions with the given labels -/
noncomputable def labelProd (n : ℕ) {q : ℕ → ℕ} (B : ∀ i, SiteBasis (q i)) (L : ℕ → ℕ) (occ : ℕ → ℕ) :
    ℝ := ∏ i : Fin n, rowAt (B i) (L i) (occ i)

section cell
variable {n : ℕ} {q : ℕ → ℕ} {B : ∀ i, SiteBasis (q i)}

theorem mean_labelProd_mul (hon : ∀ i < n, (B i).isOrthonormal) (L L' : ℕ → ℕ)
    (hL : ∀ i < n, L i < q i) (hL' : ∀ i < n, L' i < q i) :
    meanOver n q (fun i => concentration (B i))
      (fun o => labelProd n B L o * labelProd n B L' o) =
      if ∀ i < n, L i = L' i then 1 else 0 := by
  have : (fun o => labelProd n B L o * labelProd n B L' o) =
      fun o => ∏ i : Fin n, (fun (i : ℕ) (c : ℕ) => rowAt (B i) (L i) c * rowAt (B i) (L' i) c) i (o i) := by
    funext o
    simp only [labelProd, Finset.prod_mul_distrib]
  rw [this, meanOver_prod fun (i : ℕ) (c : ℕ) => rowAt (B i) (L i) c * rowAt (B i) (L' i) c]
  have h2 : ∀ i : Fin n, ∑ c ∈ Finset.range (q i), concentration (B i) c *
      (rowAt (B i) (L i) c * rowAt (B i) (L' i) c) = if L i = L' i then 1 else 0 := fun i =>
    rowAt_inner (B i) (hon i i.2) _ _ (hL i i.2) (hL' i i.2)
  rw [Finset.prod_congr rfl fun i _ => h2 i]
  by_cases h : ∀ i < n, L i = L' i
  · rw [if_pos h]
    exact Finset.prod_eq_one fun i _ => if_pos (h i i.2)
  · rw [if_neg h]
    push Not at h
    obtain ⟨i, hi, hne⟩ := h
    exact Finset.prod_eq_zero (Finset.mem_univ ⟨i, hi⟩) (if_neg hne)

theorem labelProd_zero (hone : ∀ i < n, UnitRow (B i)) (occ : ℕ → ℕ) (hocc : ∀ i < n, occ i < q i) :
    labelProd n B (fun _ => 0) occ = 1 := by
  apply Finset.prod_eq_one
  intro i _
  have h := hocc i i.2
  have h0 : 0 < q i := by omega
  rw [rowAt, dif_pos ⟨h0, h⟩, hone i i.2 _ _ rfl]

theorem mean_labelProd (hon : ∀ i < n, (B i).isOrthonormal) (hone : ∀ i < n, UnitRow (B i))
    (hq : ∀ i < n, 0 < q i) (L : ℕ → ℕ) (hL : ∀ i < n, L i < q i) :
    meanOver n q (fun i => concentration (B i)) (labelProd n B L) =
      if ∀ i < n, L i = 0 then 1 else 0 := by
  rw [← mean_labelProd_mul hon L (fun _ => 0) hL hq]
  apply meanOver_congr
  intro occ hocc
  rw [labelProd_zero hone occ hocc, mul_one]

/-- a product over sites `row` as a product over all sites -/
theorem clusterFunction_labelProd (hone : ∀ i < n, UnitRow (B i)) (phi : ℕ → ℕ → ℕ → ℝ)
    (occ : ℕ → ℕ) (hocc : ∀ i < n, occ i < q i) : ∀ (row b : List ℕ) (s : ℕ), row.Nodup →
    row.length = b.length → (∀ i ∈ row, i < n) →
    (∀ (k i c : ℕ), row[k]? = some i → b[k]? = some c → c + 1 < q i ∧ phi (s + k) = siteFunction (B i)) →
    clusterFunction phi s b (row.map occ) = labelProd n B (labelOf row b) occ := by
  intro row
  induction row with
  | nil =>
    intro b s _ hl _ _
    obtain rfl : b = [] := by simpa using hl.symm
    rw [clusterFunction, ← labelProd_zero hone occ hocc]
    simp [labelProd, labelOf]
  | cons i row ih =>
    intro b s hnd hl hlt hb
    obtain ⟨c, b, rfl⟩ : ∃ c b', b = c :: b' := by
      cases b with
      | nil => simp at hl
      | cons c b => exact ⟨c, b, rfl⟩
    rw [List.nodup_cons] at hnd
    have h0 := hb 0 i c (by simp) (by simp)
    rw [List.map_cons, clusterFunction, ih b (s + 1) hnd.2 (by simpa using hl)
      (fun j hj => hlt j (List.mem_cons_of_mem _ hj)) (by
        intro k j d hk hd
        have := hb (k + 1) j d (by simpa using hk) (by simpa using hd)
        rwa [show s + 1 + k = s + (k + 1) by omega])]
    have hi : i < n := hlt i List.mem_cons_self
    rw [add_zero] at h0
    unfold labelProd
    rw [← Finset.mul_prod_erase Finset.univ _ (Finset.mem_univ (⟨i, hi⟩ : Fin n)),
      ← Finset.mul_prod_erase Finset.univ (fun j : Fin n => rowAt (B j) (labelOf (i :: row) (c :: b) j) (occ j))
        (Finset.mem_univ (⟨i, hi⟩ : Fin n))]
    have hone' : rowAt (B i) (labelOf row b i) (occ i) = 1 := by
      have h := hocc i hi
      have h0 : 0 < q i := by omega
      rw [labelOf, if_neg hnd.1, rowAt, dif_pos ⟨h0, h⟩, hone i hi _ _ rfl]
    have hlab : labelOf (i :: row) (c :: b) i = c + 1 := by simp [labelOf]
    simp only
    rw [hone', one_mul, hlab, rowAt_succ (B i) c (occ i) h0.1 (hocc i hi), h0.2]
    congr 1
    apply Finset.prod_congr rfl
    intro j hj
    have hne : (j : ℕ) ≠ i := by
      intro h
      exact (Finset.mem_erase.1 hj).1 (Fin.ext h)
    congr 1
    unfold labelOf
    simp only [List.mem_cons, hne, false_or]
    split
    · rw [List.idxOf_cons_ne row hne.symm]; simp
    · rfl

end cell

/-! ### Products of sums of orthonormal functions -/

/-- `Σ_{a ∈ A} Σ_{b ∈ C} w_a w_b [L_a = L_b]` for a list without repetitions -/
theorem double_sum_self {α β : Type*} [DecidableEq β] (w : α → ℝ) (L : α → β) (A : List α)
    (h : (A.map L).Nodup) :
    (A.map fun a => (A.map fun b => w a * w b * if L a = L b then (1 : ℝ) else 0).sum).sum =
      (A.map fun a => w a ^ 2).sum := by
  have hkey : ∀ (A : List α), (A.map L).Nodup → ∀ a ∈ A,
      (A.map fun b => w a * w b * if L a = L b then (1 : ℝ) else 0).sum = w a ^ 2 := by
    intro A
    induction A with
    | nil => simp
    | cons x A ih =>
      intro hn a ha
      rw [List.map_cons, List.nodup_cons] at hn
      rw [List.map_cons, List.sum_cons]
      rcases List.mem_cons.1 ha with rfl | ha
      · have : (A.map fun b => w a * w b * if L a = L b then (1 : ℝ) else 0).sum = 0 := by
          apply List.sum_eq_zero
          intro y hy
          obtain ⟨b, hb, rfl⟩ := List.mem_map.1 hy
          rw [if_neg, mul_zero]
          intro he
          exact hn.1 (he ▸ List.mem_map_of_mem hb)
        rw [this, if_pos rfl]
        ring
      · rw [ih hn.2 a ha, if_neg, mul_zero, zero_add]
        intro he
        exact hn.1 (he ▸ List.mem_map_of_mem ha)
  rw [List.map_congr_left (hkey A h)]

theorem double_sum_disjoint {α β : Type*} [DecidableEq β] (w : α → α → ℝ) (L : α → β) (A C : List α)
    (h : ∀ a ∈ A, ∀ b ∈ C, L a ≠ L b) :
    (A.map fun a => (C.map fun b => w a b * if L a = L b then (1 : ℝ) else 0).sum).sum = 0 := by
  apply List.sum_eq_zero
  intro y hy
  obtain ⟨a, ha, rfl⟩ := List.mem_map.1 hy
  apply List.sum_eq_zero
  intro z hz
  obtain ⟨b, hb, rfl⟩ := List.mem_map.1 hz
  rw [if_neg (h a ha b hb), mul_zero]

end Smol
