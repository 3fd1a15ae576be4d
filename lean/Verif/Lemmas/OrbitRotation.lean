import Verif.Spec.OrbitRotation
import Verif.Model.OrbitRotation
import Verif.Lemmas.Orbit

namespace Smol
open Spec

/-! ### Sums over all choices -/

theorem expect_mul_left (mu : ℕ → ℕ → ℝ) (k : ℝ) : ∀ (ds : List ℕ) (s : ℕ) (F : List ℕ → ℝ),
    expect mu s ds (fun c => k * F c) = k * expect mu s ds F := by
  intro ds
  induction ds with
  | nil => intro s F; rfl
  | cons d ds ih =>
    intro s F
    simp only [expect]
    rw [Finset.mul_sum]
    apply Finset.sum_congr rfl
    intro c _
    rw [ih]
    ring

theorem expect_zero (mu : ℕ → ℕ → ℝ) : ∀ (ds : List ℕ) (s : ℕ), expect mu s ds (fun _ => 0) = 0 := by
  intro ds s
  have := expect_mul_left mu 0 ds s (fun _ => 0)
  simpa using this

theorem expect_add (mu : ℕ → ℕ → ℝ) : ∀ (ds : List ℕ) (s : ℕ) (F G : List ℕ → ℝ),
    expect mu s ds (fun c => F c + G c) = expect mu s ds F + expect mu s ds G := by
  intro ds
  induction ds with
  | nil => intro s F G; rfl
  | cons d ds ih =>
    intro s F G
    simp only [expect]
    rw [← Finset.sum_add_distrib]
    apply Finset.sum_congr rfl
    intro c _
    rw [ih]
    ring

theorem expect_list_sum {α : Type*} (mu : ℕ → ℕ → ℝ) (ds : List ℕ) (s : ℕ) (l : List α)
    (F : α → List ℕ → ℝ) :
    expect mu s ds (fun c => (l.map fun x => F x c).sum) =
      (l.map fun x => expect mu s ds (F x)).sum := by
  induction l with
  | nil => simp [expect_zero]
  | cons a l ih =>
    simp only [List.map_cons, List.sum_cons]
    rw [expect_add, ih]

theorem expect_congr (mu : ℕ → ℕ → ℝ) : ∀ (ds : List ℕ) (s : ℕ) (F F' : List ℕ → ℝ),
    (∀ c, c.length = ds.length → F c = F' c) → expect mu s ds F = expect mu s ds F' := by
  intro ds
  induction ds with
  | nil => intro s F F' h; exact h [] rfl
  | cons d ds ih =>
    intro s F F' h
    simp only [expect]
    apply Finset.sum_congr rfl
    intro c _
    rw [ih (s + 1) _ (fun cs => F' (c :: cs)) fun cs hcs => h (c :: cs) (by simp [hcs])]

theorem expect_congr_shape (mu : ℕ → ℕ → ℝ) : ∀ (ds : List ℕ) (s : ℕ) (F F' : List ℕ → ℝ),
    (∀ c, List.Forall₂ (fun c d => c < d) c ds → F c = F' c) → expect mu s ds F = expect mu s ds F' := by
  intro ds
  induction ds with
  | nil => intro s F F' h; exact h [] .nil
  | cons d ds ih =>
    intro s F F' h
    simp only [expect]
    apply Finset.sum_congr rfl
    intro c hc
    rw [ih (s + 1) _ (fun cs => F' (c :: cs)) fun cs hcs =>
      h (c :: cs) (.cons (Finset.mem_range.1 hc) hcs)]

theorem sum_commR {α β : Type*} (l : List α) (l' : List β) (F : α → β → ℝ) :
    (l.map fun x => (l'.map fun y => F x y).sum).sum =
      (l'.map fun y => (l.map fun x => F x y).sum).sum := by
  induction l with
  | nil => simp
  | cons a l ih =>
    simp only [List.map_cons, List.sum_cons, ih]
    rw [← List.sum_map_add]

theorem _root_.List.sum_map_const_eq {α : Type*} (l : List α) (c : ℝ) :
    (l.map fun _ => c).sum = (l.length : ℝ) * c := by
  simp

theorem sum_flatMapR {α : Type*} (l : List α) (F : α → List ℝ) :
    (l.flatMap F).sum = (l.map fun x => (F x).sum).sum := by
  induction l with
  | nil => rfl
  | cons a l ih => simp [ih]

/-- products of orthonormal functions are orthonormal -/
theorem expect_products (mu : ℕ → ℕ → ℝ) (phi : ℕ → ℕ → ℕ → ℝ) :
    ∀ (ds : List ℕ) (s : ℕ) (b b' : List ℕ), b.length = ds.length → b'.length = ds.length →
    (∀ i < ds.length, ∑ c ∈ Finset.range (ds.getD i 0), mu (s + i) c *
      (phi (s + i) (b.getD i 0) c * phi (s + i) (b'.getD i 0) c) =
        if b.getD i 0 = b'.getD i 0 then 1 else 0) →
    expect mu s ds (fun c => clusterFunction phi s b c * clusterFunction phi s b' c) =
      if b = b' then 1 else 0 := by
  intro ds
  induction ds with
  | nil =>
    intro s b b' h1 h2 _
    have e1 : b = [] := List.length_eq_zero_iff.1 h1
    have e2 : b' = [] := List.length_eq_zero_iff.1 h2
    subst e1 e2
    simp [expect, clusterFunction]
  | cons d ds ih =>
    intro s b b' h1 h2 hon
    match b, b' with
    | [], _ => simp at h1
    | _ :: _, [] => simp at h2
    | x :: b, x' :: b' =>
      have htail := ih (s + 1) b b' (by simpa using h1) (by simpa using h2) (by
        intro i hi
        have := hon (i + 1) (by simpa using hi)
        simp only [List.getD_cons_succ] at this
        rw [← this]
        have e : s + 1 + i = s + (i + 1) := by omega
        rw [e])
      have hhead := hon 0 (by simp)
      simp only [List.getD_cons_zero, Nat.add_zero] at hhead
      simp only [expect, clusterFunction]
      have : ∀ c, expect mu (s + 1) ds (fun cs => phi s x c * clusterFunction phi (s + 1) b cs *
          (phi s x' c * clusterFunction phi (s + 1) b' cs)) =
          phi s x c * phi s x' c * if b = b' then 1 else 0 := by
        intro c
        rw [← htail, ← expect_mul_left]
        congr 1
        funext cs
        ring
      simp only [this]
      have e : ∀ c, mu s c * (phi s x c * phi s x' c * if b = b' then (1 : ℝ) else 0) =
          mu s c * (phi s x c * phi s x' c) * if b = b' then 1 else 0 := fun c => by ring
      simp only [e]
      rw [← Finset.sum_mul, hhead]
      by_cases hx : x = x' <;> by_cases hb : b = b' <;> simp [hx, hb]

theorem expect_mean (mu : ℕ → ℕ → ℝ) (phi : ℕ → ℕ → ℕ → ℝ) (d : ℕ) (ds : List ℕ) (s : ℕ) (x : ℕ)
    (b : List ℕ) (h : ∑ c ∈ Finset.range d, mu s c * phi s x c = 0) :
    expect mu s (d :: ds) (fun c => clusterFunction phi s (x :: b) c) = 0 := by
  simp only [expect, clusterFunction]
  have : ∀ c, mu s c * expect mu (s + 1) ds (fun cs => phi s x c * clusterFunction phi (s + 1) b cs) =
      mu s c * phi s x c * expect mu (s + 1) ds fun cs => clusterFunction phi (s + 1) b cs := by
    intro c
    rw [expect_mul_left]; ring
  simp only [this]
  rw [← Finset.sum_mul, h, zero_mul]

/-- expanding every factor of a product -/
theorem clusterFunction_expand (phi phi' S : ℕ → ℕ → ℕ → ℝ) :
    ∀ (bits : List (List ℕ)) (s : ℕ) (b codes : List ℕ), b.length = bits.length →
    codes.length = bits.length →
    (∀ i < bits.length, phi' (s + i) (b.getD i 0) (codes.getD i 0) =
      ((bits.getD i []).map fun x => S (s + i) (b.getD i 0) x * phi (s + i) x (codes.getD i 0)).sum) →
    clusterFunction phi' s b codes =
      ((lexProduct bits).map fun x => clusterFunction S s b x * clusterFunction phi s x codes).sum := by
  intro bits
  induction bits with
  | nil =>
    intro s b codes h1 h2 _
    have e1 : b = [] := List.length_eq_zero_iff.1 h1
    have e2 : codes = [] := List.length_eq_zero_iff.1 h2
    subst e1 e2
    simp [lexProduct, clusterFunction]
  | cons l bits ih =>
    intro s b codes h1 h2 h
    match b, codes with
    | [], _ => simp at h1
    | _ :: _, [] => simp at h2
    | y :: b, c :: codes =>
      have htail := ih (s + 1) b codes (by simpa using h1) (by simpa using h2) (by
        intro i hi
        have := h (i + 1) (by simpa using hi)
        simp only [List.getD_cons_succ] at this
        have e : s + 1 + i = s + (i + 1) := by omega
        rw [e, this])
      have hhead := h 0 (by simp)
      simp only [List.getD_cons_zero, Nat.add_zero] at hhead
      rw [clusterFunction, hhead, htail, lexProduct, List.map_flatMap, sum_flatMapR,
        ← List.sum_map_mul_right]
      congr 1
      apply List.map_congr_left
      intro x _
      rw [List.map_map, ← List.sum_map_mul_left]
      congr 1
      apply List.map_congr_left
      intro r _
      simp only [Function.comp_apply, clusterFunction]
      ring

end Smol
