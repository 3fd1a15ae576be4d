import Verif.Lemmas.OrbitSearch
import Mathlib.Data.Rat.Floor
import Mathlib.Tactic.FinCases
import Mathlib.Tactic.NormNum
import Mathlib.Tactic.IntervalCases

/-!
# Crystals for examples, and a cubic crystal whose search is incomplete
-/

set_option linter.unusedSectionVars false

namespace Smol
open Spec

section ops
variable {d : ℕ} {K : Type*} [Field K] [CharZero K]

/-- The operations with given matrices that fix the origin. -/
def intOps (K : Type*) [Field K] (Ms : List (Fin d → Fin d → ℤ)) : List (SymmOp d K) :=
  Ms.map fun M => ⟨fun i j => (M i j : K), fun _ => 0⟩

theorem intOps_group {Ms : List (Fin d → Fin d → ℤ)} (hnd : Ms.Nodup)
    (hone : (fun i j => if i = j then 1 else 0) ∈ Ms)
    (hmul : ∀ M ∈ Ms, ∀ N ∈ Ms, (fun i j => ∑ k, M i k * N k j) ∈ Ms)
    (hinv : ∀ M ∈ Ms, ∃ N ∈ Ms, (fun i j => ∑ k, N i k * M k j)
      = (fun i j => if i = j then (1 : ℤ) else 0)) : SpaceGroup (intOps K Ms) := by
  have hcomp : ∀ (M N : Fin d → Fin d → ℤ) (x : Fin d → K),
      SymmOp.operate (⟨fun i j => (M i j : K), fun _ => 0⟩ : SymmOp d K)
        (SymmOp.operate (⟨fun i j => (N i j : K), fun _ => 0⟩ : SymmOp d K) x)
      = SymmOp.operate (⟨fun i j => ((∑ k, M i k * N k j : ℤ) : K), fun _ => 0⟩ : SymmOp d K) x := by
    intro M N x
    funext i
    simp only [SymmOp.operate, add_zero]
    push_cast
    simp only [Finset.sum_mul, Finset.mul_sum]
    rw [Finset.sum_comm]
    exact Finset.sum_congr rfl fun _ _ => Finset.sum_congr rfl fun _ _ => by ring
  have hid : ∀ x : Fin d → K, SymmOp.operate
      (⟨fun i j => ((if i = j then (1 : ℤ) else 0 : ℤ) : K), fun _ => 0⟩ : SymmOp d K) x = x := by
    intro x
    funext i
    simp [SymmOp.operate]
  constructor
  · intro g hg i j
    obtain ⟨M, _, rfl⟩ := List.mem_map.1 hg
    exact ⟨M i j, rfl⟩
  · refine ⟨_, List.mem_map.2 ⟨_, hone, rfl⟩, fun _ => 0, fun x => ?_⟩
    rw [shift_zero]
    exact hid x
  · intro g hg h hh
    obtain ⟨M, hM, rfl⟩ := List.mem_map.1 hg
    obtain ⟨N, hN, rfl⟩ := List.mem_map.1 hh
    refine ⟨_, List.mem_map.2 ⟨_, hmul M hM N hN, rfl⟩, fun _ => 0, fun x => ?_⟩
    rw [shift_zero]
    exact hcomp M N x
  · intro g hg
    obtain ⟨M, hM, rfl⟩ := List.mem_map.1 hg
    obtain ⟨N, hN, h⟩ := hinv M hM
    refine ⟨_, List.mem_map.2 ⟨_, hN, rfl⟩, fun _ => 0, fun x => ?_⟩
    rw [shift_zero, hcomp]
    have h' : ∀ i j, ∑ k, N i k * M k j = if i = j then (1 : ℤ) else 0 := fun i j =>
      congrFun (congrFun h i) j
    simp only [h']
    exact hid x
  · rw [intOps, List.pairwise_map]
    refine hnd.imp ?_
    rintro M N hne ⟨T, hT⟩
    apply hne
    have h0 : ∀ i, (T i : K) = 0 := by
      intro i
      have := congrFun (hT fun _ => 0) i
      simp only [SymmOp.operate, shift, mul_zero, Finset.sum_const_zero, add_zero, zero_add] at this
      exact this.symm
    funext i j
    have := congrFun (hT fun k => if k = j then 1 else 0) i
    simp only [SymmOp.operate, shift, h0, mul_ite, mul_one, mul_zero, Finset.sum_ite_eq',
      Finset.mem_univ, if_true, add_zero] at this
    exact_mod_cast this

end ops

/-! ## A cubic crystal with a site in the middle of the cell -/

/-- The cubic lattice with constant 1. -/
def cubic : Fin 3 → Fin 3 → ℚ := fun i j => if i = j then 1 else 0

/-- One site in the middle of the cell, with two species. -/
def midSite : List ((Fin 3 → ℚ) × ℕ) := [(fun _ => 1 / 2, 1)]

/-- The site at an integer offset. -/
def pos (m : Fin 3 → ℤ) : Fin 3 → ℚ := fun i => 1 / 2 + m i

theorem isSite_mid {x : Fin 3 → ℚ} {n : ℕ} : IsSite midSite x n ↔ n = 1 ∧ ∃ m, x = pos m := by
  unfold IsSite midSite pos shift
  constructor
  · rintro ⟨s, hs, rfl, T, rfl⟩
    rw [List.mem_singleton] at hs
    subst hs
    exact ⟨rfl, T, rfl⟩
  · rintro ⟨rfl, m, rfl⟩
    exact ⟨_, List.mem_singleton.2 rfl, rfl, m, rfl⟩

theorem pos_inj {m n : Fin 3 → ℤ} (h : pos m = pos n) : m = n := by
  funext i
  have := congrFun h i
  simp only [pos, add_right_inj, Int.cast_inj] at this
  exact this

theorem cart_cubic (x : Fin 3 → ℚ) : cart cubic x = x := by
  funext k
  simp [cart, cubic]

theorem sqDist_pos (m n : Fin 3 → ℤ) :
    sqDist cubic (pos m) (pos n) = ((∑ i, (m i - n i) ^ 2 : ℤ) : ℚ) := by
  simp only [sqDist, cart_cubic, pos]
  push_cast
  exact Finset.sum_congr rfl fun i _ => by ring

theorem sqDist_centre (m : Fin 3 → ℤ) :
    sqDist cubic (pos m) (fun _ => 1 / 2) = ((∑ i, (m i) ^ 2 : ℤ) : ℚ) := by
  have := sqDist_pos m fun _ => 0
  have e : pos (fun _ => 0) = fun _ => 1 / 2 := by
    funext i
    simp [pos]
  rw [e] at this
  simpa using this

/-- The regular tetrahedron inscribed in the cube. -/
def tetra : List (Fin 3 → ℚ) :=
  [pos ![0, 0, 0], pos ![0, 1, 1], pos ![1, 0, 1], pos ![1, 1, 0]]

/-- A property of the tetrahedron and all its images: along every axis, two vertices are on either
side. -/
def Split (A : List (Fin 3 → ℚ)) : Prop :=
  A.length = 4 ∧ ∀ x ∈ A, ∀ i, (4 * x i - (A.map fun z => z i).sum) ^ 2 = 4

theorem tetra_split : Split tetra := by
  refine ⟨rfl, ?_⟩
  intro x hx i
  simp only [tetra, List.mem_cons, List.not_mem_nil, or_false] at hx
  rcases hx with rfl | rfl | rfl | rfl <;> fin_cases i <;> norm_num [tetra, pos]

theorem Split.translated {A B : List (Fin 3 → ℚ)} (h : Split B) (ht : Translated A B) : Split A := by
  obtain ⟨T, ht⟩ := ht
  refine ⟨by rw [ht.length_eq, List.length_map, h.1], ?_⟩
  intro x hx i
  obtain ⟨y, hy, rfl⟩ := List.mem_map.1 (ht.mem_iff.1 hx)
  rw [(ht.map fun z => z i).sum_eq, List.map_map]
  have : ∀ l : List (Fin 3 → ℚ), (l.map ((fun z => z i) ∘ shift T)).sum
      = (l.map fun z => z i).sum + l.length * T i := by
    intro l
    induction l with
    | nil => simp
    | cons x l ih =>
      rw [List.map_cons, List.sum_cons, ih]
      simp only [List.map_cons, List.sum_cons, Function.comp, List.length_cons, shift]
      push_cast
      ring
  rw [this, h.1]
  have h2 := h.2 y hy i
  simp only [shift]
  calc _ = (4 * y i - (B.map fun z => z i).sum) ^ 2 := by push_cast; ring
    _ = 4 := h2

/-- An operation that permutes the axes and reverses some. -/
def Signed (g : SymmOp 3 ℚ) : Prop :=
  ∀ i, ∃ j, ∃ s : ℚ, s ^ 2 = 1 ∧ ∀ k, g.rot i k = if k = j then s else 0

theorem Split.map {B : List (Fin 3 → ℚ)} (h : Split B) {g : SymmOp 3 ℚ} (hg : Signed g) :
    Split (B.map g.operate) := by
  refine ⟨by rw [List.length_map, h.1], ?_⟩
  intro x hx i
  obtain ⟨y, hy, rfl⟩ := List.mem_map.1 hx
  obtain ⟨j, s, hs, hj⟩ := hg i
  have hop : ∀ z : Fin 3 → ℚ, g.operate z i = s * z j + g.trans i := by
    intro z
    simp [SymmOp.operate, hj]
  rw [List.map_map]
  have : ∀ l : List (Fin 3 → ℚ), (l.map ((fun z => z i) ∘ g.operate)).sum
      = s * (l.map fun z => z j).sum + l.length * g.trans i := by
    intro l
    induction l with
    | nil => simp
    | cons x l ih =>
      rw [List.map_cons, List.sum_cons, ih]
      simp only [List.map_cons, List.sum_cons, Function.comp, List.length_cons, hop]
      push_cast
      ring
  rw [this, h.1, hop]
  have h2 := h.2 y hy j
  calc _ = s ^ 2 * (4 * y j - (B.map fun z => z j).sum) ^ 2 := by push_cast; ring
    _ = 4 := by rw [hs, h2, one_mul]

/-- Whatever triangle with centroid in the cell is completed to a tetrahedron, the fourth vertex is
far from the middle of the cell. -/
theorem split_far {o : List (Fin 3 → ℚ)} {y : Fin 3 → ℤ} (hl : o.length = 3) (hin : InCell o)
    (ho : ∀ x ∈ o, ∃ m, x = pos m) (h : Split (o ++ [pos y])) : 3 ≤ ∑ i, (y i) ^ 2 := by
  have key : ∀ i, 1 ≤ (y i) ^ 2 := by
    intro i
    obtain ⟨a, b, c, rfl⟩ := List.length_eq_three.1 hl
    obtain ⟨ma, rfl⟩ := ho a (by simp)
    obtain ⟨mb, rfl⟩ := ho b (by simp)
    obtain ⟨mc, rfl⟩ := ho c (by simp)
    have h1 := (hin i).1
    have h2 := (hin i).2
    have h3 := h.2 (pos y) (by simp) i
    simp only [centroid, pos, List.map_cons, List.map_nil, List.sum_cons, List.sum_nil,
      List.length_cons, List.length_nil, List.cons_append, List.nil_append] at h1 h2 h3
    set s : ℤ := ma i + mb i + mc i with hs
    have hsq : (s : ℚ) = ma i + mb i + mc i := by rw [hs]; push_cast; ring
    have h1' : (-2 : ℚ) < s := by
      rw [le_div_iff₀ (by norm_num)] at h1
      push_cast at h1
      linarith
    have h2' : (s : ℚ) < 2 := by
      rw [div_lt_iff₀ (by norm_num)] at h2
      push_cast at h2
      linarith
    have h3' : ((3 * y i - s : ℤ) : ℚ) ^ 2 = 4 := by
      push_cast
      rw [hsq, ← h3]
      ring
    have e1 : -2 < s := by exact_mod_cast h1'
    have e2 : s < 2 := by exact_mod_cast h2'
    have e3 : (3 * y i - s) ^ 2 = 4 := by exact_mod_cast h3'
    have hy0 : y i ≠ 0 := by
      intro h0
      rw [h0] at e3
      interval_cases s <;> simp at e3
    have : 0 < (y i) ^ 2 := by positivity
    omega
  have := key 0
  have := key 1
  have := key 2
  rw [Fin.sum_univ_three]
  omega

/-! ### The search returns -/

/-- A third site for every pair. -/
theorem third_site : ∀ k1 k2 : Fin 3 → Fin 2, k1 ≠ k2 →
    ∑ i, ((k1 i : ℕ) - (k2 i : ℕ) : ℤ) ^ 2 ≤ 2 → ∃ y : Fin 3 → Fin 2, y ≠ k1 ∧ y ≠ k2 ∧
    ∑ i, ((y i : ℕ) - (k1 i : ℕ) : ℤ) ^ 2 ≤ 2 ∧ ∑ i, ((y i : ℕ) - (k2 i : ℕ) : ℤ) ^ 2 ≤ 2 ∧
    ∑ i, ((y i : ℕ) : ℤ) ^ 2 ≤ 2 := by
  decide +kernel

/-- The isometries of the cubic lattice permute and reverse the axes. -/
theorem signed_of_isometry {g : SymmOp 3 ℚ} (hint : ∀ i j, ∃ z : ℤ, g.rot i j = z)
    (hiso : ∀ x y, sqDist cubic (g.operate x) (g.operate y) = sqDist cubic x y) : Signed g := by
  choose R hR using hint
  have hq : ∀ x : Fin 3 → ℚ, ∑ i, (∑ j, g.rot i j * x j) ^ 2 = ∑ j, (x j) ^ 2 := by
    intro x
    have := hiso x fun _ => 0
    simpa [sqDist, cart_cubic, SymmOp.operate] using this
  have hcol : ∀ j, ∑ i, (R i j) ^ 2 = 1 := by
    intro j
    have := hq fun k => if k = j then 1 else 0
    simp only [hR, mul_ite, mul_one, mul_zero, Finset.sum_ite_eq', Finset.mem_univ, if_true,
      ite_pow, one_pow, ne_eq, OfNat.ofNat_ne_zero, not_false_eq_true, zero_pow] at this
    exact_mod_cast this
  have hort : ∀ j k, j ≠ k → ∑ i, R i j * R i k = 0 := by
    intro j k hjk
    have h := hq fun l => (if l = j then 1 else 0) + (if l = k then 1 else 0)
    have e1 : ∀ i, ∑ l, g.rot i l * ((if l = j then 1 else 0) + (if l = k then 1 else 0))
        = ((R i j + R i k : ℤ) : ℚ) := by
      intro i
      simp [hR, mul_add, Finset.sum_add_distrib]
    simp only [e1] at h
    have e2 : ∑ l : Fin 3, ((if l = j then (1 : ℚ) else 0) + (if l = k then 1 else 0)) ^ 2 = 2 := by
      have : ∀ l : Fin 3, ((if l = j then (1 : ℚ) else 0) + (if l = k then 1 else 0)) ^ 2
          = (if l = j then 1 else 0) + (if l = k then 1 else 0) := by
        intro l
        by_cases h1 : l = j
        · subst h1
          simp [hjk]
        · simp [h1]
      simp only [this, Finset.sum_add_distrib]
      simp
      norm_num
    rw [e2] at h
    have h' : ∑ i, (R i j + R i k) ^ 2 = 2 := by exact_mod_cast h
    have hj := hcol j
    have hk := hcol k
    have : ∑ i, (R i j + R i k) ^ 2
        = ∑ i, (R i j) ^ 2 + 2 * ∑ i, R i j * R i k + ∑ i, (R i k) ^ 2 := by
      rw [Finset.mul_sum, ← Finset.sum_add_distrib, ← Finset.sum_add_distrib]
      exact Finset.sum_congr rfl fun i _ => by ring
    omega
  -- the row of the only entry of a column
  have hrow : ∀ j, ∃ i, (R i j) ^ 2 = 1 ∧ ∀ i', i' ≠ i → R i' j = 0 := by
    intro j
    have hj := hcol j
    rw [Fin.sum_univ_three] at hj
    have h0 := sq_nonneg (R 0 j)
    have h1 := sq_nonneg (R 1 j)
    have h2 := sq_nonneg (R 2 j)
    rcases (by omega : (R 0 j ^ 2 = 1 ∧ R 1 j ^ 2 = 0 ∧ R 2 j ^ 2 = 0) ∨
      (R 0 j ^ 2 = 0 ∧ R 1 j ^ 2 = 1 ∧ R 2 j ^ 2 = 0) ∨
      (R 0 j ^ 2 = 0 ∧ R 1 j ^ 2 = 0 ∧ R 2 j ^ 2 = 1)) with ⟨a, b, c⟩ | ⟨a, b, c⟩ | ⟨a, b, c⟩
    · refine ⟨0, a, ?_⟩
      intro i' hi'
      fin_cases i'
      · exact absurd rfl hi'
      · exact pow_eq_zero_iff (by norm_num) |>.1 b
      · exact pow_eq_zero_iff (by norm_num) |>.1 c
    · refine ⟨1, b, ?_⟩
      intro i' hi'
      fin_cases i'
      · exact pow_eq_zero_iff (by norm_num) |>.1 a
      · exact absurd rfl hi'
      · exact pow_eq_zero_iff (by norm_num) |>.1 c
    · refine ⟨2, c, ?_⟩
      intro i' hi'
      fin_cases i'
      · exact pow_eq_zero_iff (by norm_num) |>.1 a
      · exact pow_eq_zero_iff (by norm_num) |>.1 b
      · exact absurd rfl hi'
  choose σ hσ1 hσ0 using hrow
  have hinj : Function.Injective σ := by
    intro j k hjk
    by_contra hne
    have h := hort j k hne
    rw [Finset.sum_eq_single (σ j)] at h
    · have a := hσ1 j
      have b := hσ1 k
      rw [← hjk] at b
      rcases mul_eq_zero.1 h with h | h
      · rw [h] at a
        simp at a
      · rw [h] at b
        simp at b
    · intro i _ hi
      rw [hσ0 j i hi, zero_mul]
    · simp
  have hsurj : Function.Surjective σ := Finite.surjective_of_injective hinj
  intro i
  obtain ⟨j, rfl⟩ := hsurj i
  refine ⟨j, R (σ j) j, by exact_mod_cast hσ1 j, ?_⟩
  intro k
  split
  · next h => rw [h, hR]
  · next h =>
    rw [hR, hσ0 k (σ j) (fun he => h (hinj he).symm)]
    simp

theorem within_pos {D : ℚ} (hD : 0 ≤ D) {ms : List (Fin 3 → ℤ)}
    (h : ∀ m ∈ ms, ∀ n ∈ ms, ((∑ i, (m i - n i) ^ 2 : ℤ) : ℚ) ≤ D ^ 2) :
    Within cubic D (ms.map pos) := by
  refine ⟨hD, ?_⟩
  intro x hx y hy
  obtain ⟨m, hm, rfl⟩ := List.mem_map.1 hx
  obtain ⟨n, hn, rfl⟩ := List.mem_map.1 hy
  rw [sqDist_pos]
  exact h m hm n hn

theorem GoodOrbit.positions {n : ℕ} {o : GenOrbit 3 ℚ} (h : GoodOrbit midSite n o) :
    ∃ ms : List (Fin 3 → ℤ), ms.length = n ∧ ms.Nodup ∧ o.coords = ms.map pos := by
  have hall : ∀ l : List (Fin 3 → ℚ), (∀ x ∈ l, ∃ m, x = pos m) →
      ∃ ms : List (Fin 3 → ℤ), l = ms.map pos := by
    intro l
    induction l with
    | nil => exact fun _ => ⟨[], rfl⟩
    | cons x l ih =>
      intro hl
      obtain ⟨m, rfl⟩ := hl x (by simp)
      obtain ⟨ms, rfl⟩ := ih fun z hz => hl z (by simp [hz])
      exact ⟨m :: ms, rfl⟩
  obtain ⟨ms, hms⟩ := hall o.coords fun x hx => by
    obtain ⟨n, hn⟩ := h.isCluster.2 x hx
    exact (isSite_mid.1 hn).2
  refine ⟨ms, ?_, ?_, hms⟩
  · have := h.length
    rwa [hms, List.length_map] at this
  · have := h.nodup
    rw [hms] at this
    exact this.of_map

theorem cubic_run {ops : List (SymmOp 3 ℚ)} (X : Crystal cubic ops midSite)
    {sphere : ℚ → List ((Fin 3 → ℚ) × ℕ)}
    (hs : SphereSearch cubic midSite (1 / 10 ^ 6) sphere) :
    ∃ r, genFromCutoffs cubic (1 / 10 ^ 8) ops midSite sphere none
        [(2, 3 / 2), (3, 3 / 2), (4, 3 / 2)] = .ok r ∧
      ∀ o ∈ ofSize r 4, ¬ SymEquiv ops tetra o.coords := by
  have G := X.group
  have hss : ∀ D y n, (y, n) ∈ sphere D → IsSite midSite y n := fun D y n h => ((hs D y n).1 h).1
  have hsph : ∀ y : Fin 3 → ℤ, ∑ i, (y i) ^ 2 ≤ 2 → (pos y, 1) ∈ sphere (3 / 2) := by
    intro y hy
    rw [hs]
    refine ⟨isSite_mid.2 ⟨rfl, y, rfl⟩, by norm_num, ?_⟩
    rw [sqDist_centre]
    calc ((∑ i, (y i) ^ 2 : ℤ) : ℚ) ≤ ((2 : ℤ) : ℚ) := by exact_mod_cast hy
      _ ≤ _ := by norm_num
  obtain ⟨pts, p1, p2, p3, p4⟩ := genPointOrbits_spec G midSite
  set cs : List (ℕ × ℚ) := [(2, 3 / 2), (3, 3 / 2), (4, 3 / 2)] with hcs
  have hrun : genFromCutoffs cubic (1 / 10 ^ 8) ops midSite sphere none cs =
      cs.foldlM (genSize cubic (1 / 10 ^ 8) ops sphere) [(1, pts)] := by
    unfold genFromCutoffs
    rw [p1]
    rfl
  have hr0 : ∀ e ∈ [(1, pts)], GoodEntry cubic (1 / 10 ^ 8) ops midSite sphere cs e := by
    intro e he
    rw [List.mem_singleton] at he
    subst he
    exact ⟨le_refl _, p2, Or.inl rfl, p4, Or.inl rfl, Or.inl rfl, Or.inl rfl⟩
  -- pairs
  have hs2 := genSize_good G hss (c := (2, 3 / 2)) (by simp [hcs]) hr0
  rcases hs2 with ⟨-, h⟩ | ⟨prev2, new2, hl2, -, a1, a2, a3, a4⟩
  · simp at h
  have hprev2 : prev2 = pts := by simpa using hl2.symm
  subst hprev2
  have hne2 : new2 ≠ [] := by
    obtain ⟨o, ho, -⟩ := p3 [pos ![0, 0, 0]] ⟨by simp, fun x hx => ⟨1, by
      rw [List.mem_singleton] at hx
      exact isSite_mid.2 ⟨rfl, _, hx⟩⟩⟩ rfl
    have hgo := p2 o ho
    obtain ⟨ms, hl, -, hms⟩ := hgo.positions
    obtain ⟨m, rfl⟩ := List.length_eq_one_iff.1 hl
    have hm0 : m = ![0, 0, 0] := by
      funext i
      have h1 := (hgo.inCell i).1
      have h2 := (hgo.inCell i).2
      rw [hms] at h1 h2
      simp only [centroid, pos, List.map_cons, List.map_nil, List.sum_cons, List.sum_nil,
        List.length_cons, List.length_nil] at h1 h2
      norm_num at h1 h2
      have e1 : -1 < m i := by
        have : (-1 : ℚ) < m i := by linarith
        exact_mod_cast this
      have e2 : m i < 1 := by
        have : (m i : ℚ) < 1 := by linarith
        exact_mod_cast this
      have : m i = 0 := by omega
      rw [this]
      fin_cases i <;> rfl
    subst hm0
    have hc := mem_candidates (lattice := cubic) (eps := 1 / 10 ^ 8) (cut := 3 / 2) ho
      (by rw [hms]; exact within_pos (by norm_num) (by simp; norm_num))
      (hsph ![1, 0, 0] (by decide)) (by
        rw [hms]
        simp only [List.map_cons, List.map_nil, List.mem_singleton]
        intro h
        exact absurd (pos_inj h) (by decide))
      (by
        rw [hms]
        exact within_pos (ms := [![0, 0, 0], ![1, 0, 0]]) (by norm_num) (by
          simp [Fin.sum_univ_three]; norm_num))
    obtain ⟨o', ho', -⟩ := a4 _ hc
    exact List.ne_nil_of_mem ho'
  have he2 : new2.isEmpty = false := by
    rw [← Bool.not_eq_true, List.isEmpty_iff]
    exact hne2
  simp only [he2, Bool.false_eq_true, if_false] at a1 a2
  -- triplets
  rcases genSize_good G hss (c := (3, 3 / 2)) (by simp [hcs]) a2 with
    ⟨-, h⟩ | ⟨prev3, new3, hl3, -, b1, b2, b3, b4⟩
  · simp [List.lookup] at h
  have hprev3 : prev3 = new2 := by simpa [List.lookup] using hl3.symm
  subst hprev3
  have hne3 : new3 ≠ [] := by
    obtain ⟨o, ho⟩ := List.exists_mem_of_ne_nil _ hne2
    have hgo := a3 o ho
    obtain ⟨ms, hl, hnd, hms⟩ := hgo.positions
    obtain ⟨m, n, rfl⟩ := List.length_eq_two.1 hl
    have hmn : m ≠ n := by simpa using hnd
    have hw : ∑ i, (m i - n i) ^ 2 ≤ 2 := by
      obtain ⟨D, hD, hw⟩ := (a2 (2, prev3) (by simp)).within.resolve_left (by simp)
      have hD' : D = 3 / 2 := by simpa [hcs] using hD
      subst hD'
      have := (hw o ho).2 (pos m) (by rw [hms]; simp) (pos n) (by rw [hms]; simp)
      rw [sqDist_pos] at this
      have h3 : ((∑ i, (m i - n i) ^ 2 : ℤ) : ℚ) < ((3 : ℤ) : ℚ) := lt_of_le_of_lt this (by norm_num)
      have := Int.cast_lt.1 h3
      omega
    have hcell : ∀ i, -2 < m i + n i ∧ m i + n i < 1 := by
      intro i
      have h1 := (hgo.inCell i).1
      have h2 := (hgo.inCell i).2
      rw [hms] at h1 h2
      simp only [centroid, pos, List.map_cons, List.map_nil, List.sum_cons, List.sum_nil,
        List.length_cons, List.length_nil] at h1 h2
      rw [le_div_iff₀ (by norm_num)] at h1
      rw [div_lt_iff₀ (by norm_num)] at h2
      push_cast at h1 h2
      constructor
      · have : (-2 : ℚ) < ((m i + n i : ℤ) : ℚ) := by push_cast; linarith
        exact_mod_cast this
      · have : ((m i + n i : ℤ) : ℚ) < 1 := by push_cast; linarith
        exact_mod_cast this
    have hdiff : ∀ i, -1 ≤ m i - n i ∧ m i - n i ≤ 1 := by
      intro i
      have h1 : (m i - n i) ^ 2 ≤ ∑ i, (m i - n i) ^ 2 :=
        Finset.single_le_sum (f := fun i => (m i - n i) ^ 2) (fun j _ => sq_nonneg _)
          (Finset.mem_univ i)
      constructor <;> nlinarith
    have hm : ∀ i, ∃ k : Fin 2, m i = -((k : ℕ) : ℤ) := by
      intro i
      have := hcell i
      have := hdiff i
      rcases (by omega : m i = 0 ∨ m i = -1) with h | h
      · exact ⟨0, by simp [h]⟩
      · exact ⟨1, by simp [h]⟩
    have hn : ∀ i, ∃ k : Fin 2, n i = -((k : ℕ) : ℤ) := by
      intro i
      have := hcell i
      have := hdiff i
      rcases (by omega : n i = 0 ∨ n i = -1) with h | h
      · exact ⟨0, by simp [h]⟩
      · exact ⟨1, by simp [h]⟩
    choose k1 hk1 using hm
    choose k2 hk2 using hn
    have hk : k1 ≠ k2 := by
      rintro rfl
      exact hmn (funext fun i => by rw [hk1, hk2])
    have hsq : ∀ a b : Fin 3 → Fin 2, ∑ i, (-((a i : ℕ) : ℤ) - -((b i : ℕ) : ℤ)) ^ 2
        = ∑ i, ((a i : ℕ) - (b i : ℕ) : ℤ) ^ 2 := fun a b =>
      Finset.sum_congr rfl fun i _ => by ring
    obtain ⟨y, hy1, hy2, hd1, hd2, hd0⟩ := third_site k1 k2 hk (by
      rw [← hsq]
      simpa only [hk1, hk2] using hw)
    set z : Fin 3 → ℤ := fun i => -((y i : ℕ) : ℤ) with hz
    have hz0 : ∑ i, (z i) ^ 2 ≤ 2 := by
      have : ∑ i, (z i) ^ 2 = ∑ i, ((y i : ℕ) : ℤ) ^ 2 :=
        Finset.sum_congr rfl fun i _ => by rw [hz]; ring
      rw [this]
      exact hd0
    have hzm : ∑ i, (z i - m i) ^ 2 ≤ 2 := by
      have : ∑ i, (z i - m i) ^ 2 = ∑ i, ((y i : ℕ) - (k1 i : ℕ) : ℤ) ^ 2 := by
        rw [← hsq]
        exact Finset.sum_congr rfl fun i _ => by rw [hz, hk1]
      rw [this]
      exact hd1
    have hzn : ∑ i, (z i - n i) ^ 2 ≤ 2 := by
      have : ∑ i, (z i - n i) ^ 2 = ∑ i, ((y i : ℕ) - (k2 i : ℕ) : ℤ) ^ 2 := by
        rw [← hsq]
        exact Finset.sum_congr rfl fun i _ => by rw [hz, hk2]
      rw [this]
      exact hd2
    have hneq : ∀ (k : Fin 3 → Fin 2) (m : Fin 3 → ℤ), (∀ i, m i = -((k i : ℕ) : ℤ)) → y ≠ k →
        z ≠ m := by
      intro k m hk hyk h
      apply hyk
      funext i
      have := congrFun h i
      rw [hk i] at this
      simp only [hz] at this
      omega
    have hpair : ∀ u v : Fin 3 → ℤ, ∑ i, (u i - v i) ^ 2 ≤ 2 →
        ((∑ i, (u i - v i) ^ 2 : ℤ) : ℚ) ≤ (3 / 2) ^ 2 ∧
        ((∑ i, (v i - u i) ^ 2 : ℤ) : ℚ) ≤ (3 / 2) ^ 2 := by
      intro u v h
      have e : ∑ i, (v i - u i) ^ 2 = ∑ i, (u i - v i) ^ 2 :=
        Finset.sum_congr rfl fun i _ => by ring
      rw [e, and_self]
      calc ((∑ i, (u i - v i) ^ 2 : ℤ) : ℚ) ≤ ((2 : ℤ) : ℚ) := by exact_mod_cast h
        _ ≤ _ := by norm_num
    have hself : ∀ u : Fin 3 → ℤ, ((∑ i, (u i - u i) ^ 2 : ℤ) : ℚ) ≤ (3 / 2) ^ 2 := by
      intro u
      simp
      norm_num
    have hw3 : Within cubic (3 / 2) ([m, n, z].map pos) := by
      refine within_pos (by norm_num) ?_
      intro u hu v hv
      simp only [List.mem_cons, List.not_mem_nil, or_false] at hu hv
      rcases hu with rfl | rfl | rfl <;> rcases hv with rfl | rfl | rfl
      · exact hself _
      · exact (hpair _ _ hw).1
      · exact (hpair _ _ hzm).2
      · exact (hpair _ _ hw).2
      · exact hself _
      · exact (hpair _ _ hzn).2
      · exact (hpair _ _ hzm).1
      · exact (hpair _ _ hzn).1
      · exact hself _
    have hc := mem_candidates (lattice := cubic) (eps := 1 / 10 ^ 8) (cut := 3 / 2) ho
      (by rw [hms]; exact hw3.subset (by simp)) (hsph z hz0) (by
        rw [hms]
        simp only [List.map_cons, List.map_nil, List.mem_cons, List.not_mem_nil, or_false, not_or]
        exact ⟨fun h => hneq k1 m hk1 hy1 (pos_inj h), fun h => hneq k2 n hk2 hy2 (pos_inj h)⟩)
      (by
        rw [hms]
        exact hw3.mono (by norm_num))
    obtain ⟨o', ho', -⟩ := b4 _ hc
    exact List.ne_nil_of_mem ho'
  have he3 : new3.isEmpty = false := by
    rw [← Bool.not_eq_true, List.isEmpty_iff]
    exact hne3
  simp only [he3, Bool.false_eq_true, if_false] at b1 b2
  -- quadruplets
  rcases genSize_good G hss (c := (4, 3 / 2)) (by simp [hcs]) b2 with
    ⟨-, h⟩ | ⟨prev4, new4, -, -, c1, c2, -, -⟩
  · simp [List.lookup] at h
  refine ⟨if new4.isEmpty = true then [(1, prev2)] ++ [(2, prev3)] ++ [(3, new3)]
    else [(1, prev2)] ++ [(2, prev3)] ++ [(3, new3)] ++ [(4, new4)], ?_, ?_⟩
  · rw [hrun, hcs]
    simp only [List.foldlM_cons, List.foldlM_nil, bind, Except.bind, a1, b1, c1, pure, Except.pure]
  · intro o ho hequiv
    unfold ofSize at ho
    rcases hlk : List.lookup 4 (if new4.isEmpty = true then [(1, prev2)] ++ [(2, prev3)] ++ [(3, new3)]
      else [(1, prev2)] ++ [(2, prev3)] ++ [(3, new3)] ++ [(4, new4)]) with _ | os
    · rw [hlk] at ho
      simp at ho
    · rw [hlk] at ho
      simp only [Option.getD_some] at ho
      have hge := c2 _ (mem_of_lookup hlk)
      obtain ⟨D, prev, hD, hprev, hor⟩ := hge.origin.resolve_left (by simp)
      have hD' : D = 3 / 2 := by simpa [hcs] using hD
      subst hD'
      obtain ⟨p, hp, y, m, hy, -, hoc⟩ := of_mem_candidates (hor o ho)
      have hgp := hprev p hp
      obtain ⟨hysite, -, hyd⟩ := (hs _ _ _).1 hy
      obtain ⟨-, k, rfl⟩ := isSite_mid.1 hysite
      have hsplit : Split (p.coords ++ [pos k]) := by
        have h1 : SymEquiv ops o.coords tetra := SymEquiv.symm G hequiv
        obtain ⟨g, hg, ht⟩ := h1
        have h2 : Split o.coords :=
          (tetra_split.map (signed_of_isometry (G.int g hg) (X.isometry g hg))).translated ht
        rw [hoc] at h2
        exact h2.translated (mkCluster_translated _).symm
      have hfar := split_far hgp.length hgp.inCell (fun x hx => by
        obtain ⟨n, hn⟩ := hgp.isCluster.2 x hx
        exact (isSite_mid.1 hn).2) hsplit
      rw [sqDist_centre] at hyd
      have h3 : ((3 : ℤ) : ℚ) ≤ ((∑ i, (k i) ^ 2 : ℤ) : ℚ) := by exact_mod_cast hfar
      have := h3.trans hyd
      norm_num at this

end Smol
