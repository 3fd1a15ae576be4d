import Verif.Model.Supercell
import Verif.Spec.Supercell
import Mathlib.LinearAlgebra.Matrix.Adjugate
import Mathlib.Algebra.Group.Subgroup.Basic
import Mathlib.GroupTheory.Archimedean
import Mathlib.Algebra.BigOperators.Field
import Mathlib.Tactic.LinearCombination
import Mathlib.Tactic.FinCases
import Mathlib.Data.Int.NatAbs
import Mathlib.Algebra.Order.Group.Unbundled.Int

namespace Smol
open Spec Matrix

theorem det3_eq (m : Mat3) : det3 m = m.det := by rw [det_fin_three]; rfl

theorem adj3_eq (m : Mat3) : adj3 m = m.adjugate := by
  rw [adjugate_fin_three]; rfl

theorem mem_divisorsOf {n x : ℕ} : x ∈ divisorsOf n ↔ 0 < x ∧ x ≤ n ∧ x ∣ n := by
  simp only [divisorsOf, List.mem_filter, List.mem_range'_1, decide_eq_true_eq, Nat.dvd_iff_mod_eq_zero]
  omega

theorem nodup_divisorsOf (n : ℕ) : (divisorsOf n).Nodup := (List.nodup_range').filter _

theorem mem_hermiteForms {n : ℕ} {m : Mat3} : m ∈ hermiteForms n ↔
    ∃ a b c d e f : ℕ, m = hnfOf a b c d e f ∧ 0 < n ∧ a * c * f = n ∧ b < c ∧ d < f ∧ e < f := by
  simp only [hermiteForms, List.mem_flatMap, List.mem_map, List.mem_range, mem_divisorsOf]
  constructor
  · rintro ⟨a, ⟨ha, hale, q, rfl⟩, c, ⟨hc, hcle, f, hq⟩, b, hb, d, hd, e, he, rfl⟩
    rw [Nat.mul_div_cancel_left _ ha] at hq hd he hcle ⊢
    subst hq
    rw [Nat.mul_div_cancel_left _ hc] at hd he ⊢
    refine ⟨a, b, c, d, e, f, rfl, ?_, by ring, hb, hd, he⟩
    have : 0 < f := by omega
    positivity
  · rintro ⟨a, b, c, d, e, f, rfl, hn, rfl, hb, hd, he⟩
    have ha : 0 < a := by
      rcases Nat.eq_zero_or_pos a with rfl | h
      · simp at hn
      · exact h
    have hc : 0 < c := by omega
    have hf : 0 < f := by omega
    have h1 : a * c * f / a = c * f := by rw [mul_assoc, Nat.mul_div_cancel_left _ ha]
    have h2 : c * f / c = f := Nat.mul_div_cancel_left _ hc
    refine ⟨a, ⟨ha, ?_, ⟨c * f, by ring⟩⟩, c, ⟨hc, ?_, ?_⟩, b, hb, d, ?_, e, ?_, ?_⟩
    · rw [mul_assoc]; exact Nat.le_mul_of_pos_right _ (by positivity)
    · rw [h1]; exact Nat.le_mul_of_pos_right _ hf
    · rw [h1]; exact ⟨f, rfl⟩
    · rw [h1, h2]; exact hd
    · rw [h1, h2]; exact he
    · rw [h1, h2]

theorem hnfOf_det (a b c d e f : ℕ) : (hnfOf a b c d e f).det = ((a * c * f : ℕ) : ℤ) := by
  rw [det_fin_three]
  simp [hnfOf]

theorem hnfOf_inj {a b c d e f a' b' c' d' e' f' : ℕ}
    (h : hnfOf a b c d e f = hnfOf a' b' c' d' e' f') :
    a = a' ∧ b = b' ∧ c = c' ∧ d = d' ∧ e = e' ∧ f = f' := by
  have h00 := congrFun (congrFun h 0) 0
  have h10 := congrFun (congrFun h 1) 0
  have h11 := congrFun (congrFun h 1) 1
  have h20 := congrFun (congrFun h 2) 0
  have h21 := congrFun (congrFun h 2) 1
  have h22 := congrFun (congrFun h 2) 2
  simp [hnfOf] at h00 h10 h11 h20 h21 h22
  exact ⟨h00, h10, h11, h20, h21, h22⟩

theorem mem_lattice_hnf {a b c d e f : ℕ} {v : Fin 3 → ℤ} :
    v ∈ columnLattice (hnfOf a b c d e f) ↔ ∃ k l m : ℤ, v 0 = a * k ∧ v 1 = b * k + c * l ∧
      v 2 = d * k + e * l + f * m := by
  constructor
  · rintro ⟨x, rfl⟩
    refine ⟨x 0, x 1, x 2, ?_, ?_, ?_⟩ <;>
      simp [mulVec, dotProduct, Fin.sum_univ_three, hnfOf]
  · rintro ⟨k, l, m, h0, h1, h2⟩
    refine ⟨![k, l, m], ?_⟩
    funext i
    fin_cases i <;> simp [mulVec, dotProduct, Fin.sum_univ_three, hnfOf, h0, h1, h2]

/-- A subgroup of the integers, given as a set closed under the operations, consists of the
multiples of a natural number. -/
theorem subgroup_gen (S : Set ℤ) (h0 : (0 : ℤ) ∈ S) (hadd : ∀ x ∈ S, ∀ y ∈ S, x + y ∈ S)
    (hneg : ∀ x ∈ S, -x ∈ S) : ∃ g : ℕ, ∀ x, x ∈ S ↔ (g : ℤ) ∣ x := by
  let H : AddSubgroup ℤ :=
    { carrier := S, zero_mem' := h0, add_mem' := fun {a b} ha hb => hadd a ha b hb,
      neg_mem' := fun {a} ha => hneg a ha }
  obtain ⟨g, hg⟩ := Int.subgroup_cyclic H
  refine ⟨g.natAbs, fun x => ?_⟩
  have : x ∈ S ↔ x ∈ H := Iff.rfl
  rw [this, hg, AddSubgroup.mem_closure_singleton, Int.natAbs_dvd]
  constructor
  · rintro ⟨k, rfl⟩; exact ⟨k, by rw [smul_eq_mul, mul_comm]⟩
  · rintro ⟨k, rfl⟩; exact ⟨k, by rw [smul_eq_mul, mul_comm]⟩

structure IsLattice (L : Set (Fin 3 → ℤ)) : Prop where
  zero : (0 : Fin 3 → ℤ) ∈ L
  add : ∀ x ∈ L, ∀ y ∈ L, x + y ∈ L
  neg : ∀ x ∈ L, -x ∈ L

theorem isLattice_column (m : Mat3) : IsLattice (columnLattice m) where
  zero := ⟨0, by simp⟩
  add := by
    rintro _ ⟨x, rfl⟩ _ ⟨y, rfl⟩
    exact ⟨x + y, by rw [mulVec_add]⟩
  neg := by
    rintro _ ⟨x, rfl⟩
    exact ⟨-x, by rw [mulVec_neg]⟩

theorem IsLattice.smul {L : Set (Fin 3 → ℤ)} (h : IsLattice L) (k : ℤ) {x : Fin 3 → ℤ} (hx : x ∈ L) :
    k • x ∈ L := by
  let H : AddSubgroup (Fin 3 → ℤ) :=
    { carrier := L, zero_mem' := h.zero, add_mem' := fun {a b} ha hb => h.add a ha b hb,
      neg_mem' := fun {a} ha => h.neg a ha }
  exact H.zsmul_mem hx k

theorem IsLattice.sub {L : Set (Fin 3 → ℤ)} (h : IsLattice L) {x y : Fin 3 → ℤ} (hx : x ∈ L)
    (hy : y ∈ L) : x - y ∈ L := by
  rw [sub_eq_add_neg]; exact h.add _ hx _ (h.neg _ hy)

/-- A lattice containing a positive multiple of everything has a basis in Hermite form. -/
theorem exists_hnf {L : Set (Fin 3 → ℤ)} (hL : IsLattice L) {N : ℤ} (hN : N ≠ 0)
    (hfull : ∀ v : Fin 3 → ℤ, N • v ∈ L) :
    ∃ a b c d e f : ℕ, b < c ∧ d < f ∧ e < f ∧ 0 < a ∧ L = columnLattice (hnfOf a b c d e f) := by
  obtain ⟨a, ha⟩ := subgroup_gen (fun x => ∃ y z, ![x, y, z] ∈ L)
    ⟨0, 0, by have := hL.zero; convert this using 1; funext i; fin_cases i <;> rfl⟩
    (by
      rintro x ⟨y, z, h⟩ x' ⟨y', z', h'⟩
      exact ⟨y + y', z + z', by have := hL.add _ h _ h'; simpa using this⟩)
    (by
      rintro x ⟨y, z, h⟩
      exact ⟨-y, -z, by have := hL.neg _ h; simpa using this⟩)
  obtain ⟨c, hc⟩ := subgroup_gen (fun y => ∃ z, ![0, y, z] ∈ L)
    ⟨0, by have := hL.zero; convert this using 1; funext i; fin_cases i <;> rfl⟩
    (by
      rintro x ⟨z, h⟩ x' ⟨z', h'⟩
      exact ⟨z + z', by have := hL.add _ h _ h'; simpa using this⟩)
    (by
      rintro x ⟨z, h⟩
      exact ⟨-z, by have := hL.neg _ h; simpa using this⟩)
  obtain ⟨f, hf'⟩ := subgroup_gen (fun z => ∃ _ : True, ![0, 0, z] ∈ L)
    ⟨trivial, by have := hL.zero; convert this using 1; funext i; fin_cases i <;> rfl⟩
    (by
      rintro x ⟨-, h⟩ x' ⟨-, h'⟩
      exact ⟨trivial, by have := hL.add _ h _ h'; simpa using this⟩)
    (by
      rintro x ⟨-, h⟩
      exact ⟨trivial, by have := hL.neg _ h; simpa using this⟩)
  have hf : ∀ x : ℤ, ![0, 0, x] ∈ L ↔ (f : ℤ) ∣ x := fun x =>
    ⟨fun h => (hf' x).1 ⟨trivial, h⟩, fun h => ((hf' x).2 h).2⟩
  have pos : ∀ g : ℕ, (g : ℤ) ∣ N → 0 < g := by
    intro g hg
    rcases Nat.eq_zero_or_pos g with rfl | h
    · exact absurd (zero_dvd_iff.1 (by simpa using hg)) hN
    · exact h
  have hfp : 0 < f := pos f ((hf N).1 (by
    have := hfull ![0, 0, 1]
    simpa using this))
  have hcp : 0 < c := pos c ((hc N).1 ⟨0, by
    have := hfull ![0, 1, 0]
    simpa using this⟩)
  have hap : 0 < a := pos a ((ha N).1 ⟨0, 0, by
    have := hfull ![1, 0, 0]
    simpa using this⟩)
  have vf : (![0, 0, (f : ℤ)] : Fin 3 → ℤ) ∈ L := (hf f).2 (dvd_refl _)
  obtain ⟨e0, ve0⟩ := (hc c).2 (dvd_refl _)
  obtain ⟨b0, d0, va0⟩ := (ha a).2 (dvd_refl _)
  have hfz : (0 : ℤ) < f := by exact_mod_cast hfp
  have hcz : (0 : ℤ) < c := by exact_mod_cast hcp
  -- reduce the second vector
  obtain ⟨e, he⟩ := Int.eq_ofNat_of_zero_le (Int.emod_nonneg e0 hfz.ne')
  have hef : e < f := by have := Int.emod_lt_of_pos e0 hfz; rw [he] at this; exact_mod_cast this
  have ve : (![0, (c : ℤ), (e : ℤ)] : Fin 3 → ℤ) ∈ L := by
    have := hL.sub ve0 (hL.smul (e0 / f) vf)
    convert this using 1
    rw [← he]
    have := Int.emod_add_mul_ediv e0 f
    funext i
    fin_cases i
    · simp
    · simp
    · simp
      linarith
  -- reduce the first
  obtain ⟨b, hb⟩ := Int.eq_ofNat_of_zero_le (Int.emod_nonneg b0 hcz.ne')
  have hbc : b < c := by have := Int.emod_lt_of_pos b0 hcz; rw [hb] at this; exact_mod_cast this
  have vb : ∃ d1 : ℤ, (![(a : ℤ), (b : ℤ), d1] : Fin 3 → ℤ) ∈ L := by
    have := hL.sub va0 (hL.smul (b0 / c) ve)
    refine ⟨d0 - b0 / c * e, ?_⟩
    convert this using 1
    rw [← hb]
    have := Int.emod_add_mul_ediv b0 c
    funext i
    fin_cases i
    · simp
    · simp
      linarith
    · simp
  obtain ⟨d1, vb⟩ := vb
  obtain ⟨d, hd⟩ := Int.eq_ofNat_of_zero_le (Int.emod_nonneg d1 hfz.ne')
  have hdf : d < f := by have := Int.emod_lt_of_pos d1 hfz; rw [hd] at this; exact_mod_cast this
  have vd : (![(a : ℤ), (b : ℤ), (d : ℤ)] : Fin 3 → ℤ) ∈ L := by
    have := hL.sub vb (hL.smul (d1 / f) vf)
    convert this using 1
    rw [← hd]
    have := Int.emod_add_mul_ediv d1 f
    funext i
    fin_cases i
    · simp
    · simp
    · simp
      linarith
  refine ⟨a, b, c, d, e, f, hbc, hdf, hef, hap, Set.ext fun v => ?_⟩
  rw [mem_lattice_hnf]
  constructor
  · intro hv
    have hv' : ![v 0, v 1, v 2] ∈ L := by
      convert hv using 1
      funext i; fin_cases i <;> rfl
    obtain ⟨k, hk⟩ := (ha (v 0)).1 ⟨_, _, hv'⟩
    have h1 := hL.sub hv' (hL.smul k vd)
    have h1' : ![0, v 1 - b * k, v 2 - d * k] ∈ L := by
      convert h1 using 1
      funext i; fin_cases i
      · simp [hk, mul_comm]
      · simp [mul_comm]
      · simp [mul_comm]
    obtain ⟨l, hl⟩ := (hc _).1 ⟨_, h1'⟩
    have h2 := hL.sub h1' (hL.smul l ve)
    have h2' : ![0, 0, v 2 - d * k - e * l] ∈ L := by
      convert h2 using 1
      funext i; fin_cases i
      · simp
      · simp
        linarith
      · simp [mul_comm]
    obtain ⟨m, hm⟩ := (hf _).1 h2'
    exact ⟨k, l, m, hk, by linarith, by linarith⟩
  · rintro ⟨k, l, m, h0, h1, h2⟩
    have := hL.add _ (hL.add _ (hL.smul k vd) _ (hL.smul l ve)) _ (hL.smul m vf)
    convert this using 1
    funext i; fin_cases i
    · simp [h0, mul_comm]
    · simp [h1, mul_comm]
    · simp [h2, mul_comm]

/-- Hermite forms of the same lattice are equal. -/
theorem hnf_unique {a b c d e f a' b' c' d' e' f' : ℕ} (ha : 0 < a) (hb : b < c) (hd : d < f)
    (he : e < f) (ha' : 0 < a') (hb' : b' < c') (hd' : d' < f') (he' : e' < f')
    (h : columnLattice (hnfOf a b c d e f) = columnLattice (hnfOf a' b' c' d' e' f')) :
    hnfOf a b c d e f = hnfOf a' b' c' d' e' f' := by
  have key : ∀ v : Fin 3 → ℤ, (∃ k l m : ℤ, v 0 = a * k ∧ v 1 = b * k + c * l ∧
      v 2 = d * k + e * l + f * m) ↔ ∃ k l m : ℤ, v 0 = a' * k ∧ v 1 = b' * k + c' * l ∧
      v 2 = d' * k + e' * l + f' * m := fun v => by
    rw [← mem_lattice_hnf, ← mem_lattice_hnf, h]
  have za : (a : ℤ) ≠ 0 := by exact_mod_cast ha.ne'
  have za' : (a' : ℤ) ≠ 0 := by exact_mod_cast ha'.ne'
  have zc : (c : ℤ) ≠ 0 := by have : 0 < c := by omega
                              exact_mod_cast this.ne'
  have zc' : (c' : ℤ) ≠ 0 := by have : 0 < c' := by omega
                                exact_mod_cast this.ne'
  have small : ∀ x y g : ℕ, x < g → y < g → (g : ℤ) ∣ (x : ℤ) - y → x = y := by
    intro x y g hx hy hdvd
    have h1 : |(x : ℤ) - y| < g := by rw [abs_lt]; constructor <;> omega
    have := Int.eq_zero_of_abs_lt_dvd hdvd h1
    omega
  -- the diagonals
  have e1 : a = a' := by
    obtain ⟨k, _, _, h1, -⟩ := (key ![a, b, d]).1 ⟨1, 0, 0, by simp, by simp, by simp⟩
    obtain ⟨k', _, _, h2, -⟩ := (key ![a', b', d']).2 ⟨1, 0, 0, by simp, by simp, by simp⟩
    simp at h1 h2
    exact Nat.dvd_antisymm (Int.natCast_dvd_natCast.1 (⟨k', h2⟩ : (a : ℤ) ∣ a'))
      (Int.natCast_dvd_natCast.1 (⟨k, h1⟩ : (a' : ℤ) ∣ a))
  subst e1
  have e2 : c = c' := by
    obtain ⟨k, l, _, h0, h1, -⟩ := (key ![0, c, e]).1 ⟨0, 1, 0, by simp, by simp, by simp⟩
    obtain ⟨k', l', _, h0', h1', -⟩ := (key ![0, c', e']).2 ⟨0, 1, 0, by simp, by simp, by simp⟩
    simp at h0 h1 h0' h1'
    have hk : k = 0 := by rcases h0 with h | h <;> omega
    have hk' : k' = 0 := by rcases h0' with h | h <;> omega
    subst hk hk'
    simp at h1 h1'
    exact Nat.dvd_antisymm (Int.natCast_dvd_natCast.1 (⟨l', h1'⟩ : (c : ℤ) ∣ c'))
      (Int.natCast_dvd_natCast.1 (⟨l, h1⟩ : (c' : ℤ) ∣ c))
  subst e2
  have e3 : f = f' := by
    obtain ⟨k, l, m, h0, h1, h2⟩ := (key ![0, 0, f]).1 ⟨0, 0, 1, by simp, by simp, by simp⟩
    obtain ⟨k', l', m', h0', h1', h2'⟩ := (key ![0, 0, f']).2 ⟨0, 0, 1, by simp, by simp, by simp⟩
    simp at h0 h1 h2 h0' h1' h2'
    have hk : k = 0 := by rcases h0 with h | h <;> omega
    have hk' : k' = 0 := by rcases h0' with h | h <;> omega
    subst hk hk'
    simp at h1 h1' h2 h2'
    have hl : l = 0 := by rcases h1 with h | h <;> omega
    have hl' : l' = 0 := by rcases h1' with h | h <;> omega
    subst hl hl'
    simp at h2 h2'
    exact Nat.dvd_antisymm (Int.natCast_dvd_natCast.1 (⟨m', h2'⟩ : (f : ℤ) ∣ f'))
      (Int.natCast_dvd_natCast.1 (⟨m, h2⟩ : (f' : ℤ) ∣ f))
  subst e3
  have e4 : e = e' := by
    obtain ⟨k, l, m, h0, h1, h2⟩ := (key ![0, c, e]).1 ⟨0, 1, 0, by simp, by simp, by simp⟩
    simp at h0 h1 h2
    have hk : k = 0 := by rcases h0 with h | h <;> omega
    subst hk
    simp at h1 h2
    have hl : l = 1 := by
      have : (c : ℤ) * (1 - l) = 0 := by linarith
      rcases mul_eq_zero.1 this with h | h <;> omega
    subst hl
    exact small e e' f he he' ⟨m, by linarith⟩
  subst e4
  obtain ⟨k, l, m, h0, h1, h2⟩ := (key ![a, b, d]).1 ⟨1, 0, 0, by simp, by simp, by simp⟩
  simp at h0 h1 h2
  have hk : k = 1 := by
    have : (a : ℤ) * (1 - k) = 0 := by linarith
    rcases mul_eq_zero.1 this with h | h <;> omega
  subst hk
  have e5 : b = b' := small b b' c hb hb' ⟨l, by linarith⟩
  subst e5
  have hl : l = 0 := by
    have : (c : ℤ) * l = 0 := by linarith
    rcases mul_eq_zero.1 this with h | h <;> omega
  subst hl
  have e6 : d = d' := small d d' f hd hd' ⟨m, by linarith⟩
  rw [e6]

theorem lattice_le_iff {x y : Mat3} :
    (∀ v ∈ columnLattice x, v ∈ columnLattice y) ↔ ∃ u : Mat3, x = y * u := by
  constructor
  · intro h
    have h' : ∀ j, ∃ c : Fin 3 → ℤ, x.col j = y.mulVec c := fun j =>
      h _ ⟨Pi.single j 1, by rw [mulVec_single_one]⟩
    choose c hc using h'
    refine ⟨fun i j => c j i, ?_⟩
    ext i j
    exact congrFun (hc j) i
  · rintro ⟨u, rfl⟩ _ ⟨c, rfl⟩
    exact ⟨u.mulVec c, by rw [mulVec_mulVec]⟩

/-- A sublattice of the same volume is the whole lattice. -/
theorem lattice_eq_of_le {x y u : Mat3} (h : x = y * u) (hd : x.det.natAbs = y.det.natAbs)
    (h0 : y.det ≠ 0) : columnLattice x = columnLattice y := by
  have hu : u.det.natAbs = 1 := by
    rw [h, det_mul, Int.natAbs_mul] at hd
    have : 0 < y.det.natAbs := Int.natAbs_pos.2 h0
    exact Nat.eq_of_mul_eq_mul_left this (by rw [hd, mul_one])
  have hun : IsUnit u.det := Int.isUnit_iff_natAbs_eq.2 hu
  refine Set.ext fun v => ⟨fun hv => lattice_le_iff.2 ⟨u, h⟩ v hv, fun hv =>
    lattice_le_iff.2 ⟨u⁻¹, ?_⟩ v hv⟩
  rw [h, mul_assoc, mul_nonsing_inv u hun, mul_one]

theorem natAbs_det_of_eq {x y : Mat3} (h : columnLattice x = columnLattice y) :
    x.det.natAbs = y.det.natAbs := by
  obtain ⟨u, hu⟩ := lattice_le_iff.1 fun v hv => (h ▸ hv : v ∈ columnLattice y)
  obtain ⟨w, hw⟩ := lattice_le_iff.1 fun v hv => (h ▸ hv : v ∈ columnLattice x)
  refine Nat.dvd_antisymm ?_ ?_
  · rw [hw, det_mul, Int.natAbs_mul]; exact dvd_mul_right _ _
  · rw [hu, det_mul, Int.natAbs_mul]; exact dvd_mul_right _ _

theorem column_full (m : Mat3) (v : Fin 3 → ℤ) : m.det • v ∈ columnLattice m :=
  ⟨m.adjugate.mulVec v, by rw [mulVec_mulVec, mul_adjugate, smul_mulVec, one_mulVec]⟩

theorem superlattice_eq (s : Mat3) : superlattice s = columnLattice sᵀ := by
  refine Set.ext fun v => ⟨?_, ?_⟩
  · rintro ⟨c, rfl⟩; exact ⟨c, by rw [mulVec_transpose]⟩
  · rintro ⟨c, rfl⟩; exact ⟨c, by rw [mulVec_transpose]⟩

theorem nearInt_div {tol : ℚ} {n : ℕ} (hn : 0 < n) (h0 : 0 < tol) (htol : n * tol ≤ 1) (k : ℤ) :
    |(k : ℚ) / n - round ((k : ℚ) / n)| < tol ↔ (n : ℤ) ∣ k := by
  have hnq : (0 : ℚ) < n := by exact_mod_cast hn
  constructor
  · intro h
    set r := round ((k : ℚ) / n)
    have h1 : |((k - r * n : ℤ) : ℚ)| < 1 := by
      have e : ((k - r * n : ℤ) : ℚ) = ((k : ℚ) / n - r) * n := by
        push_cast; field_simp
      rw [e, abs_mul, abs_of_pos hnq]
      calc _ < tol * n := by gcongr
        _ ≤ 1 := by linarith
    have h2 : |k - r * n| < 1 := by exact_mod_cast h1
    have h3 := Int.abs_lt_one_iff.1 h2
    exact ⟨r, by linarith⟩
  · rintro ⟨q, rfl⟩
    have e : (((n : ℤ) * q : ℤ) : ℚ) / n = q := by push_cast; field_simp
    rw [e, round_intCast, sub_self, abs_zero]
    exact h0

/-- The numerical test is the exact one. -/
theorem nearIntegral_iff {tol : ℚ} {n : ℕ} (hn : 0 < n) (h0 : 0 < tol) (htol : n * tol ≤ 1)
    {h : Mat3} (hdet : h.det = n) (r s : Mat3) :
    nearIntegral tol (unimod h r s) = true ↔ ∃ u : Mat3, r * sᵀ = h * u := by
  have ent : ∀ i j, unimod h r s i j = (((h.adjugate * (r * sᵀ)) i j : ℤ) : ℚ) / n := by
    intro i j
    simp only [unimod, inv3, mul_apply, map_apply, adj3_eq, det3_eq, hdet]
    push_cast
    rw [Finset.sum_div]
    exact Finset.sum_congr rfl fun k _ => by ring
  rw [nearIntegral, decide_eq_true_eq]
  simp only [ent, nearInt_div hn h0 htol]
  constructor
  · intro H
    choose u hu using H
    refine ⟨u, ?_⟩
    have h1 : h.adjugate * (r * sᵀ) = (n : ℤ) • (Matrix.of u : Mat3) := by
      ext i j; rw [hu i j]; rfl
    have h2 : h * (h.adjugate * (r * sᵀ)) = (n : ℤ) • (h * (Matrix.of u : Mat3)) := by
      rw [h1, Matrix.mul_smul]
    rw [← mul_assoc, mul_adjugate, hdet, Matrix.smul_mul, one_mul] at h2
    have hz : (n : ℤ) ≠ 0 := by exact_mod_cast hn.ne'
    ext i j
    have h3 : (n : ℤ) * (r * sᵀ) i j = (n : ℤ) * (h * (Matrix.of u : Mat3)) i j := by
      rw [← smul_eq_mul, ← Matrix.smul_apply, h2, Matrix.smul_apply, smul_eq_mul]
    exact mul_left_cancel₀ hz h3
  · rintro ⟨u, hu⟩ i j
    rw [hu, ← mul_assoc, adjugate_mul, hdet, Matrix.smul_mul, one_mul]
    exact ⟨u i j, rfl⟩

end Smol
