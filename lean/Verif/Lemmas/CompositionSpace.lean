import Verif.Lemmas.CompositionKernel

/-!
# The constraint rows of a composition space
-/

namespace Smol
open Spec

/-- What a sensible composition space satisfies. -/
structure FormatSpace.WellFormed (c : FormatSpace) : Prop where
  sizes_len : c.sizes.length = c.spaces.length
  sizes_pos : ∀ s ∈ c.sizes, 0 < s
  nodup : ∀ sp ∈ c.spaces, sp.Nodup
  one_vac : ∀ sp ∈ c.spaces, sp.countP c.vac ≤ 1
  eqs_len : ∀ e ∈ c.eqs, e.1.length = c.dims
  tol : 0 ≤ c.tol
  atol : 0 < c.atol

/-- The problem a composition space stands for. -/
def FormatSpace.problem (c : FormatSpace) : CompositionProblem :=
  ⟨c.spaces, c.sizes, if c.chargeNeutral then some c.oxi else none, c.eqs⟩

theorem denLcm_go (v : List ℚ) (l : ℕ) :
    (l ∣ v.foldl (fun l q => Nat.lcm l q.den) l) ∧
    (∀ q ∈ v, q.den ∣ v.foldl (fun l q => Nat.lcm l q.den) l) ∧
    (0 < l → 0 < v.foldl (fun l q => Nat.lcm l q.den) l) := by
  induction v generalizing l with
  | nil => simp
  | cons q v ih =>
    obtain ⟨h1, h2, h3⟩ := ih (Nat.lcm l q.den)
    rw [List.foldl_cons]
    refine ⟨(Nat.dvd_lcm_left _ _).trans h1, ?_, fun h => h3 (Nat.lcm_pos h q.den_pos)⟩
    intro p hp
    rcases List.mem_cons.1 hp with rfl | hp
    · exact (Nat.dvd_lcm_right _ _).trans h1
    · exact h2 p hp

theorem den_dvd_denLcm {v : List ℚ} {q : ℚ} (h : q ∈ v) : q.den ∣ denLcm v := (denLcm_go v 1).2.1 q h

theorem denLcm_pos (v : List ℚ) : 0 < denLcm v := (denLcm_go v 1).2.2 Nat.one_pos

/-- A number times a multiple of its denominator is an integer. -/
theorem round_mul_den {q : ℚ} {m : ℕ} (h : q.den ∣ m) : ((round (q * (m : ℚ)) : ℤ) : ℚ) = q * m := by
  obtain ⟨k, rfl⟩ := h
  have : q * ((q.den * k : ℕ) : ℚ) = ((q.num * k : ℤ) : ℚ) := by
    push_cast
    rw [← mul_assoc, Rat.mul_den_eq_num]
  rw [this, round_intCast]

theorem rowDot_eq {d : ℕ} {row : List ℤ} {n : List ℚ} (hr : row.length = d) (hn : n.length = d) :
    rowDot row n = dsum d (fun j => ((row.getD j 0 : ℤ) : ℚ)) fun j => n.getD j 0 := by
  subst hn
  unfold rowDot dsum
  induction n generalizing row with
  | nil => simp
  | cons x n ih =>
    cases row with
    | nil => simp at hr
    | cons a row =>
      rw [List.zipWith_cons_cons, List.sum_cons, ih (by simpa using hr), List.length_cons,
        Finset.sum_range_succ']
      simp [add_comm]

theorem rowDot_div (row : List ℤ) (n : List ℚ) (s : ℚ) :
    rowDot row (n.map fun x => x / s) = rowDot row n / s := by
  unfold rowDot
  induction n generalizing row with
  | nil => simp
  | cons x n ih =>
    cases row with
    | nil => simp
    | cons a row =>
      simp only [List.map_cons, List.zipWith_cons_cons, List.sum_cons, ih]
      ring

/-! ### Sublattice rows -/

theorem dimIdsFrom_length (spaces : List (List ℕ)) (start : ℕ) :
    (dimIdsFrom start spaces).length = spaces.length := by
  induction spaces generalizing start with
  | nil => rfl
  | cons sp spaces ih => simp [dimIdsFrom, ih]

theorem dimIdsFrom_bounds (spaces : List (List ℕ)) (start : ℕ) :
    ∀ ids ∈ dimIdsFrom start spaces, ids.Nodup ∧ ∀ i ∈ ids, start ≤ i ∧ i < start + spaces.flatten.length := by
  induction spaces generalizing start with
  | nil => simp [dimIdsFrom]
  | cons sp spaces ih =>
    intro ids hids
    rw [dimIdsFrom] at hids
    rcases List.mem_cons.1 hids with rfl | h
    · refine ⟨List.nodup_range', fun i hi => ?_⟩
      rw [List.mem_range'_1] at hi
      simp only [List.flatten_cons, List.length_append]
      omega
    · obtain ⟨h1, h2⟩ := ih _ ids h
      refine ⟨h1, fun i hi => ?_⟩
      have := h2 i hi
      simp only [List.flatten_cons, List.length_append]
      omega

theorem sublatticeRow_dot {d : ℕ} {ids : List ℕ} (hn : ids.Nodup) (hb : ∀ i ∈ ids, i < d) {n : List ℚ}
    (hl : n.length = d) : rowDot (sublatticeRow d ids) n = (ids.map fun i => n.getD i 0).sum := by
  rw [rowDot_eq (by simp [sublatticeRow]) hl]
  unfold dsum
  have e : ∀ j ∈ Finset.range d, (((sublatticeRow d ids).getD j 0 : ℤ) : ℚ) * n.getD j 0 =
      if j ∈ ids.toFinset then n.getD j 0 else 0 := by
    intro j hj
    have hj' : j < d := Finset.mem_range.1 hj
    have : (sublatticeRow d ids).getD j 0 = if j ∈ ids then 1 else 0 := by
      rw [List.getD_eq_getElem?_getD, sublatticeRow, List.getElem?_map, List.getElem?_range hj']
      rfl
    rw [this]
    split_ifs <;> simp_all
  rw [Finset.sum_congr rfl e, ← Finset.sum_filter]
  have : (Finset.range d).filter (fun j => j ∈ ids.toFinset) = ids.toFinset := by
    ext j
    simp only [Finset.mem_filter, Finset.mem_range, List.mem_toFinset]
    exact ⟨fun h => h.2, fun h => ⟨hb j h, h⟩⟩
  rw [this, List.sum_toFinset _ hn]

theorem forall2_flatten_length {spaces : List (List ℕ)} {ns : List (List ℚ)}
    (h : List.Forall₂ (fun sp n => sp.length = n.length) spaces ns) :
    spaces.flatten.length = ns.flatten.length := by
  induction h with
  | nil => rfl
  | cons h1 _ ih => simp [h1, ih]

theorem dimIds_slices {spaces : List (List ℕ)} {ns : List (List ℚ)}
    (h : List.Forall₂ (fun sp n => sp.length = n.length) spaces ns) :
    (dimIds spaces).map (fun ids => ids.map fun i => ns.flatten.getD i 0) = ns := slices spaces ns [] h

theorem zip_mem_map {α β γ : Type} {a : List α} {b : List β} {f : α → γ} {x : α} {y : β}
    (h : (x, y) ∈ a.zip b) : (f x, y) ∈ (a.map f).zip b := by
  rw [List.zip_map_left]
  exact List.mem_map.2 ⟨(x, y), h, rfl⟩

theorem forall2_zip {α β : Type} {R : α → β → Prop} {a : List α} {b : List β} (h : List.Forall₂ R a b)
    {x : α} {y : β} (hm : (y, x) ∈ b.zip a) : R x y := by
  induction h with
  | nil => simp at hm
  | cons h1 _ ih =>
    simp only [List.zip_cons_cons, List.mem_cons, Prod.mk.injEq] at hm
    rcases hm with ⟨rfl, rfl⟩ | hm
    · exact h1
    · exact ih hm

theorem rounded_dot {m : ℕ} (v : List ℚ) (n : List ℚ) (h : ∀ a ∈ v, a.den ∣ m) :
    rowDot (v.map fun q => round (q * (m : ℚ))) n = m * (List.zipWith (fun (a x : ℚ) => a * x) v n).sum := by
  unfold rowDot
  induction v generalizing n with
  | nil => simp
  | cons a v ih =>
    cases n with
    | nil => simp
    | cons x n =>
      rw [List.map_cons, List.zipWith_cons_cons, List.sum_cons, List.zipWith_cons_cons, List.sum_cons,
        ih n fun b hb => h b (List.mem_cons_of_mem _ hb), round_mul_den (h a (List.mem_cons_self ..))]
      ring

/-- The rows are the equations. -/
theorem rows_of_balances {c : FormatSpace} (hw : c.WellFormed) {size : ℕ} {ns : List (List ℚ)}
    (h : Balances c.problem size ns) :
    ∀ r ∈ c.rows, r.1.length = c.dims ∧ rowDot r.1 ns.flatten = r.2 * size := by
  have hshape : List.Forall₂ (fun sp n => sp.length = n.length) c.spaces ns := h.shape
  have hlen : ns.flatten.length = c.dims := (forall2_flatten_length hshape).symm
  intro r hr
  unfold FormatSpace.rows at hr
  rw [List.mem_append, List.mem_append] at hr
  rcases hr with (hr | hr) | hr
  · by_cases hc : c.chargeNeutral = true
    · rw [if_pos hc, List.mem_singleton] at hr
      subst hr
      refine ⟨by rw [List.length_map]; rfl, ?_⟩
      have := h.neutral c.oxi (by simp [FormatSpace.problem, hc])
      unfold rowDot
      rw [List.zipWith_map_left, zero_mul]
      exact this
    · rw [if_neg hc] at hr
      simp at hr
  · obtain ⟨⟨ids, s⟩, hp, rfl⟩ := List.mem_map.1 hr
    refine ⟨by simp [sublatticeRow], ?_⟩
    have hids := dimIdsFrom_bounds c.spaces 0 ids (List.of_mem_zip hp).1
    rw [sublatticeRow_dot hids.1 (fun i hi => by have := hids.2 i hi; unfold FormatSpace.dims; omega) hlen]
    have hm := zip_mem_map (f := fun ids : List ℕ => ids.map fun i => ns.flatten.getD i 0) hp
    rw [dimIds_slices hshape] at hm
    exact forall2_zip h.full hm
  · obtain ⟨e, he, rfl⟩ := List.mem_map.1 hr
    have hel := hw.eqs_len e he
    refine ⟨by simp [integerRow, hel], ?_⟩
    have := h.others e he
    have key := rounded_dot (m := denLcm e.1) e.1 ns.flatten fun a ha => den_dvd_denLcm ha
    rw [this] at key
    unfold integerRow
    simp only
    rw [key]
    ring

/-- Conversely. -/
theorem balances_of_rows {c : FormatSpace} (hw : c.WellFormed) {size : ℕ} {ns : List (List ℚ)}
    (hshape : List.Forall₂ (fun sp n => sp.length = n.length) c.spaces ns)
    (h : ∀ r ∈ c.rows, rowDot r.1 ns.flatten = r.2 * size) :
    Balances c.problem size ns := by
  have hlen : ns.flatten.length = c.dims := (forall2_flatten_length hshape).symm
  refine ⟨hshape, ?_, ?_, ?_⟩
  · have hl : c.sizes.length = ns.length := by rw [hw.sizes_len]; exact hshape.length_eq
    rw [List.forall₂_iff_zip]
    refine ⟨hl, fun {s n} hm => ?_⟩
    have e := dimIds_slices hshape
    obtain ⟨k, hk, hk'⟩ := List.mem_iff_getElem.1 hm
    simp only [List.getElem_zip, Prod.mk.injEq] at hk'
    rw [List.length_zip] at hk
    have hkd : k < (dimIds c.spaces).length := by
      have := congrArg List.length e
      rw [List.length_map] at this
      omega
    have hids := dimIdsFrom_bounds c.spaces 0 _ (List.getElem_mem hkd)
    have hr := h (sublatticeRow c.dims (dimIds c.spaces)[k], (s : ℚ)) (by
      unfold FormatSpace.rows
      rw [List.mem_append, List.mem_append]
      refine Or.inl (Or.inr (List.mem_map.2 ⟨((dimIds c.spaces)[k], s), ?_, rfl⟩))
      rw [List.mem_iff_getElem]
      refine ⟨k, by rw [List.length_zip]; omega, ?_⟩
      rw [List.getElem_zip]
      exact Prod.ext rfl hk'.1)
    rw [sublatticeRow_dot hids.1 (fun i hi => by have := hids.2 i hi; unfold FormatSpace.dims; omega) hlen] at hr
    rw [← hr, ← hk'.2]
    have : ns[k]'(by omega) = ((dimIds c.spaces).map (fun ids => ids.map fun i => ns.flatten.getD i 0))[k]'(by
        rw [List.length_map]; exact hkd) := by
      simp only [e]
    rw [this, List.getElem_map]
  · intro q hq
    by_cases hc : c.chargeNeutral = true
    · simp only [FormatSpace.problem, hc, if_true, Option.mem_some_iff] at hq
      subst hq
      have := h (c.spaces.flatten.map c.oxi, 0) (by simp [FormatSpace.rows, hc])
      unfold rowDot at this
      rw [List.zipWith_map_left, zero_mul] at this
      exact this
    · simp [FormatSpace.problem, hc] at hq
  · intro e he
    have he' : e ∈ c.eqs := he
    have key := rounded_dot (m := denLcm e.1) e.1 ns.flatten fun a ha => den_dvd_denLcm ha
    have := h (integerRow e) (by
      unfold FormatSpace.rows
      exact List.mem_append_right _ (List.mem_map.2 ⟨e, he', rfl⟩))
    unfold integerRow at this
    simp only at this
    rw [key, mul_right_comm, mul_comm] at this
    have hp : (denLcm e.1 : ℚ) ≠ 0 := by
      have := denLcm_pos e.1
      positivity
    exact mul_right_cancel₀ hp this

/-! ### Matrix form -/

theorem rows_length {c : FormatSpace} (hw : c.WellFormed) : ∀ r ∈ c.rows, r.1.length = c.dims := by
  intro r hr
  unfold FormatSpace.rows at hr
  rw [List.mem_append, List.mem_append] at hr
  rcases hr with (hr | hr) | hr
  · by_cases hc : c.chargeNeutral = true
    · rw [if_pos hc, List.mem_singleton] at hr
      subst hr
      rw [List.length_map]
      rfl
    · rw [if_neg hc] at hr
      simp at hr
  · obtain ⟨⟨ids, s⟩, hp, rfl⟩ := List.mem_map.1 hr
    simp [sublatticeRow]
  · obtain ⟨e, he, rfl⟩ := List.mem_map.1 hr
    simp [integerRow, hw.eqs_len e he]

/-- `A n = b · size`. -/
def FormatSpace.SolvedBy (c : FormatSpace) (size : ℕ) (n : ℕ → ℚ) : Prop :=
  ∀ r < c.rows.length, dsum c.dims (fun j => ((c.mat r j : ℤ) : ℚ)) n = c.rhs r * size

theorem getD_row {c : FormatSpace} {r : ℕ} (hr : r < c.rows.length) :
    c.rows.getD r ([], 0) = c.rows[r] := by
  rw [List.getD_eq_getElem?_getD, List.getElem?_eq_getElem hr, Option.getD_some]

theorem solvedBy_iff {c : FormatSpace} (hw : c.WellFormed) (size : ℕ) {n : List ℚ} (hn : n.length = c.dims) :
    c.SolvedBy size (fun j => n.getD j 0) ↔ ∀ r ∈ c.rows, rowDot r.1 n = r.2 * size := by
  unfold FormatSpace.SolvedBy FormatSpace.mat FormatSpace.rhs
  rw [List.forall_mem_iff_forall_getElem]
  refine forall_congr' fun r => forall_congr' fun hr => ?_
  rw [getD_row hr, rowDot_eq (rows_length hw _ (List.getElem_mem hr)) hn]

/-- An integer solution exists for supercells of this size. -/
def FormatSpace.Solvable (c : FormatSpace) (size : ℕ) : Prop :=
  ∃ v : ℕ → ℤ, c.SolvedBy size fun j => (v j : ℚ)

theorem rhs_round {c : FormatSpace} {r size : ℕ} (hr : r < c.rows.length) (h : c.minFeasible ∣ size) :
    ((round (c.rhs r * (size : ℚ)) : ℤ) : ℚ) = c.rhs r * size := by
  apply round_mul_den
  refine (den_dvd_denLcm ?_).trans h
  unfold FormatSpace.rhs
  rw [getD_row hr]
  exact List.mem_map.2 ⟨_, List.getElem_mem hr, rfl⟩

theorem solvedBy_int_iff {c : FormatSpace} {size : ℕ} (h : c.minFeasible ∣ size) (v : ℕ → ℤ) :
    c.SolvedBy size (fun j => (v j : ℚ)) ↔
      (asMatrix c.rows.length c.dims c.mat).mulVec (restrict c.dims v) =
        fun i : Fin c.rows.length => round (c.rhs i * (size : ℚ)) := by
  rw [funext_iff]
  constructor
  · intro hs i
    rw [mulVec_eq_dsum]
    have := hs i i.2
    rw [← dsum_cast, ← rhs_round i.2 h] at this
    exact_mod_cast this
  · intro hs r hr
    have := hs ⟨r, hr⟩
    rw [mulVec_eq_dsum] at this
    rw [← dsum_cast, ← rhs_round hr h]
    exact_mod_cast this

theorem restrict_extend {d : ℕ} (v : Fin d → ℤ) : ∃ w : ℕ → ℤ, restrict d w = v :=
  ⟨fun j => if h : j < d then v ⟨j, h⟩ else 0, by funext j; simp [restrict]⟩

/-- What `solve_diophantines` gives for a solvable size. -/
theorem solve_spec {c : FormatSpace} {size : ℕ} (h : c.minFeasible ∣ size) (hs : c.Solvable size) :
    ∃ n0 vs, c.solve size = some (n0, vs) ∧ c.SolvedBy size (fun j => (n0 j : ℚ)) := by
  obtain ⟨v, hv⟩ := hs
  obtain ⟨n0, vs, h1, h2⟩ := C32_generated_solve c.rows.length c.dims c.mat
    (fun i => round (c.rhs i * (size : ℚ))) ⟨_, (solvedBy_int_iff h v).1 hv⟩
  refine ⟨n0, vs, h1, (solvedBy_int_iff h n0).2 ?_⟩
  rw [← h2 fun _ => 0]
  congr 1
  funext r
  simp

/-- The rank condition of `C32_solutions_partial`. -/
def FormatSpace.RankOk (c : FormatSpace) : Prop :=
  min c.rows.length c.dims ≤ (asMatrix c.rows.length c.dims c.mat).rank + 1

theorem basis_spec {c : FormatSpace} (h : c.minFeasible ∣ c.minSize) (hs : c.Solvable c.minSize)
    (hr : c.RankOk) : ∃ vs, c.basis = some vs ∧ FreeKernel ℤ c.rows.length c.dims c.mat vs := by
  obtain ⟨n0, vs, h1, h2⟩ := solve_spec h hs
  obtain ⟨v, hv⟩ := hs
  obtain ⟨n0', vs', h1', h3⟩ := C32_solutions_partial c.rows.length c.dims c.mat
    (fun i => round (c.rhs i * (c.minSize : ℚ))) hr ⟨_, (solvedBy_int_iff h v).1 hv⟩
  have e : (n0, vs) = (n0', vs') := by
    have := h1.symm.trans h1'
    exact Option.some.inj this
  obtain ⟨rfl, rfl⟩ := Prod.mk.inj e
  exact ⟨vs, by rw [FormatSpace.basis, h1]; rfl, freeKernel_int h3 ((solvedBy_int_iff h n0).1 h2)⟩

theorem minFeasible_pos (c : FormatSpace) : 0 < c.minFeasible := denLcm_pos _

theorem solvable_mul {c : FormatSpace} {size : ℕ} (h : c.Solvable size) (k : ℕ) : c.Solvable (size * k) := by
  obtain ⟨v, hv⟩ := h
  refine ⟨fun j => k * v j, fun r hr => ?_⟩
  have := hv r hr
  have e : (fun j => ((((k : ℤ) * v j) : ℤ) : ℚ)) = fun j => (k : ℚ) * (v j : ℚ) := by
    funext j
    push_cast
    rfl
  rw [e, dsum_smul, this]
  push_cast
  ring

theorem baseSolution_spec {c : FormatSpace} (hs : c.Solvable c.minFeasible) {size : ℕ}
    (h : c.minFeasible ∣ size) :
    ∃ n0, c.baseSolution size = some n0 ∧ c.SolvedBy size fun j => (n0 j : ℚ) := by
  obtain ⟨m0, vs, h1, h2⟩ := solve_spec (dvd_refl _) hs
  obtain ⟨k, rfl⟩ := h
  have hp := minFeasible_pos c
  refine ⟨_, by rw [FormatSpace.baseSolution, if_neg (by simp), h1]; rfl, fun r hr => ?_⟩
  have e : ∀ j, (m0 j * ((c.minFeasible * k : ℕ) : ℤ)).fdiv c.minFeasible = k * m0 j := by
    intro j
    push_cast
    rw [show m0 j * ((c.minFeasible : ℤ) * k) = (c.minFeasible : ℤ) * (k * m0 j) by ring,
      Int.mul_fdiv_cancel_left _ (by exact_mod_cast hp.ne')]
  simp only [e]
  have e' : (fun j => ((((k : ℤ) * m0 j) : ℤ) : ℚ)) = fun j => (k : ℚ) * (m0 j : ℚ) := by
    funext j
    push_cast
    rfl
  rw [e', dsum_smul, h2 r hr]
  push_cast
  ring

end Smol
