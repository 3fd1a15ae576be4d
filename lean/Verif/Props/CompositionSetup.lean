import Verif.Lemmas.CompositionSetup
import Verif.Lemmas.Sublattice
import Verif.Lemmas.SiteSpace
import Verif.Lemmas.SupercellRows

/-!
# C80: a composition space keeps the constraints it is given
# C81: saving and loading a composition space changes nothing

Assumed of the python library: `limit_denominator` does what its documentation says
(`Spec.ClosestFraction`).
-/

namespace Smol

open Spec

/-! ## C80: rational numbers -/

/-- The constants of the code, with any library functions. -/
def pythonEnv (oxi : ℕ → ℚ) (lim : ℕ → ℚ → ℚ) (rank : List (List ℤ) → ℕ) : SpaceEnv :=
  ⟨oxi, lim, rank, 1000, 1 / 1000000⟩

/-- An environment for the examples, with denominators up to 10. -/
def exampleEnv : SpaceEnv :=
  ⟨fun i => if i = 0 then 1 else if i = 1 then -2 else 0, limitDenominator, fun _ => 5, 10, 1 / 1000⟩

theorem exampleEnv_ok : exampleEnv.Ok :=
  ⟨fun x => limitDenominator_closest (by decide) x, by norm_num [exampleEnv]⟩

theorem pythonEnv_ok (oxi : ℕ → ℚ) (rank : List (List ℤ) → ℕ) : (pythonEnv oxi limitDenominator rank).Ok :=
  ⟨fun x => by dsimp only [pythonEnv]; exact limitDenominator_closest (N := 1000) (by norm_num) x,
    by norm_num [pythonEnv]⟩

/-- `rationalize_number` either gives a fraction in lowest terms with an allowed denominator, within the
tolerance and closest among the allowed ones; or raises, and then no allowed fraction is within the
tolerance. -/
theorem C80_rationalize (env : SpaceEnv) (h : env.Ok) (a : ℚ) :
    (∀ p q, rationalize env.lim env.maxDen env.dtol a = some (p, q) →
      0 < q ∧ q ≤ env.maxDen ∧ Nat.Coprime p.natAbs q ∧ |(p : ℚ) / q - a| ≤ env.dtol ∧
      ∀ (p' : ℤ) (q' : ℕ), 0 < q' → q' ≤ env.maxDen → |(p : ℚ) / q - a| ≤ |(p' : ℚ) / q' - a|) ∧
    (rationalize env.lim env.maxDen env.dtol a = none ↔
      ∀ (p : ℤ) (q : ℕ), 0 < q → q ≤ env.maxDen → env.dtol < |(p : ℚ) / q - a|) := by
  have hden : ∀ (p : ℤ) (q : ℕ), 0 < q → q ≤ env.maxDen → ((p : ℚ) / q).den ≤ env.maxDen := by
    intro p q hq hle
    have := Rat.den_dvd p q
    rw [Rat.divInt_eq_div] at this
    have h2 : ((p : ℚ) / q).den ∣ q := by
      rw [Int.cast_natCast] at this
      exact_mod_cast this
    exact (Nat.le_of_dvd hq h2).trans hle
  obtain ⟨h1, h2⟩ := h.lim a
  constructor
  · intro p q hr
    obtain ⟨h3, h4⟩ := rationalize_some hr
    obtain ⟨rfl, rfl⟩ := Prod.mk.inj h4
    refine ⟨Rat.pos _, h1, (env.lim env.maxDen a).reduced, by rwa [Rat.num_div_den], fun p' q' hq hle => ?_⟩
    rw [Rat.num_div_den]
    exact h2 _ (hden p' q' hq hle)
  · constructor
    · intro hr p q hq hle
      by_contra hc
      have := rationalize_of_lim ((h2 _ (hden p q hq hle)).trans (not_lt.1 hc))
      rw [hr] at this
      exact absurd this (by simp)
    · intro hall
      cases hr : rationalize env.lim env.maxDen env.dtol a with
      | none => rfl
      | some r =>
        have := hall (env.lim env.maxDen a).num _ (Rat.pos (env.lim env.maxDen a)) h1
        rw [Rat.num_div_den] at this
        exact absurd (rationalize_some hr).1 (not_le.2 this)

example : rationalize exampleEnv.lim exampleEnv.maxDen exampleEnv.dtol (1 / 7 + 1 / 10000) = some (1, 7) ∧
    rationalize exampleEnv.lim exampleEnv.maxDen exampleEnv.dtol (1 / 19) = none := by
  decide +kernel

/-- A number less than `1 / (2 N²)` away from a fraction with an allowed denominator is taken for that
fraction. -/
theorem C80_rationalize_recovers (env : SpaceEnv) (h : env.Ok) (a q : ℚ) (hq : q.den ≤ env.maxDen)
    (ha : |a - q| < 1 / (2 * ((env.maxDen : ℚ) * env.maxDen))) (ht : |a - q| ≤ env.dtol) :
    rationalize env.lim env.maxDen env.dtol a = some (q.num, q.den) := by
  have e := ClosestFraction.near (h.lim a) hq ha
  rw [rationalize_of_lim (by rw [e, abs_sub_comm]; exact ht), e]

example : (1 / 7 : ℚ).den ≤ exampleEnv.maxDen ∧
    |(14285714 / 100000000 : ℚ) - 1 / 7| < 1 / (2 * ((exampleEnv.maxDen : ℚ) * exampleEnv.maxDen)) ∧
    |(14285714 / 100000000 : ℚ) - 1 / 7| ≤ exampleEnv.dtol := by
  decide +kernel

/-- `integerize_vector` of numbers with allowed denominators: the least common multiple of the
denominators, and exactly the multiples. -/
theorem C80_integerize_vector (env : SpaceEnv) (h : env.Ok) (v : List ℚ) (hv : v ≠ [])
    (hden : ∀ q ∈ v, q.den ≤ env.maxDen) :
    ∃ row m, integerizeVector env.lim env.maxDen env.dtol v = some (row, m) ∧ LeastScale v m ∧
      row.map (fun (z : ℤ) => (z : ℚ)) = v.map fun q => q * (m : ℚ) := by
  refine ⟨_, _, integerizeVector_exact h.lim h.dtol hv hden, denLcm_leastScale v, ?_⟩
  rw [List.map_map]
  refine List.map_congr_left fun q hq => ?_
  obtain ⟨z, hz⟩ := mul_denLcm_integral hq
  show ((npRound (q * (denLcm v : ℚ)) : ℤ) : ℚ) = _
  rw [hz, npRound_intCast]

example : (∀ q ∈ [(1 / 2 : ℚ), -2 / 3, 5], q.den ≤ exampleEnv.maxDen) ∧
    integerizeVector exampleEnv.lim exampleEnv.maxDen exampleEnv.dtol [1 / 2, -2 / 3, 5] =
      some ([3, -4, 30], 6) := by
  decide +kernel

/-- Small errors do not matter: a vector near one with allowed denominators gives what that one
gives. -/
theorem C80_integerize_near (env : SpaceEnv) (h : env.Ok) (v w : List ℚ) (m : ℕ) (hm : LeastScale w m)
    (hden : ∀ q ∈ w, q.den ≤ env.maxDen)
    (hnear : List.Forall₂ (fun (a q : ℚ) => |a - q| < 1 / (2 * ((env.maxDen : ℚ) * env.maxDen)) ∧
      |a - q| ≤ env.dtol ∧ |a - q| * (m : ℚ) < 1 / 2) v w) :
    integerizeVector env.lim env.maxDen env.dtol v = integerizeVector env.lim env.maxDen env.dtol w := by
  have hmeq : denLcm w = m := by
    have hd := denLcm_leastScale w
    exact le_antisymm (hd.least m hm.pos hm.integral) (hm.least _ hd.pos hd.integral)
  by_cases hw : w = []
  · subst hw
    cases hnear
    rfl
  have hv : v ≠ [] := by
    rintro rfl
    cases hnear
    exact hw rfl
  rw [integerizeVector_exact h.lim h.dtol hw hden]
  have hf : List.Forall₂ (fun a q => env.lim env.maxDen a = q ∧ |q - a| ≤ env.dtol) v w := by
    rw [List.forall₂_iff_zip] at hnear ⊢
    refine ⟨hnear.1, fun {a q} hp => ?_⟩
    have hq := hden q (List.of_mem_zip hp).2
    have hh := hnear.2 hp
    exact ⟨ClosestFraction.near (h.lim a) hq hh.1, by rw [abs_sub_comm]; exact hh.2.1⟩
  rw [integerizeVector_of hv hf, hmeq]
  congr 2
  have hint : ∀ q ∈ w, ∃ z : ℤ, q * (m : ℚ) = z := hm.integral
  clear hf hv hw hden hm hmeq
  induction hnear with
  | nil => rfl
  | cons hh ht ih =>
    rename_i a q l l'
    rw [List.map_cons, List.map_cons, ih fun x hx => hint x (by simp [hx])]
    obtain ⟨z, hz⟩ := hint q (by simp)
    rw [hz, npRound_intCast, npRound_of_near]
    rw [← hz, ← sub_mul, abs_mul, abs_of_nonneg (Nat.cast_nonneg m : (0 : ℚ) ≤ m)]
    exact hh.2.2

example : LeastScale [(1 / 2 : ℚ), -1 / 3] 6 ∧ (∀ q ∈ [(1 / 2 : ℚ), -1 / 3], q.den ≤ exampleEnv.maxDen) ∧
    List.Forall₂ (fun (a q : ℚ) => |a - q| < 1 / (2 * ((exampleEnv.maxDen : ℚ) * exampleEnv.maxDen)) ∧
      |a - q| ≤ exampleEnv.dtol ∧ |a - q| * ((6 : ℕ) : ℚ) < 1 / 2)
      [1 / 2, -33333333 / 100000000] [1 / 2, -1 / 3] := by
  refine ⟨?_, by decide +kernel, ?_⟩
  · have := denLcm_leastScale [(1 / 2 : ℚ), -1 / 3]
    rwa [show denLcm [(1 / 2 : ℚ), -1 / 3] = 6 by decide +kernel] at this
  · exact List.Forall₂.cons (by decide +kernel) (List.Forall₂.cons (by decide +kernel) List.Forall₂.nil)

/-- `min_supercell_size`: if the vertices found are near enough to vertices with allowed
denominators, it is the smallest size that makes those integers. -/
theorem C80_min_supercell_size (env : SpaceEnv) (h : env.Ok) (found vertices : List (List ℚ)) (m : ℕ)
    (hm : LeastScale vertices.flatten m) (hne : vertices.flatten ≠ [])
    (hden : ∀ q ∈ vertices.flatten, q.den ≤ env.maxDen)
    (hnear : List.Forall₂ (fun (a q : ℚ) => |a - q| < 1 / (2 * ((env.maxDen : ℚ) * env.maxDen)) ∧
      |a - q| ≤ env.dtol ∧ |a - q| * (m : ℚ) < 1 / 2) found.flatten vertices.flatten) :
    env.minSizeOf found = some m := by
  unfold SpaceEnv.minSizeOf integerizeMultiple
  rw [C80_integerize_near env h _ _ m hm hden hnear, integerizeVector_exact h.lim h.dtol hne hden]
  simp only [Option.map_some, Option.some.injEq]
  have hd := denLcm_leastScale vertices.flatten
  exact le_antisymm (hd.least m hm.pos hm.integral) (hm.least _ hd.pos hd.integral)

example : exampleEnv.minSizeOf [[1, 0, 1], [1 / 2, 333333333333 / 1000000000000, 7 / 6]] = some 6 := by
  decide +kernel

/-- The rows of `integerize_multiple` are the rows given, each multiplied by the number returned. -/
theorem C80_integerize_multiple (env : SpaceEnv) (h : env.Ok) (vs : List (List ℚ)) (hne : vs.flatten ≠ [])
    (hden : ∀ q ∈ vs.flatten, q.den ≤ env.maxDen) :
    ∃ rows m, integerizeMultiple env.lim env.maxDen env.dtol vs = some (rows, m) ∧
      LeastScale vs.flatten m ∧
      rows.map (fun r => r.map fun (z : ℤ) => (z : ℚ)) = vs.map fun r => r.map fun q => q * (m : ℚ) := by
  refine ⟨vs.map fun r => r.map fun c => npRound (c * (denLcm vs.flatten : ℚ)), _, ?_,
    denLcm_leastScale vs.flatten, ?_⟩
  · unfold integerizeMultiple
    rw [integerizeVector_exact h.lim h.dtol hne hden]
    simp only [Option.map_some, Option.some.injEq, Prod.mk.injEq, and_true]
    generalize denLcm vs.flatten = m
    clear hne hden
    induction vs with
    | nil => rfl
    | cons a t ih =>
      rw [List.map_cons, List.flatten_cons, List.map_append, regroup, List.map_cons]
      congr 1
      · rw [List.take_append_of_le_length (by rw [List.length_map]), List.take_of_length_le (by rw [List.length_map])]
      · rw [List.drop_append_of_le_length (by rw [List.length_map]),
          List.drop_of_length_le (by rw [List.length_map]), List.nil_append]
        exact ih
  · rw [List.map_map]
    refine List.map_congr_left fun r hr => ?_
    show (r.map _).map _ = _
    rw [List.map_map]
    refine List.map_congr_left fun q hq => ?_
    obtain ⟨z, hz⟩ := mul_denLcm_integral (List.mem_flatten.2 ⟨r, hr, hq⟩)
    show ((npRound (q * (denLcm vs.flatten : ℚ)) : ℤ) : ℚ) = _
    rw [hz, npRound_intCast]

example : ([[1, 0], [1 / 2, 4 / 3]] : List (List ℚ)).flatten ≠ [] ∧
    (∀ q ∈ ([[1, 0], [1 / 2, 4 / 3]] : List (List ℚ)).flatten, q.den ≤ exampleEnv.maxDen) ∧
    integerizeMultiple exampleEnv.lim exampleEnv.maxDen exampleEnv.dtol [[1, 0], [1 / 2, 4 / 3]] =
      some ([[6, 0], [3, 8]], 6) := by
  decide +kernel

/-! ## C80: the constraints -/

/-- The constraint rows of the constructor. -/
def SpaceEnv.allRows (env : SpaceEnv) (a : SpaceArgs) (sizes : List ℕ) (rs : List (List ℤ × ℚ)) :
    List (List ℤ × ℚ) :=
  (if a.chargeNeutral then [(a.spaces.flatten.map env.oxiState, 0)] else []) ++
    ((dimIds a.spaces).zip sizes).map
      (fun p => (sublatticeRow a.spaces.flatten.length p.1, (p.2 : ℚ))) ++ rs

theorem construct_eq_some {env : SpaceEnv} {a : SpaceArgs} {s : Space} :
    env.construct a = some s ↔
    ∃ sizes rs, sizesOf a.spaces a.sizes = some sizes ∧
      (fileAll (a.constraints.getD [])).1.mapM (env.eqRow a.spaces.flatten.length) = some rs ∧
      env.rank ((env.allRows a sizes rs).map Prod.fst) < a.spaces.flatten.length ∧
      s = { spaces := a.spaces, sizes := sizes, chargeNeutral := a.chargeNeutral,
            optimizeBasis := a.optimizeBasis, tableErgodic := a.tableErgodic,
            A := (env.allRows a sizes rs).map Prod.fst,
            b := (env.allRows a sizes rs).map Prod.snd,
            leqs := if 0 < (fileAll (a.constraints.getD [])).2.length then
              some ((fileAll (a.constraints.getD [])).2.map Prod.fst,
                (fileAll (a.constraints.getD [])).2.map Prod.snd) else none } := by
  have hcons : filed a.constraints = fileAll (a.constraints.getD []) := by
    cases a.constraints <;> rfl
  unfold SpaceEnv.construct
  dsimp only
  rw [hcons]
  unfold SpaceEnv.eqRows
  constructor
  · intro h
    obtain ⟨sizes, hs, h⟩ := Option.bind_eq_some_iff.1 h
    obtain ⟨rows, hr, h⟩ := Option.bind_eq_some_iff.1 h
    obtain ⟨rs, hrs, rfl⟩ := Option.map_eq_some_iff.1 hr
    by_cases hc : a.spaces.flatten.length ≤ env.rank ((env.allRows a sizes rs).map Prod.fst)
    · exact absurd (h.symm.trans (if_pos hc)) (by simp)
    · exact ⟨sizes, rs, hs, hrs, not_le.1 hc, Option.some.inj (h.symm.trans (if_neg hc))⟩
  · rintro ⟨sizes, rs, hs, hrs, hc, rfl⟩
    rw [hs, hrs]
    simp only [Option.bind_some, Option.map_some]
    exact if_neg (not_le.2 hc)

/-- The relations python reads as equalities. -/
def eqNames : List String := ["eq", "==", "="]

theorem fileAll_eqs (es : List ConTuple) :
    (fileAll es).1 = (es.filter fun e => e.2.2 ∈ eqNames).map fun e => (e.1, e.2.1) := by
  have : ∀ (es : List ConTuple) (st : List (List ℚ × ℚ) × List (List ℚ × ℚ)),
      (es.foldl fileTuple st).1 = st.1 ++ (es.filter fun e => e.2.2 ∈ eqNames).map fun e => (e.1, e.2.1) := by
    intro es
    induction es with
    | nil => simp
    | cons e t ih =>
      intro st
      rw [List.foldl_cons, ih]
      by_cases h : e.2.2 ∈ eqNames
      · rw [List.filter_cons_of_pos (by simpa using h)]
        have h' : e.2.2 = "eq" ∨ e.2.2 = "==" ∨ e.2.2 = "=" := by simpa [eqNames] using h
        simp only [fileTuple, if_pos h']
        split_ifs <;> simp
      · rw [List.filter_cons_of_neg (by simpa using h)]
        have h' : ¬ (e.2.2 = "eq" ∨ e.2.2 = "==" ∨ e.2.2 = "=") := by simpa [eqNames] using h
        simp only [fileTuple, if_neg h']
        split_ifs <;> simp
  rw [fileAll, this]
  rfl

theorem dot_map_neg (a n : List ℚ) : dot (a.map fun x => -1 * x) n = - dot a n := by
  unfold dot
  induction a generalizing n with
  | nil => simp
  | cons x a ih =>
    cases n with
    | nil => simp
    | cons y n =>
      rw [List.map_cons, List.zipWith_cons_cons, List.sum_cons, ih, List.zipWith_cons_cons, List.sum_cons]
      ring

theorem fileAll_leqs (es : List ConTuple) (n : List ℚ) :
    (∀ p ∈ (fileAll es).2, dot p.1 n ≤ p.2) ↔
      ∀ e ∈ es, (e.2.2 = "leq" ∨ e.2.2 = "<=" → dot e.1 n ≤ e.2.1) ∧
        (e.2.2 = "geq" ∨ e.2.2 = ">=" → e.2.1 ≤ dot e.1 n) := by
  have : ∀ (es : List ConTuple) (st : List (List ℚ × ℚ) × List (List ℚ × ℚ)),
      (∀ p ∈ (es.foldl fileTuple st).2, dot p.1 n ≤ p.2) ↔ (∀ p ∈ st.2, dot p.1 n ≤ p.2) ∧
        ∀ e ∈ es, (e.2.2 = "leq" ∨ e.2.2 = "<=" → dot e.1 n ≤ e.2.1) ∧
        (e.2.2 = "geq" ∨ e.2.2 = ">=" → e.2.1 ≤ dot e.1 n) := by
    intro es
    induction es with
    | nil => simp
    | cons e t ih =>
      intro st
      rw [List.foldl_cons, ih, List.forall_mem_cons, ← and_assoc]
      refine and_congr_left fun _ => ?_
      have hx : (fileTuple st e).2 = st.2 ++
          ((if e.2.2 = "leq" ∨ e.2.2 = "<=" then [(e.1, e.2.1)] else []) ++
            (if e.2.2 = "geq" ∨ e.2.2 = ">=" then [(e.1.map fun x => -1 * x, -1 * e.2.1)] else [])) := by
        unfold fileTuple
        dsimp only
        split_ifs <;> simp
      rw [hx, List.forall_mem_append, List.forall_mem_append]
      refine and_congr_right fun _ => and_congr ?_ ?_
      · by_cases h : e.2.2 = "leq" ∨ e.2.2 = "<="
        · rw [if_pos h]
          simp [h]
        · rw [if_neg h]
          simp [h]
      · by_cases h : e.2.2 = "geq" ∨ e.2.2 = ">="
        · rw [if_pos h, List.forall_mem_singleton, dot_map_neg]
          constructor
          · intro hh _
            linarith
          · intro hh
            have := hh h
            linarith
        · rw [if_neg h]
          simp [h]
  rw [fileAll, this]
  simp

theorem rowDot_eq_dot (row : List ℤ) (n : List ℚ) : rowDot row n = dot (row.map fun (z : ℤ) => (z : ℚ)) n := by
  unfold rowDot dot
  induction row generalizing n with
  | nil => simp
  | cons x a ih =>
    cases n with
    | nil => simp
    | cons y n => rw [List.map_cons, List.zipWith_cons_cons, List.sum_cons, ih, List.zipWith_cons_cons, List.sum_cons]

theorem dot_map_mul (v n : List ℚ) (m : ℚ) : dot (v.map fun q => q * m) n = dot v n * m := by
  unfold dot
  induction v generalizing n with
  | nil => simp
  | cons x a ih =>
    cases n with
    | nil => simp
    | cons y n =>
      rw [List.map_cons, List.zipWith_cons_cons, List.sum_cons, ih, List.zipWith_cons_cons, List.sum_cons]
      ring

theorem sublatticeRows_iff {spaces : List (List ℕ)} {sizes : List ℕ} {ns : List (List ℚ)}
    (hshape : List.Forall₂ (fun sp n => sp.length = n.length) spaces ns) (hl : sizes.length = spaces.length) :
    (∀ r ∈ ((dimIds spaces).zip sizes).map
        (fun p => (sublatticeRow spaces.flatten.length p.1, (p.2 : ℚ))), rowDot r.1 ns.flatten = r.2) ↔
      List.Forall₂ (fun (s : ℕ) (n : List ℚ) => n.sum = s) sizes ns := by
  have hlen := forall2_flatten_length hshape
  have hs := dimIds_slices hshape
  have hln : (dimIds spaces).length = ns.length := by rw [← congrArg List.length hs, List.length_map]
  have hll : sizes.length = ns.length := by rw [hl, hshape.length_eq]
  have key : ∀ ids ∈ dimIds spaces, rowDot (sublatticeRow spaces.flatten.length ids) ns.flatten =
      (ids.map fun i => ns.flatten.getD i 0).sum := by
    intro ids hi
    obtain ⟨h1, h2⟩ := dimIdsFrom_bounds spaces 0 ids hi
    exact sublatticeRow_dot h1 (fun i h => by have := h2 i h; omega) hlen.symm
  rw [List.forall_mem_map, List.forall₂_iff_zip]
  constructor
  · intro h
    refine ⟨hll, fun {s n} hp => ?_⟩
    obtain ⟨k, hk, hk'⟩ := List.mem_iff_getElem.1 hp
    rw [List.length_zip] at hk
    rw [List.getElem_zip, Prod.mk.injEq] at hk'
    have hkd : k < (dimIds spaces).length := by omega
    have hks : k < sizes.length := by omega
    have := h ((dimIds spaces)[k], sizes[k]) (by
      rw [List.mem_iff_getElem]
      exact ⟨k, by rw [List.length_zip]; omega, by rw [List.getElem_zip]⟩)
    rw [key _ (List.getElem_mem _)] at this
    have e : ns[k]'(by omega) = (dimIds spaces)[k].map fun i => ns.flatten.getD i 0 := by
      have : ns[k]? = ((dimIds spaces).map fun ids => ids.map fun i => ns.flatten.getD i 0)[k]? := by rw [hs]
      rw [List.getElem?_map, List.getElem?_eq_getElem hkd, List.getElem?_eq_getElem (by omega)] at this
      exact Option.some.inj this
    rw [← hk'.2, ← hk'.1, e]
    exact this
  · rintro ⟨_, h⟩ p hp
    obtain ⟨k, hk, hk'⟩ := List.mem_iff_getElem.1 hp
    rw [List.length_zip] at hk
    rw [List.getElem_zip] at hk'
    have hkd : k < (dimIds spaces).length := by omega
    have hks : k < sizes.length := by omega
    subst hk'
    have e : ns[k]'(by omega) = (dimIds spaces)[k].map fun i => ns.flatten.getD i 0 := by
      have : ns[k]? = ((dimIds spaces).map fun ids => ids.map fun i => ns.flatten.getD i 0)[k]? := by rw [hs]
      rw [List.getElem?_map, List.getElem?_eq_getElem hkd, List.getElem?_eq_getElem (by omega)] at this
      exact Option.some.inj this
    have := @h sizes[k] (ns[k]'(by omega)) (by
      rw [List.mem_iff_getElem]
      exact ⟨k, by rw [List.length_zip]; omega, by rw [List.getElem_zip]⟩)
    dsimp only
    rw [key _ (List.getElem_mem _), ← e]
    exact this

theorem eqRow_iff {env : SpaceEnv} (hok : env.Ok) {dims : ℕ} {e : List ℚ × ℚ} {r : List ℤ × ℚ}
    (h : env.eqRow dims e = some r) (hd : 0 < dims) (hden : ∀ q ∈ e.1, q.den ≤ env.maxDen) (n : List ℚ) :
    rowDot r.1 n = r.2 ↔ dot e.1 n = e.2 := by
  unfold SpaceEnv.eqRow at h
  split_ifs at h with hc
  have hne : e.1 ≠ [] := by
    intro h0
    rw [h0] at hc
    exact hc (by simp; omega)
  rw [integerizeVector_exact hok.lim hok.dtol hne hden] at h
  obtain rfl := Option.some.inj h
  have hm : (0 : ℚ) < denLcm e.1 := by exact_mod_cast denLcm_pos e.1
  rw [rowDot_eq_dot]
  have hrow : (e.1.map fun c => npRound (c * (denLcm e.1 : ℚ))).map (fun (z : ℤ) => (z : ℚ)) =
      e.1.map fun q => q * (denLcm e.1 : ℚ) := by
    rw [List.map_map]
    refine List.map_congr_left fun q hq => ?_
    obtain ⟨z, hz⟩ := mul_denLcm_integral hq
    show ((npRound (q * (denLcm e.1 : ℚ)) : ℤ) : ℚ) = _
    rw [hz, npRound_intCast]
  rw [hrow, dot_map_mul]
  exact mul_left_inj' hm.ne'

theorem zip_fst_snd {α β : Type*} (l : List (α × β)) : (l.map Prod.fst).zip (l.map Prod.snd) = l := by
  induction l with
  | nil => rfl
  | cons a t ih => rw [List.map_cons, List.map_cons, List.zip_cons_cons, ih]

/-- A new composition space stands for exactly the constraints it was given.  Partial: the oxidation
states must be integers (the code cuts them to integers, see `C80_fractional_charge_fails`) and the
coefficients fractions with denominators at most 1000 (see `C80_small_coefficient_fails`). -/
theorem C80_equations_partial (env : SpaceEnv) (hok : env.Ok) (a : SpaceArgs) (s : Space)
    (h : env.construct a = some s)
    (hoxi : ∀ sp ∈ a.spaces.flatten, ∃ z : ℤ, env.oxi sp = z)
    (hden : ∀ e ∈ a.constraints.getD [], e.2.2 ∈ eqNames → ∀ q ∈ e.1, q.den ≤ env.maxDen)
    (ns : List (List ℚ)) (hshape : List.Forall₂ (fun sp n => sp.length = n.length) a.spaces ns) :
    (∀ r ∈ s.A.zip s.b, dot (r.1.map fun (z : ℤ) => (z : ℚ)) ns.flatten = r.2) ↔
      Meets a.spaces (a.sizes.getD (a.spaces.map fun _ => 1)) (if a.chargeNeutral then some env.oxi else none)
        (((a.constraints.getD []).filter fun e => e.2.2 ∈ eqNames).map fun e => (e.1, e.2.1)) ns := by
  obtain ⟨sizes, rs, hs, hrs, hrank, rfl⟩ := construct_eq_some.1 h
  have hsz : a.sizes.getD (a.spaces.map fun _ => 1) = sizes := by
    cases hz : a.sizes with
    | none => rw [hz] at hs; exact Option.some.inj hs
    | some l =>
      rw [hz] at hs
      simp only [sizesOf] at hs
      split_ifs at hs
      exact Option.some.inj hs
  have hdim : 0 < a.spaces.flatten.length := by omega
  have hzip : ∀ l : List (List ℤ × ℚ), (l.map Prod.fst).zip (l.map Prod.snd) = l := by
    exact zip_fst_snd
  dsimp only
  rw [hzip, hsz, ← fileAll_eqs]
  simp only [← rowDot_eq_dot]
  unfold SpaceEnv.allRows
  rw [List.forall_mem_append, List.forall_mem_append, sublatticeRows_iff hshape (sizesOf_length hs)]
  have hcharge : (∀ r ∈ (if a.chargeNeutral then [(a.spaces.flatten.map env.oxiState, (0 : ℚ))] else []),
      rowDot r.1 ns.flatten = r.2) ↔
      ∀ q ∈ (if a.chargeNeutral then some env.oxi else none), dot (a.spaces.flatten.map q) ns.flatten = 0 := by
    by_cases hc : a.chargeNeutral = true
    · rw [if_pos hc, if_pos hc, List.forall_mem_singleton]
      simp only [Option.mem_def, Option.some.injEq, forall_eq']
      rw [rowDot_eq_dot, List.map_map]
      have : a.spaces.flatten.map ((fun (z : ℤ) => (z : ℚ)) ∘ env.oxiState) = a.spaces.flatten.map env.oxi := by
        refine List.map_congr_left fun sp hsp => ?_
        obtain ⟨z, hz⟩ := hoxi sp hsp
        show ((truncate (env.oxi sp) : ℤ) : ℚ) = _
        rw [hz]
        unfold truncate
        split_ifs <;> simp
      rw [this]
    · rw [if_neg hc, if_neg hc]
      simp
  have hothers : (∀ r ∈ rs, rowDot r.1 ns.flatten = r.2) ↔
      ∀ e ∈ (fileAll (a.constraints.getD [])).1, dot e.1 ns.flatten = e.2 := by
    have hf := (mapM_eq_some_forall₂ _ _ _).1 hrs
    have hd' : ∀ e ∈ (fileAll (a.constraints.getD [])).1, ∀ q ∈ e.1, q.den ≤ env.maxDen := by
      intro e he
      rw [fileAll_eqs] at he
      obtain ⟨e', he', rfl⟩ := List.mem_map.1 he
      obtain ⟨h1, h2⟩ := List.mem_filter.1 he'
      exact hden e' h1 (by simpa using h2)
    clear hrs hrank h
    generalize (fileAll (a.constraints.getD [])).1 = l at hf hd'
    induction hf with
    | nil => simp
    | cons hh ht ih =>
      have hi := ih fun e he => hd' e (List.mem_cons_of_mem _ he)
      rw [List.forall_mem_cons, List.forall_mem_cons]
      exact and_congr (eqRow_iff hok hh hdim (hd' _ List.mem_cons_self) _) hi
  rw [hcharge, hothers]
  exact ⟨fun ⟨⟨h1, h2⟩, h3⟩ => ⟨h2, h1, h3⟩, fun ⟨h1, h2, h3⟩ => ⟨⟨h2, h1⟩, h3⟩⟩

/-- Three sublattices of sizes 2, 1 and 1, charges, an equality and two inequalities. -/
def exampleArgs : SpaceArgs :=
  ⟨[[0, 2], [1, 3], [2, 0]], some [2, 1, 1],
    some [([1 / 2, 0, 1 / 3, 0, 0, 0], 1 / 3, "=="), ([1, 0, 0, 0, 0, -1], 1 / 2, ">="), ([1, 1, 0, 0, 0, 0], 3, "<=")],
    true, false, false⟩

example : (exampleEnv.construct exampleArgs).map Space.A =
      some [[1, 0, -2, 0, 0, 1], [1, 1, 0, 0, 0, 0], [0, 0, 1, 1, 0, 0], [0, 0, 0, 0, 1, 1], [3, 0, 2, 0, 0, 0]] ∧
    (exampleEnv.construct exampleArgs).map Space.b = some [0, 2, 1, 1, 2] ∧
    (exampleEnv.construct exampleArgs).map Space.leqs =
      some (some ([[-1, 0, 0, 0, 0, 1], [1, 1, 0, 0, 0, 0]], [-1 / 2, 3])) := by
  decide +kernel

example : (∀ sp ∈ exampleArgs.spaces.flatten, ((exampleEnv.oxi sp).num : ℚ) = exampleEnv.oxi sp) ∧
    (∀ e ∈ exampleArgs.constraints.getD [], e.2.2 ∈ eqNames → ∀ q ∈ e.1, q.den ≤ exampleEnv.maxDen) := by
  decide +kernel

/-- The inequalities kept are those given. -/
theorem C80_inequalities (env : SpaceEnv) (a : SpaceArgs) (s : Space) (h : env.construct a = some s)
    (n : List ℚ) :
    (∀ l ∈ s.leqs, ∀ p ∈ l.1.zip l.2, dot p.1 n ≤ p.2) ↔
      ∀ e ∈ a.constraints.getD [], (e.2.2 = "leq" ∨ e.2.2 = "<=" → dot e.1 n ≤ e.2.1) ∧
        (e.2.2 = "geq" ∨ e.2.2 = ">=" → e.2.1 ≤ dot e.1 n) := by
  obtain ⟨sizes, rs, hs, hrs, hrank, rfl⟩ := construct_eq_some.1 h
  rw [← fileAll_leqs]
  dsimp only
  generalize (fileAll (a.constraints.getD [])).2 = l
  have hzip := zip_fst_snd l
  by_cases hl : 0 < l.length
  · rw [if_pos hl]
    simp only [Option.mem_def, Option.some.injEq, forall_eq']
    rw [hzip]
  · rw [if_neg hl]
    obtain rfl : l = [] := List.length_eq_zero_iff.1 (by omega)
    simp

/-- Exactly when the constructor raises: a wrong number of sublattice sizes; an equality with a wrong
number of coefficients, or with a coefficient that no allowed fraction is near to; or as many
independent equations as species. -/
theorem C80_refusals (env : SpaceEnv) (hok : env.Ok) (a : SpaceArgs) (hd : a.spaces.flatten ≠ []) :
    (∃ s, env.construct a = some s) ↔
      (∀ l ∈ a.sizes, l.length = a.spaces.length) ∧
      (∀ e ∈ a.constraints.getD [], e.2.2 ∈ eqNames → e.1.length = a.spaces.flatten.length ∧
        ∀ c ∈ e.1, ∃ (p : ℤ) (q : ℕ), 0 < q ∧ q ≤ env.maxDen ∧ |(p : ℚ) / q - c| ≤ env.dtol) ∧
      ∀ sizes rs, sizesOf a.spaces a.sizes = some sizes →
        (fileAll (a.constraints.getD [])).1.mapM (env.eqRow a.spaces.flatten.length) = some rs →
        env.rank ((env.allRows a sizes rs).map Prod.fst) < a.spaces.flatten.length := by
  have hsz : (∃ sizes, sizesOf a.spaces a.sizes = some sizes) ↔
      ∀ l ∈ a.sizes, l.length = a.spaces.length := by
    cases a.sizes with
    | none => simp [sizesOf]
    | some l => simp [sizesOf]
  have hrow : ∀ e : List ℚ × ℚ, (∃ r, env.eqRow a.spaces.flatten.length e = some r) ↔
      e.1.length = a.spaces.flatten.length ∧
        ∀ c ∈ e.1, ∃ (p : ℤ) (q : ℕ), 0 < q ∧ q ≤ env.maxDen ∧ |(p : ℚ) / q - c| ≤ env.dtol := by
    intro e
    unfold SpaceEnv.eqRow
    by_cases hl : e.1.length = a.spaces.flatten.length
    · rw [if_neg (by rw [not_not]; exact hl)]
      have hne : e.1 ≠ [] := by
        intro h0
        rw [h0, List.length_nil] at hl
        exact hd (List.length_eq_zero_iff.1 hl.symm)
      have h1 : (∃ r, (integerizeVector env.lim env.maxDen env.dtol e.1).map (fun r : List ℤ × ℕ =>
          (e.1.map fun c => npRound (c * (r.2 : ℚ)), e.2 * (r.2 : ℚ))) = some r) ↔
          e.1.mapM (rationalize env.lim env.maxDen env.dtol) ≠ none := by
        unfold integerizeVector
        cases hm : e.1.mapM (rationalize env.lim env.maxDen env.dtol) with
        | none => simp
        | some rs =>
          have : rs.isEmpty = false := by
            have := ((mapM_eq_some_forall₂ _ _ _).1 hm).length_eq
            cases rs with
            | nil => exact absurd (List.length_eq_zero_iff.1 this) hne
            | cons _ _ => rfl
          simp only [Option.bind_some, this, Bool.false_eq_true, if_false, Option.map_some]
          simp
      rw [h1, Ne, mapM_eq_none_iff]
      simp only [hl, true_and]
      push Not
      refine forall₂_congr fun c _ => ?_
      rw [Ne, (C80_rationalize env hok c).2]
      push Not
      rfl
    · rw [if_pos hl]
      exact ⟨fun ⟨_, h⟩ => absurd h (by simp), fun h => absurd h.1 hl⟩
  have hm : (∃ rs, (fileAll (a.constraints.getD [])).1.mapM (env.eqRow a.spaces.flatten.length) = some rs) ↔
      ∀ e ∈ a.constraints.getD [], e.2.2 ∈ eqNames → e.1.length = a.spaces.flatten.length ∧
        ∀ c ∈ e.1, ∃ (p : ℤ) (q : ℕ), 0 < q ∧ q ≤ env.maxDen ∧ |(p : ℚ) / q - c| ≤ env.dtol := by
    rw [← Option.ne_none_iff_exists', Ne, mapM_eq_none_iff]
    push Not
    rw [fileAll_eqs, List.forall_mem_map]
    simp only [List.mem_filter, decide_eq_true_eq, and_imp, Option.ne_none_iff_exists']
    exact forall₃_congr fun e _ _ => hrow _
  rw [← hsz, ← hm]
  constructor
  · rintro ⟨s, h⟩
    obtain ⟨sizes, rs, hs, hrs, hrank, _⟩ := construct_eq_some.1 h
    refine ⟨⟨sizes, hs⟩, ⟨rs, hrs⟩, fun sizes' rs' hs' hrs' => ?_⟩
    obtain rfl := Option.some.inj (hs.symm.trans hs')
    obtain rfl := Option.some.inj (hrs.symm.trans hrs')
    exact hrank
  · rintro ⟨⟨sizes, hs⟩, ⟨rs, hrs⟩, hr⟩
    exact ⟨_, construct_eq_some.2 ⟨sizes, rs, hs, hrs, hr sizes rs hs hrs, rfl⟩⟩

example : exampleArgs.spaces.flatten ≠ [] ∧
    exampleEnv.construct { exampleArgs with sizes := some [2, 1] } = none ∧
    exampleEnv.construct { exampleArgs with constraints := some [([1, 0], 1, "=")] } = none ∧
    exampleEnv.construct { exampleArgs with constraints := some [([1 / 19, 0, 0, 0, 0, 0], 1, "=")] } = none := by
  refine ⟨by decide, ?_, ?_, ?_⟩ <;> exact Option.isNone_iff_eq_none.1 (by decide +kernel)

/-! ### Where the code does not keep the constraints -/

/-- Species with fractional oxidation states: 0 has +1/2, 1 has -1, 2 has 0.  The space is made without
complaint; it refuses an amount that is neutral and takes one that is not. -/
theorem C80_fractional_charge_fails (lim : ℕ → ℚ → ℚ) (rank : List (List ℤ) → ℕ)
    (hrank : rank [[0, -1, 0], [1, 1, 1]] = 2) :
    ∃ s, (pythonEnv (fun i => if i = 0 then 1 / 2 else if i = 1 then -1 else 0) lim rank).construct
        ⟨[[0, 1, 2]], none, none, true, false, false⟩ = some s ∧
      Meets [[0, 1, 2]] [1] (some fun i => if i = 0 then 1 / 2 else if i = 1 then -1 else 0) []
        [[2 / 3, 1 / 3, 0]] ∧
      ¬ (∀ r ∈ s.A.zip s.b, dot (r.1.map fun (z : ℤ) => (z : ℚ)) [2 / 3, 1 / 3, 0] = r.2) ∧
      ¬ Meets [[0, 1, 2]] [1] (some fun i => if i = 0 then 1 / 2 else if i = 1 then -1 else 0) []
        [[1, 0, 0]] ∧
      ∀ r ∈ s.A.zip s.b, dot (r.1.map fun (z : ℤ) => (z : ℚ)) [1, 0, 0] = r.2 := by
  have hrows : (pythonEnv (fun i => if i = 0 then 1 / 2 else if i = 1 then -1 else 0) lim rank).allRows
      ⟨[[0, 1, 2]], none, none, true, false, false⟩ [1] [] = [([0, -1, 0], 0), ([1, 1, 1], 1)] := by
    show (pythonEnv (fun i => if i = 0 then 1 / 2 else if i = 1 then -1 else 0) (fun _ x => x)
      fun _ => 0).allRows ⟨[[0, 1, 2]], none, none, true, false, false⟩ [1] [] = _
    decide +kernel
  refine ⟨_, construct_eq_some.2 ⟨[1], [], rfl, rfl, ?_, rfl⟩, ?_, ?_, ?_, ?_⟩
  · rw [hrows]
    exact hrank.trans_lt (by decide)
  · refine ⟨List.Forall₂.cons (by norm_num) List.Forall₂.nil, ?_, by simp⟩
    intro q hq
    obtain rfl := Option.some.inj hq
    decide +kernel
  · dsimp only
    rw [hrows]
    decide +kernel
  · intro h
    have := h.neutral _ rfl
    revert this
    decide +kernel
  · dsimp only
    rw [hrows]
    decide +kernel

theorem closest_to_1001 {f : ℚ} (h : ClosestFraction 1000 (1 / 1001) f) : f = 1 / 1000 := by
  have h1 := h.2 (1 / 1000) (by decide +kernel)
  have hq : 0 < f.den := f.pos
  have hq' : f.den ≤ 1000 := h.1
  have hqQ : (0 : ℚ) < f.den := by exact_mod_cast hq
  have e : f - 1 / 1001 = ((1001 * f.num - f.den : ℤ) : ℚ) / (1001 * f.den) := by
    rw [eq_div_iff (by positivity)]
    push_cast
    linear_combination (1001 : ℚ) * Rat.mul_den_eq_num f
  rw [e, abs_div, abs_of_pos (by positivity : (0 : ℚ) < 1001 * f.den),
    show |(1 / 1000 : ℚ) - 1 / 1001| = 1 / 1001000 by norm_num [abs_of_pos],
    div_le_div_iff₀ (by positivity) (by norm_num)] at h1
  have h2 : |(1001 * f.num - f.den : ℤ)| * 1001000 ≤ 1 * (1001 * (f.den : ℤ)) := by
    have : ((|(1001 * f.num - f.den : ℤ)| * 1001000 : ℤ) : ℚ) ≤ ((1 * (1001 * (f.den : ℤ)) : ℤ) : ℚ) := by
      push_cast at h1 ⊢
      exact h1
    exact_mod_cast this
  have h3 : f.num = 1 ∧ f.den = 1000 := by
    rcases abs_cases (1001 * f.num - f.den : ℤ) with ⟨ha, _⟩ | ⟨ha, _⟩ <;> rw [ha] at h2 <;> omega
  rw [← Rat.num_div_den f, h3.1, h3.2]
  norm_num

/-- The tolerance `1e-6` is wider than the distance of neighbouring fractions: the coefficient 1/1001
is taken for 1/1000 and the equation `n₀ / 1001 = 1 / 2002` becomes `n₀ = 1000 / 2002`.  No
exception. -/
theorem C80_small_coefficient_fails (oxi : ℕ → ℚ) (lim : ℕ → ℚ → ℚ) (rank : List (List ℤ) → ℕ)
    (hlim : ∀ x, ClosestFraction 1000 x (lim 1000 x)) (hrank : rank [[1, 1, 1], [1, 0, 0]] = 2) :
    ∃ s, (pythonEnv oxi lim rank).construct
        ⟨[[0, 1, 2]], none, some [([1 / 1001, 0, 0], 1 / 2002, "==")], false, false, false⟩ = some s ∧
      Meets [[0, 1, 2]] [1] none [([1 / 1001, 0, 0], 1 / 2002)] [[1 / 2, 1 / 2, 0]] ∧
      ¬ ∀ r ∈ s.A.zip s.b, dot (r.1.map fun (z : ℤ) => (z : ℚ)) [1 / 2, 1 / 2, 0] = r.2 := by
  have h1 := closest_to_1001 (hlim (1 / 1001))
  have h0 := ClosestFraction.exact (hlim 0) (by decide +kernel)
  have hrow : (pythonEnv oxi lim rank).eqRow 3 ([1 / 1001, 0, 0], 1 / 2002) = some ([1, 0, 0], 1000 / 2002) := by
    unfold SpaceEnv.eqRow
    rw [if_neg (by simp)]
    have := integerizeVector_of (lim := lim) (N := 1000) (dtol := 1 / 1000000)
      (v := [1 / 1001, 0, 0]) (w := [1 / 1000, 0, 0]) (by simp)
      (List.Forall₂.cons ⟨h1, by norm_num [abs_of_pos]⟩ (List.Forall₂.cons ⟨h0, by norm_num⟩
        (List.Forall₂.cons ⟨h0, by norm_num⟩ List.Forall₂.nil)))
    show (integerizeVector lim 1000 (1 / 1000000) [1 / 1001, 0, 0]).map _ = _
    rw [this]
    decide +kernel
  have hrows : (pythonEnv oxi lim rank).allRows
      ⟨[[0, 1, 2]], none, some [([1 / 1001, 0, 0], 1 / 2002, "==")], false, false, false⟩ [1]
      [([1, 0, 0], 1000 / 2002)] = [([1, 1, 1], 1), ([1, 0, 0], 1000 / 2002)] := by
    show (pythonEnv (fun _ => 0) (fun _ x => x) fun _ => 0).allRows
      ⟨[[0, 1, 2]], none, none, false, false, false⟩ [1] [([1, 0, 0], 1000 / 2002)] = _
    decide +kernel
  have hfile : (fileAll [([1 / 1001, 0, 0], 1 / 2002, "==")]).1 = [([1 / 1001, 0, 0], 1 / 2002)] := by
    decide +kernel
  refine ⟨_, construct_eq_some.2 ⟨[1], [([1, 0, 0], 1000 / 2002)], rfl, ?_, ?_, rfl⟩, ?_, ?_⟩
  · dsimp only [Option.getD_some]
    rw [hfile]
    show [(([1 / 1001, 0, 0], 1 / 2002) : List ℚ × ℚ)].mapM ((pythonEnv oxi lim rank).eqRow 3) = _
    rw [List.mapM_cons, hrow]
    rfl
  · rw [hrows]
    exact hrank.trans_lt (by decide)
  · refine ⟨List.Forall₂.cons (by norm_num) List.Forall₂.nil, by simp, ?_⟩
    rw [List.forall_mem_singleton]
    decide +kernel
  · dsimp only
    rw [hrows]
    decide +kernel

/-! ## C81: saving and loading -/

/-- Loading what was saved gives the space back: the constraints, options, and whatever of the vertices,
smallest size, base solution, basis, flip table and grids had been computed. -/
theorem C81_round_trip (env : SpaceEnv) (hok : env.Ok) (a : SpaceArgs) (s₀ : Space)
    (h : env.construct a = some s₀) (primVertices : Option (List (List ℚ))) (minSize : Option ℕ)
    (n0 : Option (List ℤ)) (vs flipTable : Option (List (List ℤ)))
    (grids : List ((ℕ × ℕ) × List (List ℤ))) :
    let s := { s₀ with primVertices, minSize, n0, vs, flipTable, grids }
    env.fromDict s.asDict = some s := by
  obtain ⟨sizes, rs, hs, hrs, hrank, rfl⟩ := construct_eq_some.1 h
  have hdim : 0 < a.spaces.flatten.length := by omega
  have hsz := sizesOf_length hs
  intro s
  have hn : (((if a.chargeNeutral then [(a.spaces.flatten.map env.oxiState, (0 : ℚ))] else []) ++
      ((dimIds a.spaces).zip sizes).map
        (fun p => (sublatticeRow a.spaces.flatten.length p.1, (p.2 : ℚ))))).length =
      a.spaces.length + (if a.chargeNeutral then 1 else 0) := by
    rw [List.length_append, List.length_map, List.length_zip, hsz,
      show (dimIds a.spaces).length = a.spaces.length from dimIdsFrom_length _ _, min_self]
    split_ifs <;> simp [add_comm]
  have hA : (s.A.drop (a.spaces.length + (if a.chargeNeutral then 1 else 0))) = rs.map Prod.fst := by
    show ((env.allRows a sizes rs).map Prod.fst).drop _ = _
    rw [← List.map_drop, ← hn]
    unfold SpaceEnv.allRows
    rw [List.drop_left]
  have hb : (s.b.drop (a.spaces.length + (if a.chargeNeutral then 1 else 0))) = rs.map Prod.snd := by
    show ((env.allRows a sizes rs).map Prod.snd).drop _ = _
    rw [← List.map_drop, ← hn]
    unfold SpaceEnv.allRows
    rw [List.drop_left]
  set leqs := (fileAll (a.constraints.getD [])).2 with hleqs
  have hcons : s.asDict.constraints =
      (rs.map fun p => (p.1.map fun (x : ℤ) => (x : ℚ), p.2)).map (fun p => (p.1, p.2, "eq")) ++
        leqs.map fun p => (p.1, p.2, "leq") := by
    show ((s.A.drop (a.spaces.length + (if a.chargeNeutral then 1 else 0))).zip
      (s.b.drop (a.spaces.length + (if a.chargeNeutral then 1 else 0)))).map _ ++ _ = _
    rw [hA, hb, zip_fst_snd, List.map_map]
    congr 1
    show (match (if 0 < leqs.length then some (leqs.map Prod.fst, leqs.map Prod.snd) else none) with
      | some l => (l.1.zip l.2).map fun (p : List ℚ × ℚ) => ((p.1, p.2, "leq") : ConTuple)
      | none => []) = _
    by_cases hl : 0 < leqs.length
    · rw [if_pos hl]
      dsimp only
      rw [zip_fst_snd]
    · rw [if_neg hl, List.length_eq_zero_iff.1 (by omega : leqs.length = 0)]
      rfl
  have hfile : fileAll s.asDict.constraints =
      (rs.map fun p => (p.1.map fun (x : ℤ) => (x : ℚ), p.2), leqs) := by
    rw [hcons, fileAll, List.foldl_append, fileAll_append_eq, fileAll_append_leq]
    simp
  have hgrids : s.asDict.grids.mapM (fun e => (decodeKey e.1).map fun k => (k, e.2)) = some grids := by
    show (grids.map fun e => (encodeKey e.1, e.2)).mapM _ = _
    rw [mapM_eq_some_forall₂, List.forall₂_map_left_iff]
    refine List.forall₂_same.2 fun e _ => ?_
    rw [decodeKey_encodeKey]
    rfl
  have hrows : (rs.map fun p => (p.1.map fun (x : ℤ) => (x : ℚ), p.2)).mapM
      (env.eqRow a.spaces.flatten.length) = some rs := by
    rw [mapM_eq_some_forall₂, List.forall₂_map_left_iff]
    refine List.forall₂_same.2 fun r hr => eqRow_int hok hdim ?_
    obtain ⟨e, _, he⟩ : ∃ e ∈ (fileAll (a.constraints.getD [])).1,
        env.eqRow a.spaces.flatten.length e = some r := by
      have hf := (mapM_eq_some_forall₂ _ _ _).1 hrs
      obtain ⟨k, hk, rfl⟩ := List.mem_iff_getElem.1 hr
      have hk' := hf.length_eq ▸ hk
      exact ⟨_, List.getElem_mem hk', List.forall₂_iff_get.1 hf |>.2 k hk' hk⟩
    exact eqRow_length he
  unfold SpaceEnv.fromDict
  have hc : env.construct ⟨s.asDict.bits, some s.asDict.sizes, some s.asDict.constraints,
      s.asDict.chargeNeutral, s.asDict.optimizeBasis, s.asDict.tableErgodic⟩ = _ :=
    construct_eq_some.2 ⟨sizes, rs, by simp [sizesOf, Space.asDict, s, hsz], by
      rw [Option.getD_some, hfile]; exact hrows, hrank, rfl⟩
  rw [hc, Option.bind_some, hgrids, Option.map_some]
  simp only [Option.getD_some, hfile]
  rfl

example : ((exampleEnv.construct exampleArgs).bind fun s =>
      (exampleEnv.fromDict { s with minSize := some 6, grids := [((12, 2), [[1, 2], [3, 4]])] }.asDict).map
        Space.grids) = some [((12, 2), [[1, 2], [3, 4]])] := by
  decide +kernel

/-- The keys of the stored grids do not get mixed up. -/
theorem C81_keys (k k' : ℕ × ℕ) (h : encodeKey k = encodeKey k') : k = k' := by
  have := congrArg decodeKey h
  rw [decodeKey_encodeKey, decodeKey_encodeKey] at this
  exact Option.some.inj this

end Smol
