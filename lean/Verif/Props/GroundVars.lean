import Verif.Lemmas.GroundComp
import Verif.Props.Sublattice

/-!
# C51 Variables and occupancies of the ground-state problem
-/

namespace Smol
open Spec

/-! ## variables -/

/-- C51. The variable table has the shape of the original site spaces. On a free site exactly the
allowed species have variables; on any other site exactly the enforced species is marked -1 and
the others -2. The variables are numbered 0, 1, …, n - 1 in order, each used once. -/
theorem C51_variables (subls : List Sublattice) (spaces : List (List ℕ)) (init : Option Occ)
    (h : GroundFits subls spaces) (hi : InitLegal subls init) :
    ∃ marks n, groundVariables subls spaces init = some (marks, n) ∧
      marks.map List.length = spaces.map List.length ∧
      marks.flatMap varInds = List.range n ∧
      ∀ sl ∈ subls, ∀ s ∈ sl.sites, ∀ c < (spaces.getD s []).length,
        (FreeSite sl s → (c ∈ sl.encoding ∧ 0 ≤ (marks.getD s []).getD c 0) ∨
          (c ∉ sl.encoding ∧ (marks.getD s []).getD c 0 = -2)) ∧
        (¬ FreeSite sl s → (marks.getD s []).getD c 0 = if c ∈ sl.encoding ∧
          (1 < sl.species.length → ∃ o, init = some o ∧ c = o s) then -1 else -2) := by
  obtain ⟨marks, n, base, hg, L⟩ := groundVariables_eq h hi
  refine ⟨marks, n, hg, ?_, ?_, ?_⟩
  · apply List.ext_getElem (by simp [L.length])
    intro s h1 h2
    simp only [List.length_map] at h1 h2
    obtain ⟨sl, hsl, hss⟩ := h.cover s h2
    have esp : spaces.getD s [] = spaces[s] := by
      rw [List.getD_eq_getElem?_getD, List.getElem?_eq_getElem h2]; rfl
    rw [List.getElem_map, List.getElem_map, ← esp]
    by_cases hf : FreeSite sl s
    · obtain ⟨_, row, hrow, hr⟩ := L.free sl hsl s hss hf
      rw [List.getElem?_eq_getElem h1, Option.some.injEq] at hrow
      rw [hrow]; exact hr.length
    · obtain ⟨_, row, hrow, hr, _⟩ := L.fixed sl hsl s hss hf
      rw [List.getElem?_eq_getElem h1, Option.some.injEq] at hrow
      rw [hrow]; exact hr.length
  · have key : ∀ s ≤ spaces.length, (marks.take s).flatMap varInds = List.range (base s) := by
      intro s
      induction s with
      | zero => intro _; rw [L.first]; rfl
      | succ s ih =>
        intro hs
        obtain ⟨sl, hsl, hss⟩ := h.cover s hs
        have hm : s < marks.length := by rw [L.length]; exact hs
        rw [List.take_add_one, List.flatMap_append, ih (by omega)]
        by_cases hf : FreeSite sl s
        · obtain ⟨hb, row, hrow, hr⟩ := L.free sl hsl s hss hf
          rw [hrow, hb]
          simp only [Option.toList_some, List.flatMap_cons, List.flatMap_nil, List.append_nil,
            hr.inds]
          rw [List.range_eq_range', List.range_eq_range']
          have := List.range'_append_1 (s := 0) (m := base s) (n := sl.encoding.length)
          rw [Nat.zero_add] at this
          exact this
        · obtain ⟨hb, row, hrow, hr, _⟩ := L.fixed sl hsl s hss hf
          rw [hrow, hb]
          simp [hr.inds]
    have := key spaces.length (le_refl _)
    rwa [L.last, List.take_of_length_le (by rw [L.length])] at this
  · intro sl hsl s hss c hc
    constructor
    · intro hf
      obtain ⟨_, row, hrow, hr⟩ := L.free sl hsl s hss hf
      have erow : marks.getD s [] = row := by rw [List.getD_eq_getElem?_getD, hrow]; rfl
      rw [erow, List.getD_eq_getElem?_getD, hr.mark c hc, Option.getD_some]
      by_cases he : c ∈ sl.encoding
      · left; rw [if_pos he]; exact ⟨he, by omega⟩
      · right; rw [if_neg he]; exact ⟨he, rfl⟩
    · intro hf
      obtain ⟨_, row, hrow, hr, hfe⟩ := L.fixed sl hsl s hss hf
      have erow : marks.getD s [] = row := by rw [List.getD_eq_getElem?_getD, hrow]; rfl
      rw [erow, List.getD_eq_getElem?_getD, hr.mark c hc, Option.getD_some]
      apply if_congr _ rfl rfl
      unfold forcedCode at hfe ⊢
      by_cases h1 : 1 < sl.species.length
      · simp only [h1, if_true] at hfe ⊢
        obtain ⟨o, ho, -⟩ := hi sl hsl s hss h1 (fun h2 => hf ⟨h1, h2⟩)
        rw [ho] at hfe ⊢
        constructor
        · rintro rfl; exact ⟨hfe, fun _ => ⟨o, rfl, rfl⟩⟩
        · rintro ⟨_, h⟩
          obtain ⟨o', e, e2⟩ := h trivial
          cases e; exact e2
      · simp only [h1, if_false, false_implies, and_true] at hfe ⊢
        have := single_encoding (h.fitsD hsl hss) h1
        generalize sl.encoding.getD 0 0 = x at *
        rw [this]; simp

/-- C51. Without an initial occupancy the variables can be made iff no site with several allowed
species is restricted. -/
theorem C51_variables_raise (subls : List Sublattice) (spaces : List (List ℕ))
    (h : GroundFits subls spaces) :
    groundVariables subls spaces none = none ↔
      ∃ sl ∈ subls, ∃ s ∈ sl.sites, 1 < sl.species.length ∧ s ∉ sl.active := by
  constructor
  · intro hn
    by_contra hne
    push Not at hne
    have hi : InitLegal subls none := fun sl hsl s hs h1 h2 => absurd (hne sl hsl s hs h1) h2
    obtain ⟨marks, n, base, hg, _⟩ := groundVariables_eq h hi
    rw [hg] at hn; cases hn
  · rintro ⟨sl, hsl, s, hs, h1, h2⟩
    obtain ⟨ids, hids, _, hat⟩ := sublatticeIds_eq h
    unfold groundVariables
    rw [hids, Option.bind_some]
    exact marksLoop_none h hat hsl hs h1 h2 spaces 0 0 (by simp) (Nat.zero_le _)

/-! ## round trips -/

/-- C51. An assignment that meets the normalization constraints decodes to a legal occupancy, in
which restricted sites hold their initial species, and the occupancy encodes to the same
assignment. -/
theorem C51_decode (subls : List Sublattice) (spaces : List (List ℕ)) (init : Option Occ)
    (h : GroundFits subls spaces) (hi : InitLegal subls init) (hne : spaces ≠ [])
    (marks : List (List ℤ)) (n : ℕ) (hg : groundVariables subls spaces init = some (marks, n))
    (values : List ℤ) (hv : Normalized marks n values) :
    ∃ l, occupancyFromVariables subls values marks = some l ∧ l.length = spaces.length ∧
      GroundLegal subls init (fun s => l.getD s 0) ∧
      valuesFromOccupancy subls (fun s => l.getD s 0) marks = some values := by
  obtain ⟨marks', n', base, hg', L⟩ := groundVariables_eq h hi
  rw [hg, Option.some.injEq, Prod.mk.injEq] at hg'
  obtain ⟨rfl, rfl⟩ := hg'
  obtain ⟨occ, hocc, hm⟩ := exists_matches L h hi hv
  have hd := decode_matches L h hv.length hocc hm
  have hget : ∀ s < spaces.length, ((List.range spaces.length).map occ).getD s 0 = occ s := by
    intro s hs
    rw [List.getD_eq_getElem?_getD, List.getElem?_map, List.getElem?_range hs]; rfl
  have hocc' : GroundLegal subls init (fun s => ((List.range spaces.length).map occ).getD s 0) := by
    intro sl hsl s hs
    simp only [hget s (h.lt hsl hs)]
    exact hocc sl hsl s hs
  have hm' : VarMatches subls base values
      (fun s => ((List.range spaces.length).map occ).getD s 0) := by
    intro sl hsl s hs hf q hq
    simp only [hget s (h.lt hsl hs)]
    exact hm sl hsl s hs hf q hq
  refine ⟨_, hd, by simp, hocc', ?_⟩
  obtain ⟨w, e1, e2, e3⟩ := encode_matches L h hne
    (occ := fun s => ((List.range spaces.length).map occ).getD s 0)
    (fun sl hsl s hs _ => (hocc' sl hsl s hs).1)
  rw [e1, matches_unique L h e2 hv.length e3 hm']

/-- C51. A legal occupancy encodes to an assignment that meets the normalization constraints and
decodes to the same occupancy. -/
theorem C51_encode (subls : List Sublattice) (spaces : List (List ℕ)) (init : Option Occ)
    (h : GroundFits subls spaces) (hi : InitLegal subls init) (hne : spaces ≠ [])
    (marks : List (List ℤ)) (n : ℕ) (hg : groundVariables subls spaces init = some (marks, n))
    (occ : Occ) (hocc : GroundLegal subls init occ) :
    ∃ values, valuesFromOccupancy subls occ marks = some values ∧ Normalized marks n values ∧
      occupancyFromVariables subls values marks = some ((List.range spaces.length).map occ) := by
  obtain ⟨marks', n', base, hg', L⟩ := groundVariables_eq h hi
  rw [hg, Option.some.injEq, Prod.mk.injEq] at hg'
  obtain ⟨rfl, rfl⟩ := hg'
  obtain ⟨w, e1, e2, e3⟩ := encode_matches L h hne (occ := occ)
    (fun sl hsl s hs _ => (hocc sl hsl s hs).1)
  exact ⟨w, e1, normalized_of_matches L h e2 hocc e3, decode_matches L h e2 hocc e3⟩

theorem onesOf_length {l : List ℤ} (hb : ∀ x ∈ l, x = 0 ∨ x = 1) :
    ((onesOf l).length : ℤ) = l.sum := by
  have h1 : (onesOf l).length = l.countP fun x => decide (x = 1) := by
    have e : l = (List.range l.length).map fun i => l.getD i 0 := by
      apply List.ext_getElem
      · simp
      · intro i h1 h2; simp [List.getElem?_eq_getElem h1]
    conv_rhs => rw [e]
    rw [List.countP_map, List.countP_eq_length_filter]
    unfold onesOf
    congr 1
    apply List.filter_congr
    intro p hp
    rw [List.mem_range] at hp
    simp [List.getElem?_eq_getElem hp]
  rw [h1]
  clear h1
  induction l with
  | nil => simp
  | cons a l ih =>
    have := ih fun x hx => hb x (by simp [hx])
    rw [List.countP_cons, List.sum_cons, ← this]
    rcases hb a (by simp) with rfl | rfl <;> simp
    omega

/-- C51. An assignment of 0 and 1 that violates the normalization of some site is refused. -/
theorem C51_decode_raises (subls : List Sublattice) (spaces : List (List ℕ)) (init : Option Occ)
    (h : GroundFits subls spaces) (hi : InitLegal subls init)
    (marks : List (List ℤ)) (n : ℕ) (hg : groundVariables subls spaces init = some (marks, n))
    (values : List ℤ) (hl : values.length = n) (hb : ∀ x ∈ values, x = 0 ∨ x = 1)
    (hv : ¬ Normalized marks n values) : occupancyFromVariables subls values marks = none := by
  obtain ⟨marks', n', base, hg', L⟩ := groundVariables_eq h hi
  rw [hg, Option.some.injEq, Prod.mk.injEq] at hg'
  obtain ⟨rfl, rfl⟩ := hg'
  have hn : ¬ ∀ sl ∈ subls, ∀ s ∈ sl.sites, FreeSite sl s →
      (blockOf values (base s) sl.encoding.length).sum = 1 := by
    intro hall; exact hv ⟨hl, hb, (L.norm_iff h values).2 hall⟩
  push Not at hn
  obtain ⟨sl, hsl, s, hs, hf, hne⟩ := hn
  rw [occupancyFromVariables_eq L h, mapM_eq_none_iff]
  refine ⟨s, List.mem_range.2 (h.lt hsl hs), ?_⟩
  rw [find_sublattice h hsl hs, Option.bind_some]
  obtain ⟨_, row, hrow, hr⟩ := L.free sl hsl s hs hf
  have erow : marks.getD s [] = row := by rw [List.getD_eq_getElem?_getD, hrow]; rfl
  rw [erow, decode_free hr (h.enc_pos hsl hs) (hl ▸ L.block_le h hsl hs hf)]
  have hbl : ∀ x ∈ blockOf values (base s) sl.encoding.length, x = 0 ∨ x = 1 := by
    intro x hx
    obtain ⟨i, hi, rfl⟩ := List.mem_map.1 hx
    rw [List.mem_range'_1] at hi
    have := L.block_le h hsl hs hf
    have hi' : i < values.length := by rw [hl]; omega
    rw [List.getD_eq_getElem?_getD, List.getElem?_eq_getElem hi']
    exact hb _ (List.getElem_mem hi')
  have hlen := onesOf_length hbl
  split
  · rfl
  · have : (onesOf (blockOf values (base s) sl.encoding.length)).length = 0 := by
      have : (onesOf (blockOf values (base s) sl.encoding.length)).length ≠ 1 := by
        intro e; rw [e] at hlen; exact hne (by exact_mod_cast hlen.symm)
      omega
    rw [List.length_eq_zero_iff.1 this]; rfl

/-! ## compositions -/

/-- C51. The components of the problem (variables of a species on a sublattice and the number of
sites always occupied by it) add up to the number of sites the decoded occupancy gives to the
species. -/
theorem C51_components (subls : List Sublattice) (spaces : List (List ℕ)) (init : Option Occ)
    (h : GroundFits subls spaces) (hi : InitLegal subls init)
    (marks : List (List ℤ)) (n : ℕ) (hg : groundVariables subls spaces init = some (marks, n)) :
    ∃ comps, components subls marks spaces = some comps ∧
      ∀ values, Normalized marks n values → ∀ l, occupancyFromVariables subls values marks = some l →
        comps.map (fun c => (c.2 : ℚ) + (c.1.map fun i => ((values.getD i 0 : ℤ) : ℚ)).sum) =
          (groundCounts subls spaces fun s => l.getD s 0).map fun k : ℕ => (k : ℚ) := by
  obtain ⟨marks', n', base, hg', L⟩ := groundVariables_eq h hi
  rw [hg, Option.some.injEq, Prod.mk.injEq] at hg'
  obtain ⟨rfl, rfl⟩ := hg'
  obtain ⟨comps, hc, _, hval⟩ := components_eq L h
  refine ⟨comps, hc, ?_⟩
  intro values hv l hl
  obtain ⟨occ, hocc, hm⟩ := exists_matches L h hi hv
  rw [decode_matches L h hv.length hocc hm, Option.some.injEq] at hl
  subst hl
  have hget : ∀ s < spaces.length, ((List.range spaces.length).map occ).getD s 0 = occ s := by
    intro s hs
    rw [List.getD_eq_getElem?_getD, List.getElem?_map, List.getElem?_range hs]; rfl
  apply hval
  · intro sl hsl s hs
    simp only [hget s (h.lt hsl hs)]
    exact hocc sl hsl s hs
  · intro sl hsl s hs hf q hq
    simp only [hget s (h.lt hsl hs)]
    exact hm sl hsl s hs hf q hq

theorem values_nonneg {values : List ℤ} (hb : ∀ x ∈ values, x = 0 ∨ x = 1) (i : ℕ) :
    (0 : ℚ) ≤ ((values.getD i 0 : ℤ) : ℚ) := by
  by_cases hi : i < values.length
  · rw [List.getD_eq_getElem?_getD, List.getElem?_eq_getElem hi, Option.getD_some]
    rcases hb _ (List.getElem_mem hi) with e | e <;> rw [e] <;> norm_num
  · rw [List.getD_eq_getElem?_getD, List.getElem?_eq_none (by omega)]; simp

/-- C51. The constraints of a fixed composition hold for an assignment iff the decoded occupancy
has exactly this composition. -/
theorem C51_fixed_composition (subls : List Sublattice) (spaces : List (List ℕ))
    (init : Option Occ) (h : GroundFits subls spaces) (hi : InitLegal subls init)
    (marks : List (List ℤ)) (n : ℕ) (hg : groundVariables subls spaces init = some (marks, n))
    (comps : List (List ℕ × ℕ)) (hc : components subls marks spaces = some comps)
    (fixed : List ℤ) (hlen : fixed.length = comps.length) (cons : List LinCon)
    (hcons : fixedConstraints comps fixed = some cons)
    (values : List ℤ) (hv : Normalized marks n values)
    (l : List ℕ) (hl : occupancyFromVariables subls values marks = some l) :
    (∀ c ∈ cons, c.Holds fun i => ((values.getD i 0 : ℤ) : ℚ)) ↔
      (groundCounts subls spaces fun s => l.getD s 0).map (fun k : ℕ => (k : ℤ)) = fixed := by
  obtain ⟨comps', hc', hval⟩ := C51_components subls spaces init h hi marks n hg
  rw [hc, Option.some.injEq] at hc'; subst hc'
  have hval := hval values hv l hl
  have hs := fixedConstraints_spec (comps := comps) (fixed := fixed)
    (fun i => ((values.getD i 0 : ℤ) : ℚ)) (values_nonneg hv.bool) hlen
  rw [hcons] at hs
  simp only at hs
  rw [hs]
  have e : comps.map (compValue fun i => ((values.getD i 0 : ℤ) : ℚ)) =
      (groundCounts subls spaces fun s => l.getD s 0).map fun k : ℕ => (k : ℚ) := hval
  rw [e]
  constructor
  · intro hh
    have : Function.Injective (fun k : ℤ => (k : ℚ)) := fun a b => by
      simp only [Int.cast_inj, imp_self]
    apply (List.map_injective_iff.2 this)
    rw [List.map_map, ← hh]
    simp [Function.comp_def]
  · intro hh
    rw [← hh, List.map_map]
    simp [Function.comp_def]

/-- C51. When the fixed composition is refused no legal occupancy has it. -/
theorem C51_fixed_composition_raises (subls : List Sublattice) (spaces : List (List ℕ))
    (init : Option Occ) (h : GroundFits subls spaces) (hi : InitLegal subls init)
    (hne : spaces ≠ [])
    (marks : List (List ℤ)) (n : ℕ) (hg : groundVariables subls spaces init = some (marks, n))
    (comps : List (List ℕ × ℕ)) (hc : components subls marks spaces = some comps)
    (fixed : List ℤ) (hlen : fixed.length = comps.length)
    (hcons : fixedConstraints comps fixed = none) (occ : Occ)
    (hocc : GroundLegal subls init occ) :
    (groundCounts subls spaces occ).map (fun k : ℕ => (k : ℤ)) ≠ fixed := by
  obtain ⟨marks', n', base, hg', L⟩ := groundVariables_eq h hi
  rw [hg, Option.some.injEq, Prod.mk.injEq] at hg'
  obtain ⟨rfl, rfl⟩ := hg'
  obtain ⟨comps', hc', _, hval⟩ := components_eq L h
  rw [hc, Option.some.injEq] at hc'; subst hc'
  obtain ⟨w, e1, e2, e3⟩ := encode_matches L h hne (occ := occ)
    (fun sl hsl s hs _ => (hocc sl hsl s hs).1)
  have hv := normalized_of_matches L h e2 hocc e3
  have hs := fixedConstraints_spec (comps := comps) (fixed := fixed)
    (fun i => ((w.getD i 0 : ℤ) : ℚ)) (values_nonneg hv.bool) hlen
  rw [hcons] at hs
  simp only at hs
  rw [hval w occ hocc e3] at hs
  intro hh
  apply hs
  rw [← hh, List.map_map]
  simp [Function.comp_def]

theorem groundTable_shape {subls : List Sublattice} {spaces : List (List ℕ)} (occ : Occ) :
    List.Forall₂ (fun sp n => sp.length = n.length) (subls.map Sublattice.species)
      (groundTable subls spaces occ) := by
  unfold groundTable
  rw [List.forall₂_map_left_iff, List.forall₂_map_right_iff, List.forall₂_same]
  intro sl _; simp

/-- C51. The constraints made from a composition space on the sublattices hold for an assignment
iff the counts of the decoded occupancy solve the equations of the space (neutrality and the
other equalities) and its inequalities. Skipping the rows of the sublattices loses nothing. -/
theorem C51_space_constraints (subls : List Sublattice) (spaces : List (List ℕ))
    (init : Option Occ) (h : GroundFits subls spaces) (hi : InitLegal subls init)
    (hsites : ∀ sl ∈ subls, sl.sites ≠ [])
    (marks : List (List ℤ)) (n : ℕ) (hg : groundVariables subls spaces init = some (marks, n))
    (comps : List (List ℕ × ℕ)) (hc : components subls marks spaces = some comps)
    (c : FormatSpace) (hw : c.WellFormed) (hcs : c.spaces = subls.map Sublattice.species)
    (hcz : c.sizes = subls.map fun sl => sl.sites.length)
    (leqs : List (List ℚ × ℚ)) (hleq : ∀ r ∈ leqs, r.1.length = c.dims) (cons : List LinCon)
    (hcons : spaceConstraints comps subls.length c.chargeNeutral c.eqRows leqs = some cons)
    (values : List ℤ) (hv : Normalized marks n values)
    (l : List ℕ) (hl : occupancyFromVariables subls values marks = some l) :
    (∀ d ∈ cons, d.Holds fun i => ((values.getD i 0 : ℤ) : ℚ)) ↔
      Balances c.problem 1 (groundTable subls spaces fun s => l.getD s 0) ∧
      ∀ r ∈ leqs, rowSum r.1 (groundTable subls spaces fun s => l.getD s 0).flatten ≤ r.2 := by
  have hne : spaces ≠ [] ∨ spaces = [] := by tauto
  obtain ⟨comps', hc', hval⟩ := C51_components subls spaces init h hi marks n hg
  rw [hc, Option.some.injEq] at hc'; subst hc'
  have hcv := hval values hv l hl
  rw [← groundTable_flatten] at hcv
  have hlegal : GroundLegal subls init fun s => l.getD s 0 := by
    rcases hne with hne | hne
    · obtain ⟨l', e1, _, e2, _⟩ := C51_decode subls spaces init h hi hne marks n hg values hv
      rw [hl, Option.some.injEq] at e1; subst e1; exact e2
    · intro sl hsl s hs
      have := h.lt hsl hs
      rw [hne] at this; simp at this
  have hfull : List.Forall₂ (fun (s : ℕ) (n : List ℚ) => n.sum = s) c.sizes
      (groundTable subls spaces fun s => l.getD s 0) := by
    rw [hcz]
    unfold groundTable
    rw [List.forall₂_map_left_iff, List.forall₂_map_right_iff, List.forall₂_same]
    exact groundTable_full h hsites hlegal
  have hs := spaceConstraints_spec hw hcv (hcs ▸ groundTable_shape _) hfull leqs hleq
  have e : c.sizes.length = subls.length := by rw [hcz, List.length_map]
  rw [e, hcons] at hs
  exact hs

/-- C51. When the constraints of a composition space are refused no legal occupancy satisfies
them. -/
theorem C51_space_constraints_raise (subls : List Sublattice) (spaces : List (List ℕ))
    (init : Option Occ) (h : GroundFits subls spaces) (hi : InitLegal subls init)
    (hne : spaces ≠ []) (hsites : ∀ sl ∈ subls, sl.sites ≠ [])
    (marks : List (List ℤ)) (n : ℕ) (hg : groundVariables subls spaces init = some (marks, n))
    (comps : List (List ℕ × ℕ)) (hc : components subls marks spaces = some comps)
    (c : FormatSpace) (hw : c.WellFormed) (hcs : c.spaces = subls.map Sublattice.species)
    (hcz : c.sizes = subls.map fun sl => sl.sites.length)
    (leqs : List (List ℚ × ℚ)) (hleq : ∀ r ∈ leqs, r.1.length = c.dims)
    (hcons : spaceConstraints comps subls.length c.chargeNeutral c.eqRows leqs = none)
    (occ : Occ) (hocc : GroundLegal subls init occ) :
    ¬ (Balances c.problem 1 (groundTable subls spaces occ) ∧
      ∀ r ∈ leqs, rowSum r.1 (groundTable subls spaces occ).flatten ≤ r.2) := by
  obtain ⟨marks', n', base, hg', L⟩ := groundVariables_eq h hi
  rw [hg, Option.some.injEq, Prod.mk.injEq] at hg'
  obtain ⟨rfl, rfl⟩ := hg'
  obtain ⟨comps', hc', _, hval⟩ := components_eq L h
  rw [hc, Option.some.injEq] at hc'; subst hc'
  obtain ⟨w, e1, e2, e3⟩ := encode_matches L h hne (occ := occ)
    (fun sl hsl s hs _ => (hocc sl hsl s hs).1)
  have hcv := hval w occ hocc e3
  rw [← groundTable_flatten] at hcv
  have hfull : List.Forall₂ (fun (s : ℕ) (n : List ℚ) => n.sum = s) c.sizes
      (groundTable subls spaces occ) := by
    rw [hcz]
    unfold groundTable
    rw [List.forall₂_map_left_iff, List.forall₂_map_right_iff, List.forall₂_same]
    exact groundTable_full h hsites hocc
  have hs := spaceConstraints_spec hw hcv (hcs ▸ groundTable_shape _) hfull leqs hleq
  have e : c.sizes.length = subls.length := by rw [hcz, List.length_map]
  rw [e, hcons] at hs
  exact hs

/-! ## where the hypotheses come from -/

/-- C51. Sublattices made from a site space fit it, whatever was restricted or reset since. -/
theorem C51_original_fits (species sites : List ℕ) (hne : species ≠ []) (hn : species.Nodup)
    (ops : List SubOp) : SiteFits ((Sublattice.new species sites).run ops) species := by
  obtain ⟨-, h2, h3⟩ := run_fixed (Sublattice.new species sites) ops
  have h4 : (Sublattice.new species sites).encoding = List.range species.length := by
    unfold Sublattice.new
    simp only
    split <;> rfl
  rw [new_species] at h2
  rw [h4] at h3
  refine ⟨by rw [h2]; exact hne, by rw [h2, h3, List.length_range], ?_, ?_, hn⟩
  · rw [h3]; exact List.pairwise_lt_range
  · intro p c hp
    rw [h3] at hp
    rw [h2]
    obtain ⟨hl, hc⟩ := List.getElem?_eq_some_iff.1 hp
    rw [List.getElem_range] at hc
    subst hc
    rfl

/-- C51. The parts of a split sublattice fit the site space the sublattice fits. -/
theorem C51_split_fits (sl : Sublattice) (space : List ℕ) (h : SiteFits sl space)
    (hact : ∀ s ∈ sl.active, s ∈ sl.sites) (occ : Occ) (parts : List (List ℕ))
    (hparts : ∀ codes ∈ parts, codes ≠ [] ∧ codes.Nodup) (out : List Sublattice)
    (hs : sl.split occ parts = some out) : ∀ part ∈ out, SiteFits part space := by
  have hf := C16_split_parts sl h.length hact occ parts out hs
  have hmem : ∀ codes ∈ parts, ∀ c ∈ codes, c ∈ sl.encoding := by
    intro codes hcodes c hc
    unfold Sublattice.split at hs
    rw [mapM_eq_some_forall₂] at hs
    obtain ⟨i, hi, rfl⟩ := List.getElem_of_mem hcodes
    have := (List.forall₂_iff_get.1 hs).2 i hi (by rw [← hs.length_eq]; exact hi)
    simp only [List.get_eq_getElem, Sublattice.splitPart] at this
    split at this
    · cases this
    · rename_i hcond
      push Not at hcond
      exact hcond.1 c (by simpa using hc)
  intro part hpart
  obtain ⟨i, hi, rfl⟩ := List.getElem_of_mem hpart
  have hi' : i < parts.length := by rw [hf.length_eq]; exact hi
  have hp := (List.forall₂_iff_get.1 hf).2 i hi' hi
  simp only [List.get_eq_getElem] at hp
  have hcodes := hparts _ (List.getElem_mem hi')
  have hnd : out[i].encoding.Nodup := hp.encoding.nodup_iff.2 hcodes.2
  refine ⟨?_, hp.length.symm, ?_, ?_, h.nodup⟩
  · intro he
    have h1 := hp.length
    rw [he] at h1
    have : out[i].encoding = [] := List.length_eq_zero_iff.1 h1.symm
    have h2 := hp.encoding
    rw [this] at h2
    exact hcodes.1 (List.nil_perm.1 h2)
  · have := hp.sorted.and hnd
    exact this.imp fun h => by omega
  · intro p c hc
    rw [hp.species p c hc]
    have hce : c ∈ sl.encoding := hmem _ (List.getElem_mem hi') c
      (hp.encoding.mem_iff.1 (List.mem_of_getElem? hc))
    obtain ⟨sp, h1, -, h3⟩ := h.species_of_mem hce
    rw [h1, h3]

/-! ## example -/

/-- Four sites: two of a split sublattice allowing only the first and third of three species, one
restricted, one with a single species. -/
def exSubls : List Sublattice :=
  [⟨[10, 12], [0, 2], [0, 2], false, [0, 2]⟩, ⟨[11, 12], [1], [], true, [1, 2]⟩,
   ⟨[7], [3], [], true, [0]⟩]

def exSpaces : List (List ℕ) := [[10, 11, 12], [10, 11, 12], [10, 11, 12], [7]]

theorem exSubls_fits : GroundFits exSubls exSpaces := by
  refine ⟨by decide, ?_, ?_⟩
  · intro s hs
    have : s < 4 := hs
    interval_cases s <;> decide
  · intro sl hsl s hs
    simp only [exSubls, List.mem_cons, List.not_mem_nil, or_false] at hsl
    have fits : ∀ (sl : Sublattice) (space : List ℕ), sl.species ≠ [] →
        sl.encoding.length = sl.species.length → sl.encoding.Pairwise (· < ·) →
        (∀ p < sl.encoding.length, space[sl.encoding.getD p 0]? = sl.species[p]?) →
        space.Nodup → SiteFits sl space := by
      intro sl space h1 h2 h3 h4 h5
      refine ⟨h1, h2, h3, ?_, h5⟩
      intro p c hp
      obtain ⟨hl, hc⟩ := List.getElem?_eq_some_iff.1 hp
      have := h4 p hl
      rwa [List.getD_eq_getElem?_getD, hp, Option.getD_some] at this
    rcases hsl with rfl | rfl | rfl
    · simp only [List.mem_cons, List.not_mem_nil, or_false] at hs
      rcases hs with rfl | rfl
      · exact ⟨[10, 11, 12], rfl, fits _ _ (by decide) rfl (by decide) (by decide) (by decide)⟩
      · exact ⟨[10, 11, 12], rfl, fits _ _ (by decide) rfl (by decide) (by decide) (by decide)⟩
    · simp only [List.mem_cons, List.not_mem_nil, or_false] at hs
      subst hs
      exact ⟨[10, 11, 12], rfl, fits _ _ (by decide) rfl (by decide) (by decide) (by decide)⟩
    · simp only [List.mem_cons, List.not_mem_nil, or_false] at hs
      subst hs
      exact ⟨[7], rfl, fits _ _ (by decide) rfl (by decide) (by decide) (by decide)⟩

def exInit : Occ := fun s => [0, 2, 2, 0].getD s 0

theorem exSubls_init : InitLegal exSubls (some exInit) := by
  intro sl hsl s hs _ _
  refine ⟨exInit, rfl, ?_⟩
  simp only [exSubls, List.mem_cons, List.not_mem_nil, or_false] at hsl
  rcases hsl with rfl | rfl | rfl
  · simp only [List.mem_cons, List.not_mem_nil, or_false] at hs
    rcases hs with rfl | rfl <;> decide
  · simp only [List.mem_cons, List.not_mem_nil, or_false] at hs
    subst hs; decide
  · simp only [List.mem_cons, List.not_mem_nil, or_false] at hs
    subst hs; decide

/-- Four variables, on the two free sites. -/
example : groundVariables exSubls exSpaces (some exInit) =
    some ([[0, -2, 1], [-2, -2, -1], [2, -2, 3], [-1]], 4) := by decide

/-- Without initial occupancy the restricted site is refused. -/
example : groundVariables exSubls exSpaces none = none := by decide

/-- A normalized assignment, its occupancy and back. -/
example : Normalized [[0, -2, 1], [-2, -2, -1], [2, -2, 3], [-1]] 4 [0, 1, 1, 0] ∧
    occupancyFromVariables exSubls [0, 1, 1, 0] [[0, -2, 1], [-2, -2, -1], [2, -2, 3], [-1]] =
      some [2, 2, 0, 0] ∧
    valuesFromOccupancy exSubls (fun s => [2, 2, 0, 0].getD s 0)
      [[0, -2, 1], [-2, -2, -1], [2, -2, 3], [-1]] = some [0, 1, 1, 0] := by
  refine ⟨⟨rfl, by decide, ?_⟩, by decide, by decide⟩
  intro c hc
  have e : normalizationConstraints [[0, -2, 1], [-2, -2, -1], [2, -2, 3], [-1]] =
      [⟨[(1, [0, 1])], 0, false, 1⟩, ⟨[(1, [2, 3])], 0, false, 1⟩] := rfl
  rw [e] at hc
  simp only [List.mem_cons, List.not_mem_nil, or_false] at hc
  rcases hc with rfl | rfl <;> norm_num [LinCon.Holds, LinCon.lhs]

/-- Two variables set on one site: refused. -/
example : occupancyFromVariables exSubls [1, 1, 1, 0]
    [[0, -2, 1], [-2, -2, -1], [2, -2, 3], [-1]] = none := by decide

/-- Components: species 10 and 12 of the split part, 11 and 12 of the restricted site, 7. -/
example : components exSubls [[0, -2, 1], [-2, -2, -1], [2, -2, 3], [-1]] exSpaces =
    some [([0, 2], 0), ([1, 3], 0), ([], 0), ([], 1), ([], 1)] := by decide

example : groundCounts exSubls exSpaces (fun s => [2, 2, 0, 0].getD s 0) = [1, 1, 0, 1, 1] := by
  decide

/-- A composition that the restricted site cannot have is refused. -/
example : fixedConstraints [([0, 2], 0), ([1, 3], 0), ([], 0), ([], 1), ([], 1)]
    [1, 1, 1, 0, 1] = none := by decide +kernel

example : (fixedConstraints [([0, 2], 0), ([1, 3], 0), ([], 0), ([], 1), ([], 1)]
    [1, 1, 0, 1, 1]).isSome = true := by decide +kernel

/-- A composition space on these sublattices: charges 1, 0, -1 and -1, neutral. -/
def exFormat : FormatSpace where
  spaces := [[10, 12], [11, 12], [7]]
  vac := fun _ => false
  oxi := fun sp => if sp = 10 then 3 else if sp = 11 then 0 else -1
  sizes := [2, 1, 1]
  chargeNeutral := true
  eqs := []
  order := [7, 10, 11, 12]
  minSize := 1
  pinv := fun _ _ => 0
  tol := 0
  atol := 1 / 1000

example : exFormat.WellFormed ∧ exFormat.spaces = exSubls.map Sublattice.species ∧
    exFormat.sizes = exSubls.map (fun sl => sl.sites.length) ∧
    (spaceConstraints [([0, 2], 0), ([1, 3], 0), ([], 0), ([], 1), ([], 1)] 3 true
      exFormat.eqRows [([1, 0, 0, 0, 0], 1)]).isSome = true ∧
    -- asking for more of the missing species than fixed sites can give is refused
    (spaceConstraints [([0, 2], 0), ([1, 3], 0), ([], 0), ([], 1), ([], 1)] 3 true
      exFormat.eqRows [([0, 0, -1, 0, 0], -1)]).isSome = false := by
  refine ⟨⟨rfl, by decide, by decide, by decide, by simp [exFormat], le_refl _, ?_⟩, rfl, rfl,
    by decide +kernel, by decide +kernel⟩
  norm_num [exFormat]

end Smol
