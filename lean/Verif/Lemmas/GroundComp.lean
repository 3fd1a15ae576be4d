import Verif.Lemmas.GroundDecode
import Mathlib.Tactic.Ring
import Mathlib.Data.List.ReduceOption
import Verif.Lemmas.CompositionSpace

namespace Smol
open Spec

theorem component_sum (v : ℕ → ℚ) (P : ℕ → Bool) (m : ℕ → ℤ) (sites : List ℕ)
    (h : ∀ s ∈ sites, (0 ≤ m s ∧ v (m s).toNat = if P s then 1 else 0) ∨
      (m s = -1 ∧ P s = true) ∨ (m s = -2 ∧ P s = false)) :
    (((sites.map m).count (-1) : ℕ) : ℚ) + ((varInds (sites.map m)).map v).sum =
      ((sites.countP P : ℕ) : ℚ) := by
  induction sites with
  | nil => simp [varInds]
  | cons s sites ih =>
    have ih := ih fun t ht => h t (by simp [ht])
    unfold varInds at *
    rcases h s (by simp) with ⟨h1, h2⟩ | ⟨h1, h2⟩ | ⟨h1, h2⟩
    · have hne : m s ≠ -1 := by omega
      simp only [List.map_cons, List.count_cons_of_ne hne, List.filter_cons, h1, decide_true,
        if_true, List.sum_cons, h2, List.countP_cons]
      push_cast
      rw [← ih]; (split <;> simp); ring
    · simp only [List.map_cons, h1, List.count_cons_self, List.filter_cons,
        List.countP_cons, h2, if_true]
      push_cast
      rw [← ih]
      simp; ring
    · simp only [List.map_cons, h1, List.filter_cons,
        List.countP_cons, h2]
      have : (if false = true then 1 else 0 : ℕ) = 0 := rfl
      rw [this, Nat.add_zero, ← ih]
      simp

/-- The value of a component under an assignment. -/
def compValue (v : ℕ → ℚ) (comp : List ℕ × ℕ) : ℚ := (comp.2 : ℚ) + (comp.1.map v).sum

section comps
variable {subls : List Sublattice} {spaces : List (List ℕ)} {init : Option Occ}
  {marks : List (List ℤ)} {n : ℕ} {base : ℕ → ℕ}

/-- the mark a component reads on a site -/
def markAt (marks : List (List ℤ)) (spaces : List (List ℕ)) (sp s : ℕ) : ℤ :=
  (marks.getD s []).getD ((spaces.getD s []).idxOf sp) 0

theorem componentMark_eq (L : Layout subls spaces init marks n base) (h : GroundFits subls spaces)
    {sl : Sublattice} (hsl : sl ∈ subls) {s sp : ℕ} (hs : s ∈ sl.sites) (hsp : sp ∈ sl.species) :
    componentMark marks spaces sp s = some (markAt marks spaces sp s) ∧
    ∃ c ∈ sl.encoding, (spaces.getD s [])[c]? = some sp ∧ (spaces.getD s []).idxOf sp = c := by
  have hfit := h.fitsD hsl hs
  obtain ⟨p, hp, rfl⟩ := List.getElem_of_mem hsp
  have hp' : p < sl.encoding.length := hfit.length ▸ hp
  have hc := hfit.code p _ (List.getElem?_eq_getElem hp')
  rw [List.getElem?_eq_getElem hp] at hc
  obtain ⟨h1, h2⟩ := List.getElem?_eq_some_iff.1 hc
  have hidx : (spaces.getD s []).idxOf sl.species[p] = sl.encoding[p] := by
    rw [← h2]; exact hfit.nodup.idxOf_getElem _ _
  refine ⟨?_, sl.encoding[p], List.getElem_mem _, hc, hidx⟩
  have hlt := h.lt hsl hs
  have hm : s < marks.length := L.length ▸ hlt
  have esp : spaces[s]? = some (spaces.getD s []) := by
    rw [List.getD_eq_getElem?_getD, List.getElem?_eq_getElem hlt]; rfl
  have emk : marks[s]? = some (marks.getD s []) := by
    rw [List.getD_eq_getElem?_getD, List.getElem?_eq_getElem hm]; rfl
  have hlen : (marks.getD s []).length = (spaces.getD s []).length := by
    by_cases hf : FreeSite sl s
    · obtain ⟨_, row, hrow, hr⟩ := L.free sl hsl s hs hf
      rw [emk, Option.some.injEq] at hrow; rw [hrow]; exact hr.length
    · obtain ⟨_, row, hrow, hr, _⟩ := L.fixed sl hsl s hs hf
      rw [emk, Option.some.injEq] at hrow; rw [hrow]; exact hr.length
  unfold componentMark markAt
  rw [esp, Option.bind_some, if_pos (List.mem_of_getElem? hc), emk, Option.bind_some, hidx,
    List.getD_eq_getElem?_getD (l := marks.getD s []), List.getElem?_eq_getElem (by omega)]
  rfl

theorem speciesAt_iff (h : GroundFits subls spaces) {sl : Sublattice} (hsl : sl ∈ subls)
    {s sp c : ℕ} (hs : s ∈ sl.sites) (hc : (spaces.getD s [])[c]? = some sp) (occ : Occ) :
    speciesAt spaces occ s = some sp ↔ occ s = c := by
  have hlt := h.lt hsl hs
  have esp : spaces[s]? = some (spaces.getD s []) := by
    rw [List.getD_eq_getElem?_getD, List.getElem?_eq_getElem hlt]; rfl
  unfold speciesAt
  rw [esp, Option.bind_some]
  constructor
  · intro h1
    obtain ⟨a1, a2⟩ := List.getElem?_eq_some_iff.1 h1
    obtain ⟨b1, b2⟩ := List.getElem?_eq_some_iff.1 hc
    exact ((h.fitsD hsl hs).nodup.getElem_inj_iff).1 (a2.trans b2.symm)
  · rintro rfl; exact hc

/-- The components of the problem count the species of the decoded occupancy. -/
theorem components_eq (L : Layout subls spaces init marks n base) (h : GroundFits subls spaces) :
    ∃ comps, components subls marks spaces = some comps ∧
      comps.length = (componentPairs subls).length ∧
      ∀ (values : List ℤ) (occ : Occ), GroundLegal subls init occ → VarMatches subls base values occ →
        comps.map (compValue fun i => ((values.getD i 0 : ℤ) : ℚ)) =
          (groundCounts subls spaces occ).map fun k : ℕ => (k : ℚ) := by
  have hpair : ∀ p ∈ componentPairs subls, p.1 ∈ subls ∧ p.2 ∈ p.1.species := by
    intro p hp
    unfold componentPairs at hp
    rw [List.mem_flatMap] at hp
    obtain ⟨sl, hsl, hp⟩ := hp
    obtain ⟨sp, hsp, rfl⟩ := List.mem_map.1 hp
    exact ⟨hsl, hsp⟩
  have hc : components subls marks spaces = some ((componentPairs subls).map fun p =>
      (varInds (p.1.sites.map (markAt marks spaces p.2)),
        (p.1.sites.map (markAt marks spaces p.2)).count (-1))) := by
    unfold components
    apply mapM_some_of
    intro p hp
    obtain ⟨h1, h2⟩ := hpair p hp
    unfold component
    rw [mapM_some_of fun s hs => (componentMark_eq L h h1 hs h2).1]
    rfl
  refine ⟨_, hc, by simp, ?_⟩
  intro values occ hocc hm
  have e : groundCounts subls spaces occ =
      (componentPairs subls).map fun p => countOn spaces occ p.1 p.2 := by
    unfold groundCounts componentPairs
    rw [List.map_flatMap]
    simp [List.map_map, Function.comp_def]
  rw [e, List.map_map, List.map_map]
  apply List.map_congr_left
  intro p hp
  obtain ⟨hsl, hsp⟩ := hpair p hp
  obtain ⟨sl, sp⟩ := p
  simp only [Function.comp, compValue, countOn]
  apply component_sum
  intro s hs
  obtain ⟨-, c, hce, hcs, hci⟩ := componentMark_eq L h hsl hs hsp
  have hlt := (h.fitsD hsl hs).enc_lt hce
  simp only [decide_eq_true_eq, decide_eq_false_iff_not, speciesAt_iff h hsl hs hcs]
  by_cases hf : FreeSite sl s
  · left
    obtain ⟨_, row, hrow, hr⟩ := L.free sl hsl s hs hf
    have erow : marks.getD s [] = row := by rw [List.getD_eq_getElem?_getD, hrow]; rfl
    have hmk : markAt marks spaces sp s = ((base s + sl.encoding.idxOf c : ℕ) : ℤ) := by
      unfold markAt
      rw [hci, erow, List.getD_eq_getElem?_getD, hr.mark c hlt, if_pos hce]; rfl
    rw [hmk]
    refine ⟨by omega, ?_⟩
    have hp := List.idxOf_lt_length_of_mem hce
    have := hm sl hsl s hs hf _ hp
    rw [List.getElem_idxOf] at this
    rw [Int.toNat_natCast, this]
    by_cases e : c = occ s
    · simp [e]
    · have e' : ¬ occ s = c := fun h => e h.symm
      simp [e, e']
  · right
    obtain ⟨_, row, hrow, hr, hfe⟩ := L.fixed sl hsl s hs hf
    have erow : marks.getD s [] = row := by rw [List.getD_eq_getElem?_getD, hrow]; rfl
    have hmk : markAt marks spaces sp s =
        if c = forcedCode sl (init.getD fun _ => 0) s then -1 else -2 := by
      unfold markAt
      rw [hci, erow, List.getD_eq_getElem?_getD, hr.mark c hlt]; rfl
    have hfo : forcedCode sl (init.getD fun _ => 0) s = occ s := by
      obtain ⟨ho1, ho2⟩ := hocc sl hsl s hs
      unfold forcedCode
      split
      · rename_i h1
        obtain ⟨o, e, e2⟩ := ho2 h1 (fun h2 => hf ⟨h1, h2⟩)
        rw [e, e2]; rfl
      · rename_i h1
        have := single_encoding (h.fitsD hsl hs) h1
        rw [this] at ho1
        exact (List.mem_singleton.1 ho1).symm
    rw [hmk, hfo]
    by_cases e : c = occ s
    · left; simp [e]
    · right
      have e' : ¬ occ s = c := fun h => e h.symm
      simp [e, e']

end comps

/-! ### constraints on components -/

theorem fixedConstraint_spec (comp : List ℕ × ℕ) (t : ℤ) (v : ℕ → ℚ) (hv : ∀ i, 0 ≤ v i) :
    match fixedConstraint comp t with
    | none => compValue v comp ≠ t
    | some none => compValue v comp = t
    | some (some c) => (c.Holds v ↔ compValue v comp = t) := by
  unfold fixedConstraint
  have hsum : 0 ≤ (comp.1.map v).sum := List.sum_nonneg fun x hx => by
    obtain ⟨i, _, rfl⟩ := List.mem_map.1 hx; exact hv i
  by_cases h1 : t < (comp.2 : ℤ)
  · simp only [h1, if_true]
    intro he
    unfold compValue at he
    have : ((t : ℤ) : ℚ) < (comp.2 : ℚ) := by exact_mod_cast h1
    linarith
  · simp only [h1, if_false]
    by_cases h2 : comp.1 = []
    · by_cases h3 : (comp.2 : ℤ) = t
      · simp only [h2, h3, if_true, ne_eq, not_true, if_false]
        simp only [compValue, h2, List.map_nil, List.sum_nil, add_zero]
        exact_mod_cast h3
      · simp only [h2, h3, if_true, ne_eq, not_false_iff]
        simp only [compValue, h2, List.map_nil, List.sum_nil, add_zero]
        exact_mod_cast h3
    · simp only [h2, if_false]
      unfold LinCon.Holds LinCon.lhs compValue
      simp only [Bool.false_eq_true, if_false, List.map_cons, List.map_nil, List.sum_cons,
        List.sum_nil, one_mul, add_zero]
      rw [add_comm]

theorem fixedConstraints_spec {comps : List (List ℕ × ℕ)} {fixed : List ℤ} (v : ℕ → ℚ)
    (hv : ∀ i, 0 ≤ v i) (hlen : fixed.length = comps.length) :
    match fixedConstraints comps fixed with
    | none => comps.map (compValue v) ≠ fixed.map fun k : ℤ => (k : ℚ)
    | some cons => (∀ c ∈ cons, c.Holds v) ↔
        comps.map (compValue v) = fixed.map fun k : ℤ => (k : ℚ) := by
  have hiff : comps.map (compValue v) = fixed.map (fun k : ℤ => (k : ℚ)) ↔
      ∀ d (h : d < comps.length), compValue v comps[d] = ((fixed[d]'(by omega) : ℤ) : ℚ) := by
    constructor
    · intro h d hd
      have := congrArg (fun l : List ℚ => l[d]?) h
      simp only [List.getElem?_map, List.getElem?_eq_getElem hd,
        List.getElem?_eq_getElem (show d < fixed.length by omega), Option.map_some,
        Option.some.injEq] at this
      exact this
    · intro h
      apply List.ext_getElem (by simp [hlen])
      intro d h1 h2
      simp only [List.length_map] at h1 h2
      rw [List.getElem_map, List.getElem_map]; exact h d h1
  have hget : ∀ cd ∈ comps.zipIdx, ∃ (hd : cd.2 < comps.length), cd.1 = comps[cd.2] := by
    intro cd hcd
    obtain ⟨c, d⟩ := cd
    rw [List.mem_zipIdx_iff_getElem?] at hcd
    obtain ⟨h1, h2⟩ := List.getElem?_eq_some_iff.1 hcd
    exact ⟨h1, h2.symm⟩
  cases hr : fixedConstraints comps fixed with
  | none =>
    simp only
    unfold fixedConstraints at hr
    rw [Option.map_eq_none_iff, mapM_eq_none_iff] at hr
    obtain ⟨cd, hcd, hn⟩ := hr
    obtain ⟨hd, hcd2⟩ := hget cd hcd
    rw [List.getElem?_eq_getElem (show cd.2 < fixed.length by omega), Option.bind_some] at hn
    have := fixedConstraint_spec cd.1 (fixed[cd.2]'(by omega)) v hv
    rw [hn] at this
    intro he
    rw [hiff] at he
    apply this
    rw [hcd2]
    exact he cd.2 hd
  | some cons =>
    simp only
    unfold fixedConstraints at hr
    rw [Option.map_eq_some_iff] at hr
    obtain ⟨os, hos, rfl⟩ := hr
    rw [mapM_eq_some_forall₂] at hos
    rw [hiff]
    constructor
    · intro hc d hd
      have hg := (List.forall₂_iff_get.1 hos).2 d (by simpa using hd)
        (by rw [← (List.forall₂_iff_get.1 hos).1]; simpa using hd)
      simp only [List.get_eq_getElem, List.getElem_zipIdx, Nat.zero_add] at hg
      rw [List.getElem?_eq_getElem (show d < fixed.length by omega), Option.bind_some] at hg
      have := fixedConstraint_spec comps[d] (fixed[d]'(by omega)) v hv
      rw [hg] at this
      have hmem := List.getElem_mem (l := os) (n := d)
        (by rw [← (List.forall₂_iff_get.1 hos).1]; simpa using hd)
      revert this hmem
      generalize os[d]'_ = x
      intro this hmem
      cases x with
      | none => exact this
      | some c => exact this.1 (hc c (List.reduceOption_mem_iff.2 hmem))
    · intro he c hc
      rw [List.reduceOption_mem_iff] at hc
      obtain ⟨d, hd, hdc⟩ := List.getElem_of_mem hc
      have hd' : d < comps.length := by
        rw [← (List.forall₂_iff_get.1 hos).1] at hd; simpa using hd
      have hg := (List.forall₂_iff_get.1 hos).2 d (by simpa using hd') hd
      simp only [List.get_eq_getElem, List.getElem_zipIdx, Nat.zero_add] at hg
      rw [List.getElem?_eq_getElem (show d < fixed.length by omega), Option.bind_some, hdc] at hg
      have := fixedConstraint_spec comps[d] (fixed[d]'(by omega)) v hv
      rw [hg] at this
      exact this.2 (he d hd')

/-- a row of the composition space is met -/
def RowMet (leq : Bool) (x b : ℚ) : Prop := if leq then x ≤ b else x = b

theorem formulaConstraint_spec (comps : List (List ℕ × ℕ)) (leq : Bool) (a : List ℚ) (b : ℚ)
    (hlen : a.length = comps.length) (v : ℕ → ℚ) :
    match formulaConstraint comps leq a b with
    | none => ¬ RowMet leq (rowSum a (comps.map (compValue v))) b
    | some none => RowMet leq (rowSum a (comps.map (compValue v))) b
    | some (some c) => (c.Holds v ↔
        RowMet leq (rowSum a (comps.map (compValue v))) b) := by
  unfold rowSum
  have hval : ∀ (comps : List (List ℕ × ℕ)) (a : List ℚ) (k : ℕ) (f : ℕ → ℚ),
      a.length = comps.length → (∀ i (h : i < a.length), f (k + i) = a[i]) →
      ((((comps.zipIdx k).filterMap fun cd =>
        if cd.1.1 ≠ [] ∧ f cd.2 ≠ 0 then some (f cd.2, cd.1.1) else none).map
          fun t => t.1 * (t.2.map v).sum).sum +
        ((comps.zipIdx k).map fun cd => (cd.1.2 : ℚ) * f cd.2).sum) =
      (List.zipWith (· * ·) a (comps.map (compValue v))).sum := by
    intro comps
    induction comps with
    | nil => intro a k f ha _; simp
    | cons c comps ih =>
      intro a k f ha hf
      cases a with
      | nil => simp at ha
      | cons x a =>
        have hx : f k = x := by have := hf 0 (by simp); simpa using this
        have := ih a (k + 1) f (by simpa using ha) (fun i h => by
          have := hf (i + 1) (by simpa using h)
          rw [show k + 1 + i = k + (i + 1) by omega, this]; rfl)
        simp only [List.zipIdx_cons, List.filterMap_cons, List.map_cons, List.sum_cons,
          List.zipWith_cons_cons]
        rw [← this, hx]
        by_cases h1 : c.1 = []
        · simp only [h1, ne_eq, not_true, false_and, if_false]
          unfold compValue
          simp [h1]; ring
        · by_cases h2 : x = 0
          · simp only [h2, ne_eq, not_true, and_false, if_false]; simp
          · simp only [h1, h2, ne_eq, not_false_iff, and_self, if_true, List.map_cons,
              List.sum_cons]
            unfold compValue; ring
  have hv := hval comps a 0 (fun i => a.getD i 0) hlen (fun i h => by
    rw [Nat.zero_add, List.getD_eq_getElem?_getD, List.getElem?_eq_getElem h]; rfl)
  have hzero : (∀ x ∈ a, x = 0) →
      (List.zipWith (· * ·) a (comps.map (compValue v))).sum = 0 := by
    intro ha
    apply List.sum_eq_zero
    intro x hx
    obtain ⟨i, hi, rfl⟩ := List.getElem_of_mem hx
    rw [List.getElem_zipWith, ha _ (List.getElem_mem _), zero_mul]
  unfold formulaConstraint
  by_cases hz : ∀ x ∈ a, x = 0
  · rw [if_pos hz, hzero hz]
    unfold RowMet
    cases leq
    · by_cases hb : b = 0
      · subst hb; simp
      · simp [hb, Ne.symm hb]
    · by_cases hb : b < 0
      · simp [hb]
      · simp only [Bool.true_eq_false, false_and, if_false, hb, and_false]
        simpa using hb
  · rw [if_neg hz]
    simp only
    by_cases ht : (comps.zipIdx.filterMap fun cd =>
      if cd.1.1 ≠ [] ∧ a.getD cd.2 0 ≠ 0 then some (a.getD cd.2 0, cd.1.1) else none) = []
    · rw [if_pos ht]
      rw [ht] at hv
      simp only [List.map_nil, List.sum_nil, zero_add] at hv
      rw [hv]
      unfold RowMet
      cases leq
      · by_cases hb : (List.zipWith (· * ·) a (comps.map (compValue v))).sum = b
        · simp [hb]
        · simp [hb]
      · by_cases hb : b < (List.zipWith (· * ·) a (comps.map (compValue v))).sum
        · simp [hb]
        · simp only [Bool.true_eq_false, false_and, false_or, hb, and_false, if_false]
          simpa using hb
    · rw [if_neg ht]
      simp only
      unfold LinCon.Holds LinCon.lhs RowMet
      rw [hv]

theorem formulaConstraints_spec (comps : List (List ℕ × ℕ)) (leq : Bool) (rows : List (List ℚ × ℚ))
    (skip : List ℕ) (hlen : ∀ r ∈ rows, r.1.length = comps.length) (v : ℕ → ℚ) :
    match formulaConstraints comps leq rows skip with
    | none => ∃ k r, rows[k]? = some r ∧ k ∉ skip ∧
        ¬ RowMet leq (rowSum r.1 (comps.map (compValue v))) r.2
    | some cons => (∀ c ∈ cons, c.Holds v) ↔ ∀ (k : ℕ) (r : List ℚ × ℚ), rows[k]? = some r →
        k ∉ skip → RowMet leq (rowSum r.1 (comps.map (compValue v))) r.2 := by
  have hmem : ∀ r ∈ rows.zipIdx.filter (fun r => decide (r.2 ∉ skip)),
      rows[r.2]? = some r.1 ∧ r.2 ∉ skip := by
    intro r hr
    obtain ⟨h1, h2⟩ := List.mem_filter.1 hr
    obtain ⟨x, k⟩ := r
    rw [List.mem_zipIdx_iff_getElem?] at h1
    exact ⟨h1, by simpa using h2⟩
  have hmem' : ∀ (k : ℕ) (r : List ℚ × ℚ), rows[k]? = some r → k ∉ skip →
      (r, k) ∈ rows.zipIdx.filter (fun r => decide (r.2 ∉ skip)) := by
    intro k r h1 h2
    exact List.mem_filter.2 ⟨List.mem_zipIdx_iff_getElem?.2 h1, by simpa using h2⟩
  have hspec := fun (r : (List ℚ × ℚ) × ℕ)
    (hr : r ∈ rows.zipIdx.filter (fun r => decide (r.2 ∉ skip))) =>
    formulaConstraint_spec comps leq r.1.1 r.1.2
      (hlen r.1 (List.mem_of_getElem? (hmem r hr).1)) v
  cases hr : formulaConstraints comps leq rows skip with
  | none =>
    simp only
    unfold formulaConstraints at hr
    rw [Option.map_eq_none_iff, mapM_eq_none_iff] at hr
    obtain ⟨r, hr, hn⟩ := hr
    have := hspec r hr
    rw [hn] at this
    exact ⟨r.2, r.1, (hmem r hr).1, (hmem r hr).2, this⟩
  | some cons =>
    simp only
    unfold formulaConstraints at hr
    rw [Option.map_eq_some_iff] at hr
    obtain ⟨os, hos, rfl⟩ := hr
    rw [mapM_eq_some_forall₂] at hos
    constructor
    · intro hc k r hk hs
      obtain ⟨i, hi, hie⟩ := List.getElem_of_mem (hmem' k r hk hs)
      have hi' : i < os.length := by rw [← (List.forall₂_iff_get.1 hos).1]; exact hi
      have hg := (List.forall₂_iff_get.1 hos).2 i hi hi'
      simp only [List.get_eq_getElem] at hg
      rw [hie] at hg
      have := hspec _ (hmem' k r hk hs)
      simp only at hg this
      rw [hg] at this
      have hm := List.getElem_mem (l := os) hi'
      revert this hm
      generalize os[i]'_ = x
      intro this hm
      cases x with
      | none => exact this
      | some c => exact this.1 (hc c (List.reduceOption_mem_iff.2 hm))
    · intro he c hc
      rw [List.reduceOption_mem_iff] at hc
      obtain ⟨i, hi, hie⟩ := List.getElem_of_mem hc
      have hi' : i < (rows.zipIdx.filter (fun r => decide (r.2 ∉ skip))).length := by
        rw [(List.forall₂_iff_get.1 hos).1]; exact hi
      have hg := (List.forall₂_iff_get.1 hos).2 i hi' hi
      simp only [List.get_eq_getElem] at hg
      rw [hie] at hg
      have hm := List.getElem_mem hi'
      have := hspec _ hm
      rw [hg] at this
      exact this.2 (he _ _ (hmem _ hm).1 (hmem _ hm).2)

/-! ### composition spaces -/

theorem groundTable_flatten (subls : List Sublattice) (spaces : List (List ℕ)) (occ : Occ) :
    (groundTable subls spaces occ).flatten =
      (groundCounts subls spaces occ).map fun k : ℕ => (k : ℚ) := by
  unfold groundTable groundCounts
  rw [← List.flatMap_def, List.map_flatMap]
  simp [List.map_map, Function.comp_def]

theorem sum_indicator_count (a : ℕ) (l : List ℕ) :
    (l.map fun x => if a = x then 1 else 0).sum = l.count a := by
  induction l with
  | nil => simp
  | cons b l ih =>
    rw [List.map_cons, List.sum_cons, ih, List.count_cons]
    by_cases e : a = b
    · subst e; simp; omega
    · have e' : ¬ b = a := fun h => e h.symm
      simp [e, e']

theorem countP_sum_one {sites species : List ℕ} {f : ℕ → Option ℕ} (hn : species.Nodup)
    (h : ∀ s ∈ sites, ∃ sp ∈ species, f s = some sp) :
    (species.map fun sp => sites.countP fun s => decide (f s = some sp)).sum = sites.length := by
  induction sites with
  | nil => simp
  | cons s sites ih =>
    have ih := ih fun t ht => h t (by simp [ht])
    obtain ⟨sp0, h0, hs⟩ := h s (by simp)
    have e : (species.map fun sp => (s :: sites).countP fun s => decide (f s = some sp)).sum =
        (species.map fun sp => sites.countP fun s => decide (f s = some sp)).sum +
        (species.map fun sp => if sp0 = sp then 1 else 0).sum := by
      rw [← List.sum_map_add]
      congr 1
      apply List.map_congr_left
      intro sp _
      rw [List.countP_cons, hs]
      simp
    have e2 : (species.map fun sp => if sp0 = sp then 1 else 0).sum = 1 := by
      rw [sum_indicator_count]; exact List.count_eq_one_of_mem hn h0
    rw [e, ih, e2, List.length_cons]

theorem groundTable_full {subls : List Sublattice} {spaces : List (List ℕ)} {init : Option Occ}
    (h : GroundFits subls spaces) (hne : ∀ sl ∈ subls, sl.sites ≠ []) {occ : Occ}
    (hocc : GroundLegal subls init occ) :
    ∀ sl ∈ subls, (sl.species.map fun sp => (countOn spaces occ sl sp : ℚ)).sum =
      (sl.sites.length : ℚ) := by
  intro sl hsl
  obtain ⟨s0, hs0⟩ := List.exists_mem_of_ne_nil _ (hne sl hsl)
  have hn := (h.fitsD hsl hs0).species_nodup
  have := countP_sum_one (f := speciesAt spaces occ) (sites := sl.sites) hn (by
    intro s hs
    obtain ⟨sp, h1, h2, -⟩ := (h.fitsD hsl hs).species_of_mem (hocc sl hsl s hs).1
    exact ⟨sp, h2, (speciesAt_iff h hsl hs h1 occ).2 rfl⟩)
  rw [← this]
  unfold countOn
  rw [Nat.cast_list_sum, List.map_map]; rfl

/-- the rows of a composition space as the solver reads them -/
def FormatSpace.eqRows (c : FormatSpace) : List (List ℚ × ℚ) :=
  c.rows.map fun r => (r.1.map fun z : ℤ => (z : ℚ), r.2)

theorem rowSum_cast (a : List ℤ) (n : List ℚ) :
    rowSum (a.map fun z : ℤ => (z : ℚ)) n = rowDot a n := by
  unfold rowSum rowDot
  rw [List.zipWith_map_left]

theorem sublattice_rows_met {c : FormatSpace} {ns : List (List ℚ)}
    (hshape : List.Forall₂ (fun sp n => sp.length = n.length) c.spaces ns)
    (hfull : List.Forall₂ (fun (s : ℕ) (n : List ℚ) => n.sum = s) c.sizes ns) :
    ∀ r ∈ ((dimIds c.spaces).zip c.sizes).map (fun p => (sublatticeRow c.dims p.1, (p.2 : ℚ))),
      rowDot r.1 ns.flatten = r.2 := by
  intro r hr
  have hlen : ns.flatten.length = c.dims := (forall2_flatten_length hshape).symm
  obtain ⟨⟨ids, s⟩, hp, rfl⟩ := List.mem_map.1 hr
  have hids := dimIdsFrom_bounds c.spaces 0 ids (List.of_mem_zip hp).1
  rw [sublatticeRow_dot hids.1 (fun i hi => by
    have := hids.2 i hi; unfold FormatSpace.dims; omega) hlen]
  have hm := zip_mem_map (f := fun ids : List ℕ => ids.map fun i => ns.flatten.getD i 0) hp
  rw [dimIds_slices hshape] at hm
  exact forall2_zip hfull hm

theorem spaceConstraints_spec {c : FormatSpace} (hw : c.WellFormed) {comps : List (List ℕ × ℕ)}
    {ns : List (List ℚ)} {v : ℕ → ℚ} (hcv : comps.map (compValue v) = ns.flatten)
    (hshape : List.Forall₂ (fun sp n => sp.length = n.length) c.spaces ns)
    (hfull : List.Forall₂ (fun (s : ℕ) (n : List ℚ) => n.sum = s) c.sizes ns)
    (leqs : List (List ℚ × ℚ)) (hleq : ∀ r ∈ leqs, r.1.length = c.dims) :
    match spaceConstraints comps c.sizes.length c.chargeNeutral c.eqRows leqs with
    | none => ¬ (Balances c.problem 1 ns ∧ ∀ r ∈ leqs, rowSum r.1 ns.flatten ≤ r.2)
    | some cons => (∀ d ∈ cons, d.Holds v) ↔
        Balances c.problem 1 ns ∧ ∀ r ∈ leqs, rowSum r.1 ns.flatten ≤ r.2 := by
  have hcl : comps.length = c.dims := by
    have := congrArg List.length hcv
    rw [List.length_map] at this
    rw [this]; exact (forall2_flatten_length hshape).symm
  have hel : ∀ r ∈ c.eqRows, r.1.length = comps.length := by
    intro r hr
    obtain ⟨r', hr', rfl⟩ := List.mem_map.1 hr
    rw [List.length_map, hcl]; exact rows_length hw r' hr'
  have hll : ∀ r ∈ leqs, r.1.length = comps.length := fun r hr => by rw [hcl]; exact hleq r hr
  -- the equations are the rows
  have hbal : Balances c.problem 1 ns ↔ ∀ (k : ℕ) r, c.eqRows[k]? = some r →
      RowMet false (rowSum r.1 ns.flatten) r.2 := by
    constructor
    · intro hb k r hk
      obtain ⟨r', hr', rfl⟩ := List.mem_map.1 (List.mem_of_getElem? hk)
      have := (rows_of_balances hw hb r' hr').2
      simp only [RowMet, Bool.false_eq_true, if_false, rowSum_cast]
      simpa using this
    · intro hr
      apply balances_of_rows hw hshape
      intro r hr'
      obtain ⟨k, hk⟩ := List.mem_iff_getElem?.1 hr'
      have := hr k (r.1.map fun z : ℤ => (z : ℚ), r.2) (by
        unfold FormatSpace.eqRows; rw [List.getElem?_map, hk]; rfl)
      simp only [RowMet, Bool.false_eq_true, if_false, rowSum_cast] at this
      simpa using this
  have hleqs : (∀ r ∈ leqs, rowSum r.1 ns.flatten ≤ r.2) ↔ ∀ (k : ℕ) r, leqs[k]? = some r →
      k ∉ ([] : List ℕ) → RowMet true (rowSum r.1 ns.flatten) r.2 := by
    constructor
    · intro h k r hk _; exact h r (List.mem_of_getElem? hk)
    · intro h r hr
      obtain ⟨k, hk⟩ := List.mem_iff_getElem?.1 hr
      exact h k r hk (by simp)
  -- skipped rows are met
  have hskipB : ∀ (k : ℕ) r, c.eqRows[k]? = some r →
      k ∈ List.range' (if c.chargeNeutral then 1 else 0) c.sizes.length →
      RowMet false (rowSum r.1 ns.flatten) r.2 := by
    intro k r hk hm
    rw [List.mem_range'_1] at hm
    unfold FormatSpace.eqRows FormatSpace.rows at hk
    rw [List.getElem?_map, Option.map_eq_some_iff] at hk
    obtain ⟨r', hk, rfl⟩ := hk
    simp only [RowMet, Bool.false_eq_true, if_false, rowSum_cast]
    apply sublattice_rows_met hshape hfull
    have hA : (if c.chargeNeutral then [(c.spaces.flatten.map c.oxi, (0 : ℚ))] else []).length =
        if c.chargeNeutral then 1 else 0 := by split <;> rfl
    have hd : (dimIds c.spaces).length = c.sizes.length := by
      have := congrArg List.length (dimIds_slices hshape)
      rw [List.length_map] at this
      rw [this, hw.sizes_len]; exact hshape.length_eq.symm
    rw [List.getElem?_append_left (by
        rw [List.length_append, hA, List.length_map, List.length_zip, hd]; omega),
      List.getElem?_append_right (by rw [hA]; exact hm.1)] at hk
    exact List.mem_of_getElem? hk
  have hskip0 : ∀ r, c.eqRows[0]? = some r → (∀ x ∈ (c.eqRows.getD 0 ([], 0)).1, x = 0) →
      (c.eqRows.getD 0 ([], 0)).2 = 0 → RowMet false (rowSum r.1 ns.flatten) r.2 := by
    intro r hr h1 h2
    rw [List.getD_eq_getElem?_getD, hr, Option.getD_some] at h1 h2
    simp only [RowMet, Bool.false_eq_true, if_false, h2]
    unfold rowSum
    apply List.sum_eq_zero
    intro x hx
    obtain ⟨i, hi, rfl⟩ := List.getElem_of_mem hx
    rw [List.getElem_zipWith, h1 _ (List.getElem_mem _), zero_mul]
  unfold spaceConstraints
  simp only
  generalize hsk : (if (∀ x ∈ (c.eqRows.getD 0 ([], 0)).1, x = 0) ∧
    (c.eqRows.getD 0 ([], 0)).2 = 0 then
      0 :: List.range' (if c.chargeNeutral then 1 else 0) c.sizes.length
    else List.range' (if c.chargeNeutral then 1 else 0) c.sizes.length) = skip
  have hskip : ∀ (k : ℕ) r, c.eqRows[k]? = some r → k ∈ skip →
      RowMet false (rowSum r.1 ns.flatten) r.2 := by
    intro k r hk hm
    rw [← hsk] at hm
    split at hm
    · rename_i hz
      rcases List.mem_cons.1 hm with rfl | hm
      · exact hskip0 r hk hz.1 hz.2
      · exact hskipB k r hk hm
    · exact hskipB k r hk hm
  have hbal' : Balances c.problem 1 ns ↔ ∀ (k : ℕ) r, c.eqRows[k]? = some r → k ∉ skip →
      RowMet false (rowSum r.1 ns.flatten) r.2 := by
    rw [hbal]
    constructor
    · intro h k r hk _; exact h k r hk
    · intro h k r hk
      by_cases hm : k ∈ skip
      · exact hskip k r hk hm
      · exact h k r hk hm
  have s1 := formulaConstraints_spec comps false c.eqRows skip hel v
  have s2 := formulaConstraints_spec comps true leqs [] hll v
  rw [hcv] at s1 s2
  cases h1 : formulaConstraints comps false c.eqRows skip with
  | none =>
    rw [h1] at s1
    simp only [Option.bind_none]
    obtain ⟨k, r, hk, hs, hn⟩ := s1
    rintro ⟨hb, _⟩
    exact hn (hbal.1 hb k r hk)
  | some cs =>
    rw [h1] at s1
    simp only at s1
    simp only [Option.bind_some]
    cases h2 : formulaConstraints comps true leqs [] with
    | none =>
      rw [h2] at s2
      simp only [Option.map_none]
      obtain ⟨k, r, hk, hs, hn⟩ := s2
      rintro ⟨_, hb⟩
      exact hn (hb r (List.mem_of_getElem? hk))
    | some ds =>
      rw [h2] at s2
      simp only at s2
      simp only [Option.map_some, List.mem_append]
      rw [hbal', hleqs, ← s1, ← s2]
      constructor
      · intro h; exact ⟨fun d hd => h d (Or.inl hd), fun d hd => h d (Or.inr hd)⟩
      · rintro ⟨ha, hb⟩ d (hd | hd)
        · exact ha d hd
        · exact hb d hd

end Smol
