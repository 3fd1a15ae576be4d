import Verif.Lemmas.GroundEnergy
import Verif.Props.GroundVars

/-!
# C50 The objective of the ground-state problem
-/

namespace Smol
open Spec

section linear

variable {K : Type*} [Field K] [LinearOrder K]

/-- C50. For variables 0 or 1, auxiliary values 0 or 1 meet the constraints iff each is the product
it stands for; so the constraints can be met in exactly one way. -/
theorem C50_auxiliary_products (terms : List (GroundTerm K)) (cutoff : K) (e : GroundExpr K)
    (_he : groundExpr terms cutoff = some e) (v aux : ℕ → ℤ) (hv : Binary v)
    (ha : ∀ k < e.many.length, aux k = 0 ∨ aux k = 1) :
    (∀ c ∈ e.constraints, c.Holds v aux) ↔
      ∀ (k : ℕ) (p : List ℕ × K), e.many[k]? = some p → aux k = (p.1.map v).prod := by
  have hmem : ∀ c, c ∈ e.constraints ↔ ∃ (k : ℕ) (p : List ℕ × K), e.many[k]? = some p ∧
      ((∃ i ∈ p.1, AuxCon.le k i = c) ∨ c = AuxCon.ge k p.1) := by
    intro c
    unfold GroundExpr.constraints
    rw [List.mem_flatMap]
    constructor
    · rintro ⟨⟨p, k⟩, hpk, hc⟩
      rw [List.mem_zipIdx_iff_getElem?] at hpk
      rw [List.mem_append, List.mem_map, List.mem_singleton] at hc
      exact ⟨k, p, hpk, hc⟩
    · rintro ⟨k, p, hpk, hc⟩
      refine ⟨(p, k), ?_, ?_⟩
      · rw [List.mem_zipIdx_iff_getElem?]; exact hpk
      · rw [List.mem_append, List.mem_map, List.mem_singleton]; exact hc
  constructor
  · intro h k p hk
    apply (aux_eq_prod hv p.1 (aux k) (ha k (List.getElem?_eq_some_iff.1 hk).1)).1
    refine ⟨fun i hi => ?_, ?_⟩
    · exact h (.le k i) ((hmem _).2 ⟨k, p, hk, Or.inl ⟨i, hi, rfl⟩⟩)
    · exact h (.ge k p.1) ((hmem _).2 ⟨k, p, hk, Or.inr rfl⟩)
  · intro h c hc
    obtain ⟨k, p, hk, hc⟩ := (hmem c).1 hc
    have := (aux_eq_prod hv p.1 (aux k) (ha k (List.getElem?_eq_some_iff.1 hk).1)).2 (h k p hk)
    rcases hc with ⟨i, hi, rfl⟩ | rfl
    · exact this.1 i hi
    · exact this.2

/-- C50. `get_auxiliary_variable_values` gives values that meet the constraints. -/
theorem C50_auxiliary_values (terms : List (GroundTerm K)) (cutoff : K) (e : GroundExpr K)
    (he : groundExpr terms cutoff = some e) (v : ℕ → ℤ) (hv : Binary v) :
    ∀ c ∈ e.constraints,
      c.Holds v fun k => (auxiliaryValues v (e.many.map Prod.fst)).getD k 0 := by
  have hb : ∀ l : List ℕ, (l.map v).prod = 0 ∨ (l.map v).prod = 1 := by
    intro l
    induction l with
    | nil => right; rfl
    | cons a l ih =>
      rw [List.map_cons, List.prod_cons]
      rcases hv a with h | h <;> rcases ih with h' | h' <;> simp [h, h']
  have hget : ∀ (k : ℕ) (p : List ℕ × K), e.many[k]? = some p →
      (auxiliaryValues v (e.many.map Prod.fst)).getD k 0 = (p.1.map v).prod := by
    intro k p hk
    unfold auxiliaryValues
    rw [List.getD_eq_getElem?_getD, List.getElem?_map, List.getElem?_map, hk]
    rfl
  refine (C50_auxiliary_products terms cutoff e he v _ hv ?_).2 hget
  intro k hk
  have := hget k _ (List.getElem?_eq_getElem hk)
  rw [this]
  exact hb _

theorem value_eq_dict (terms : List (GroundTerm K)) (cutoff : K) (e : GroundExpr K)
    (he : groundExpr terms cutoff = some e) (v aux : ℕ → ℤ)
    (ha : ∀ (k : ℕ) (p : List ℕ × K), e.many[k]? = some p → aux k = (p.1.map v).prod) :
    e.value v aux =
      dictValue ((collectTerms terms).filter fun p => decide (cutoff ≤ |p.2|)) v := by
  obtain ⟨h1, h2, -⟩ := (groundExpr_eq terms cutoff).2 e he
  have hperm : dictValue (simplifiedTerms terms cutoff) v =
      dictValue ((collectTerms terms).filter fun p => decide (cutoff ≤ |p.2|)) v :=
    ((perm_simplified terms cutoff).map _).sum_eq
  rw [← hperm, ← h1 v]
  unfold GroundExpr.value dictValue
  congr 2
  · congr 1
    apply List.map_congr_left
    intro p hp
    obtain ⟨a, ha⟩ := List.length_eq_one_iff.1 (h2 p hp)
    rw [ha]; simp [mul_comm]
  · apply List.ext_getElem (by simp)
    intro k hk hk'
    have hk2 : k < e.many.length := by simpa using hk'
    have := ha k _ (List.getElem?_eq_getElem hk2)
    simp only [List.getElem_map, List.getElem_zipIdx, Nat.zero_add]
    rw [this, mul_comm]

/-- C50. Without a cutoff the objective of every assignment that meets the constraints is the sum of
all terms. -/
theorem C50_objective_terms [IsStrictOrderedRing K] (terms : List (GroundTerm K)) (cutoff : K)
    (hc : cutoff ≤ 0) (e : GroundExpr K) (he : groundExpr terms cutoff = some e) (v aux : ℕ → ℤ)
    (hv : Binary v) (ha : ∀ k < e.many.length, aux k = 0 ∨ aux k = 1)
    (h : ∀ c ∈ e.constraints, c.Holds v aux) : e.value v aux = termsValue terms v := by
  rw [value_eq_dict terms cutoff e he v aux
    ((C50_auxiliary_products terms cutoff e he v aux hv ha).1 h), ← dictValue_collect]
  congr 1
  rw [List.filter_eq_self]
  intro p _
  exact decide_eq_true (hc.trans (abs_nonneg _))

/-- C50. With a cutoff the objective differs from the sum of all terms by at most the cutoff for
each term. -/
theorem C50_cutoff_error [IsStrictOrderedRing K] (terms : List (GroundTerm K)) (cutoff : K)
    (hc : 0 ≤ cutoff) (e : GroundExpr K) (he : groundExpr terms cutoff = some e) (v aux : ℕ → ℤ)
    (hv : Binary v) (ha : ∀ k < e.many.length, aux k = 0 ∨ aux k = 1)
    (h : ∀ c ∈ e.constraints, c.Holds v aux) :
    |e.value v aux - termsValue terms v| ≤ (terms.length : K) * cutoff := by
  have hb : ∀ l : List ℕ, (l.map v).prod = 0 ∨ (l.map v).prod = 1 := by
    intro l
    induction l with
    | nil => right; rfl
    | cons a l ih =>
      rw [List.map_cons, List.prod_cons]
      rcases hv a with h | h <;> rcases ih with h' | h' <;> simp [h, h']
  rw [value_eq_dict terms cutoff e he v aux
    ((C50_auxiliary_products terms cutoff e he v aux hv ha).1 h), ← dictValue_collect]
  have key : ∀ d : List (List ℕ × K),
      |dictValue (d.filter fun p => decide (cutoff ≤ |p.2|)) v - dictValue d v| ≤
        (d.length : K) * cutoff := by
    intro d
    induction d with
    | nil => simp [dictValue]
    | cons p d ih =>
      have hcons : ∀ q : List ℕ × K, ∀ e, dictValue (q :: e) v =
          q.2 * (((q.1.map v).prod : ℤ) : K) + dictValue e v := fun q e => by simp [dictValue]
      have hlen : ((p :: d).length : K) * cutoff = (d.length : K) * cutoff + cutoff := by
        rw [List.length_cons]; push_cast; ring
      by_cases hp : cutoff ≤ |p.2|
      · rw [List.filter_cons_of_pos (by simpa using hp), hcons, hcons, add_sub_add_left_eq_sub, hlen]
        exact ih.trans (le_add_of_nonneg_right hc)
      · rw [List.filter_cons_of_neg (by simpa using hp), hcons, hlen]
        have h1 : |p.2 * (((p.1.map v).prod : ℤ) : K)| ≤ cutoff := by
          rcases hb p.1 with h | h
          · rw [h]; simpa using hc
          · rw [h]; simpa using (not_le.1 hp).le
        have h2 : dictValue (d.filter fun p => decide (cutoff ≤ |p.2|)) v -
            (p.2 * (((p.1.map v).prod : ℤ) : K) + dictValue d v) =
            (dictValue (d.filter fun p => decide (cutoff ≤ |p.2|)) v - dictValue d v) -
              p.2 * (((p.1.map v).prod : ℤ) : K) := by ring
        rw [h2]
        exact (abs_sub _ _).trans (add_le_add ih h1)
  refine (key _).trans ?_
  apply mul_le_mul_of_nonneg_right _ hc
  exact_mod_cast (collect_keys terms).2.1

/-- C50. Without a cutoff the objective is refused iff no term has a variable. -/
theorem C50_no_variables [IsStrictOrderedRing K] (terms : List (GroundTerm K)) (cutoff : K)
    (hc : cutoff ≤ 0) :
    groundExpr terms cutoff = none ↔ ∀ t ∈ terms, t.1 = [] := by
  rw [(groundExpr_eq terms cutoff).1]
  have hf : ((collectTerms terms).filter fun p => decide (cutoff ≤ |p.2|)) = collectTerms terms := by
    rw [List.filter_eq_self]
    intro p _
    exact decide_eq_true (hc.trans (abs_nonneg _))
  have hk := (collect_keys terms).2.2
  have hlen : ∀ l : List ℕ, sortInds l = [] ↔ l = [] := by
    intro l
    rw [← List.length_eq_zero_iff, ← List.length_eq_zero_iff]
    unfold sortInds
    rw [List.length_insertionSort]
  constructor
  · intro h t ht
    obtain ⟨p, hp, e⟩ := List.mem_map.1 ((hk (sortInds t.1)).2 ⟨t, ht, rfl⟩)
    have := h p ((perm_simplified terms cutoff).mem_iff.2 (by rw [hf]; exact hp))
    rw [this] at e
    exact (hlen t.1).1 e.symm
  · intro h p hp
    have hp' := (perm_simplified terms cutoff).mem_iff.1 hp
    rw [hf] at hp'
    obtain ⟨t, ht, e⟩ := (hk p.1).1 (List.mem_map.2 ⟨p, hp', rfl⟩)
    rw [← e, h t ht]; rfl

end linear

/-! ## energies -/

section energy

variable {K : Type*} [Field K]

/-- Energy a processor computes, `compute_property`, smol/moca/processor/base.py:150-159. -/
def GroundProc.energy (occ : Occ) : GroundProc K → Option K
  | .ce S geom size coefs => (ceProcessor S geom size).property coefs occ
  | .cd E geom size => (cdProcessor E geom size).bind fun P => P.property E.space occ
  | .ewald vac M coef => some (coef * (ewaldDataOf vac M).featureVector occ)
  | .other => none

/-- The clusters lie on sites of the supercell whose numbers of species are the orbit's. -/
def RowsFit (S : OrbitSpace) (geom : ℕ → OrbitGeom K) (spaces : List (List ℕ)) : Prop :=
  ∀ o ∈ S.orbits, ∀ row ∈ (geom o.tag).rows, List.Forall₂
    (fun site d => site < spaces.length ∧ (spaces.getD site []).length = d) row (geom o.tag).shape

/-- The processor belongs to the supercell with these site spaces. -/
def GroundProc.Fits (spaces : List (List ℕ)) : GroundProc K → Prop
  | .ce S geom _ coefs => S.Reachable ∧ S.FitsGeom geom ∧ RowsFit S geom spaces ∧
      coefs.length = S.numCorr
  | .cd E geom _ => E.space.Reachable ∧ E.space.FitsGeom geom ∧ RowsFit E.space geom spaces ∧
      E.coefs.length = E.numTerms
  | .ewald vac _ _ => vac.map List.length = spaces.map List.length
  | .other => False

omit [Field K] in
theorem RowsFit.legal {S : OrbitSpace} {geom : ℕ → OrbitGeom K} {spaces : List (List ℕ)}
    (h : RowsFit S geom spaces) {occ : Occ}
    (hocc : ∀ s < spaces.length, occ s < (spaces.getD s []).length) : S.Legal geom occ := by
  intro o ho row hrow
  refine (h o ho row hrow).imp ?_
  rintro s d ⟨h1, rfl⟩
  exact hocc s h1

omit [Field K] in
theorem RowsFit.picked {S : OrbitSpace} {geom : ℕ → OrbitGeom K} {spaces : List (List ℕ)}
    (h : RowsFit S geom spaces) {v : ℕ → ℤ} {marks : List (List ℤ)} {occ : Occ}
    (hp : ∀ s < spaces.length, Picks v (marks.getD s []) (occ s)) : RowsPicked S geom v marks occ := by
  intro o ho row hrow s hs
  obtain ⟨i, hi, rfl⟩ := List.getElem_of_mem hs
  have := List.forall₂_iff_get.1 (h o ho row hrow)
  exact hp _ (this.2 i hi (by rw [← this.1]; exact hi)).1

theorem proc_terms_value [CharZero K] {spaces : List (List ℕ)} {marks : List (List ℤ)}
    (hl : marks.map List.length = spaces.map List.length) {v : ℕ → ℤ} (hv : Binary v) {occ : Occ}
    (hp : ∀ s < spaces.length, Picks v (marks.getD s []) (occ s)) (p : GroundProc K)
    (hf : p.Fits spaces) :
    ∃ t x, p.terms marks = some t ∧ p.energy occ = some x ∧ termsValue t v = x := by
  have hocc : ∀ s < spaces.length, occ s < (spaces.getD s []).length := by
    intro s hs
    have hms : s < marks.length := by
      have := congrArg List.length hl
      simp only [List.length_map] at this; omega
    have h1 : (marks.map List.length).getD s 0 = (spaces.map List.length).getD s 0 := by rw [hl]
    rw [getD_map _ _ _ [] _ hms, getD_map _ _ _ [] _ hs] at h1
    rw [← h1]
    exact (hp s hs).lt
  cases p with
  | ce S geom size coefs =>
    obtain ⟨h1, h2, h3, h4⟩ := hf
    refine ⟨_, _, rfl, ?_, ceTerms_value h1.ok h2 size coefs h4 (h3.picked hp) (h3.legal hocc)⟩
    have := C47_expansion_energy (⟨S, 0, coefs⟩ : Expansion K) h1 h4 geom h2 size occ (h3.legal hocc)
    simp only [dropExt, Nat.sub_zero, List.take_length] at this
    exact this
  | cd E geom size =>
    obtain ⟨h1, h2, h3, h4⟩ := hf
    obtain ⟨eci, he, -⟩ := selects_exists E h1.ok h4 true
    simp only [if_true] at he
    exact ⟨cdTerms E eci geom size marks, _, by simp [GroundProc.terms, he],
      cdTerms_value h1.ok h2 size he (h3.picked hp) (h3.legal hocc), rfl⟩
  | ewald vac M coef =>
    have hfl : vac.map List.length = spaces.map List.length := hf
    have hlen : vac.length = spaces.length := by
      have := congrArg List.length hfl
      simpa using this
    exact ⟨_, _, rfl, rfl, ewaldTerms_value (hl.trans hfl.symm) hv
      (fun s hs => hp s (by omega)) M coef⟩
  | other => exact hf.elim

/-- Energy of the ensemble: the processors' energies minus chemical work. -/
def Spec.ensembleEnergy (energies : List K) (work : Option K) : K :=
  energies.sum - work.getD 0

/-- C50. For every assignment that meets all constraints, the objective is the energy of the decoded
occupancy: the sum of what the processors compute, minus the chemical work if there are chemical
potentials. -/
theorem C50_objective_is_energy [LinearOrder K] [IsStrictOrderedRing K] (subls : List Sublattice)
    (spaces : List (List ℕ)) (init : Option Occ) (h : GroundFits subls spaces)
    (hi : InitLegal subls init) (marks : List (List ℤ)) (n : ℕ)
    (hg : groundVariables subls spaces init = some (marks, n)) (procs : List (GroundProc K))
    (hp : ∀ p ∈ procs, p.Fits spaces) (table : Option (ℕ → ℕ → K)) :
    ∃ terms, groundTerms marks procs table = some terms ∧
    ∀ e, groundExpr terms 0 = some e →
    ∀ values, Normalized marks n values →
    ∀ aux : ℕ → ℤ, (∀ k < e.many.length, aux k = 0 ∨ aux k = 1) →
      (∀ c ∈ e.constraints, c.Holds (fun i => values.getD i 0) aux) →
    ∃ occ energies, occupancyFromVariables subls values marks = some occ ∧
      procs.mapM (GroundProc.energy fun s => occ.getD s 0) = some energies ∧
      e.value (fun i => values.getD i 0) aux = ensembleEnergy energies
        (table.map fun t => chemicalWork t spaces.length fun s => occ.getD s 0) := by
  obtain ⟨marks', n', base, hg', L⟩ := groundVariables_eq h hi
  rw [hg, Option.some.injEq, Prod.mk.injEq] at hg'
  obtain ⟨rfl, rfl⟩ := hg'
  have hshape : marks.map List.length = spaces.map List.length := by
    obtain ⟨m, k, e, hs, -⟩ := C51_variables subls spaces init h hi
    rw [hg, Option.some.injEq, Prod.mk.injEq] at e
    rw [e.1]; exact hs
  have hterms : ∃ ts, procs.mapM (GroundProc.terms marks) = some ts := by
    clear hg L
    induction procs with
    | nil => exact ⟨[], rfl⟩
    | cons p ps ih =>
      obtain ⟨ts, hts⟩ := ih fun q hq => hp q (by simp [hq])
      have hex : ∃ t, p.terms marks = some t := by
        have hf := hp p (by simp)
        cases p with
        | ce S geom size coefs => exact ⟨_, rfl⟩
        | cd E geom size =>
          obtain ⟨h1, -, -, h4⟩ := hf
          obtain ⟨eci, he, -⟩ := selects_exists E h1.ok h4 true
          simp only [if_true] at he
          exact ⟨_, by simp only [GroundProc.terms, he]; rfl⟩
        | ewald vac M coef => exact ⟨_, rfl⟩
        | other => exact hf.elim
      obtain ⟨t, ht⟩ := hex
      exact ⟨t :: ts, by rw [List.mapM_cons, ht, hts]; rfl⟩
  obtain ⟨ts, hts⟩ := hterms
  refine ⟨_, by unfold groundTerms; rw [hts]; rfl, ?_⟩
  intro e he values hn aux ha hc
  obtain ⟨occ, hocc, hm⟩ := exists_matches L h hi hn
  have hd := decode_matches L h hn.length hocc hm
  have hget : ∀ s < spaces.length, ((List.range spaces.length).map occ).getD s 0 = occ s := by
    intro s hs
    rw [List.getD_eq_getElem?_getD, List.getElem?_map, List.getElem?_range hs]; rfl
  set occ' : Occ := fun s => ((List.range spaces.length).map occ).getD s 0 with hocc'
  have hv : Binary fun i => values.getD i 0 := by
    intro i
    by_cases hi : i < values.length
    · simp only [List.getD_eq_getElem?_getD, List.getElem?_eq_getElem hi, Option.getD_some]
      exact hn.bool _ (List.getElem_mem hi)
    · left
      simp only [List.getD_eq_getElem?_getD]
      rw [List.getElem?_eq_none (by omega)]; rfl
  have hpk : ∀ s < spaces.length,
      Picks (fun i => values.getD i 0) (marks.getD s []) (occ' s) := by
    intro s hs
    have := Picks.of_layout L h hocc hm hs
    rw [← hget s hs] at this
    exact this
  have hsum : ∃ xs, procs.mapM (GroundProc.energy occ') = some xs ∧
      termsValue ts.flatten (fun i => values.getD i 0) = xs.sum := by
    clear he hc ha hg L
    induction procs generalizing ts with
    | nil =>
      rw [List.mapM_nil] at hts
      cases hts
      exact ⟨[], rfl, rfl⟩
    | cons p ps ih =>
      obtain ⟨t, x, h1, h2, h3⟩ := proc_terms_value hshape hv hpk p (hp p (by simp))
      rw [List.mapM_cons, h1] at hts
      simp only [Option.pure_def, Option.bind_eq_bind, Option.bind_some] at hts
      obtain ⟨ts', hts', hts⟩ := Option.bind_eq_some_iff.1 hts
      cases hts
      obtain ⟨xs, h4, h5⟩ := ih (fun q hq => hp q (by simp [hq])) ts' hts'
      refine ⟨x :: xs, by rw [List.mapM_cons, h2, h4]; rfl, ?_⟩
      rw [List.flatten_cons, List.sum_cons, ← h5, ← h3]
      simp only [termsValue, List.map_append, List.sum_append]
  obtain ⟨xs, hxs, hval⟩ := hsum
  refine ⟨_, xs, hd, hxs, ?_⟩
  rw [C50_objective_terms _ 0 (le_refl _) e he _ aux hv ha hc]
  have happ : ∀ a b : List (GroundTerm K), termsValue (a ++ b) (fun i => values.getD i 0) =
      termsValue a (fun i => values.getD i 0) + termsValue b (fun i => values.getD i 0) := by
    intro a b; simp only [termsValue, List.map_append, List.sum_append]
  rw [happ, hval, ensembleEnergy, sub_eq_add_neg]
  congr 1
  cases table with
  | none => simp [termsValue]
  | some t =>
    rw [Option.map_some, Option.getD_some]
    have hml : marks.length = spaces.length := L.length
    have := chemicalTerms_value (K := K) (marks := marks) (occ := occ') (fun s hs => hpk s (hml ▸ hs)) t
    rw [hml] at this
    exact this

/-- C50. Processors of another kind are refused. -/
theorem C50_other_raises (marks : List (List ℤ)) (procs : List (GroundProc K))
    (h : GroundProc.other ∈ procs) (table : Option (ℕ → ℕ → K)) :
    groundTerms marks procs table = none := by
  unfold groundTerms
  rw [(mapM_eq_none_iff (GroundProc.terms marks) procs).2 ⟨_, h, rfl⟩]
  rfl

end energy

/-! ## example -/

/-- A ring of four sites: two of a split sublattice, a restricted one and a free one. -/
def ringSubls : List Sublattice :=
  [⟨[10, 12], [0, 2], [0, 2], false, [0, 2]⟩, ⟨[11, 12], [1], [], true, [1, 2]⟩,
   ⟨[10, 11, 12], [3], [3], false, [0, 1, 2]⟩]

def ringSpaces : List (List ℕ) := [[10, 11, 12], [10, 11, 12], [10, 11, 12], [10, 11, 12]]

def ringMarks : List (List ℤ) := [[0, -2, 1], [-2, -2, -1], [2, -2, 3], [4, 5, 6]]

/-- An expansion, a decomposition and an Ewald term with species 12 a vacancy. -/
def ringProcs : List (GroundProc ℚ) :=
  [.ce ringSpace ringGeom 4 [5, 1, 2, 3, 4, 6], .cd ringExpansion ringGeom 4,
   .ewald (List.replicate 4 [false, false, true]) (fun i j => (i : ℚ) - 2 * j) (1 / 2)]

example : groundVariables ringSubls ringSpaces (some fun _ => 2) = some (ringMarks, 7) := by decide

theorem ringSpace_fits : ringSpace.FitsGeom ringGeom := by
  refine ⟨by decide, by decide, ?_⟩
  have hd : ∀ o ∈ ringSpace.orbits, ∀ c ∈ o.combos,
      ∃ cl ∈ (ringGeom o.tag).classes[c.1]?, c.2 = cl.length ∧ cl ≠ [] ∧
        ∀ b ∈ cl, b.length = (ringGeom o.tag).shape.length := by decide +kernel
  intro o ho c hc
  obtain ⟨cl, h1, h2⟩ := hd o ho c hc
  exact ⟨cl, h1, h2⟩

example : ∀ p ∈ ringProcs, p.Fits ringSpaces := by
  have hr : RowsFit ringSpace ringGeom ringSpaces := by
    show ∀ o ∈ ringSpace.orbits, _
    decide +kernel
  intro p hp
  simp only [ringProcs, List.mem_cons, List.not_mem_nil, or_false] at hp
  rcases hp with rfl | rfl | rfl
  · exact ⟨⟨_, [], by decide, rfl⟩, ringSpace_fits, hr, by decide⟩
  · exact ⟨⟨_, [], by decide, rfl⟩, ringSpace_fits, hr, by decide⟩
  · show _ = _
    decide

/-- The objective at one assignment, with its products, is the energy of the occupancy. -/
example :
    (do
      let terms ← groundTerms ringMarks ringProcs (some fun s c => (s : ℚ) + c)
      let e ← groundExpr terms 0
      let v := fun i => ([0, 1, 1, 0, 0, 1, 0] : List ℤ).getD i 0
      pure (e.value v fun k => (auxiliaryValues v (e.many.map Prod.fst)).getD k 0)) =
    (ringProcs.mapM (GroundProc.energy fun s => [2, 2, 0, 1].getD s 0)).map fun l =>
      ensembleEnergy l (some (chemicalWork (fun s c => (s : ℚ) + c) 4 fun s => [2, 2, 0, 1].getD s 0)) := by
  decide +kernel

example : occupancyFromVariables ringSubls [0, 1, 1, 0, 0, 1, 0] ringMarks = some [2, 2, 0, 1] := by
  decide

/-- Merging, dropping and linearising: `x₀x₁ + x₁x₀` becomes one product. -/
example : (groundExpr [([0, 1], 2, 1), ([1, 0], 1, 1), ([1], (1 : ℚ) / 10, 1), ([], 5, 2)] (1 / 2)).map
    (fun e => (e.const, e.points, e.many)) = some (10, [], [([0, 1], 3)]) := by decide +kernel

/-- Only constants: refused. -/
example : (groundExpr [([], (5 : ℚ), 2)] 0).isNone = true := by decide +kernel

end Smol
