import Verif.Lemmas.ExpansionState
import Verif.Props.SubspaceState

/-!
# C89: an expansion keeps its interactions in step with its coefficients and subspace
-/

namespace Smol

open Spec

variable {B Sp Rot Nm K Key : Type*} [Field K] [LinearOrder K] [DecidableEq Sp] [DecidableEq Key]
  {L : BasisLib B Sp Rot Nm K} {rows : Key → ℕ → Option ClusterRows} {mult : ℕ → ℕ} {size : Key → ℕ}
  {store : ℕ → B} {n : ℕ} {orbits : List (SOrb K)}

/-- Everything that can be asked of the expansion is about the orbits `C` and the coefficients `cs`. -/
structure InStep (L : BasisLib B Sp Rot Nm K) (rows : Key → ℕ → Option ClusterRows) (mult : ℕ → ℕ)
    (size : Key → ℕ) (E : ExpState B Key K) (C : List (PlainOrb B)) (cs : List K) (nExt : ℕ) : Prop where
  /-- orbits, functions and bases of the subspace -/
  orbits : E.sub.orbits.map (SOrb.plain E.sub.store) = C
  /-- coefficients -/
  coefs : E.coefs = cs
  /-- one coefficient per function, for the constant and for each external term -/
  length : Matching nExt (C, cs)
  /-- `eci` are coefficients over multiplicities -/
  eci : (E.readEci mult).1 = some (eciOf mult C cs)
  /-- predictions are scalar products of coefficients and correlations -/
  predict : ∀ occ M ext normalized, Fits (fun b => L.dim (L.space b)) (rows M) C occ → ext.length = nExt →
    (E.predict rows size occ M ext normalized).1 = (correlationVector L.val (rows M) C occ).map fun v =>
      weighted cs (v ++ ext) * (if normalized then 1 else (size M : K))
  /-- multiplicities times interactions are the sums of the terms of each orbit -/
  interactions : ∀ occ M v, Fits (fun b => L.dim (L.space b)) (rows M) C occ → Weighty mult C →
    correlationVector L.val (rows M) C occ = some v → ∃ I,
      (E.interactions rows size occ M true).1 = some I ∧ I.length = 1 + C.length ∧
      List.zipWith (· * ·) (orbitWeights mult C) I = orbitSums C (List.zipWith (· * ·) cs v)
  /-- both raise if clusters are not found in the supercell -/
  missing : ∀ occ M, Fits (fun b => L.dim (L.space b)) (rows M) C occ → Weighty mult C →
    correlationVector L.val (rows M) C occ = none → (E.interactions rows size occ M true).1 = none
  /-- without normalization everything is multiplied by the number of prims -/
  extensive : ∀ occ M, (E.interactions rows size occ M false).1 =
    ((E.interactions rows size occ M true).1).map fun I => I.map fun x => x * (size M : K)

omit [LinearOrder K] [DecidableEq Sp] in
theorem inStep_of_fresh [CharZero K] {E : ExpState B Key K} (h : E.Fresh L rows mult) :
    InStep L rows mult size E E.sub.content E.coefs E.nExt where
  orbits := rfl
  coefs := rfl
  length := (full_iff h.cur.inv).1 h.cur.full
  eci := (readEci_cur h.cur).1
  predict occ M ext nrm hfit hext := predict_ok h.cur.inv h.cur.full occ M ext hfit hext nrm
  interactions occ M v hfit hw hv := (interactions_ok h occ M hfit hw).1 v hv
  missing occ M hfit hw hv := (interactions_ok h occ M hfit hw).2.1 hv
  extensive occ M := by
    unfold ExpState.interactions
    dsimp only
    rw [Option.map_map]
    rfl

omit [LinearOrder K] in
/-- C89. An expansion can be made, from a subspace with any history, exactly when there is one coefficient for
the constant, one per function and one per external term; all it computes is about these. -/
theorem C89_new [CharZero K] (hL : LibOk L) (ho : ∀ o ∈ orbits, NewOrbit n o)
    (hk : OneKind L (orbits.map (SOrb.plain store))) (ops0 : List (SubspaceOp Rot Nm Key)) (coefs : List K)
    (nExt : ℕ) :
    let C := afterAll L rows (orbits.map (SOrb.plain store)) ops0
    let made := ExpState.new L mult ((SubState.init L store n orbits : SubState B Key K).run L rows ops0) coefs nExt
    (made.isSome ↔ Matching nExt (C, coefs)) ∧
      ∀ E, made = some E → InStep L rows mult size E C coefs nExt := by
  intro C made
  obtain ⟨h1, h2⟩ := init_ok (rows := rows) ho hk
  obtain ⟨i1, i2⟩ := subRun_ok hL h1 ops0
  rw [h2] at i2
  obtain ⟨n1, n2⟩ := new_ok (mult := mult) i1 coefs nExt
  rw [numCorr_eq i1, i2] at n1 n2
  by_cases hl : Matching nExt (C, coefs)
  · obtain ⟨E, e1, e2, e3, e4, e5⟩ := n1 hl
    have e1' : made = some E := e1
    refine ⟨iff_of_true (by rw [e1']; rfl) hl, fun E' he => ?_⟩
    rw [e1'] at he
    have := Option.some.inj he
    subst this
    have := inStep_of_fresh (size := size) e2
    rwa [e3, e4, e5] at this
  · have e1 : made = none := n2 hl
    refine ⟨iff_of_false (by rw [e1]; simp) hl, fun E' he => ?_⟩
    rw [e1] at he
    cases he

/-- C89. After any history of predictions, interactions, reads, prunings and copies, raising or not, all the
expansion computes is about the orbits and coefficients left by the prunings, provided that no pruning of the
history removed the constant or an external term (see `C89_prune_matching`). -/
theorem C89_history_partial [CharZero K] (hL : LibOk L) (ho : ∀ o ∈ orbits, NewOrbit n o)
    (hk : OneKind L (orbits.map (SOrb.plain store))) (ops0 : List (SubspaceOp Rot Nm Key)) (coefs : List K)
    (nExt : ℕ) (E : ExpState B Key K)
    (hE : ExpState.new L mult ((SubState.init L store n orbits : SubState B Key K).run L rows ops0) coefs nExt =
      some E)
    (ops : List (ExpOp Rot Nm Key K)) (hown : ∀ op ∈ ops, Own op)
    (hlen : ∀ k, Matching nExt (expAfterAll L rows mult
      (afterAll L rows (orbits.map (SOrb.plain store)) ops0, coefs) (ops.take k))) :
    let P := expAfterAll L rows mult (afterAll L rows (orbits.map (SOrb.plain store)) ops0, coefs) ops
    InStep L rows mult size (E.run L rows mult size ops) P.1 P.2 nExt := by
  intro P
  obtain ⟨h1, h2⟩ := init_ok (rows := rows) ho hk
  obtain ⟨i1, i2⟩ := subRun_ok hL h1 ops0
  rw [h2] at i2
  obtain ⟨n1, n2⟩ := new_ok (mult := mult) i1 coefs nExt
  by_cases hl : coefs.length = ((SubState.init L store n orbits : SubState B Key K).run L rows ops0).numCorr + nExt
  · obtain ⟨E', e1, e2, e3, e4, e5⟩ := n1 hl
    rw [hE] at e1
    have := Option.some.inj e1
    subst this
    have hP : (E.sub.content, E.coefs) = (afterAll L rows (orbits.map (SOrb.plain store)) ops0, coefs) := by
      rw [e3, e4, i2]
    obtain ⟨r1, r2, r3⟩ := expRun_fresh (size := size) ops e2 hown (by rw [hP, e5]; exact hlen)
    have := inStep_of_fresh (size := size) r1
    rw [r3, e5] at this
    rw [hP] at r2
    have r4 : (E.run L rows mult size ops).sub.content = P.1 := congrArg Prod.fst r2
    have r5 : (E.run L rows mult size ops).coefs = P.2 := congrArg Prod.snd r2
    rwa [r4, r5] at this
  · rw [n2 hl] at hE
    cases hE

omit [DecidableEq Key] in
/-- C89. Such histories only remove functions: the remaining orbits are among the first ones. -/
theorem C89_orbits (C : List (PlainOrb B)) (coefs : List K) (ops : List (ExpOp Rot Nm Key K))
    (hown : ∀ op ∈ ops, Own op) :
    ∀ o ∈ (expAfterAll L rows mult (C, coefs) ops).1, ∃ o' ∈ C, o.geo = o'.geo ∧ o.bases = o'.bases ∧
      ∀ cl ∈ o.classes, cl ∈ o'.classes :=
  ownAll_mem (C, coefs) ops hown

/-- C89. Pruning keeps one coefficient per term if and only if neither the constant nor an external term is below
the threshold.  With `with_multiplicity` external terms are never removed. -/
theorem C89_prune_matching (C : List (PlainOrb B)) (coefs : List K) (nExt : ℕ) (threshold : K)
    (h : Matching nExt (C, coefs)) :
    (Matching nExt (pruneTerms mult threshold false (C, coefs)) ↔
      threshold ≤ |coefs.headD 0| ∧ ∀ c ∈ coefs.drop (1 + functionCount C), threshold ≤ |c|) ∧
    (Matching nExt (pruneTerms mult threshold true (C, coefs)) ↔
      threshold ≤ |coefs.headD 0|) := by
  unfold Matching at h ⊢
  dsimp only at h
  have hpos : 0 < coefs.length := by omega
  have hhead : coefs.headD 0 = coefs[0] := by
    cases coefs with
    | nil => simp at hpos
    | cons c cs => rfl
  constructor
  · unfold pruneTerms
    dsimp only
    rw [if_neg (by decide), matching_iff _ _ _ _ h]
    have h0 : (0 : ℤ) ∉ positionsBelow threshold coefs ↔ threshold ≤ |coefs.headD 0| := by
      have := mem_positionsBelow threshold coefs 0
      rw [show ((0 : ℕ) : ℤ) = 0 from rfl] at this
      rw [this, hhead]
      constructor
      · intro hh
        exact not_lt.1 fun hlt => hh ⟨hpos, hlt⟩
      · rintro hh ⟨_, hlt⟩
        exact absurd hlt (not_lt.2 hh)
    rw [h0]
    refine and_congr_right fun _ => ?_
    constructor
    · intro hh c hc
      obtain ⟨j, hj, rfl⟩ := List.getElem_of_mem hc
      rw [List.length_drop] at hj
      have hj' := hh j (by omega)
      rw [mem_positionsBelow] at hj'
      rw [List.getElem_drop]
      exact not_lt.1 fun hb => hj' ⟨by omega, hb⟩
    · intro hh j hj
      rw [mem_positionsBelow]
      rintro ⟨hlt, hb⟩
      have := hh (coefs[1 + functionCount C + j]) (by
        rw [List.mem_iff_getElem]
        exact ⟨j, by rw [List.length_drop]; omega, List.getElem_drop⟩)
      exact absurd hb (not_lt.2 this)
  · unfold pruneTerms
    dsimp only
    rw [if_pos rfl, matching_iff _ _ _ _ h]
    have hw := functionWeights_length (K := K) (mult := mult) C
    have hel : (eciOf mult C coefs).length = 1 + functionCount C := by
      unfold eciOf
      rw [List.length_zipWith, hw]
      omega
    have h0 : (0 : ℤ) ∉ positionsBelow threshold (eciOf mult C coefs) ↔ threshold ≤ |coefs.headD 0| := by
      have := mem_positionsBelow threshold (eciOf mult C coefs) 0
      rw [show ((0 : ℕ) : ℤ) = 0 from rfl] at this
      have e0 : ∀ hh : 0 < (eciOf mult C coefs).length, (eciOf mult C coefs)[0] = coefs.headD 0 := by
        intro hh
        cases coefs with
        | nil => simp at hpos
        | cons c cs => exact div_one c
      rw [this]
      constructor
      · intro hh
        refine not_lt.1 fun hlt => hh ⟨by omega, ?_⟩
        rw [e0]
        exact hlt
      · rintro hh ⟨h1, hlt⟩
        rw [e0] at hlt
        exact absurd hlt (not_lt.2 hh)
    rw [h0]
    constructor
    · exact fun hh => hh.1
    · intro hh
      refine ⟨hh, fun j _ => ?_⟩
      rw [mem_positionsBelow]
      rintro ⟨hlt, -⟩
      omega

/-- C89. `eci` times multiplicities are the coefficients. -/
theorem C89_eci_meaning [IsStrictOrderedRing K] (C : List (PlainOrb B)) (coefs : List K) (hw : Weighty mult C) :
    List.zipWith (· * ·) (functionWeights mult C) (eciOf mult C coefs) = coefs.take (1 + functionCount C) := by
  have hwl := functionWeights_length (K := K) (mult := mult) C
  have hne : ∀ x ∈ (functionWeights mult C : List K), x ≠ 0 := by
    intro x hx
    unfold functionWeights at hx
    rcases List.mem_cons.1 hx with rfl | hx
    · exact one_ne_zero
    · obtain ⟨o, mo, hx⟩ := List.mem_flatMap.1 hx
      obtain ⟨cl, mc, rfl⟩ := List.mem_map.1 hx
      obtain ⟨h1, h2⟩ := hw o mo
      refine mul_ne_zero (Nat.cast_ne_zero.2 (by omega)) (Nat.cast_ne_zero.2 ?_)
      intro e
      exact h2 cl mc (List.length_eq_zero_iff.1 e)
  unfold eciOf
  apply List.ext_getElem
  · simp only [List.length_zipWith, List.length_take, hwl]
    omega
  · intro i h1 h2
    rw [List.getElem_zipWith, List.getElem_zipWith, List.getElem_take]
    exact mul_div_cancel₀ _ (hne _ (List.getElem_mem _))

omit [LinearOrder K] [DecidableEq Sp] in
/-- C89. Interactions times multiplicities, and external terms, add up to the prediction. -/
theorem C89_total {E : ExpState B Key K} {C : List (PlainOrb B)} {coefs : List K} {nExt : ℕ}
    (h : InStep L rows mult size E C coefs nExt) (occ : Occ) (M : Key) (ext : List K)
    (hfit : Fits (fun b => L.dim (L.space b)) (rows M) C occ) (hw : Weighty mult C) (hext : ext.length = nExt)
    (I : List K) (hI : (E.interactions rows size occ M true).1 = some I) :
    (E.predict rows size occ M ext true).1 = some
      ((List.zipWith (· * ·) (orbitWeights mult C) I).sum + weighted (coefs.drop (1 + functionCount C)) ext) := by
  obtain ⟨v, hv⟩ : ∃ v, correlationVector L.val (rows M) C occ = some v := by
    cases hv : correlationVector L.val (rows M) C occ with
    | none => rw [h.missing occ M hfit hw hv] at hI; cases hI
    | some v => exact ⟨v, rfl⟩
  obtain ⟨I', i1, -, i3⟩ := h.interactions occ M v hfit hw hv
  rw [hI] at i1
  have := Option.some.inj i1
  subst this
  have hl : v.length = 1 + functionCount C := by
    have := h.orbits
    rw [← this] at hv ⊢
    exact correlationVector_length (S := E.sub) hv
  have hlen : coefs.length = 1 + functionCount C + nExt := h.length
  rw [h.predict occ M ext true hfit hext, hv, Option.map_some, if_pos rfl, mul_one, i3,
    orbitSums_sum _ _ (by rw [List.length_zipWith, hl, hlen]; omega),
    weighted_append _ _ _ (by rw [hl, hlen]; omega), hl]

/-- C89. Whatever was done with the expansion, its `cluster_subspace` and its `coefs`: if there is one
coefficient per term, `prune(0)` and `copy()` remove nothing and bring everything in step. -/
theorem C89_refresh [IsStrictOrderedRing K] (hL : LibOk L) (ho : ∀ o ∈ orbits, NewOrbit n o)
    (hk : OneKind L (orbits.map (SOrb.plain store))) (ops0 : List (SubspaceOp Rot Nm Key)) (coefs : List K)
    (nExt : ℕ) (E : ExpState B Key K)
    (hE : ExpState.new L mult ((SubState.init L store n orbits : SubState B Key K).run L rows ops0) coefs nExt =
      some E)
    (ops : List (ExpOp Rot Nm Key K)) (op : ExpOp Rot Nm Key K) (hop : op = .prune 0 false ∨ op = .copy) :
    let E' := E.run L rows mult size ops
    let C := E'.sub.orbits.map (SOrb.plain E'.sub.store)
    Matching nExt (C, E'.coefs) →
      (E'.apply L rows mult size op).2 = false ∧
        InStep L rows mult size (E'.apply L rows mult size op).1 C E'.coefs nExt := by
  intro E' C hlen
  obtain ⟨h1, h2⟩ := init_ok (rows := rows) ho hk
  obtain ⟨i1, i2⟩ := subRun_ok hL h1 ops0
  obtain ⟨n1, n2⟩ := new_ok (mult := mult) i1 coefs nExt
  have hE0 : E.sub.Inv L rows ∧ E.nExt = nExt := by
    by_cases hl : coefs.length = ((SubState.init L store n orbits : SubState B Key K).run L rows ops0).numCorr + nExt
    · obtain ⟨E', e1, e2, e3, e4, e5⟩ := n1 hl
      rw [hE] at e1
      have := Option.some.inj e1
      subst this
      exact ⟨e2.cur.inv, e5⟩
    · rw [n2 hl] at hE
      cases hE
  obtain ⟨j1, j2⟩ := expRun_inv (mult := mult) (size := size) hL ops hE0.1
  change E'.sub.Inv L rows at j1
  change E'.nExt = E.nExt at j2
  have j3 : E'.nExt = nExt := j2.trans hE0.2
  rcases hop with rfl | rfl
  · have hd : dropFunctions [] 1 E'.sub.content = E'.sub.content := dropFunctions_nil 1 _ (by
      intro o m
      obtain ⟨p, mp, rfl⟩ := List.mem_map.1 m
      exact (j1.pre.orb p mp).cls)
    obtain ⟨p1, p2, p3, p4, p5⟩ := prune_ok (mult := mult) j1 0 false E'.coefs rfl (by
      rw [positionsBelow_zero, unlisted_nil, hd, j3]
      exact hlen)
    rw [positionsBelow_zero, hd] at p3
    rw [positionsBelow_zero, unlisted_nil] at p4
    refine ⟨p1, ?_⟩
    have := inStep_of_fresh (size := size) p2
    rwa [p3, p4, p5, j3] at this
  · obtain ⟨E'', e1, e2, e3, e4, e5⟩ := (copy_ok (mult := mult) j1).1 ((full_iff j1).2 (by rw [j3]; exact hlen))
    unfold ExpState.apply
    dsimp only
    rw [e1]
    refine ⟨rfl, ?_⟩
    have := inStep_of_fresh (size := size) e2
    rwa [e3, e4, e5, j3] at this

/-! ### What goes wrong behind the back of the expansion -/

/-- One cluster per prim in the one-site orbit, two in the pair. -/
def toyMult : ℕ → ℕ := fun g => if g = 0 then 1 else 2

def toySize : ℕ → ℕ := fun _ => 2

/-- The subspace of the example of C87. -/
def toySub : SubState (ℕ × ℚ) ℕ ℚ := SubState.init toyBases toyStore 2 toyOrbits

/-- An expansion over it. -/
def toyExp (coefs : List ℚ) : ExpState (ℕ × ℚ) ℕ ℚ :=
  (ExpState.new toyBases toyMult toySub coefs 0).getD ⟨toySub, [], 0, none, none, [], 0⟩

/-- C89. Assigning `coefs` changes predictions; `eci` and interactions stay those of the old coefficients. -/
theorem C89_stale_coefs_witness :
    let E := (toyExp [10, 1 / 2, 2, 4, 6, 3]).run toyBases toyRows toyMult toySize [.setCoefs [0, 0, 0, 0, 0, 1]]
    (E.predict toyRows toySize toyOcc 0 [] true).1 = some 6 ∧
      (E.interactions toyRows toySize toyOcc 0 true).1 = some [10, 23 / 4, 47 / 2] ∧
      (E.readEci toyMult).1 = some [10, 1 / 2, 2, 2, 3 / 2, 3 / 2] := by decide +kernel

/-- C89. Changing the site bases of `cluster_subspace` changes predictions but not interactions. -/
theorem C89_stale_bases_witness :
    let E := (toyExp [10, 1 / 2, 2, 4, 6, 3]).run toyBases toyRows toyMult toySize [.edit (.change 0 true)]
    (E.predict toyRows toySize toyOcc 0 [] true).1 = some (419 / 2) ∧
      (E.interactions toyRows toySize toyOcc 0 true).1 = some [10, 23 / 4, 47 / 2] := by decide +kernel

/-- C89. Removing a function from `cluster_subspace` makes predictions raise; interactions go on with the removed
function. -/
theorem C89_stale_functions_witness :
    let E := (toyExp [10, 1 / 2, 2, 4, 6, 3]).run toyBases toyRows toyMult toySize [.edit (.removeFuns [4])]
    (E.predict toyRows toySize toyOcc 0 [] true).1 = none ∧
      (E.interactions toyRows toySize toyOcc 0 true).1 = some [10, 23 / 4, 47 / 2] := by decide +kernel

/-- C89. Pruning the constant raises if several functions are left, after functions and coefficients are gone; so do
later prunings. -/
theorem C89_prune_constant_witness :
    let r := (toyExp [0, 0, 0, 7, 0, 5]).prune toyBases toyMult 1 false
    r.2 = true ∧ r.1.coefs = [7, 5] ∧ (r.1.predict toyRows toySize toyOcc 0 [] true).1 = none ∧
      (r.1.interactions toyRows toySize toyOcc 0 true).1 = some [0, 0] ∧
      (r.1.prune toyBases toyMult 1 false).2 = true := by decide +kernel

/-- C89. Pruning the constant does not raise if one function is left; predictions raise, and interactions have the
coefficient of the function as constant. -/
theorem C89_prune_silent_witness :
    let r := (toyExp [0, 0, 0, 7, 0, 0]).prune toyBases toyMult 1 false
    r.2 = false ∧ r.1.coefs = [7] ∧ (r.1.predict toyRows toySize toyOcc 0 [] true).1 = none ∧
      (r.1.interactions toyRows toySize toyOcc 0 true).1 = some [7, 7] := by decide +kernel

omit [LinearOrder K] [DecidableEq Key] in
/-- C89. When coefficients and functions are out of step, the effective interactions are those of numpy's
broadcasting: one coefficient is used for every function, one function divides every coefficient, and any other
difference in number raises. -/
theorem C89_eci_out_of_step (E : ExpState B Key K) (hc : E.eciC = none) :
    let a := E.coefs.take (E.coefs.length - E.nExt)
    let w := (E.sub.totalMults mult).map fun m : ℕ => (m : K)
    ((E.readEci mult).1 = none ↔ a.length ≠ w.length ∧ a.length ≠ 1 ∧ w.length ≠ 1) ∧
      (∀ c, a = [c] → (E.readEci mult).1 = some (w.map fun y => c / y)) ∧
      (∀ y, w = [y] → (E.readEci mult).1 = some (a.map fun c => c / y)) := by
  intro a w
  have he : (E.readEci mult).1 = arrDiv a w := by
    unfold ExpState.readEci
    rw [hc]
    show (match arrDiv a w with | none => (none, E) | some e => (some e, { E with eciC := some e })).1 = _
    cases arrDiv a w <;> rfl
  rw [he]
  clear he
  generalize a = a
  generalize w = w
  unfold arrDiv
  refine ⟨?_, ?_, ?_⟩
  · split_ifs with h1 h2 h3 <;> simp_all
  · rintro c rfl
    split_ifs with h1 h2
    · cases w with
      | nil => simp at h1
      | cons y w =>
        cases w with
        | nil => rfl
        | cons z w => simp at h1
    · rfl
    all_goals simp at h2
  · rintro y rfl
    cases a with
    | nil => simp
    | cons c a =>
      cases a with
      | nil => simp
      | cons d a => simp

/-- the hypotheses hold: an expansion that is used, pruned and copied -/
example : ∃ E : ExpState (ℕ × ℚ) ℕ ℚ,
    ExpState.new toyBases toyMult (toySub.run toyBases toyRows [.corr toyOcc 0, .rotate 1 true])
      [10, 1 / 2, 2, 4, 6, 3] 0 = some E ∧
    (∀ op ∈ ([.eci, .prune 3 false, .interactions toyOcc 0 true, .copy, .prune 2 true] :
      List (ExpOp Bool ℕ ℕ ℚ)), Own op) ∧
    (∀ k ≤ 5, Matching 0 (expAfterAll toyBases toyRows toyMult (afterAll toyBases toyRows
      (toyOrbits.map (SOrb.plain toyStore)) [.corr toyOcc 0, .rotate 1 true], [10, 1 / 2, 2, 4, 6, 3])
      (([.eci, .prune 3 false, .interactions toyOcc 0 true, .copy, .prune 2 true] :
        List (ExpOp Bool ℕ ℕ ℚ)).take k))) ∧
    Weighty toyMult (toyOrbits.map (SOrb.plain toyStore)) := by
  obtain ⟨E, hE⟩ := Option.isSome_iff_exists.1 (show (ExpState.new toyBases toyMult
    (toySub.run toyBases toyRows [.corr toyOcc 0, .rotate 1 true]) [10, 1 / 2, 2, 4, 6, 3] 0).isSome = true by
      decide +kernel)
  refine ⟨E, hE, ?_, ?_, ?_⟩
  · intro op m
    simp only [List.mem_cons, List.not_mem_nil, or_false] at m
    rcases m with rfl | rfl | rfl | rfl | rfl <;> trivial
  · unfold Matching
    decide +kernel
  · unfold Weighty
    decide +kernel

/-- what is left: prunings of coefficients below 3 and of eci below 2 -/
example :
    let ops : List (ExpOp Bool ℕ ℕ ℚ) := [.eci, .prune 3 false, .interactions toyOcc 0 true, .copy, .prune 2 true]
    let E := (toyExp [10, 1 / 2, 2, 4, 6, 3]).run toyBases toyRows toyMult toySize ops
    expAfterAll toyBases toyRows toyMult (toyOrbits.map (SOrb.plain toyStore), [10, 1 / 2, 2, 4, 6, 3]) ops =
      ([⟨1, [[[0, 0]]], [(3, 1), (3, 1)]⟩], [10, 4]) ∧
    (E.predict toyRows toySize toyOcc 0 [] true).1 = some 18 ∧
    (E.interactions toyRows toySize toyOcc 0 true).1 = some [10, 4] ∧
    (E.readEci toyMult).1 = some [10, 2] := by decide +kernel

/-- coefficients out of step, brought in step again -/
example :
    let E := (toyExp [10, 1 / 2, 2, 4, 6, 3]).run toyBases toyRows toyMult toySize
      [.setCoefs [0, 0, 0, 0, 0, 1], .prune 0 false]
    (E.predict toyRows toySize toyOcc 0 [] true).1 = some 6 ∧
      (E.interactions toyRows toySize toyOcc 0 true).1 = some [0, 0, 3] := by decide +kernel

end Smol
