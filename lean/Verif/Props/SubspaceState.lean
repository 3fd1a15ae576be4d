import Verif.Lemmas.SubspaceState

/-!
# C87: a subspace computes the correlations of its present orbits and bases
-/

namespace Smol

open Spec

variable {B Sp Rot Nm K Key : Type*} [Field K] [DecidableEq Sp] [DecidableEq Key]
  {L : BasisLib B Sp Rot Nm K} {rows : Key → ℕ → Option ClusterRows} {store : ℕ → B} {n : ℕ}
  {orbits : List (SOrb K)}

/-- C87. After any history of changes of basis, rotations, removals of orbits and of functions,
computations, reads of tensors and reloads, raising or not, the orbits, functions and site bases of the
subspace are those given by the operations applied to plain lists of orbits. -/
theorem C87_history (hL : LibOk L) (ho : ∀ o ∈ orbits, NewOrbit n o)
    (hk : OneKind L (orbits.map (SOrb.plain store))) (ops : List (SubspaceOp Rot Nm Key)) :
    ((SubState.init L store n orbits : SubState B Key K).run L rows ops).content =
      afterAll L rows (orbits.map (SOrb.plain store)) ops := by
  obtain ⟨h1, h2⟩ := init_ok (rows := rows) ho hk
  rw [(subRun_ok hL h1 ops).2, h2]

/-- C87. After any history an operation raises exactly when it does so for plain lists of orbits: an
unknown basis name, no one-site orbit with the id or a basis that cannot be rotated, an empty list of
orbits or ids outside of the orbits, clusters that are not found. -/
theorem C87_raises (hL : LibOk L) (ho : ∀ o ∈ orbits, NewOrbit n o)
    (hk : OneKind L (orbits.map (SOrb.plain store))) (ops : List (SubspaceOp Rot Nm Key))
    (op : SubspaceOp Rot Nm Key) :
    (((SubState.init L store n orbits : SubState B Key K).run L rows ops).apply L rows op).2 =
      (after L rows (afterAll L rows (orbits.map (SOrb.plain store)) ops) op).2 := by
  obtain ⟨h1, h2⟩ := init_ok (rows := rows) ho hk
  obtain ⟨i1, i2⟩ := subRun_ok hL h1 ops
  rw [← h2, ← i2]
  exact congrArg Prod.snd (apply_ok hL i1 op).2

/-- C87. After any history the correlation vector of an occupancy is one followed by the averages, over
the clusters in the supercell, of the present functions of the present orbits in the present bases. -/
theorem C87_correlations (hL : LibOk L) (ho : ∀ o ∈ orbits, NewOrbit n o)
    (hk : OneKind L (orbits.map (SOrb.plain store))) (ops : List (SubspaceOp Rot Nm Key)) (occ : Occ) (M : Key)
    (hfit : Fits (fun b => L.dim (L.space b)) (rows M) (orbits.map (SOrb.plain store)) occ) :
    (((SubState.init L store n orbits : SubState B Key K).run L rows ops).corr rows occ M).1 =
      correlationVector L.val (rows M) (afterAll L rows (orbits.map (SOrb.plain store)) ops) occ := by
  obtain ⟨h1, h2⟩ := init_ok (rows := rows) ho hk
  obtain ⟨i1, i2⟩ := subRun_ok hL h1 ops
  rw [h2] at i2
  rw [corr_ok i1 occ M (by rw [i2]; exact fits_after hL _ ops M occ hfit), i2]

/-- C87. The counts of orbits and functions, and the orbit and function ids, are those of the present
orbits. -/
theorem C87_counts (hL : LibOk L) (ho : ∀ o ∈ orbits, NewOrbit n o)
    (hk : OneKind L (orbits.map (SOrb.plain store))) (ops : List (SubspaceOp Rot Nm Key)) :
    let S := (SubState.init L store n orbits : SubState B Key K).run L rows ops
    let C := afterAll L rows (orbits.map (SOrb.plain store)) ops
    S.numOrbits = 1 + C.length ∧ S.numCorr = 1 + functionCount C ∧
      S.orbits.map SOrb.id = List.range' 1 C.length ∧
      ∀ (j : ℕ) (hj : j < S.orbits.length), S.orbits[j].bitId = 1 + functionCount (C.take j) := by
  intro S C
  obtain ⟨h1, h2⟩ := init_ok (rows := rows) ho hk
  obtain ⟨i1, i2⟩ := subRun_ok hL h1 ops
  rw [h2] at i2
  have e : C = S.content := i2.symm
  have el : C.length = S.orbits.length := by rw [e]; exact List.length_map _
  refine ⟨?_, ?_, ?_, ?_⟩
  · rw [el]
    exact i1.pre.numO
  · have := i1.pre.numC
    rw [show S.numCorr = _ from this, e, functionCount, SubState.content, List.map_map]
    rfl
  · rw [el]
    exact numbered_ids _ 1 1 i1.pre.ids
  · intro j hj
    have hn := i1.pre.ids
    have hC : C = S.orbits.map (SOrb.plain S.store) := e
    rw [hC]
    change Numbered S.orbits 1 1 at hn
    have key : ∀ (l : List (SOrb K)) (i b j : ℕ) (hj : j < l.length), Numbered l i b →
        l[j].bitId = b + functionCount ((l.map (SOrb.plain S.store)).take j) := by
      intro l
      induction l with
      | nil => intro i b j hj; simp at hj
      | cons o l ih =>
        intro i b j hj hn
        cases j with
        | zero => exact hn.2.1
        | succ j =>
          rw [List.getElem_cons_succ, ih (i + 1) _ j (by simpa using hj) hn.2.2, List.map_cons,
            List.take_succ_cons]
          unfold functionCount
          rw [List.map_cons, List.sum_cons]
          show b + o.readCombos.1.length + _ = b + (o.readCombos.1.length + _)
          omega
    exact key S.orbits 1 1 j hj hn

/-- C87. Removing functions leaves the other entries of correlation vectors as they were (the constant
entry is never removed). -/
theorem C87_remove_functions (hL : LibOk L) (ho : ∀ o ∈ orbits, NewOrbit n o)
    (hk : OneKind L (orbits.map (SOrb.plain store))) (ops : List (SubspaceOp Rot Nm Key)) (ids : List ℤ)
    (occ : Occ) (M : Key)
    (hfit : Fits (fun b => L.dim (L.space b)) (rows M) (orbits.map (SOrb.plain store)) occ) (v : List K)
    (hv : (((SubState.init L store n orbits : SubState B Key K).run L rows ops).corr rows occ M).1 = some v) :
    (((SubState.init L store n orbits : SubState B Key K).run L rows (ops ++ [.removeFuns ids])).corr
      rows occ M).1 = some (v.take 1 ++ unlisted ids 1 (v.drop 1)) := by
  rw [C87_correlations hL ho hk _ occ M hfit] at hv ⊢
  rw [afterAll, List.foldl_append]
  unfold correlationVector at hv ⊢
  obtain ⟨w, hw, rfl⟩ := Option.map_eq_some_iff.1 hv
  obtain ⟨u, h1, h2⟩ := dropFunctions_values L.val (rows M) _ occ ids 1 w hw
  show Option.map _ (orbitValues L.val (rows M) (dropFunctions ids 1 _) occ) = _
  unfold afterAll at h1
  rw [h1, Option.map_some, h2]
  rfl

/-- C87. Removing orbits leaves the other entries of correlation vectors as they were. -/
theorem C87_remove_orbits (hL : LibOk L) (ho : ∀ o ∈ orbits, NewOrbit n o)
    (hk : OneKind L (orbits.map (SOrb.plain store))) (ops : List (SubspaceOp Rot Nm Key)) (ids : List ℤ)
    (hne : ids ≠ [])
    (hids : ∀ i ∈ ids, 1 ≤ i ∧ i ≤ ((afterAll L rows (orbits.map (SOrb.plain store)) ops).length : ℤ))
    (occ : Occ) (M : Key)
    (hfit : Fits (fun b => L.dim (L.space b)) (rows M) (orbits.map (SOrb.plain store)) occ) (v : List K)
    (hv : (((SubState.init L store n orbits : SubState B Key K).run L rows ops).corr rows occ M).1 = some v) :
    (((SubState.init L store n orbits : SubState B Key K).run L rows (ops ++ [.removeOrbits ids])).corr
      rows occ M).1 =
      some (((v.zip (orbitNumbers (afterAll L rows (orbits.map (SOrb.plain store)) ops))).filter
        fun p => decide ((p.2 : ℤ) ∉ ids)).map Prod.fst) := by
  rw [C87_correlations hL ho hk _ occ M hfit] at hv ⊢
  have hafter : afterAll L rows (orbits.map (SOrb.plain store)) (ops ++ [.removeOrbits ids]) =
      unlisted ids 1 (afterAll L rows (orbits.map (SOrb.plain store)) ops) := by
    rw [afterAll, List.foldl_append]
    show (after L rows (afterAll L rows (orbits.map (SOrb.plain store)) ops) (.removeOrbits ids)).1 = _
    unfold after
    dsimp only
    rw [if_neg]
    · rfl
    · rintro (h | ⟨i, m, h⟩)
      · exact hne h
      · have := hids i m
        omega
  rw [hafter]
  unfold correlationVector at hv ⊢
  obtain ⟨w, hw, rfl⟩ := Option.map_eq_some_iff.1 hv
  obtain ⟨u, h1, h2⟩ := dropOrbits_values L.val (rows M) _ occ ids 1 w hw
  show Option.map _ (orbitValues L.val (rows M) _ occ) = _
  rw [h1, Option.map_some, h2]
  unfold orbitNumbers
  rw [List.zip_cons_cons, List.filter_cons, if_pos]
  · rfl
  · simp only [Nat.cast_zero, decide_eq_true_eq]
    intro m
    have := hids 0 m
    omega

/-- Bases over `s` species with functions `k (c + f)`; rotation `true` changes the sign, names other than
0 are unknown. -/
def toyBases : BasisLib (ℕ × ℚ) ℕ Bool ℕ ℚ where
  space b := b.1
  dim s := s
  val b f c := b.2 * (c + f)
  rotate ρ b := if ρ then some (b.1, -b.2) else none
  make nm _ s := if nm = 0 then some (s, 2) else none

/-- A one-site orbit and a pair, both over sites with three species; functions of the pair: `00`,
`01 ~ 10`, `11`. -/
def toyOrbits : List (SOrb ℚ) :=
  [⟨0, [[[0]], [[1]]], none, [0], none, none, none, 0, 0⟩,
    ⟨1, [[[0, 0]], [[0, 1], [1, 0]], [[1, 1]]], none, [0, 1], none, none, none, 0, 0⟩]

def toyStore : ℕ → ℕ × ℚ := fun _ => (3, 1)

/-- Two sites in a supercell. -/
def toyRows : ℕ → ℕ → Option ClusterRows := fun _ g => some (if g = 0 then [[0], [1]] else [[0, 1]])

def toyOcc : Occ := fun i => i + 1

theorem toyBases_ok : LibOk toyBases where
  rotate_space ρ b b' h := by
    simp only [toyBases] at h
    split at h
    · rw [← Option.some.inj h]
      rfl
    · cases h
  make_space nm ort s b h := by
    simp only [toyBases] at h
    split at h
    · rw [← Option.some.inj h]
      rfl
    · cases h
  make_known nm ort s s' h := by
    simp only [toyBases] at h ⊢
    split at h
    · rw [if_pos (by assumption)]
      rfl
    · cases h

/-- the hypotheses hold -/
example : (∀ o ∈ toyOrbits, NewOrbit 2 o) ∧ OneKind toyBases (toyOrbits.map (SOrb.plain toyStore)) ∧
    Fits (fun b => toyBases.dim (toyBases.space b)) (toyRows 0) (toyOrbits.map (SOrb.plain toyStore)) toyOcc := by
  refine ⟨?_, ?_, ?_⟩
  · intro o m
    simp only [toyOrbits, List.mem_cons, List.not_mem_nil, or_false] at m
    rcases m with rfl | rfl <;>
      exact ⟨by decide, by decide, by decide, by decide, rfl, rfl, rfl⟩
  · intro o m b hb o' m' b' hb' _
    have h : ∀ o ∈ toyOrbits.map (SOrb.plain toyStore), ∀ b ∈ o.bases, b = (3, 1) := by
      intro o m b hb
      obtain ⟨p, -, rfl⟩ := List.mem_map.1 m
      obtain ⟨x, -, rfl⟩ := List.mem_map.1 hb
      rfl
    rw [h o m b hb, h o' m' b' hb']
  · intro o m r e row hrow
    simp only [toyOrbits, List.map_cons, List.map_nil, List.mem_cons, List.not_mem_nil, or_false] at m
    rcases m with rfl | rfl
    · cases e
      change row ∈ [[0], [1]] at hrow
      simp only [List.mem_cons, List.not_mem_nil, or_false] at hrow
      rcases hrow with rfl | rfl <;> decide
    · cases e
      change row ∈ [[0, 1]] at hrow
      simp only [List.mem_cons, List.not_mem_nil, or_false] at hrow
      subst hrow
      decide

/-- the vector at first, and after a rotation and the removal of a function, with an unknown name and
computations between -/
example :
    (((SubState.init toyBases toyStore 2 toyOrbits : SubState (ℕ × ℚ) ℕ ℚ).run toyBases toyRows []).corr
      toyRows toyOcc 0).1 = some [1, 3 / 2, 5 / 2, 2, 7 / 2, 6] ∧
    (((SubState.init toyBases toyStore 2 toyOrbits : SubState (ℕ × ℚ) ℕ ℚ).run toyBases toyRows
      [.corr toyOcc 0, .rotate 1 true, .change 5 false, .removeFuns [4, 9], .rotate 2 true, .reload,
        .corr toyOcc 0]).corr toyRows toyOcc 0).1 = some [1, -3 / 2, -5 / 2, 2, 6] ∧
    (((SubState.init toyBases toyStore 2 toyOrbits : SubState (ℕ × ℚ) ℕ ℚ).run toyBases toyRows
      [.reload, .rotate 1 true, .removeOrbits [1], .change 0 true]).corr toyRows toyOcc 0).1 =
        some [1, 8, 14, 24] := by decide +kernel

end Smol
