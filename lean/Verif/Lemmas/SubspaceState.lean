import Verif.Model.SubspaceState
import Verif.Spec.SubspaceState
import Verif.Lemmas.Orbit
import Verif.Lemmas.Evaluator

/-!
# Lemmas on subspaces with stored data
-/

namespace Smol

open Spec

variable {B Sp Rot Nm K Key : Type*}

/-- The orbit without anything stored. -/
def SOrb.plain (store : ℕ → B) (o : SOrb K) : PlainOrb B := ⟨o.geo, o.readCombos.1, o.bases.map store⟩

/-- Two orbits that differ at most in what they store. -/
def SOrb.Same (o o' : SOrb K) : Prop :=
  o'.geo = o.geo ∧ o'.bases = o.bases ∧ o'.id = o.id ∧ o'.bitId = o.bitId ∧ o'.readCombos.1 = o.readCombos.1

section
variable [Field K]

/-- Nothing stored in the orbit is out of date. -/
structure SOrb.Ok (L : BasisLib B Sp Rot Nm K) (store : ℕ → B) (n : ℕ) (o : SOrb K) : Prop where
  lt : ∀ b ∈ o.bases, b < n
  ne : o.bases ≠ []
  cls : o.readCombos.1 ≠ []
  len : ∀ cl ∈ o.readCombos.1, ∀ bits ∈ cl, bits.length = o.bases.length
  arrs : ∀ a, o.arrs = some a → a = o.bases
  tens : ∀ t, o.tens = some t → t = tensorOf L store o.bases o.readCombos.1
  flat : ∀ t, o.flat = some t → t = tensorOf L store o.bases o.readCombos.1

omit [Field K] in
theorem SOrb.Same.rfl' (o : SOrb K) : o.Same o := ⟨rfl, rfl, rfl, rfl, rfl⟩

omit [Field K] in
theorem SOrb.Same.trans {o o' o'' : SOrb K} (h : o.Same o') (h' : o'.Same o'') : o.Same o'' :=
  ⟨h'.1.trans h.1, h'.2.1.trans h.2.1, h'.2.2.1.trans h.2.2.1, h'.2.2.2.1.trans h.2.2.2.1,
    h'.2.2.2.2.trans h.2.2.2.2⟩

omit [Field K] in
theorem SOrb.Same.plain {o o' : SOrb K} (h : o.Same o') (store : ℕ → B) : o'.plain store = o.plain store := by
  unfold SOrb.plain
  rw [h.1, h.2.1, h.2.2.2.2]

omit [Field K] in
theorem readCombos_same (o : SOrb K) : o.Same o.readCombos.2 ∧ o.readCombos.2.arrs = o.arrs ∧
    o.readCombos.2.tens = o.tens ∧ o.readCombos.2.flat = o.flat :=
  ⟨⟨rfl, rfl, rfl, rfl, rfl⟩, rfl, rfl, rfl⟩

theorem SOrb.Ok.same {L : BasisLib B Sp Rot Nm K} {store : ℕ → B} {n : ℕ} {o o' : SOrb K}
    (h : o.Ok L store n) (hs : o.Same o') (ha : ∀ a, o'.arrs = some a → a = o.bases)
    (ht : ∀ t, o'.tens = some t → t = tensorOf L store o.bases o.readCombos.1)
    (hf : ∀ t, o'.flat = some t → t = tensorOf L store o.bases o.readCombos.1) : o'.Ok L store n := by
  obtain ⟨h1, h2, h3, h4, h5⟩ := hs
  constructor
  · rw [h2]; exact h.lt
  · rw [h2]; exact h.ne
  · rw [h5]; exact h.cls
  · rw [h5, h2]; exact h.len
  · rw [h2]; exact ha
  · rw [h5, h2]; exact ht
  · rw [h5, h2]; exact hf

theorem readCombos_ok {L : BasisLib B Sp Rot Nm K} {store : ℕ → B} {n : ℕ} {o : SOrb K}
    (h : o.Ok L store n) : o.readCombos.2.Ok L store n := by
  obtain ⟨h1, h2, h3, h4⟩ := readCombos_same o
  exact h.same h1 (by rw [h2]; exact h.arrs) (by rw [h3]; exact h.tens) (by rw [h4]; exact h.flat)

theorem readArrs_ok {L : BasisLib B Sp Rot Nm K} {store : ℕ → B} {n : ℕ} {o : SOrb K}
    (h : o.Ok L store n) : o.readArrs.1 = o.bases ∧ o.Same o.readArrs.2 ∧ o.readArrs.2.Ok L store n := by
  unfold SOrb.readArrs
  cases ha : o.arrs with
  | none =>
    refine ⟨rfl, ⟨rfl, rfl, rfl, rfl, rfl⟩, h.same ⟨rfl, rfl, rfl, rfl, rfl⟩ ?_ h.tens h.flat⟩
    intro a e
    exact (Option.some.inj e).symm
  | some a => exact ⟨h.arrs a ha, SOrb.Same.rfl' o, h⟩

theorem readTens_ok {L : BasisLib B Sp Rot Nm K} {store : ℕ → B} {n : ℕ} {o : SOrb K}
    (h : o.Ok L store n) : (o.readTens L store).1 = tensorOf L store o.bases o.readCombos.1 ∧
      o.Same (o.readTens L store).2 ∧ (o.readTens L store).2.Ok L store n := by
  unfold SOrb.readTens
  cases ht : o.tens with
  | some t => exact ⟨h.tens t ht, SOrb.Same.rfl' o, h⟩
  | none =>
    obtain ⟨c1, c2, c3, c4⟩ := readCombos_same o
    obtain ⟨a1, a2, a3⟩ := readArrs_ok (readCombos_ok h)
    have e : tensorOf L store o.readCombos.2.readArrs.1 o.readCombos.1 =
        tensorOf L store o.bases o.readCombos.1 := by rw [a1, c1.2.1]
    have hs := c1.trans a2
    refine ⟨e, ⟨hs.1, hs.2.1, hs.2.2.1, hs.2.2.2.1, hs.2.2.2.2⟩,
      h.same ⟨hs.1, hs.2.1, hs.2.2.1, hs.2.2.2.1, hs.2.2.2.2⟩ ?_ ?_ ?_⟩
    · intro a ha
      exact (a3.arrs a ha).trans hs.2.1
    · intro t et
      exact (Option.some.inj et).symm.trans e
    · intro t et
      cases et

theorem readFlat_ok {L : BasisLib B Sp Rot Nm K} {store : ℕ → B} {n : ℕ} {o : SOrb K}
    (h : o.Ok L store n) : (o.readFlat L store).1 = tensorOf L store o.bases o.readCombos.1 ∧
      o.Same (o.readFlat L store).2 ∧ (o.readFlat L store).2.Ok L store n := by
  unfold SOrb.readFlat
  cases ht : o.flat with
  | some t => exact ⟨h.flat t ht, SOrb.Same.rfl' o, h⟩
  | none =>
    obtain ⟨a1, a2, a3⟩ := readTens_ok h
    refine ⟨a1, a2, a3.same ⟨rfl, rfl, rfl, rfl, rfl⟩ a3.arrs a3.tens ?_⟩
    intro t et
    rw [← Option.some.inj et, a1, a2.2.1, a2.2.2.2.2]

/-- The evaluator's data of an orbit when nothing is out of date. -/
def dataOf (L : BasisLib B Sp Rot Nm K) (store : ℕ → B) (o : SOrb K) : OrbitData K :=
  orbitData o.id o.bitId (fun i f c => L.val (store (o.bases.getD i 0)) f c)
    (o.bases.map fun b => L.dim (L.space (store b))) o.readCombos.1

theorem evalRow_ok {L : BasisLib B Sp Rot Nm K} {store : ℕ → B} {n : ℕ} {o : SOrb K}
    (h : o.Ok L store n) : (o.evalRow L store).1 = dataOf L store o ∧ o.Same (o.evalRow L store).2 ∧
      (o.evalRow L store).2.Ok L store n := by
  unfold SOrb.evalRow
  obtain ⟨f1, f2, f3⟩ := readFlat_ok h
  obtain ⟨t1, t2, t3⟩ := readTens_ok f3
  refine ⟨?_, f2.trans t2, t3⟩
  dsimp only
  rw [f1, t1, f2.2.1, f2.2.2.2.2]
  rfl

theorem dataOf_same {L : BasisLib B Sp Rot Nm K} {store : ℕ → B} {o o' : SOrb K} (h : o.Same o') :
    dataOf L store o' = dataOf L store o := by
  unfold dataOf
  rw [h.2.1, h.2.2.1, h.2.2.2.1, h.2.2.2.2]

end

/-- Ids follow one another. -/
def Numbered : List (SOrb K) → ℕ → ℕ → Prop
  | [], _, _ => True
  | o :: l, i, b => o.id = i ∧ o.bitId = b ∧ Numbered l (i + 1) (b + o.readCombos.1.length)

theorem assignIds_numbered (l : List (SOrb K)) (i b : ℕ) : Numbered (assignIds l i b) i b := by
  induction l generalizing i b with
  | nil => trivial
  | cons o l ih =>
    exact ⟨rfl, rfl, ih _ _⟩

/-- Pointwise in a relation: what `assignIds` does to the orbits. -/
theorem assignIds_rel (l : List (SOrb K)) (i b : ℕ) :
    List.Forall₂ (fun o o' : SOrb K => o'.geo = o.geo ∧ o'.bases = o.bases ∧ o'.readCombos.1 = o.readCombos.1 ∧
      o'.arrs = o.arrs ∧ o'.tens = o.tens ∧ o'.flat = o.flat) l (assignIds l i b) := by
  induction l generalizing i b with
  | nil => exact List.Forall₂.nil
  | cons o l ih =>
    exact List.Forall₂.cons ⟨rfl, rfl, rfl, rfl, rfl, rfl⟩ (ih _ _)

theorem numbered_same {l : List (SOrb K)} (f : SOrb K → SOrb K) (h : ∀ o ∈ l, o.Same (f o)) (i b : ℕ)
    (hn : Numbered l i b) : Numbered (l.map f) i b := by
  induction l generalizing i b with
  | nil => trivial
  | cons o l ih =>
    have ho := h o (by simp)
    obtain ⟨h1, h2, h3⟩ := hn
    refine ⟨by rw [ho.2.2.1, h1], by rw [ho.2.2.2.1, h2], ?_⟩
    rw [ho.2.2.2.2]
    exact ih (fun o' m => h o' (List.mem_cons_of_mem _ m)) _ _ h3

/-- The index arrays of the orbits. -/
def allRows (rows : Key → ℕ → Option ClusterRows) (M : Key) (l : List (SOrb K)) : Option (List ClusterRows) :=
  l.mapM fun o => rows M o.geo

variable [Field K]

/-- What holds between the operations, before the evaluator is set. -/
structure SubState.Pre (L : BasisLib B Sp Rot Nm K) [DecidableEq Key] (rows : Key → ℕ → Option ClusterRows)
    (S : SubState B Key K) : Prop where
  orb : ∀ o ∈ S.orbits, o.Ok L S.store S.nStore
  uni : ∀ o ∈ S.orbits, ∀ b ∈ o.bases, ∀ o' ∈ S.orbits, ∀ b' ∈ o'.bases,
    L.space (S.store b) = L.space (S.store b') → S.store b = S.store b'
  ids : Numbered S.orbits 1 1
  numO : S.numOrbits = 1 + S.orbits.length
  numC : S.numCorr = 1 + (S.orbits.map fun o => o.readCombos.1.length).sum
  cache : ∀ M r, S.cache.lookup M = some r → allRows rows M S.orbits = some r

/-- The invariant of a subspace. -/
structure SubState.Inv (L : BasisLib B Sp Rot Nm K) [DecidableEq Key] (rows : Key → ℕ → Option ClusterRows)
    (S : SubState B Key K) : Prop where
  pre : S.Pre L rows
  ev : S.eval = S.orbits.map (dataOf L S.store)
  evC : S.evalCorr = S.numCorr

/-- The subspace without anything stored. -/
def SubState.content (S : SubState B Key K) : List (PlainOrb B) := S.orbits.map (SOrb.plain S.store)

variable [DecidableEq Key] {rows : Key → ℕ → Option ClusterRows} {L : BasisLib B Sp Rot Nm K}

omit [Field K] [DecidableEq Key] in
theorem allRows_geo (M : Key) {l l' : List (SOrb K)} (h : l'.map SOrb.geo = l.map SOrb.geo) :
    allRows rows M l' = allRows rows M l := by
  have e : ∀ l : List (SOrb K), allRows rows M l = (l.map SOrb.geo).mapM (rows M) := by
    intro l
    unfold allRows
    induction l with
    | nil => rfl
    | cons o l ih => rw [List.map_cons, List.mapM_cons, List.mapM_cons, ih]
  rw [e, e, h]

omit [Field K] [DecidableEq Key] in
theorem allRows_same (M : Key) {l : List (SOrb K)} (f : SOrb K → SOrb K)
    (h : ∀ o ∈ l, (f o).geo = o.geo) : allRows rows M (l.map f) = allRows rows M l := by
  apply allRows_geo
  rw [List.map_map]
  exact List.map_congr_left h

omit [Field K] in
theorem map_eq_of_forall₂ {α β γ : Type*} {f : α → γ} {g : β → γ} {l : List α} {l' : List β}
    (h : List.Forall₂ (fun a b => g b = f a) l l') : l'.map g = l.map f := by
  induction h with
  | nil => rfl
  | cons h _ ih => rw [List.map_cons, List.map_cons, h, ih]

theorem resetEval_inv {S : SubState B Key K} (h : S.Pre L rows) :
    (S.resetEval L).Inv L rows ∧ (S.resetEval L).content = S.content := by
  have hs : ∀ o ∈ S.orbits, o.Same (o.evalRow L S.store).2 := fun o m => (evalRow_ok (h.orb o m)).2.1
  refine ⟨⟨⟨?_, ?_, ?_, ?_, ?_, ?_⟩, ?_, rfl⟩, ?_⟩
  · intro o ho
    obtain ⟨o', m, rfl⟩ := List.mem_map.1 ho
    exact (evalRow_ok (h.orb o' m)).2.2
  · intro o ho b hb o' ho' b' hb' e
    obtain ⟨p, m, rfl⟩ := List.mem_map.1 ho
    obtain ⟨p', m', rfl⟩ := List.mem_map.1 ho'
    rw [(hs p m).2.1] at hb
    rw [(hs p' m').2.1] at hb'
    exact h.uni p m b hb p' m' b' hb' e
  · exact numbered_same _ hs 1 1 h.ids
  · show S.numOrbits = 1 + (S.orbits.map _).length
    rw [List.length_map]
    exact h.numO
  · show S.numCorr = 1 + ((S.orbits.map _).map _).sum
    rw [List.map_map, h.numC]
    congr 2
    apply List.map_congr_left
    intro o m
    show _ = (SOrb.readCombos _).1.length
    rw [(hs o m).2.2.2.2]
  · intro M r e
    show allRows rows M (S.orbits.map _) = some r
    rw [allRows_same M _ fun o m => (hs o m).1]
    exact h.cache M r e
  · show S.orbits.map _ = (S.orbits.map _).map _
    rw [List.map_map]
    apply List.map_congr_left
    intro o m
    show _ = dataOf L S.store _
    rw [dataOf_same (hs o m)]
    exact (evalRow_ok (h.orb o m)).1
  · show (S.orbits.map _).map _ = S.orbits.map _
    rw [List.map_map]
    apply List.map_congr_left
    intro o m
    exact (hs o m).plain S.store

/-- Everything `Pre` needs of orbits whose ids are not assigned yet. -/
theorem assign_pre {S : SubState B Key K} (h1 : ∀ o ∈ S.orbits, o.Ok L S.store S.nStore)
    (h2 : ∀ o ∈ S.orbits, ∀ b ∈ o.bases, ∀ o' ∈ S.orbits, ∀ b' ∈ o'.bases,
      L.space (S.store b) = L.space (S.store b') → S.store b = S.store b')
    (h3 : ∀ M r, S.cache.lookup M = some r → allRows rows M S.orbits = some r) :
    S.assign.Pre L rows ∧ S.assign.content = S.content := by
  have hr := assignIds_rel S.orbits 1 1
  have hmem : ∀ o' ∈ assignIds S.orbits 1 1, ∃ o ∈ S.orbits, o'.geo = o.geo ∧ o'.bases = o.bases ∧
      o'.readCombos.1 = o.readCombos.1 ∧ o'.arrs = o.arrs ∧ o'.tens = o.tens ∧ o'.flat = o.flat := by
    intro o' m
    obtain ⟨i, hi, e⟩ := List.mem_iff_getElem.1 m
    have hi' : i < S.orbits.length := by rw [hr.length_eq]; exact hi
    refine ⟨S.orbits[i], List.getElem_mem hi', ?_⟩
    have := List.Forall₂.get hr hi' hi
    simp only [List.get_eq_getElem] at this
    rw [e] at this
    exact this
  refine ⟨⟨?_, ?_, assignIds_numbered _ 1 1, ?_, ?_, ?_⟩, ?_⟩
  · intro o' m
    obtain ⟨o, m', e1, e2, e3, e4, e5, e6⟩ := hmem o' m
    have := h1 o m'
    constructor
    · rw [e2]; exact this.lt
    · rw [e2]; exact this.ne
    · rw [e3]; exact this.cls
    · rw [e3, e2]; exact this.len
    · rw [e4, e2]; exact this.arrs
    · rw [e5, e2, e3]; exact this.tens
    · rw [e6, e2, e3]; exact this.flat
  · intro o m b hb o' m' b' hb'
    obtain ⟨p, mp, -, e2, -⟩ := hmem o m
    obtain ⟨p', mp', -, e2', -⟩ := hmem o' m'
    rw [e2] at hb
    rw [e2'] at hb'
    exact h2 p mp b hb p' mp' b' hb'
  · show 1 + S.orbits.length = 1 + (assignIds S.orbits 1 1).length
    rw [hr.length_eq]
  · show 1 + _ = 1 + ((assignIds S.orbits 1 1).map _).sum
    congr 2
    exact (map_eq_of_forall₂ (hr.imp fun a b h => by rw [h.2.2.1])).symm
  · intro M r e
    rw [← h3 M r e]
    exact allRows_geo M (map_eq_of_forall₂ (hr.imp fun a b h => h.1))
  · exact map_eq_of_forall₂ (hr.imp fun a b h => by unfold SOrb.plain; rw [h.1, h.2.1, h.2.2.1]; rfl)

theorem mapM_of_some {α β : Type*} {f : α → Option β} {g : α → β} {l : List α}
    (h : ∀ x ∈ l, f x = some (g x)) : l.mapM f = some (l.map g) := by
  induction l with
  | nil => rfl
  | cons x l ih =>
    rw [List.mapM_cons, h x (by simp), ih fun y m => h y (List.mem_cons_of_mem _ m)]
    rfl

/-- Orbits before and after new bases: `n` is the number of basis objects afterwards. -/
def Rebased (f : B → B) (store store' : ℕ → B) (n : ℕ) (o o' : SOrb K) : Prop :=
  (∀ b ∈ o'.bases, b < n) ∧ o'.bases.map store' = (o.bases.map store).map f ∧ o'.geo = o.geo ∧
    o'.readCombos.1 = o.readCombos.1 ∧ o'.id = o.id ∧ o'.bitId = o.bitId ∧ o'.arrs = none ∧
    o'.tens = none ∧ o'.flat = none

omit [Field K] in
theorem transform_some {mk : B → Option B} {f : B → B} {store : ℕ → B} {n : ℕ} {o : SOrb K}
    (hmk : ∀ b ∈ o.bases, mk (store b) = some (f (store b))) :
    ∃ r, o.transform mk store n = some r ∧ (∀ i < n, r.1 i = store i) ∧ n ≤ r.2.1 ∧
      Rebased f store r.1 r.2.1 o r.2.2 := by
  refine ⟨_, by rw [SOrb.transform, mapM_of_some hmk]; rfl, ?_, ?_, ?_, ?_, rfl, rfl, rfl, rfl, rfl, rfl, rfl⟩
  · intro i hi
    exact if_neg (by omega)
  · exact Nat.le_add_right _ _
  · intro b hb
    obtain ⟨i, hi, rfl⟩ := List.mem_map.1 hb
    have := List.mem_range.1 hi
    show n + i < n + _
    omega
  · show ((List.range _).map _).map _ = _
    rw [List.map_map]
    apply List.ext_getElem?
    intro i
    simp only [List.getElem?_map, List.length_map]
    rcases Nat.lt_or_ge i o.bases.length with h | h
    · rw [List.getElem?_range h, List.getElem?_eq_getElem h]
      simp [List.getElem?_eq_getElem h]
    · rw [List.getElem?_eq_none (by simpa using h), List.getElem?_eq_none h]
      rfl

theorem forall₂_imp_mem {α β : Type*} {R R' : α → β → Prop} {l : List α} {l' : List β}
    (h : List.Forall₂ R l l') (h' : ∀ a ∈ l, ∀ b, R a b → R' a b) : List.Forall₂ R' l l' := by
  induction h with
  | nil => exact List.Forall₂.nil
  | cons h _ ih =>
    exact List.Forall₂.cons (h' _ (by simp) _ h) (ih fun a m => h' a (List.mem_cons_of_mem _ m))

omit [Field K] in
theorem transformAll_some {mk : B → Option B} {f : B → B} (l : List (SOrb K)) (store : ℕ → B) (n : ℕ)
    (hlt : ∀ o ∈ l, ∀ b ∈ o.bases, b < n)
    (hmk : ∀ o ∈ l, ∀ b ∈ o.bases, mk (store b) = some (f (store b))) :
    let r := transformAll mk store n l
    r.2 = false ∧ (∀ i < n, r.1.1 i = store i) ∧ n ≤ r.1.2.1 ∧
      List.Forall₂ (Rebased f store r.1.1 r.1.2.1) l r.1.2.2 := by
  induction l generalizing store n with
  | nil => exact ⟨rfl, fun _ _ => rfl, le_refl _, List.Forall₂.nil⟩
  | cons o l ih =>
    obtain ⟨r, e, h1, h2, h3⟩ := transform_some (n := n) (hmk o (by simp))
    have hst : ∀ o' ∈ l, ∀ b ∈ o'.bases, r.1 b = store b :=
      fun o' m b hb => h1 b (hlt o' (List.mem_cons_of_mem _ m) b hb)
    obtain ⟨i1, i2, i3, i4⟩ := ih r.1 r.2.1
      (fun o' m b hb => lt_of_lt_of_le (hlt o' (List.mem_cons_of_mem _ m) b hb) h2)
      (fun o' m b hb => by rw [hst o' m b hb]; exact hmk o' (List.mem_cons_of_mem _ m) b hb)
    dsimp only at i1 i2 i3 i4 ⊢
    rw [transformAll, e]
    dsimp only
    refine ⟨i1, fun i hi => (i2 i (by omega)).trans (h1 i hi), le_trans h2 i3, List.Forall₂.cons ?_ ?_⟩
    · obtain ⟨a1, a2, a3⟩ := h3
      refine ⟨fun b hb => lt_of_lt_of_le (a1 b hb) i3, ?_, a3⟩
      rw [← a2]
      exact List.map_congr_left fun b hb => i2 b (a1 b hb)
    · have : ∀ o' ∈ l, o'.bases.map r.1 = o'.bases.map store := fun o' m =>
        List.map_congr_left fun b hb => hst o' m b hb
      exact forall₂_imp_mem i4 fun o' m o'' h => ⟨h.1, by rw [h.2.1, this o' m], h.2.2⟩

omit [Field K] in
theorem mem_of_forall₂ {α β : Type*} {R : α → β → Prop} {l : List α} {l' : List β} (h : List.Forall₂ R l l')
    {b : β} (hb : b ∈ l') : ∃ a ∈ l, R a b := by
  induction h with
  | nil => simp at hb
  | cons h _ ih =>
    rcases List.mem_cons.1 hb with rfl | hb
    · exact ⟨_, by simp, h⟩
    · obtain ⟨a, m, r⟩ := ih hb
      exact ⟨a, List.mem_cons_of_mem _ m, r⟩

omit [Field K] in
theorem numbered_forall₂ {l l' : List (SOrb K)} (h : List.Forall₂ (fun o o' : SOrb K =>
    o'.readCombos.1 = o.readCombos.1 ∧ o'.id = o.id ∧ o'.bitId = o.bitId) l l') (i b : ℕ)
    (hn : Numbered l i b) : Numbered l' i b := by
  induction h generalizing i b with
  | nil => trivial
  | cons h _ ih =>
    obtain ⟨h1, h2, h3⟩ := hn
    refine ⟨h.2.1.trans h1, h.2.2.trans h2, ?_⟩
    rw [h.1]
    exact ih _ _ h3

/-- New bases for all orbits: the state before the evaluator is set. -/
theorem rebased_pre {S : SubState B Key K} (hS : S.Pre L rows) {f : B → B} {store' : ℕ → B} {n' : ℕ}
    {l' : List (SOrb K)} (h : List.Forall₂ (Rebased f S.store store' n') S.orbits l')
    (hf : ∀ o ∈ S.orbits, ∀ b ∈ o.bases, ∀ o' ∈ S.orbits, ∀ b' ∈ o'.bases,
      L.space (f (S.store b)) = L.space (f (S.store b')) → f (S.store b) = f (S.store b')) :
    ({ S with store := store', nStore := n', orbits := l' } : SubState B Key K).Pre L rows ∧
      ({ S with store := store', nStore := n', orbits := l' } : SubState B Key K).content =
        withBases f S.content := by
  have hval : ∀ o' ∈ l', ∀ b' ∈ o'.bases, ∃ o ∈ S.orbits, ∃ b ∈ o.bases, store' b' = f (S.store b) := by
    intro o' m b' hb'
    obtain ⟨o, mo, r⟩ := mem_of_forall₂ h m
    have : store' b' ∈ o'.bases.map store' := List.mem_map_of_mem hb'
    rw [r.2.1, List.map_map] at this
    obtain ⟨b, hb, e⟩ := List.mem_map.1 this
    exact ⟨o, mo, b, hb, e.symm⟩
  refine ⟨⟨?_, ?_, ?_, ?_, ?_, ?_⟩, ?_⟩
  · intro o' m
    obtain ⟨o, mo, r⟩ := mem_of_forall₂ h m
    have hl : o'.bases.length = o.bases.length := by
      have := congrArg List.length r.2.1
      simpa using this
    have ho := hS.orb o mo
    constructor
    · exact r.1
    · intro e
      rw [e] at hl
      exact ho.ne (List.eq_nil_of_length_eq_zero hl.symm)
    · rw [r.2.2.2.1]; exact ho.cls
    · rw [r.2.2.2.1, hl]; exact ho.len
    · intro a e
      rw [r.2.2.2.2.2.2.1] at e
      cases e
    · intro a e
      rw [r.2.2.2.2.2.2.2.1] at e
      cases e
    · intro a e
      rw [r.2.2.2.2.2.2.2.2] at e
      cases e
  · intro o m b hb o' m' b' hb' e
    obtain ⟨p, mp, c, hc, ec⟩ := hval o m b hb
    obtain ⟨p', mp', c', hc', ec'⟩ := hval o' m' b' hb'
    dsimp only at e ⊢
    rw [ec, ec'] at e ⊢
    exact hf p mp c hc p' mp' c' hc' e
  · exact numbered_forall₂ (h.imp fun _ _ r => ⟨r.2.2.2.1, r.2.2.2.2.1, r.2.2.2.2.2.1⟩) 1 1 hS.ids
  · show S.numOrbits = 1 + l'.length
    rw [← h.length_eq]
    exact hS.numO
  · show S.numCorr = 1 + (l'.map _).sum
    rw [hS.numC, map_eq_of_forall₂ (f := fun o : SOrb K => o.readCombos.1.length)
      (h.imp fun _ _ r => by rw [r.2.2.2.1])]
  · intro M r e
    rw [← hS.cache M r e]
    exact allRows_geo M (map_eq_of_forall₂ (h.imp fun _ _ r => r.2.2.1))
  · show l'.map _ = (S.orbits.map _).map _
    rw [List.map_map]
    refine map_eq_of_forall₂ (h.imp fun _ _ r => ?_)
    show SOrb.plain store' _ = _
    unfold SOrb.plain
    rw [r.2.1, r.2.2.1, r.2.2.2.1]
    rfl

/-- Objects `rotated` hold `v`, the others are as in `store0`. -/
def RotatedBy (L : BasisLib B Sp Rot Nm K) (store0 : ℕ → B) (first : ℕ) (v : B) (store : ℕ → B)
    (rotated : List ℕ) : Prop :=
  (∀ b ∈ rotated, store b = v) ∧ (∀ b, b ∉ rotated → store b = store0 b) ∧ first ∈ rotated ∧
    ∀ b ∈ rotated, L.space (store0 b) = L.space (store0 first)

omit [Field K] in
theorem rotateSites_ok [DecidableEq Sp] {ρ : Rot} {first : ℕ} {store0 : ℕ → B} {v : B}
    (hv : L.space v = L.space (store0 first)) (bs : List ℕ)
    (hu : ∀ b ∈ bs, L.space (store0 b) = L.space (store0 first) → L.rotate ρ (store0 b) = some v)
    (store : ℕ → B) (rotated : List ℕ) (h : RotatedBy L store0 first v store rotated) :
    let r := rotateSites L ρ first store rotated bs
    r.2 = false ∧ RotatedBy L store0 first v r.1.1 r.1.2 ∧ (∀ b ∈ rotated, b ∈ r.1.2) ∧
      ∀ b ∈ bs, L.space (store0 b) = L.space (store0 first) → b ∈ r.1.2 := by
  induction bs generalizing store rotated with
  | nil => exact ⟨rfl, h, fun _ m => m, fun _ m => absurd m (by simp)⟩
  | cons b bs ih =>
    have hu' : ∀ c ∈ bs, _ := fun c m => hu c (List.mem_cons_of_mem _ m)
    obtain ⟨h1, h2, h3, h4⟩ := h
    have hs : ∀ c, L.space (store c) = L.space (store0 c) := by
      intro c
      by_cases m : c ∈ rotated
      · rw [h1 c m, hv, h4 c m]
      · rw [h2 c m]
    dsimp only
    rw [rotateSites]
    by_cases hc : L.space (store b) = L.space (store first) ∧ b ∉ rotated
    · rw [if_pos hc]
      have hb : L.space (store0 b) = L.space (store0 first) := by rw [← hs, ← hs first]; exact hc.1
      rw [h2 b hc.2, hu b (by simp) hb]
      dsimp only
      have h' : RotatedBy L store0 first v (Function.update store b v) (rotated ++ [b]) := by
        refine ⟨fun c m => ?_, fun c m => ?_, by simp [h3], fun c m => ?_⟩
        · by_cases e : c = b
          · rw [e, Function.update_self]
          · rw [Function.update_of_ne e]
            exact h1 c (by simpa [e] using m)
        · have e : c ≠ b := fun e => m (by simp [e])
          rw [Function.update_of_ne e]
          exact h2 c fun m' => m (by simp [m'])
        · rcases List.mem_append.1 m with m | m
          · exact h4 c m
          · rw [List.mem_singleton.1 m]
            exact hb
      obtain ⟨a1, a2, a3, a4⟩ := ih hu' _ _ h'
      refine ⟨a1, a2, fun c m => a3 c (by simp [m]), fun c m e => ?_⟩
      rcases List.mem_cons.1 m with rfl | m
      · exact a3 c (by simp)
      · exact a4 c m e
    · rw [if_neg hc]
      obtain ⟨a1, a2, a3, a4⟩ := ih hu' store rotated ⟨h1, h2, h3, h4⟩
      refine ⟨a1, a2, a3, fun c m e => ?_⟩
      rcases List.mem_cons.1 m with rfl | m
      · apply a3
        by_contra hn
        exact hc ⟨by rw [hs, hs first]; exact e, hn⟩
      · exact a4 c m e

omit [Field K] in
theorem rotateAll_ok [DecidableEq Sp] {ρ : Rot} {first : ℕ} {store0 : ℕ → B} {v : B}
    (hv : L.space v = L.space (store0 first)) (l : List (SOrb K))
    (hu : ∀ o ∈ l, ∀ b ∈ o.bases, L.space (store0 b) = L.space (store0 first) →
      L.rotate ρ (store0 b) = some v)
    (store : ℕ → B) (rotated : List ℕ) (h : RotatedBy L store0 first v store rotated) :
    let r := rotateAll L ρ first store rotated l
    r.2 = false ∧ r.1.2 = l.map SOrb.reset ∧ ∃ done, RotatedBy L store0 first v r.1.1 done ∧
      (∀ b ∈ rotated, b ∈ done) ∧
      ∀ o ∈ l, ∀ b ∈ o.bases, L.space (store0 b) = L.space (store0 first) → b ∈ done := by
  induction l generalizing store rotated with
  | nil => exact ⟨rfl, rfl, rotated, h, fun _ m => m, fun _ m => absurd m (by simp)⟩
  | cons o l ih =>
    obtain ⟨a1, a2, a3, a4⟩ := rotateSites_ok hv o.bases (hu o (by simp)) store rotated h
    dsimp only
    rw [rotateAll]
    dsimp only
    rw [a1, if_neg (by decide)]
    obtain ⟨b1, b2, done, b3, b4, b5⟩ := ih (fun o' m => hu o' (List.mem_cons_of_mem _ m)) _ _ a2
    refine ⟨b1, by dsimp only; rw [b2]; rfl, done, b3, fun b m => b4 b (a3 b m), fun o' m b hb e => ?_⟩
    rcases List.mem_cons.1 m with rfl | m
    · exact b4 b (a4 b hb e)
    · exact b5 o' m b hb e

theorem rotateAll_rebased [DecidableEq Sp] {S : SubState B Key K} (hS : S.Pre L rows) {ρ : Rot} {first : ℕ}
    {v : B} (hv : L.space v = L.space (S.store first)) (hr : L.rotate ρ (S.store first) = some v)
    (hf : ∃ o ∈ S.orbits, first ∈ o.bases) :
    let r := rotateAll L ρ first (Function.update S.store first v) [first] S.orbits
    r.2 = false ∧ List.Forall₂ (Rebased (rotatedBasis L.space L.rotate ρ (L.space (S.store first))) S.store r.1.1 S.nStore)
      S.orbits r.1.2 := by
  obtain ⟨of, mf, hf⟩ := hf
  have hu : ∀ o ∈ S.orbits, ∀ b ∈ o.bases, L.space (S.store b) = L.space (S.store first) →
      L.rotate ρ (S.store b) = some v := by
    intro o m b hb e
    rw [hS.uni o m b hb of mf first hf e, hr]
  obtain ⟨a1, a2, done, a3, a4, a5⟩ := rotateAll_ok hv S.orbits hu (Function.update S.store first v) [first]
    ⟨by simp, fun b m => Function.update_of_ne (by simpa using m) _ _, by simp, by simp⟩
  refine ⟨a1, ?_⟩
  rw [a2, List.forall₂_map_right_iff, List.forall₂_same]
  intro o m
  refine ⟨(hS.orb o m).lt, ?_, rfl, rfl, rfl, rfl, rfl, rfl, rfl⟩
  show o.bases.map _ = (o.bases.map _).map _
  rw [List.map_map]
  apply List.map_congr_left
  intro b hb
  show _ = rotatedBasis L.space L.rotate ρ (L.space (S.store first)) (S.store b)
  unfold rotatedBasis
  by_cases e : L.space (S.store b) = L.space (S.store first)
  · rw [if_pos e, a3.1 b (a5 o m b hb e), hu o m b hb e]
    rfl
  · rw [if_neg e]
    exact a3.2.1 b fun m' => e (a3.2.2.2 b m')

omit [Field K] in
theorem numbered_ids (l : List (SOrb K)) (i b : ℕ) (h : Numbered l i b) :
    l.map SOrb.id = List.range' i l.length := by
  induction l generalizing i b with
  | nil => rfl
  | cons o l ih =>
    rw [List.map_cons, ih _ _ h.2.2, h.1, List.length_cons, List.range'_succ]

omit [Field K] in
theorem plain_unlisted (store : ℕ → B) (ids : List ℤ) (l : List (SOrb K)) (i b : ℕ) (h : Numbered l i b) :
    (l.filter fun o => decide ((o.id : ℤ) ∉ ids)).map (SOrb.plain store) =
      unlisted ids i (l.map (SOrb.plain store)) := by
  unfold unlisted
  induction l generalizing i b with
  | nil => rfl
  | cons o l ih =>
    rw [List.map_cons, List.zipIdx_cons, List.filter_cons, List.filter_cons]
    dsimp only
    rw [h.1]
    split
    · rw [List.map_cons, List.map_cons, ih _ _ h.2.2]
    · exact ih _ _ h.2.2

/-- Orbits left after a removal: the state before the evaluator is set. -/
theorem left_pre {S : SubState B Key K} (l : List (SOrb K))
    (h1 : ∀ o ∈ l, o.Ok L S.store S.nStore)
    (h2 : ∀ o ∈ l, ∀ b ∈ o.bases, ∀ o' ∈ l, ∀ b' ∈ o'.bases,
      L.space (S.store b) = L.space (S.store b') → S.store b = S.store b') :
    (({ ({ S with orbits := l } : SubState B Key K).assign with cache := [] } :
        SubState B Key K).resetEval L).Inv L rows ∧
      (({ ({ S with orbits := l } : SubState B Key K).assign with cache := [] } :
        SubState B Key K).resetEval L).content = l.map (SOrb.plain S.store) := by
  obtain ⟨a1, a2⟩ := assign_pre (rows := rows) (L := L)
    (S := { ({ S with orbits := l } : SubState B Key K) with cache := [] }) h1 h2 (fun M r e => by cases e)
  obtain ⟨b1, b2⟩ := resetEval_inv a1
  exact ⟨b1, b2.trans a2⟩

theorem removeOrbits_ok {S : SubState B Key K} (hS : S.Inv L rows) (ids : List ℤ) :
    let bad : Prop := ids = [] ∨ ∃ i ∈ ids, i < 1 ∨ (S.content.length : ℤ) < i
    ((S.removeOrbits L ids).2 = true ↔ bad) ∧
      (bad → (S.removeOrbits L ids).1 = S) ∧
      (¬ bad → (S.removeOrbits L ids).1.Inv L rows ∧
        (S.removeOrbits L ids).1.content = dropOrbits ids S.content) := by
  intro bad
  have hlen : S.content.length = S.orbits.length := List.length_map _
  have hn := hS.pre.numO
  have hb : (ids = [] ∨ (∃ i ∈ ids, i < 0) ∨ (0 : ℤ) ∈ ids ∨ (∃ i ∈ ids, (S.numOrbits : ℤ) - 1 < i)) ↔ bad := by
    rw [hn]
    constructor
    · rintro (h | ⟨i, m, h⟩ | h | ⟨i, m, h⟩)
      · exact Or.inl h
      · exact Or.inr ⟨i, m, Or.inl (by omega)⟩
      · exact Or.inr ⟨0, h, Or.inl (by omega)⟩
      · exact Or.inr ⟨i, m, Or.inr (by rw [hlen]; push_cast at h; omega)⟩
    · rintro (h | ⟨i, m, h | h⟩)
      · exact Or.inl h
      · rcases lt_or_eq_of_le (show i ≤ 0 by omega) with h' | h'
        · exact Or.inr (Or.inl ⟨i, m, h'⟩)
        · exact Or.inr (Or.inr (Or.inl (h' ▸ m)))
      · exact Or.inr (Or.inr (Or.inr ⟨i, m, by rw [hlen] at h; push_cast; omega⟩))
  unfold SubState.removeOrbits
  by_cases h : bad
  · rw [if_pos (hb.2 h)]
    exact ⟨iff_of_true rfl h, fun _ => rfl, fun h' => absurd h h'⟩
  · rw [if_neg fun h' => h (hb.1 h')]
    refine ⟨iff_of_false (by simp) h, fun h' => absurd h' h, fun _ => ?_⟩
    obtain ⟨a1, a2⟩ := left_pre (rows := rows) (S := S)
      (S.orbits.filter fun o => decide ((o.id : ℤ) ∉ ids))
      (fun o m => hS.pre.orb o (List.mem_of_mem_filter m))
      (fun o m b hb o' m' b' hb' => hS.pre.uni o (List.mem_of_mem_filter m) b hb o'
        (List.mem_of_mem_filter m') b' hb')
    exact ⟨a1, a2.trans (plain_unlisted _ ids _ 1 1 hS.pre.ids)⟩

theorem inds_mem (ids : List ℤ) (n len : ℕ) (j : ℕ) (hj : j < len) :
    ((j : ℤ) ∈ ((ids.filter fun i => decide ((n : ℤ) ≤ i)).filter fun i =>
      decide (i < (n : ℤ) + len)).map fun i => i - (n : ℤ)) ↔ ((n + j : ℕ) : ℤ) ∈ ids := by
  constructor
  · intro h
    obtain ⟨i, m, e⟩ := List.mem_map.1 h
    have := List.mem_of_mem_filter (List.mem_of_mem_filter m)
    rw [show ((n + j : ℕ) : ℤ) = i by push_cast; omega]
    exact this
  · intro h
    refine List.mem_map.2 ⟨_, List.mem_filter.2 ⟨List.mem_filter.2 ⟨h, ?_⟩, ?_⟩, ?_⟩
    · simp
    · simp only [decide_eq_true_eq]
      push_cast
      omega
    · push_cast
      omega

theorem left_eq {α : Type*} (ids : List ℤ) (n : ℕ) (l : List α) :
    ((l.zipIdx.filter fun p => decide ((p.2 : ℤ) ∉ ((ids.filter fun i => decide ((n : ℤ) ≤ i)).filter
      fun i => decide (i < (n : ℤ) + l.length)).map fun i => i - (n : ℤ))).map Prod.fst) =
      unlisted ids n l := by
  unfold unlisted
  rw [List.zipIdx_eq_map_add (i := n), List.filter_map, List.map_map]
  have : (l.zipIdx.filter fun p => decide ((p.2 : ℤ) ∉ ((ids.filter fun i => decide ((n : ℤ) ≤ i)).filter
      fun i => decide (i < (n : ℤ) + l.length)).map fun i => i - (n : ℤ))) =
      l.zipIdx.filter ((fun p : α × ℕ => decide ((p.2 : ℤ) ∉ ids)) ∘ fun p => (p.1, n + p.2)) := by
    apply List.filter_congr
    intro p hp
    have hlt : p.2 < l.length := by
      have := List.mem_zipIdx hp
      omega
    simp only [Function.comp_apply, decide_eq_decide]
    exact not_congr (inds_mem ids n l.length p.2 hlt)
  rw [this]
  rfl

theorem inds_nil {α : Type*} (ids : List ℤ) (n : ℕ) (l : List α)
    (h : ((ids.filter fun i => decide ((n : ℤ) ≤ i)).filter
      fun i => decide (i < (n : ℤ) + l.length)).map (fun i => i - (n : ℤ)) = []) : unlisted ids n l = l := by
  rw [← left_eq, h]
  simp

omit [DecidableEq Key] in
theorem orbRemove_ok {store : ℕ → B} {n : ℕ} {o : SOrb K} (ho : o.Ok L store n) (ids : List ℤ) :
    let left := unlisted ids o.bitId o.readCombos.1
    ((o.removeFuns ids).2 = true ↔ left = []) ∧ (o.removeFuns ids).1.id = o.id ∧
      (left ≠ [] → (o.removeFuns ids).1.plain store = { o.plain store with classes := left } ∧
        (o.removeFuns ids).1.bases = o.bases ∧ (o.removeFuns ids).1.Ok L store n) ∧
      (o.removeFuns ids).1.geo = o.geo := by
  intro left
  unfold SOrb.removeFuns
  dsimp only
  split
  · next h =>
    have hl : left = o.readCombos.1 := inds_nil ids o.bitId o.readCombos.1 h
    refine ⟨iff_of_false (by simp) (by rw [hl]; exact ho.cls), rfl, fun _ => ⟨?_, rfl, readCombos_ok ho⟩, rfl⟩
    rw [hl]
    rfl
  · rw [left_eq]
    split
    · next h => exact ⟨iff_of_true rfl h, rfl, fun h' => absurd h h', rfl⟩
    · next h =>
      refine ⟨iff_of_false (by simp) h, rfl, fun _ => ⟨rfl, rfl, ?_⟩, rfl⟩
      have hsub : ∀ cl ∈ left, cl ∈ o.readCombos.1 := by
        intro cl m
        obtain ⟨p, mp, rfl⟩ := List.mem_map.1 m
        have := List.mem_of_mem_filter mp
        have h1 := List.mem_map_of_mem (f := Prod.fst) this
        rwa [List.zipIdx_map_fst] at h1
      exact ⟨ho.lt, ho.ne, h, fun cl m => ho.len cl (hsub cl m), fun a e => (by cases e),
        fun a e => (by cases e), fun a e => (by cases e)⟩

theorem dropFunctions_eq {store : ℕ → B} {n : ℕ} (ids : List ℤ) (l : List (SOrb K))
    (ho : ∀ o ∈ l, o.Ok L store n) (i b : ℕ) (hn : Numbered l i b) :
    ((l.filter fun o => !(o.removeFuns ids).2).map fun o => (o.removeFuns ids).1).map (SOrb.plain store) =
      dropFunctions ids b (l.map (SOrb.plain store)) := by
  induction l generalizing i b with
  | nil => rfl
  | cons o l ih =>
    have h := orbRemove_ok (ho o (by simp)) ids
    have hi := ih (fun o' m => ho o' (List.mem_cons_of_mem _ m)) _ _ hn.2.2
    obtain ⟨h1, h2, h3, h4⟩ := h
    rw [hn.2.1] at h1 h3
    rw [List.map_cons, dropFunctions, List.filter_cons]
    rw [show (SOrb.plain store o).classes = o.readCombos.1 from rfl]
    by_cases e : unlisted ids b o.readCombos.1 = []
    · rw [if_pos e, h1.2 e, if_neg (by decide), hi]
      rfl
    · have h1' : (o.removeFuns ids).2 = false := by
        rw [Bool.eq_false_iff]
        exact fun h => e (h1.1 h)
      rw [if_neg e, h1', if_pos (by decide), List.map_cons, List.map_cons, hi, (h3 e).1]
      rfl

theorem removeFuns_ok {S : SubState B Key K} (hS : S.Inv L rows) (ids : List ℤ) :
    (S.removeFuns L ids).2 = false ∧ (S.removeFuns L ids).1.Inv L rows ∧
      (S.removeFuns L ids).1.content = dropFunctions ids 1 S.content := by
  have hd := dropFunctions_eq (store := S.store) (n := S.nStore) ids S.orbits hS.pre.orb 1 1 hS.pre.ids
  have hok : ∀ o ∈ S.orbits, (o.removeFuns ids).2 = false →
      (o.removeFuns ids).1.bases = o.bases ∧ (o.removeFuns ids).1.Ok L S.store S.nStore := by
    intro o m h
    obtain ⟨h1, h2, h3, h4⟩ := orbRemove_ok (hS.pre.orb o m) ids
    exact (h3 fun e => by rw [h1.2 e] at h; cases h).2
  have hmem : ∀ o' ∈ (S.orbits.filter fun o => !(o.removeFuns ids).2).map (fun o => (o.removeFuns ids).1),
      ∃ o ∈ S.orbits, o'.bases = o.bases ∧ o'.Ok L S.store S.nStore := by
    intro o' m
    obtain ⟨o, mo, rfl⟩ := List.mem_map.1 m
    obtain ⟨m1, m2⟩ := List.mem_filter.1 mo
    exact ⟨o, m1, hok o m1 (by simpa using m2)⟩
  have h1 : ∀ o ∈ (S.orbits.filter fun o => !(o.removeFuns ids).2).map (fun o => (o.removeFuns ids).1),
      o.Ok L S.store S.nStore := fun o m => (hmem o m).choose_spec.2.2
  have h2 : ∀ o ∈ (S.orbits.filter fun o => !(o.removeFuns ids).2).map (fun o => (o.removeFuns ids).1),
      ∀ b ∈ o.bases, ∀ o' ∈ (S.orbits.filter fun o => !(o.removeFuns ids).2).map
        (fun o => (o.removeFuns ids).1), ∀ b' ∈ o'.bases,
      L.space (S.store b) = L.space (S.store b') → S.store b = S.store b' := by
    intro o m b hb o' m' b' hb'
    obtain ⟨p, mp, e, -⟩ := hmem o m
    obtain ⟨p', mp', e', -⟩ := hmem o' m'
    rw [e] at hb
    rw [e'] at hb'
    exact hS.pre.uni p mp b hb p' mp' b' hb'
  have hinj : ∀ o ∈ S.orbits, ∀ o' ∈ S.orbits, o.id = o'.id → o = o' := by
    have : (S.orbits.map SOrb.id).Nodup := by
      rw [numbered_ids _ 1 1 hS.pre.ids]
      exact List.nodup_range'
    intro o m o' m' e
    exact List.inj_on_of_nodup_map this m m' e
  have hge : ∀ o ∈ S.orbits, 1 ≤ o.id ∧ o.id < 1 + S.orbits.length := by
    intro o m
    have : o.id ∈ S.orbits.map SOrb.id := List.mem_map_of_mem m
    rw [numbered_ids _ 1 1 hS.pre.ids, List.mem_range'_1] at this
    omega
  unfold SubState.removeFuns
  dsimp only
  split
  · next he =>
    have hall : ∀ o ∈ S.orbits, (o.removeFuns ids).2 = false := by
      intro o m
      by_contra h
      have : o ∈ S.orbits.filter fun o => (SOrb.removeFuns o ids).2 := List.mem_filter.2 ⟨m, by simpa using h⟩
      have h' := List.map_eq_nil_iff.1 he
      rw [h'] at this
      cases this
    have hf : S.orbits.filter (fun o => !(o.removeFuns ids).2) = S.orbits :=
      List.filter_eq_self.2 fun o m => by rw [hall o m]; rfl
    rw [hf] at h1 h2 hd
    obtain ⟨a1, a2⟩ := assign_pre (rows := rows) (L := L)
      (S := { S with orbits := S.orbits.map fun o => (SOrb.removeFuns o ids).1 }) h1 h2 (fun M r e => by
        rw [← hS.pre.cache M r e]
        exact allRows_same M _ fun o m => (orbRemove_ok (hS.pre.orb o m) ids).2.2.2)
    obtain ⟨b1, b2⟩ := resetEval_inv a1
    exact ⟨rfl, b1, b2.trans (a2.trans hd)⟩
  · next he =>
    unfold SubState.removeOrbits
    have hlen := hS.pre.numO
    rw [if_neg]
    · have hfil : ((S.orbits.map fun o => (SOrb.removeFuns o ids).1).filter fun o =>
          decide ((o.id : ℤ) ∉ ((S.orbits.filter fun o => (SOrb.removeFuns o ids).2).map
            fun o => (o.id : ℤ)))) =
          (S.orbits.filter fun o => !(o.removeFuns ids).2).map fun o => (o.removeFuns ids).1 := by
        rw [List.filter_map]
        congr 1
        apply List.filter_congr
        intro o m
        have e : (SOrb.removeFuns o ids).1.id = o.id := (orbRemove_ok (hS.pre.orb o m) ids).2.1
        show decide (((SOrb.removeFuns o ids).1.id : ℤ) ∉ _) = _
        rw [e]
        cases hf : (SOrb.removeFuns o ids).2 with
        | true =>
          rw [decide_eq_false]
          · rfl
          · rw [not_not]
            exact List.mem_map.2 ⟨o, List.mem_filter.2 ⟨m, hf⟩, rfl⟩
        | false =>
          rw [decide_eq_true]
          · rfl
          · intro h
            obtain ⟨o', m', e'⟩ := List.mem_map.1 h
            obtain ⟨m1, m2⟩ := List.mem_filter.1 m'
            rw [hinj o' m1 o m (by exact_mod_cast e'), hf] at m2
            cases m2
      dsimp only
      rw [hfil]
      obtain ⟨a1, a2⟩ := left_pre (rows := rows) (S := S) _ h1 h2
      exact ⟨rfl, a1, a2.trans hd⟩
    · have hpos : ∀ i ∈ (S.orbits.filter fun o => (SOrb.removeFuns o ids).2).map (fun o => (o.id : ℤ)),
          1 ≤ i ∧ i ≤ (S.numOrbits : ℤ) - 1 := by
        intro i m
        obtain ⟨o, mo, rfl⟩ := List.mem_map.1 m
        have := hge o (List.mem_of_mem_filter mo)
        rw [hlen]
        push_cast
        omega
      rintro (h | ⟨i, m, h⟩ | h | ⟨i, m, h⟩)
      · exact he h
      · have := hpos i m
        omega
      · have := hpos 0 h
        omega
      · have := hpos i m
        dsimp only at h
        omega

omit [DecidableEq Key] in
theorem clusterFunction_congr {phi phi' : ℕ → ℕ → ℕ → K} (s : ℕ) (bits codes : List ℕ)
    (h : ∀ i, s ≤ i → i < s + bits.length → ∀ f c, phi i f c = phi' i f c) :
    clusterFunction phi s bits codes = clusterFunction phi' s bits codes := by
  induction bits generalizing s codes with
  | nil => rfl
  | cons b bs ih =>
    cases codes with
    | nil => rfl
    | cons c cs =>
      rw [clusterFunction, clusterFunction, h s (le_refl _) (by simp),
        ih (s + 1) cs fun i h1 h2 => h i (by omega) (by simp only [List.length_cons]; omega)]

theorem orbWrites {store : ℕ → B} {n : ℕ} {o : SOrb K} (ho : o.Ok L store n) (occ : Occ) (r : ClusterRows)
    (hr : ∀ row ∈ r, List.Forall₂ (fun site d => occ site < d) row
      ((o.bases.map store).map fun b => L.dim (L.space b))) :
    (corrWrites occ (dataOf L store o) r).map Prod.fst = List.range' o.bitId o.readCombos.1.length ∧
    (corrWrites occ (dataOf L store o) r).map Prod.snd =
      o.readCombos.1.map fun cl => functionValue L.val occ (o.bases.map store) cl r := by
  constructor
  · unfold corrWrites
    rw [List.map_map, List.range'_eq_map_range]
    rfl
  · unfold corrWrites
    rw [List.map_map]
    apply List.ext_getElem?
    intro k
    rw [List.getElem?_map, List.getElem?_map]
    rw [show (dataOf L store o).numCombos = o.readCombos.1.length from rfl]
    rcases Nat.lt_or_ge k o.readCombos.1.length with hk | hk
    · rw [List.getElem?_range hk, List.getElem?_eq_getElem hk, Option.map_some, Option.map_some]
      congr 1
      show (r.map _).sum / _ = clusterAverage _ r
      unfold clusterAverage
      congr 2
      apply List.map_congr_left
      intro row hrow
      have hf := hr row hrow
      rw [List.map_map] at hf
      have hcl : ∀ b ∈ o.readCombos.1[k], b.length = (row.map occ).length := by
        intro b hb
        rw [ho.len _ (List.getElem_mem hk) b hb, List.length_map, hf.length_eq, List.length_map]
      have hsh : (o.bases.map fun b => L.dim (L.space (store b))) ≠ [] := by
        simpa using ho.ne
      have hin : InShape (o.bases.map fun b => L.dim (L.space (store b))) (row.map occ) := by
        unfold InShape
        rw [List.forall₂_map_left_iff]
        exact hf
      have h1 := flatCorr_get (fun i f c => L.val (store (o.bases.getD i 0)) f c) _ o.readCombos.1 hsh
        (row.map occ) hin k hk
      show (flatCorrTensors _ _ _).getD _ 0 = _
      rw [List.getD_eq_getElem?_getD]
      have e : k * (dataOf L store o).tensorSize + flatIndex (dataOf L store o).tensorIndices row occ =
          (o.bases.map fun b => L.dim (L.space (store b))).prod * k +
            flatPos (o.bases.map fun b => L.dim (L.space (store b))) (row.map occ) := by
        rw [Nat.mul_comm k]
        congr 1
        show (List.zipWith _ _ _).sum = (List.map _ _).sum
        rw [List.map_zip_eq_zipWith]
        congr 1
        rw [List.zipWith_map_right]
        rfl
      rw [e, h1, Option.getD_some, corrTensor_eq _ _ _ hcl]
      unfold correlation
      congr 2
      apply List.map_congr_left
      intro bits hb
      apply clusterFunction_congr
      intro i _ hi f c
      rw [ho.len _ (List.getElem_mem hk) bits hb] at hi
      rw [List.getElem?_map, List.getD_eq_getElem?_getD, List.getElem?_eq_getElem (by omega)]
      rfl
    · rw [List.getElem?_eq_none (by simpa using hk), List.getElem?_eq_none hk]
      rfl

omit [DecidableEq Key] in
theorem allWrites {store : ℕ → B} {n : ℕ} {M : Key} {occ : Occ} (l : List (SOrb K))
    (ho : ∀ o ∈ l, o.Ok L store n) (i b : ℕ) (hn : Numbered l i b)
    (hfit : Fits (fun b => L.dim (L.space b)) (rows M) (l.map (SOrb.plain store)) occ) (rs : List ClusterRows)
    (hrs : allRows rows M l = some rs) :
    ∃ v, ((l.map (SOrb.plain store)).mapM fun o => (rows M o.geo).map fun r => o.classes.map fun cl =>
        functionValue L.val occ o.bases cl r) = some v ∧
      (((l.map (dataOf L store)).zip rs).flatMap fun p => corrWrites occ p.1 p.2).map Prod.fst =
        List.range' b (l.map fun o => o.readCombos.1.length).sum ∧
      (((l.map (dataOf L store)).zip rs).flatMap fun p => corrWrites occ p.1 p.2).map Prod.snd = v.flatten := by
  induction l generalizing i b rs with
  | nil => exact ⟨[], rfl, rfl, rfl⟩
  | cons o l ih =>
    unfold allRows at hrs
    rw [List.mapM_cons] at hrs
    cases hg : rows M o.geo with
    | none => rw [hg] at hrs; cases hrs
    | some r =>
      cases hl : l.mapM (fun o => rows M o.geo) with
      | none => rw [hg, hl] at hrs; cases hrs
      | some rs' =>
        rw [hg, hl] at hrs
        have e : r :: rs' = rs := Option.some.inj hrs
        subst e
        obtain ⟨v, h1, h2, h3⟩ := ih (fun o' m => ho o' (List.mem_cons_of_mem _ m)) _ _ hn.2.2
          (fun o' m => hfit o' (List.mem_cons_of_mem _ m)) rs' hl
        obtain ⟨w1, w2⟩ := orbWrites (ho o (by simp)) occ r (hfit (o.plain store) (by simp) r hg)
        refine ⟨(o.readCombos.1.map fun cl => functionValue L.val occ (o.bases.map store) cl r) :: v, ?_, ?_, ?_⟩
        · rw [List.map_cons, List.mapM_cons, h1, show (o.plain store).geo = o.geo from rfl, hg]
          rfl
        · rw [List.map_cons, List.zip_cons_cons, List.flatMap_cons, List.map_append, h2, w1, hn.2.1,
            List.map_cons, List.sum_cons, List.range'_append_1]
        · rw [List.map_cons, List.zip_cons_cons, List.flatMap_cons, List.map_append, h3, w2, List.flatten_cons]

omit [Field K] [DecidableEq Key] in
theorem range_applyWrites (out : ℕ → K) (ws : List (ℕ × K)) (N : ℕ)
    (h : ws.map Prod.fst = List.range' 1 N) :
    (List.range (1 + N)).map (applyWrites out ws) = out 0 :: ws.map Prod.snd := by
  have hlen : ws.length = N := by simpa using congrArg List.length h
  rw [Nat.add_comm, List.range_succ_eq_map, List.map_cons, applyWrites_not_mem _ _ _ (by rw [h]; simp)]
  congr 1
  rw [List.map_map]
  apply List.ext_getElem?
  intro j
  rw [List.getElem?_map, List.getElem?_map]
  rcases Nat.lt_or_ge j N with hj | hj
  · rw [List.getElem?_range hj, List.getElem?_eq_getElem (by omega), Option.map_some, Option.map_some]
    congr 1
    apply applyWrites_mem
    · rw [h]
      exact List.nodup_range'
    · have e : ws[j].1 = j + 1 := by
        have := congrArg (fun l => l[j]?) h
        simp only [List.getElem?_map, List.getElem?_range' hj] at this
        rw [List.getElem?_eq_getElem (by omega)] at this
        simp at this
        omega
      show (j + 1, ws[j].2) ∈ ws
      rw [← e]
      exact List.getElem_mem _
  · rw [List.getElem?_eq_none (by simpa using hj), List.getElem?_eq_none (by omega)]
    rfl

theorem indices_ok {S : SubState B Key K} (hS : S.Inv L rows) (M : Key) :
    (S.indices rows M).1 = allRows rows M S.orbits ∧ (S.indices rows M).2.Inv L rows ∧
      (S.indices rows M).2.content = S.content := by
  unfold SubState.indices
  cases hc : S.cache.lookup M with
  | some r => exact ⟨(hS.pre.cache M r hc).symm, hS, rfl⟩
  | none =>
    show (match allRows rows M S.orbits with
      | some r => ((some r, { S with cache := (M, r) :: S.cache }) : _ × SubState B Key K)
      | none => (none, S)).1 = _ ∧ _
    cases hr : allRows rows M S.orbits with
    | none =>
      unfold allRows at hr
      rw [hr]
      exact ⟨rfl, hS, rfl⟩
    | some r =>
      have hr' := hr
      unfold allRows at hr'
      rw [hr']
      refine ⟨rfl, ⟨⟨hS.pre.orb, hS.pre.uni, hS.pre.ids, hS.pre.numO, hS.pre.numC, ?_⟩, hS.ev, hS.evC⟩, rfl⟩
      intro M' r' e
      dsimp only at e ⊢
      rw [List.lookup_cons] at e
      by_cases em : M' = M
      · rw [em] at e ⊢
        simp only [beq_self_eq_true] at e
        rw [hr]
        exact e
      · rw [show (M' == M) = false from beq_eq_false_iff_ne.2 em] at e
        exact hS.pre.cache M' r' e

theorem corr_ok {S : SubState B Key K} (hS : S.Inv L rows) (occ : Occ) (M : Key)
    (hfit : Fits (fun b => L.dim (L.space b)) (rows M) S.content occ) :
    (S.corr rows occ M).1 = correlationVector L.val (rows M) S.content occ := by
  unfold SubState.corr
  dsimp only
  rw [(indices_ok hS M).1]
  unfold correlationVector
  cases hr : allRows rows M S.orbits with
  | none =>
    have : ∀ l : List (SOrb K), allRows rows M l = none → ((l.map (SOrb.plain S.store)).mapM fun o =>
        (rows M o.geo).map fun r => o.classes.map fun cl =>
          functionValue L.val occ o.bases cl r) = none := by
      intro l
      unfold allRows
      induction l with
      | nil => intro h; cases h
      | cons o l ih =>
        intro h
        rw [List.mapM_cons] at h
        rw [List.map_cons, List.mapM_cons, show (o.plain S.store).geo = o.geo from rfl]
        cases hg : rows M o.geo with
        | none => rfl
        | some r =>
          rw [hg] at h
          have : l.mapM (fun o => rows M o.geo) = none := by
            cases hl : l.mapM (fun o => rows M o.geo) with
            | none => rfl
            | some x => rw [hl] at h; cases h
          rw [ih this]
          rfl
    rw [SubState.content, this S.orbits hr]
    rfl
  | some rs =>
    obtain ⟨v, h1, h2, h3⟩ := allWrites S.orbits hS.pre.orb 1 1 hS.pre.ids hfit rs hr
    rw [SubState.content, h1, Option.map_some, Option.map_some, hS.ev, hS.evC, hS.pre.numC]
    congr 1
    unfold correlationsFromOccupancy
    rw [range_applyWrites _ _ _ h2, h3]
    rfl

omit [Field K] [DecidableEq Key] in
theorem transform_none {mk : B → Option B} {store : ℕ → B} {n : ℕ} {o : SOrb K} (hne : o.bases ≠ [])
    (h : ∀ b ∈ o.bases, mk (store b) = none) : o.transform mk store n = none := by
  obtain ⟨b, bs, e⟩ := List.exists_cons_of_ne_nil hne
  rw [SOrb.transform, e, List.mapM_cons, h b (by rw [e]; simp)]
  rfl

theorem change_ok (hL : LibOk L) {S : SubState B Key K} (hS : S.Inv L rows) (name : Nm) (ort : Bool)
    [DecidableEq Sp] :
    (S.change L name ort).1.Inv L rows ∧
      ((S.change L name ort).1.content, (S.change L name ort).2) =
        after L rows S.content (.change name ort) := by
  unfold after SubState.change
  dsimp only
  by_cases hk : ∀ o ∈ S.content, ∀ b ∈ o.bases, (L.make name ort (L.space b)).isSome
  · rw [if_pos hk]
    have hmk : ∀ o ∈ S.orbits, ∀ b ∈ o.bases, L.make name ort (L.space (S.store b)) =
        some ((L.make name ort (L.space (S.store b))).getD (S.store b)) := by
      intro o m b hb
      have := hk (o.plain S.store) (List.mem_map_of_mem m) (S.store b) (List.mem_map_of_mem hb)
      obtain ⟨x, hx⟩ := Option.isSome_iff_exists.1 this
      rw [hx]
      rfl
    obtain ⟨a1, a2, a3, a4⟩ := transformAll_some (mk := fun b => L.make name ort (L.space b))
      (f := fun b => (L.make name ort (L.space b)).getD b) S.orbits S.store S.nStore
      (fun o m => (hS.pre.orb o m).lt) hmk
    obtain ⟨b1, b2⟩ := rebased_pre hS.pre a4 (by
      intro o m b hb o' m' b' hb' e
      obtain ⟨x, hx⟩ := Option.isSome_iff_exists.1
        (show (L.make name ort (L.space (S.store b))).isSome by rw [hmk o m b hb]; rfl)
      obtain ⟨y, hy⟩ := Option.isSome_iff_exists.1
        (show (L.make name ort (L.space (S.store b'))).isSome by rw [hmk o' m' b' hb']; rfl)
      rw [hx, hy, Option.getD_some, Option.getD_some, hL.make_space _ _ _ _ hx,
        hL.make_space _ _ _ _ hy] at e
      rw [hx, hy, Option.getD_some, Option.getD_some]
      rw [e, hy] at hx
      exact (Option.some.inj hx).symm)
    obtain ⟨c1, c2⟩ := resetEval_inv b1
    rw [a1, if_neg (by decide)]
    exact ⟨c1, by rw [c2, b2]⟩
  · rw [if_neg hk]
    have hnone : ∀ s, L.make name ort s = none := by
      intro s
      by_contra h
      apply hk
      intro o _ b _
      exact hL.make_known name ort s _ (Option.isSome_iff_ne_none.2 h)
    cases ho : S.orbits with
    | nil =>
      exfalso
      apply hk
      intro o m
      rw [SubState.content, ho] at m
      cases m
    | cons o l =>
      have hne := (hS.pre.orb o (by rw [ho]; simp)).ne
      rw [transformAll, transform_none hne fun b _ => hnone _]
      dsimp only
      rw [if_pos rfl]
      have e : ({ S with orbits := o :: l } : SubState B Key K) = S := by rw [← ho]
      show SubState.Inv L rows ({ S with orbits := o :: l } : SubState B Key K) ∧
        (({ S with orbits := o :: l } : SubState B Key K).content, true) = _
      rw [e]
      exact ⟨hS, rfl⟩

theorem rotate_ok (hL : LibOk L) {S : SubState B Key K} (hS : S.Inv L rows) (id : ℤ) (ρ : Rot)
    [DecidableEq Sp] :
    (S.rotate L id ρ).1.Inv L rows ∧
      ((S.rotate L id ρ).1.content, (S.rotate L id ρ).2) =
        after L rows S.content (.rotate id ρ) := by
  unfold after SubState.rotate
  dsimp only
  have hcount : (S.content.filter fun o => decide (o.bases.length = 1)).length =
      (S.orbits.filter fun o => decide (o.bases.length = 1)).length := by
    rw [SubState.content, List.filter_map, List.length_map]
    congr 2
    funext o
    simp [SOrb.plain]
  have hget : (S.content[(id - 1).toNat]?).bind (fun o => o.bases.head?) =
      ((S.orbits[(id - 1).toNat]?).bind fun o => o.bases.head?).map S.store := by
    rw [SubState.content, List.getElem?_map]
    cases S.orbits[(id - 1).toNat]? with
    | none => rfl
    | some o => simp [SOrb.plain]
  unfold singletBasis
  rw [hcount, hget]
  split
  · next h =>
    rw [if_neg (by omega)]
    exact ⟨hS, rfl⟩
  · next h =>
    rw [if_pos (by omega)]
    cases hfst : (S.orbits[(id - 1).toNat]?).bind fun o => o.bases.head? with
    | none => exact ⟨hS, rfl⟩
    | some first =>
      dsimp only
      rw [Option.map_some]
      cases hr : L.rotate ρ (S.store first) with
      | none => 
        rw [Option.filter_some, hr]
        exact ⟨hS, rfl⟩
      | some v =>
        rw [Option.filter_some, hr]
        dsimp only
        have hv := hL.rotate_space ρ _ _ hr
        have hin : ∃ o ∈ S.orbits, first ∈ o.bases := by
          obtain ⟨o, h1, h2⟩ := Option.bind_eq_some_iff.1 hfst
          exact ⟨o, List.mem_of_getElem? h1, List.mem_of_head? h2⟩
        obtain ⟨a1, a2⟩ := rotateAll_rebased hS.pre hv hr hin
        have hsp : ∀ b, L.space (rotatedBasis L.space L.rotate ρ (L.space (S.store first)) b) = L.space b := by
          intro b
          unfold rotatedBasis
          split
          · cases hb : L.rotate ρ b with
            | none => rfl
            | some x => exact hL.rotate_space ρ _ _ hb
          · rfl
        obtain ⟨b1, b2⟩ := rebased_pre hS.pre a2 (by
          intro o m b hb o' m' b' hb' e
          rw [hsp, hsp] at e
          rw [hS.pre.uni o m b hb o' m' b' hb' e])
        obtain ⟨c1, c2⟩ := resetEval_inv b1
        rw [a1, if_neg (by decide)]
        exact ⟨c1, by rw [Option.isSome_some, if_pos rfl]; dsimp only; rw [← b2]; exact congrArg (·, false) c2⟩

theorem reload_ok {S : SubState B Key K} (hS : S.Inv L rows) :
    (S.reload L).Inv L rows ∧ (S.reload L).content = S.content := by
  unfold SubState.reload
  have hm : S.orbits.map (fun o => o.readCombos.2) = S.orbits.map fun o => o.readCombos.2 := rfl
  obtain ⟨a1, a2, a3, a4⟩ := transformAll_some (mk := some) (f := fun b => b)
    (S.orbits.map fun o => o.readCombos.2) S.store S.nStore
    (fun o m => by
      obtain ⟨p, mp, rfl⟩ := List.mem_map.1 m
      exact (hS.pre.orb p mp).lt) (fun _ _ _ _ => rfl)
  rw [List.forall₂_map_left_iff] at a4
  obtain ⟨b1, b2⟩ := rebased_pre hS.pre (a4.imp fun o o' r => r) (f := fun b => b)
    (fun o m b hb o' m' b' hb' e => hS.pre.uni o m b hb o' m' b' hb' e)
  obtain ⟨c1, c2⟩ := assign_pre b1.orb b1.uni b1.cache
  obtain ⟨d1, d2⟩ := resetEval_inv c1
  refine ⟨d1, d2.trans (c2.trans (b2.trans ?_))⟩
  unfold withBases
  simp

theorem look_ok {S : SubState B Key K} (hS : S.Inv L rows) (j : ℕ) :
    ({ S with orbits := S.orbits.mapIdx fun i o => if i = j then (o.readFlat L S.store).2 else o } :
      SubState B Key K).Inv L rows ∧
    ({ S with orbits := S.orbits.mapIdx fun i o => if i = j then (o.readFlat L S.store).2 else o } :
      SubState B Key K).content = S.content := by
  have hrel : List.Forall₂ (fun o o' : SOrb K => o.Same o' ∧ o'.Ok L S.store S.nStore) S.orbits
      (S.orbits.mapIdx fun i o => if i = j then (o.readFlat L S.store).2 else o) := by
    rw [List.forall₂_iff_get]
    refine ⟨by simp, fun i h1 h2 => ?_⟩
    simp only [List.get_eq_getElem, List.getElem_mapIdx]
    have ho := hS.pre.orb S.orbits[i] (List.getElem_mem _)
    split
    · exact (readFlat_ok ho).2
    · exact ⟨SOrb.Same.rfl' _, ho⟩
  generalize (S.orbits.mapIdx fun i o => if i = j then (o.readFlat L S.store).2 else o) = l' at hrel
  refine ⟨⟨⟨?_, ?_, ?_, ?_, ?_, ?_⟩, ?_, hS.evC⟩, ?_⟩
  · intro o' m
    obtain ⟨o, -, r⟩ := mem_of_forall₂ hrel m
    exact r.2
  · intro o m b hb o' m' b' hb'
    obtain ⟨p, mp, r⟩ := mem_of_forall₂ hrel m
    obtain ⟨p', mp', r'⟩ := mem_of_forall₂ hrel m'
    rw [r.1.2.1] at hb
    rw [r'.1.2.1] at hb'
    exact hS.pre.uni p mp b hb p' mp' b' hb'
  · exact numbered_forall₂ (hrel.imp fun _ _ r => ⟨r.1.2.2.2.2, r.1.2.2.1, r.1.2.2.2.1⟩) 1 1 hS.pre.ids
  · show S.numOrbits = 1 + l'.length
    rw [← hrel.length_eq]
    exact hS.pre.numO
  · show S.numCorr = 1 + (l'.map _).sum
    rw [hS.pre.numC, map_eq_of_forall₂ (f := fun o : SOrb K => o.readCombos.1.length)
      (hrel.imp fun _ _ r => by rw [r.1.2.2.2.2])]
  · intro M r e
    rw [← hS.pre.cache M r e]
    exact allRows_geo M (map_eq_of_forall₂ (hrel.imp fun _ _ r => r.1.1))
  · show S.eval = l'.map _
    rw [hS.ev]
    exact (map_eq_of_forall₂ (hrel.imp fun _ _ r => dataOf_same r.1)).symm
  · exact map_eq_of_forall₂ (hrel.imp fun _ _ r => r.1.plain S.store)

theorem mapM_isNone {α β : Type*} (f : α → Option β) (l : List α) :
    (l.mapM f).isNone = true ↔ ∃ x ∈ l, f x = none := by
  induction l with
  | nil => simp
  | cons x l ih =>
    rw [List.mapM_cons]
    cases hx : f x with
    | none => simp [hx]
    | some y =>
      cases hl : l.mapM f with
      | none =>
        rw [hl] at ih
        simp only [Option.isNone_none, true_iff] at ih
        obtain ⟨z, m, e⟩ := ih
        exact iff_of_true rfl ⟨z, List.mem_cons_of_mem _ m, e⟩
      | some ys =>
        rw [hl] at ih
        simp only [Option.isNone_some, Bool.false_eq_true, false_iff] at ih
        refine iff_of_false (by simp) ?_
        rintro ⟨z, m, e⟩
        rcases List.mem_cons.1 m with rfl | m
        · rw [hx] at e
          cases e
        · exact ih ⟨z, m, e⟩

theorem apply_ok [DecidableEq Sp] (hL : LibOk L) {S : SubState B Key K} (hS : S.Inv L rows)
    (op : SubspaceOp Rot Nm Key) :
    (S.apply L rows op).1.Inv L rows ∧
      ((S.apply L rows op).1.content, (S.apply L rows op).2) = after L rows S.content op := by
  cases op with
  | change name ort => exact change_ok hL hS name ort
  | rotate id ρ => exact rotate_ok hL hS id ρ
  | removeOrbits ids =>
    obtain ⟨h1, h2, h3⟩ := removeOrbits_ok hS ids
    unfold after
    show (S.removeOrbits L ids).1.Inv L rows ∧
      ((S.removeOrbits L ids).1.content, (S.removeOrbits L ids).2) = _
    dsimp only
    by_cases hb : ids = [] ∨ ∃ i ∈ ids, i < 1 ∨ (S.content.length : ℤ) < i
    · rw [if_pos hb, h2 hb, h1.2 hb]
      exact ⟨hS, rfl⟩
    · rw [if_neg hb, (h3 hb).2, Bool.eq_false_iff.2 fun h => hb (h1.1 h)]
      exact ⟨(h3 hb).1, rfl⟩
  | removeFuns ids =>
    obtain ⟨h1, h2, h3⟩ := removeFuns_ok hS ids
    exact ⟨h2, Prod.ext h3 h1⟩
  | corr occ M =>
    obtain ⟨h1, h2, h3⟩ := indices_ok hS M
    refine ⟨h2, ?_⟩
    unfold after
    show ((S.indices rows M).2.content, ((S.indices rows M).1.map _).isNone) = _
    rw [h1, h3, Option.isNone_map]
    congr 1
    rw [Bool.eq_iff_iff, decide_eq_true_iff, allRows, mapM_isNone]
    constructor
    · rintro ⟨o, m, e⟩
      exact ⟨o.plain S.store, List.mem_map_of_mem m, e⟩
    · rintro ⟨p, m, e⟩
      obtain ⟨o, mo, rfl⟩ := List.mem_map.1 m
      exact ⟨o, mo, e⟩
  | look j =>
    obtain ⟨h1, h2⟩ := look_ok hS j
    exact ⟨h1, congrArg (·, false) h2⟩
  | reload =>
    obtain ⟨h1, h2⟩ := reload_ok hS
    exact ⟨h1, congrArg (·, false) h2⟩

theorem subRun_ok [DecidableEq Sp] (hL : LibOk L) {S : SubState B Key K} (hS : S.Inv L rows)
    (ops : List (SubspaceOp Rot Nm Key)) :
    (S.run L rows ops).Inv L rows ∧ (S.run L rows ops).content = afterAll L rows S.content ops := by
  induction ops generalizing S with
  | nil => exact ⟨hS, rfl⟩
  | cons op ops ih =>
    obtain ⟨h1, h2⟩ := apply_ok hL hS op
    obtain ⟨i1, i2⟩ := ih h1
    refine ⟨i1, i2.trans ?_⟩
    have e : (S.apply L rows op).1.content = (after L rows S.content op).1 := congrArg Prod.fst h2
    rw [e]
    rfl

theorem init_ok {store : ℕ → B} {n : ℕ} {orbits : List (SOrb K)} (ho : ∀ o ∈ orbits, NewOrbit n o)
    (hk : OneKind L (orbits.map (SOrb.plain store))) :
    (SubState.init L store n orbits : SubState B Key K).Inv L rows ∧
      (SubState.init L store n orbits : SubState B Key K).content = orbits.map (SOrb.plain store) := by
  obtain ⟨a1, a2⟩ := assign_pre (rows := rows) (L := L)
    (S := (⟨store, n, orbits, 0, 0, [], 0, []⟩ : SubState B Key K))
    (fun o m => by
      obtain ⟨h1, h2, h3, h4, h5, h6, h7⟩ := ho o m
      exact ⟨h1, h2, h3, h4, fun a e => (by rw [h5] at e; cases e),
        fun a e => (by rw [h6] at e; cases e), fun a e => (by rw [h7] at e; cases e)⟩)
    (fun o m b hb o' m' b' hb' e => hk (o.plain store) (List.mem_map_of_mem m) (store b)
      (List.mem_map_of_mem hb) (o'.plain store) (List.mem_map_of_mem m') (store b') (List.mem_map_of_mem hb') e)
    (fun M r e => by cases e)
  obtain ⟨b1, b2⟩ := resetEval_inv a1
  exact ⟨b1, b2.trans a2⟩

omit [Field K] [DecidableEq Key] in
/-- Operations keep clusters and site spaces. -/
theorem after_spaces [DecidableEq Sp] (hL : LibOk L) (C : List (PlainOrb B)) (op : SubspaceOp Rot Nm Key) :
    ∀ o ∈ (after L rows C op).1, ∃ o' ∈ C, o.geo = o'.geo ∧ o.bases.map L.space = o'.bases.map L.space := by
  have hw : ∀ f : B → B, (∀ b, L.space (f b) = L.space b) → ∀ o ∈ withBases f C, ∃ o' ∈ C, o.geo = o'.geo ∧
      o.bases.map L.space = o'.bases.map L.space := by
    intro f hf o m
    obtain ⟨o', m', rfl⟩ := List.mem_map.1 m
    refine ⟨o', m', rfl, ?_⟩
    show (o'.bases.map f).map _ = _
    rw [List.map_map]
    exact List.map_congr_left fun b _ => hf b
  have hself : ∀ o ∈ C, ∃ o' ∈ C, o.geo = o'.geo ∧ o.bases.map L.space = o'.bases.map L.space :=
    fun o m => ⟨o, m, rfl, rfl⟩
  have hun : ∀ ids n, ∀ o ∈ unlisted ids n C, o ∈ C := by
    intro ids n o m
    obtain ⟨p, mp, rfl⟩ := List.mem_map.1 m
    have h1 := List.mem_map_of_mem (f := Prod.fst) (List.mem_of_mem_filter mp)
    rwa [List.zipIdx_map_fst] at h1
  cases op with
  | change name ort =>
    unfold after
    dsimp only
    split
    · apply hw
      intro b
      cases hb : L.make name ort (L.space b) with
      | none => rfl
      | some x => exact hL.make_space _ _ _ _ hb
    · exact hself
  | rotate id ρ =>
    unfold after
    dsimp only
    split
    · exact hself
    · apply hw
      intro b
      unfold rotatedBasis
      split
      · cases hb : L.rotate ρ b with
        | none => rfl
        | some x => exact hL.rotate_space ρ _ _ hb
      · rfl
  | removeOrbits ids =>
    unfold after
    dsimp only
    split
    · exact hself
    · exact fun o m => hself o (hun _ _ o m)
  | removeFuns ids =>
    unfold after
    dsimp only
    generalize 1 = n
    clear hw hself hun
    induction C generalizing n with
    | nil => intro o m; cases m
    | cons p C ih =>
      intro o m
      rw [dropFunctions] at m
      rcases List.mem_append.1 m with m | m
      · split at m
        · cases m
        · rw [List.mem_singleton.1 m]
          exact ⟨p, by simp, rfl, rfl⟩
      · obtain ⟨o', m', e⟩ := ih _ o m
        exact ⟨o', List.mem_cons_of_mem _ m', e⟩
  | corr occ M => exact hself
  | look j => exact hself
  | reload => exact hself

omit [Field K] [DecidableEq Key] in
theorem afterAll_spaces [DecidableEq Sp] (hL : LibOk L) (C : List (PlainOrb B))
    (ops : List (SubspaceOp Rot Nm Key)) :
    ∀ o ∈ afterAll L rows C ops, ∃ o' ∈ C, o.geo = o'.geo ∧ o.bases.map L.space = o'.bases.map L.space := by
  induction ops generalizing C with
  | nil => exact fun o m => ⟨o, m, rfl, rfl⟩
  | cons op ops ih =>
    intro o m
    obtain ⟨o1, m1, e1, f1⟩ := ih _ o m
    obtain ⟨o2, m2, e2, f2⟩ := after_spaces hL C op o1 m1
    exact ⟨o2, m2, e1.trans e2, f1.trans f2⟩

omit [Field K] [DecidableEq Key] in
theorem fits_after [DecidableEq Sp] (hL : LibOk L) (C : List (PlainOrb B)) (ops : List (SubspaceOp Rot Nm Key))
    (M : Key) (occ : Occ) (h : Fits (fun b => L.dim (L.space b)) (rows M) C occ) :
    Fits (fun b => L.dim (L.space b)) (rows M) (afterAll L rows C ops) occ := by
  intro o m r e row hrow
  obtain ⟨o', m', e1, e2⟩ := afterAll_spaces hL C ops o m
  have := h o' m' r (e1 ▸ e) row hrow
  rw [show o.bases.map (fun b => L.dim (L.space b)) = (o.bases.map L.space).map L.dim by
    rw [List.map_map]; rfl, e2, List.map_map]
  exact this

theorem unlisted_cons {α : Type*} (ids : List ℤ) (n : ℕ) (a : α) (l : List α) :
    unlisted ids n (a :: l) = (if (n : ℤ) ∉ ids then [a] else []) ++ unlisted ids (n + 1) l := by
  unfold unlisted
  rw [List.zipIdx_cons, List.filter_cons]
  dsimp only
  by_cases h : (n : ℤ) ∉ ids
  · rw [if_pos (by simpa using h), if_pos h]
    rfl
  · rw [if_neg (by simpa using h), if_neg h]
    rfl

theorem unlisted_append {α : Type*} (ids : List ℤ) (n : ℕ) (l l' : List α) :
    unlisted ids n (l ++ l') = unlisted ids n l ++ unlisted ids (n + l.length) l' := by
  induction l generalizing n with
  | nil => rfl
  | cons a l ih =>
    rw [List.cons_append, unlisted_cons, unlisted_cons, ih, List.append_assoc, List.length_cons,
      show n + 1 + l.length = n + (l.length + 1) by omega]

theorem unlisted_map {α β : Type*} (f : α → β) (ids : List ℤ) (n : ℕ) (l : List α) :
    unlisted ids n (l.map f) = (unlisted ids n l).map f := by
  induction l generalizing n with
  | nil => rfl
  | cons a l ih =>
    rw [List.map_cons, unlisted_cons, unlisted_cons, ih, List.map_append]
    split <;> rfl

/-- The values of the functions of the orbits, orbit by orbit. -/
def orbitValues (val : B → ℕ → ℕ → K) (clusters : ℕ → Option (List (List ℕ))) (C : List (PlainOrb B))
    (occ : ℕ → ℕ) : Option (List (List K)) :=
  C.mapM fun o => (clusters o.geo).map fun r => o.classes.map fun cl => functionValue val occ o.bases cl r

omit [DecidableEq Key] in
theorem orbitValues_cons (val : B → ℕ → ℕ → K) (clusters : ℕ → Option (List (List ℕ))) (o : PlainOrb B)
    (C : List (PlainOrb B)) (occ : ℕ → ℕ) (v : List (List K))
    (h : orbitValues val clusters (o :: C) occ = some v) :
    ∃ r w, clusters o.geo = some r ∧ orbitValues val clusters C occ = some w ∧
      v = (o.classes.map fun cl => functionValue val occ o.bases cl r) :: w := by
  unfold orbitValues at h
  rw [List.mapM_cons] at h
  cases hg : clusters o.geo with
  | none => rw [hg] at h; cases h
  | some r =>
    cases hl : orbitValues val clusters C occ with
    | none => rw [hg] at h; unfold orbitValues at hl; rw [hl] at h; cases h
    | some w =>
      rw [hg] at h
      unfold orbitValues at hl
      rw [hl] at h
      exact ⟨r, w, rfl, rfl, (Option.some.inj h).symm⟩

omit [DecidableEq Key] in
theorem orbitValues_some (val : B → ℕ → ℕ → K) (clusters : ℕ → Option (List (List ℕ))) (o : PlainOrb B)
    (C : List (PlainOrb B)) (occ : ℕ → ℕ) (w : List (List K)) (r : List (List ℕ))
    (hr : clusters o.geo = some r) (hw : orbitValues val clusters C occ = some w) :
    orbitValues val clusters (o :: C) occ =
      some ((o.classes.map fun cl => functionValue val occ o.bases cl r) :: w) := by
  unfold orbitValues at hw ⊢
  rw [List.mapM_cons, hr, hw]
  rfl

omit [DecidableEq Key] in
theorem dropFunctions_values (val : B → ℕ → ℕ → K) (clusters : ℕ → Option (List (List ℕ)))
    (C : List (PlainOrb B)) (occ : ℕ → ℕ) (ids : List ℤ) (n : ℕ) (v : List (List K))
    (h : orbitValues val clusters C occ = some v) :
    ∃ w, orbitValues val clusters (dropFunctions ids n C) occ = some w ∧
      w.flatten = unlisted ids n v.flatten := by
  induction C generalizing n v with
  | nil =>
    cases h
    exact ⟨[], rfl, rfl⟩
  | cons o C ih =>
    obtain ⟨r, w, hr, hw, rfl⟩ := orbitValues_cons _ _ _ _ _ _ h
    obtain ⟨w', h1, h2⟩ := ih (n + o.classes.length) w hw
    rw [dropFunctions]
    rw [List.flatten_cons, unlisted_append, List.length_map, ← h2, unlisted_map]
    by_cases e : unlisted ids n o.classes = []
    · rw [if_pos e, e]
      exact ⟨w', h1, rfl⟩
    · rw [if_neg e]
      exact ⟨_, orbitValues_some val clusters { o with classes := unlisted ids n o.classes } _ occ w' r hr h1,
        rfl⟩

omit [DecidableEq Key] in
theorem dropOrbits_values (val : B → ℕ → ℕ → K) (clusters : ℕ → Option (List (List ℕ)))
    (C : List (PlainOrb B)) (occ : ℕ → ℕ) (ids : List ℤ) (n : ℕ) (v : List (List K))
    (h : orbitValues val clusters C occ = some v) :
    ∃ w, orbitValues val clusters (unlisted ids n C) occ = some w ∧
      w.flatten = ((v.flatten.zip ((C.zipIdx n).flatMap fun p => List.replicate p.1.classes.length p.2)).filter
        fun p => decide ((p.2 : ℤ) ∉ ids)).map Prod.fst := by
  induction C generalizing n v with
  | nil =>
    cases h
    exact ⟨[], rfl, rfl⟩
  | cons o C ih =>
    obtain ⟨r, w, hr, hw, rfl⟩ := orbitValues_cons _ _ _ _ _ _ h
    obtain ⟨w', h1, h2⟩ := ih (n + 1) w hw
    rw [unlisted_cons, List.flatten_cons, List.zipIdx_cons, List.flatMap_cons, List.zip_append (by simp),
      List.filter_append, List.map_append, ← h2]
    have hz : ∀ l : List K, ((l.zip (List.replicate l.length n)).filter
        fun p => decide ((p.2 : ℤ) ∉ ids)).map Prod.fst = if (n : ℤ) ∉ ids then l else [] := by
      intro l
      induction l with
      | nil => simp
      | cons a l ih =>
        rw [List.length_cons, List.replicate_succ, List.zip_cons_cons, List.filter_cons]
        dsimp only
        by_cases hn : (n : ℤ) ∉ ids
        · rw [if_pos hn] at ih
          rw [if_pos (by simpa using hn), if_pos hn, List.map_cons, ih]
        · rw [if_neg hn] at ih
          rw [if_neg (by simpa using hn), if_neg hn, ih]
    have hz' := hz (o.classes.map fun cl => functionValue val occ o.bases cl r)
    rw [List.length_map] at hz'
    rw [hz']
    by_cases hn : (n : ℤ) ∉ ids
    · rw [if_pos hn, if_pos hn]
      exact ⟨_, orbitValues_some val clusters o _ occ w' r hr h1, rfl⟩
    · rw [if_neg hn, if_neg hn]
      exact ⟨w', h1, rfl⟩

end Smol
