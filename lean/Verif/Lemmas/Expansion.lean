import Verif.Model.Expansion
import Verif.Lemmas.OrbitSpace

namespace Smol
open Spec

variable {K : Type*} [Field K] [LinearOrder K]

/-- entries of a list numbered from `k` whose numbers satisfy `q` -/
def keepAt {α : Type*} (q : ℕ → Bool) (k : ℕ) (l : List α) : List α :=
  ((l.zipIdx k).filter fun p => q p.2).map Prod.fst

theorem keepAt_cons {α : Type*} (q : ℕ → Bool) (k : ℕ) (a : α) (l : List α) :
    keepAt q k (a :: l) = if q k then a :: keepAt q (k + 1) l else keepAt q (k + 1) l := by
  unfold keepAt
  rw [List.zipIdx_cons, List.filter_cons]
  split <;> rfl

theorem keepAt_append {α : Type*} (q : ℕ → Bool) (k : ℕ) (l m : List α) :
    keepAt q k (l ++ m) = keepAt q k l ++ keepAt q (k + l.length) m := by
  unfold keepAt
  rw [List.zipIdx_append, List.filter_append, List.map_append]

theorem keepAt_all {α : Type*} (q : ℕ → Bool) (k : ℕ) (l : List α)
    (h : ∀ i < l.length, q (k + i) = true) : keepAt q k l = l := by
  induction l generalizing k with
  | nil => rfl
  | cons a l ih =>
    rw [keepAt_cons, if_pos (by simpa using h 0 (by simp)), ih]
    intro i hi
    have := h (i + 1) (by simpa using hi)
    rwa [show k + (i + 1) = k + 1 + i by omega] at this

theorem keepAt_map {α β : Type*} (q : ℕ → Bool) (k : ℕ) (f : α → β) (l : List α) :
    keepAt q k (l.map f) = (keepAt q k l).map f := by
  induction l generalizing k with
  | nil => rfl
  | cons a l ih => rw [List.map_cons, keepAt_cons, keepAt_cons, ih]; split <;> simp

theorem keepAt_length {α β : Type*} (q : ℕ → Bool) (k : ℕ) (l : List α) (m : List β)
    (h : l.length = m.length) : (keepAt q k l).length = (keepAt q k m).length := by
  induction l generalizing k m with
  | nil => cases m <;> simp_all [keepAt]
  | cons a l ih =>
    cases m with
    | nil => simp at h
    | cons b m =>
      rw [keepAt_cons, keepAt_cons]
      have := ih (k + 1) m (by simpa using h)
      split <;> simp [this]

theorem keepAt_length_le {α : Type*} (q : ℕ → Bool) (k : ℕ) (l : List α) :
    (keepAt q k l).length ≤ l.length := by
  induction l generalizing k with
  | nil => simp [keepAt]
  | cons a l ih =>
    rw [keepAt_cons]; have := ih (k + 1); split <;> simp <;> omega

theorem keepAt_length_lt {α : Type*} (q : ℕ → Bool) (k : ℕ) (l : List α) (i : ℕ)
    (hi : i < l.length) (h : q (k + i) = false) : (keepAt q k l).length < l.length := by
  induction l generalizing k i with
  | nil => simp at hi
  | cons a l ih =>
    rw [keepAt_cons]
    cases i with
    | zero =>
      rw [if_neg (by simpa using h)]
      have := keepAt_length_le q (k + 1) l
      simp; omega
    | succ i =>
      have := ih (k + 1) i (by simpa using hi) (by rwa [show k + 1 + i = k + (i + 1) by omega])
      split <;> simp <;> omega

omit [LinearOrder K] in
/-- dot product of the kept entries -/
theorem keepAt_dot (q : ℕ → Bool) (a b : List K) (h : a.length = b.length) :
    (List.zipWith (· * ·) (keepAt q 0 a) (keepAt q 0 b)).sum =
      ((List.range a.length).map fun i => if q i then a.getD i 0 * b.getD i 0 else 0).sum := by
  induction a using List.reverseRecOn generalizing b with
  | nil => simp [keepAt]
  | append_singleton a x ih =>
    rcases List.eq_nil_or_concat b with rfl | ⟨b', y, rfl⟩
    · simp at h
    · rw [List.concat_eq_append] at h ⊢
      simp only [List.length_append, List.length_cons, List.length_nil, zero_add,
        Nat.add_right_cancel_iff] at h
      rw [keepAt_append, keepAt_append, List.zipWith_append (keepAt_length q 0 a b' h),
        List.sum_append, ih b' h, List.length_append, List.length_singleton, List.range_succ,
        List.map_append, List.sum_append]
      congr 1
      · congr 1
        apply List.map_congr_left
        intro i hi
        rw [List.mem_range] at hi
        simp only [List.getD_eq_getElem?_getD]
        rw [List.getElem?_append_left hi, List.getElem?_append_left (by omega)]
      · rw [keepAt_cons, keepAt_cons, zero_add, zero_add, ← h]
        simp only [List.map_cons, List.map_nil, List.sum_cons, List.sum_nil, add_zero,
          List.getD_eq_getElem?_getD]
        rw [List.getElem?_append_right (le_refl _), List.getElem?_append_right (by omega)]
        cases q a.length <;> simp [keepAt, h]

omit [Field K] [LinearOrder K] in
theorem complementOf_eq (ids : List ℤ) (l : List K) :
    complementOf ids l = keepAt (fun i => decide ((i : ℤ) ∉ ids)) 0 l := rfl

theorem without_eq {α : Type*} (ids : List ℤ) (l : List α) :
    without ids l = keepAt (fun i => decide ((i : ℤ) ∉ ids)) 1 l := rfl

omit [Field K] [LinearOrder K] in
theorem mem_positions (l : List K) (q : K → Bool) (i : ℕ) :
    (i : ℤ) ∈ ((l.zipIdx.filter fun p => q p.1).map fun p => (p.2 : ℤ)) ↔
      ∃ c, l[i]? = some c ∧ q c = true := by
  simp only [List.mem_map, List.mem_filter, Prod.exists]
  constructor
  · rintro ⟨c, j, ⟨hm, hq⟩, he⟩
    have : j = i := by exact_mod_cast he
    subst this
    exact ⟨c, by simpa [List.mem_zipIdx_iff_getElem?] using hm, hq⟩
  · rintro ⟨c, hc, hq⟩
    exact ⟨c, i, ⟨by simpa [List.mem_zipIdx_iff_getElem?] using hc, hq⟩, rfl⟩

theorem mem_smallIds (l : List K) (t : K) (i : ℕ) :
    (i : ℤ) ∈ smallIds l t ↔ ∃ c, l[i]? = some c ∧ |c| < t := by
  unfold smallIds
  rw [mem_positions l (fun c => decide (|c| < t))]
  simp

theorem smallIds_nonneg (l : List K) (t : K) : ∀ i ∈ smallIds l t, ∃ n : ℕ, i = n := by
  intro i hi
  obtain ⟨p, -, rfl⟩ := List.mem_map.1 hi
  exact ⟨p.2, rfl⟩

omit [LinearOrder K] in
theorem corr_eq (E : Expansion K) (val : ℕ × (ℕ × ℕ) → K) (ext : List K) :
    E.corr val ext = 1 :: ((funsOf E.space.orbits).map val ++ ext) := by
  unfold Expansion.corr funsOf
  rw [List.map_flatMap]
  simp [Function.comp_def]

theorem orderingMults_length (S : OrbitSpace) :
    S.orderingMults.length = 1 + nFuns S.orbits := by
  simp [OrbitSpace.orderingMults, nFuns, List.length_flatMap]; omega

theorem functionOrbitIds_eq (S : OrbitSpace) : S.functionOrbitIds =
    0 :: S.orbits.flatMap fun o => List.replicate o.combos.length o.id := by
  unfold OrbitSpace.functionOrbitIds; rw [foldl_replicate]; rfl

theorem totalMults_length (S : OrbitSpace) : S.totalMults.length = 1 + nFuns S.orbits := by
  unfold OrbitSpace.totalMults
  rw [List.length_zipWith, orderingMults_length, List.length_map, functionOrbitIds_eq,
    List.length_cons, length_flatMap_replicate]
  omega

theorem orderingMults_eq (S : OrbitSpace) :
    S.orderingMults = 1 :: (funsOf S.orbits).map fun f => f.2.2 := by
  unfold OrbitSpace.orderingMults funsOf
  rw [List.map_flatMap]
  simp only [List.map_map, Function.comp_def]

theorem totalMults_get {S : OrbitSpace} (hS : S.Ok) :
    S.totalMults.getD 0 0 = 1 ∧ ∀ o ∈ S.orbits, ∀ (j : ℕ) (c : ℕ × ℕ), o.combos[j]? = some c →
      S.totalMults.getD (o.bitId + j) 0 = o.mult * c.2 := by
  unfold OrbitSpace.totalMults
  rw [functionOrbitIds_eq, orderingMults_eq]
  refine ⟨by simp [OrbitSpace.orbitMults], ?_⟩
  intro o ho j c hc
  obtain ⟨i, hi, rfl⟩ := List.getElem_of_mem ho
  have hget := List.getElem?_eq_getElem hi
  obtain ⟨h1, h2⟩ := hS.get i _ hget
  have hj := (List.getElem?_eq_some_iff.1 hc).1
  rw [h2, show 1 + nFuns (List.take i S.orbits) + j = (nFuns (List.take i S.orbits) + j) + 1 by
    omega]
  rw [List.map_cons, List.zipWith_cons_cons, List.getD_cons_succ, List.getD_eq_getElem?_getD,
    List.getElem?_zipWith, List.getElem?_map, get_flatMap_replicate _ _ _ hget j hj,
    List.getElem?_map, get_funsOf _ _ _ hget j c hc]
  simp only [Option.map_some, Option.getD_some, h1]
  congr 1
  unfold OrbitSpace.orbitMults
  rw [show 1 + i = i + 1 by omega, List.getD_cons_succ, List.getD_eq_getElem?_getD,
    List.getElem?_map, hget]
  rfl

omit [Field K] [LinearOrder K] in
/-- the shape of the coefficients before and after pruning -/
theorem pruned_lengths (q : ℕ → Bool) (coefs : List K) (n e : ℕ) (h : coefs.length = 1 + n + e) :
    ∃ rest, (keepAt q 0 coefs).length = rest + (keepAt q 1 (List.range n)).length ∧
      rest ≤ 1 + e ∧ ((∀ i, i = 0 ∨ (1 + n ≤ i ∧ i < 1 + n + e) → q i = true) → rest = 1 + e) ∧
      (∀ i, (i = 0 ∨ (1 + n ≤ i ∧ i < 1 + n + e)) → q i = false → rest < 1 + e) := by
  obtain ⟨c0, cs, rfl⟩ : ∃ c0 cs, coefs = c0 :: cs := by
    cases coefs with
    | nil => simp at h; omega
    | cons c0 cs => exact ⟨c0, cs, rfl⟩
  have hcs : cs.length = n + e := by simp at h; omega
  have hsplit : cs = cs.take n ++ cs.drop n := (List.take_append_drop n cs).symm
  have hl1 : (cs.take n).length = n := by simp; omega
  have hl2 : (cs.drop n).length = e := by simp; omega
  have e1 : (keepAt q 1 (cs.take n)).length = (keepAt q 1 (List.range n)).length :=
    keepAt_length q 1 _ _ (by rw [hl1, List.length_range])
  have e2 : keepAt q 1 cs = keepAt q 1 (cs.take n) ++ keepAt q (1 + n) (cs.drop n) := by
    conv_lhs => rw [hsplit]
    rw [keepAt_append, hl1]
  refine ⟨(if q 0 then 1 else 0) + (keepAt q (1 + n) (cs.drop n)).length, ?_, ?_, ?_, ?_⟩
  · rw [keepAt_cons, zero_add, e2]
    split <;> simp [e1] <;> omega
  · have := keepAt_length_le q (1 + n) (cs.drop n)
    split <;> omega
  · intro hq
    rw [if_pos (hq 0 (Or.inl rfl)), keepAt_all, hl2]
    intro i hi
    exact hq _ (Or.inr ⟨by omega, by omega⟩)
  · rintro i (rfl | ⟨h1, h2⟩) hf
    · have := keepAt_length_le q (1 + n) (cs.drop n)
      rw [if_neg (by simp [hf])]; omega
    · have := keepAt_length_lt q (1 + n) (cs.drop n) (i - (1 + n)) (by omega)
        (by rwa [show 1 + n + (i - (1 + n)) = i by omega])
      split <;> omega

/-- What the threshold is compared with: the coefficients or the effective interactions. -/
def Selects (E : Expansion K) (withMult : Bool) (base : List K) : Prop :=
  if withMult then ∃ m : ℕ → ℕ, base.length = E.space.numCorr ∧
      (∀ i < E.space.numCorr, base.getD i 0 = E.coefs.getD i 0 / (m i : K)) ∧
      m 0 = 1 ∧ ∀ o ∈ E.space.orbits, ∀ (j : ℕ) (c : ℕ × ℕ), o.combos[j]? = some c →
        m (o.bitId + j) = o.mult * c.2
    else base = E.coefs

omit [LinearOrder K] in
theorem selects_exists (E : Expansion K) (hok : E.space.Ok) (hlen : E.coefs.length = E.numTerms)
    (withMult : Bool) :
    ∃ base, (if withMult then E.eci else some E.coefs) = some base ∧ Selects E withMult base ∧
      base.length ≤ E.coefs.length := by
  cases withMult with
  | false => exact ⟨_, rfl, rfl, le_refl _⟩
  | true =>
    have hl : (dropExt E.nExt E.coefs).length = E.space.totalMults.length := by
      simp only [dropExt, List.length_take, totalMults_length, hlen, Expansion.numTerms,
        hok.numCorr]
      omega
    have he : E.eci = some (List.zipWith (· / ·) (dropExt E.nExt E.coefs)
        (E.space.totalMults.map fun m : ℕ => (m : K))) := by
      unfold Expansion.eci arrDiv
      rw [if_pos (by rw [List.length_map]; exact hl)]
    have hlz : (List.zipWith (· / ·) (dropExt E.nExt E.coefs)
        (E.space.totalMults.map fun m : ℕ => (m : K))).length = E.space.numCorr := by
      rw [List.length_zipWith, List.length_map, hl, totalMults_length, hok.numCorr]; omega
    refine ⟨_, he, ?_, ?_⟩
    · unfold Selects
      rw [if_pos rfl]
      refine ⟨fun i => E.space.totalMults.getD i 0, hlz, ?_, (totalMults_get hok).1,
        (totalMults_get hok).2⟩
      intro i hi
      have h1 : i < E.space.totalMults.length := by
        rw [totalMults_length, ← hok.numCorr]; exact hi
      have h2 : i < (dropExt E.nExt E.coefs).length := by omega
      have h3 : i < E.coefs.length := by
        rw [hlen, Expansion.numTerms]; omega
      rw [List.getD_eq_getElem?_getD, List.getElem?_zipWith, List.getElem?_map,
        List.getElem?_eq_getElem h1, List.getElem?_eq_getElem h2]
      simp only [Option.map_some, Option.getD_some, List.getD_eq_getElem?_getD,
        List.getElem?_eq_getElem h1, List.getElem?_eq_getElem h3]
      simp [dropExt]
    · rw [hlz, hlen, Expansion.numTerms]; omega

omit [LinearOrder K] in
theorem selects_unique {E : Expansion K} (hok : E.space.Ok) {withMult : Bool} {a b : List K}
    (ha : Selects E withMult a) (hb : Selects E withMult b) : a = b := by
  unfold Selects at ha hb
  cases withMult with
  | false => simp only [Bool.false_eq_true, if_false] at ha hb; rw [ha, hb]
  | true =>
    simp only [if_true] at ha hb
    obtain ⟨m, h1, h2, h3, h4⟩ := ha
    obtain ⟨m', h1', h2', h3', h4'⟩ := hb
    apply List.ext_getElem (by omega)
    intro i hi hi'
    have e1 := h2 i (by omega)
    have e2 := h2' i (by omega)
    rw [List.getD_eq_getElem?_getD, List.getElem?_eq_getElem hi, Option.getD_some] at e1
    rw [List.getD_eq_getElem?_getD, List.getElem?_eq_getElem hi', Option.getD_some] at e2
    rw [e1, e2]
    congr 2
    rcases Nat.eq_zero_or_pos i with rfl | hpos
    · rw [h3, h3']
    · obtain ⟨o, ho, j, c, hc, rfl⟩ := function_of_id hok i hpos (by
        rw [← hok.numCorr]; omega)
      rw [h4 o ho j c hc, h4' o ho j c hc]

end Smol
