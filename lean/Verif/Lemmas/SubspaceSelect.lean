import Verif.Model.SubspaceSelect
import Verif.Lemmas.OrbitSpace
import Mathlib.Data.List.Nodup

namespace Smol

variable {K : Type*} [LinearOrder K]

/-- the dictionary has each size once, no size without orbits, and every orbit under its size -/
structure Keyed (size : ℕ → ℕ) (d : List (ℕ × List Orb)) : Prop where
  keys : (d.map Prod.fst).Nodup
  nonempty : ∀ p ∈ d, p.2 ≠ []
  size : ∀ p ∈ d, ∀ o ∈ p.2, size o.tag = p.1

theorem assignDict_entries (d : List (ℕ × List Orb)) (c : ℕ × ℕ × ℕ) :
    (assignDict d c).1.map (fun p => (p.1, p.2.map Orb.tag)) =
      d.map fun p => (p.1, p.2.map Orb.tag) := by
  induction d generalizing c with
  | nil => rfl
  | cons p d ih =>
    obtain ⟨k, os⟩ := p
    simp only [assignDict, List.map_cons, ih]
    have : (assignList os c).1.map Orb.tag = os.map Orb.tag := by
      have h := congrArg (List.map Prod.fst) (assignList_content os c)
      rw [List.map_map, List.map_map] at h
      exact h
    rw [this]

theorem keyed_iff (size : ℕ → ℕ) (d : List (ℕ × List Orb)) :
    Keyed size d ↔
      ((d.map fun p => (p.1, p.2.map Orb.tag)).map Prod.fst).Nodup ∧
      (∀ p ∈ d.map (fun p => (p.1, p.2.map Orb.tag)), p.2 ≠ []) ∧
      ∀ p ∈ d.map (fun p => (p.1, p.2.map Orb.tag)), ∀ t ∈ p.2, size t = p.1 := by
  constructor
  · rintro ⟨h1, h2, h3⟩
    refine ⟨by rw [List.map_map]; exact h1, ?_, ?_⟩
    · intro p hp
      obtain ⟨q, hq, rfl⟩ := List.mem_map.1 hp
      simpa using h2 q hq
    · intro p hp t ht
      obtain ⟨q, hq, rfl⟩ := List.mem_map.1 hp
      obtain ⟨o, ho, rfl⟩ := List.mem_map.1 ht
      exact h3 q hq o ho
  · rintro ⟨h1, h2, h3⟩
    refine ⟨by rw [List.map_map] at h1; exact h1, ?_, ?_⟩
    · intro p hp
      simpa using h2 _ (List.mem_map_of_mem hp)
    · intro p hp o ho
      exact h3 _ (List.mem_map_of_mem hp) _ (List.mem_map_of_mem ho)

theorem keyed_assigned {size : ℕ → ℕ} {d : List (ℕ × List Orb)} (h : Keyed size d) :
    Keyed size (OrbitSpace.assigned d).dict := by
  have hp := List.perm_insertionSort keyLe d
  have hs : Keyed size (d.insertionSort keyLe) :=
    ⟨((hp.map Prod.fst).nodup_iff).2 h.keys, fun p hq => h.nonempty p (hp.mem_iff.1 hq),
      fun p hq => h.size p (hp.mem_iff.1 hq)⟩
  rw [keyed_iff] at hs ⊢
  unfold OrbitSpace.assigned
  rw [assignDict_entries]
  exact hs

theorem keyed_removeOrbits {size : ℕ → ℕ} {S T : OrbitSpace}
    (hk : (S.dict.map Prod.fst).Nodup) (hs : ∀ p ∈ S.dict, ∀ o ∈ p.2, size o.tag = p.1)
    (ids : List ℤ) (hT : S.removeOrbits ids = some T) : Keyed size T.dict := by
  unfold OrbitSpace.removeOrbits at hT
  split_ifs at hT
  cases hT
  apply keyed_assigned
  refine ⟨?_, ?_, ?_⟩
  · have h1 : ((S.dict.map fun p => (p.1, p.2.filter fun o => decide ((o.id : ℤ) ∉ ids))).map
        Prod.fst).Nodup := by rw [List.map_map]; exact hk
    exact h1.sublist (List.filter_sublist.map _)
  · intro p hp
    have := (List.mem_filter.1 hp).2
    simpa using this
  · intro p hp o ho
    have := (List.mem_filter.1 hp).1
    obtain ⟨q, hq, rfl⟩ := List.mem_map.1 this
    exact hs q hq o (List.mem_of_mem_filter ho)

theorem keyed_removeCorr {size : ℕ → ℕ} {S T : OrbitSpace} (h : Keyed size S.dict) (ids : List ℤ)
    (hT : S.removeCorr ids = some T) : Keyed size T.dict := by
  have hk : (((S.dict.map fun p => (p.1, p.2.map fun o => o.removeCorr ids))).map Prod.fst).Nodup := by
    rw [List.map_map]; exact h.keys
  have hsz : ∀ p ∈ S.dict.map (fun p => (p.1, p.2.map fun o => o.removeCorr ids)),
      ∀ o ∈ p.2, size o.tag = p.1 := by
    intro p hp o ho
    obtain ⟨q, hq, rfl⟩ := List.mem_map.1 hp
    obtain ⟨r, hr, rfl⟩ := List.mem_map.1 ho
    rw [(removeCorr_fixed r ids).2.1]
    exact h.size q hq r hr
  unfold OrbitSpace.removeCorr at hT
  dsimp only at hT
  split_ifs at hT
  · cases hT
    apply keyed_assigned
    refine ⟨hk, ?_, hsz⟩
    intro p hp
    obtain ⟨q, hq, rfl⟩ := List.mem_map.1 hp
    simpa using h.nonempty q hq
  · exact keyed_removeOrbits hk hsz _ hT

theorem keyed_run {size : ℕ → ℕ} {S : OrbitSpace} (h : Keyed size S.dict) (ops : List SpaceOp) :
    Keyed size (S.run ops).dict := by
  induction ops generalizing S with
  | nil => exact h
  | cons op ops ih =>
    refine ih (S := S.step op) ?_
    cases op with
    | orbits ids =>
      show Keyed size ((S.removeOrbits ids).getD S).dict
      cases hT : S.removeOrbits ids with
      | none => exact h
      | some T => exact keyed_removeOrbits h.keys h.size ids hT
    | functions ids =>
      show Keyed size ((S.removeCorr ids).getD S).dict
      cases hT : S.removeCorr ids with
      | none => exact h
      | some T => exact keyed_removeCorr h ids hT

/-- what the selections rest on -/
structure SelOk (size : ℕ → ℕ) (S : OrbitSpace) : Prop where
  ok : S.Ok
  keyed : Keyed size S.dict

theorem mem_entry {size : ℕ → ℕ} {S : OrbitSpace} (h : SelOk size S) {p : ℕ × List Orb}
    (hp : p ∈ S.dict) (o : Orb) : o ∈ p.2 ↔ o ∈ S.orbits ∧ size o.tag = p.1 := by
  rw [orbits_of_sorted h.ok.sorted, List.mem_flatMap]
  constructor
  · intro ho
    exact ⟨⟨p, hp, ho⟩, h.keyed.size p hp o ho⟩
  · rintro ⟨⟨q, hq, ho⟩, hs⟩
    have e : q.1 = p.1 := by rw [← h.keyed.size q hq o ho, hs]
    have : q = p := List.inj_on_of_nodup_map h.keyed.keys hq hp e
    rwa [← this]

theorem entry_of_orbit {size : ℕ → ℕ} {S : OrbitSpace} (h : SelOk size S) {o : Orb}
    (ho : o ∈ S.orbits) : ∃ p ∈ S.dict, p.1 = size o.tag ∧ o ∈ p.2 := by
  rw [orbits_of_sorted h.ok.sorted, List.mem_flatMap] at ho
  obtain ⟨p, hp, hop⟩ := ho
  exact ⟨p, hp, (h.keyed.size p hp o hop).symm, hop⟩

theorem flatMap_filter_key {size : ℕ → ℕ} (d : List (ℕ × List Orb)) (h : Keyed size d)
    (p : ℕ × List Orb) (hp : p ∈ d) :
    (d.flatMap Prod.snd).filter (fun o => decide (size o.tag = p.1)) = p.2 := by
  induction d with
  | nil => simp at hp
  | cons q d ih =>
    have hk := h.keys
    rw [List.map_cons, List.nodup_cons] at hk
    have hd : Keyed size d := ⟨hk.2, fun p hp => h.nonempty p (by simp [hp]),
      fun p hp => h.size p (by simp [hp])⟩
    rw [List.flatMap_cons, List.filter_append]
    rcases List.mem_cons.1 hp with rfl | hp'
    · rw [List.filter_eq_self.2 (fun o ho => by simp [h.size p (by simp) o ho])]
      rw [List.filter_eq_nil_iff.2, List.append_nil]
      intro o ho
      obtain ⟨r, hr, hor⟩ := List.mem_flatMap.1 ho
      have := hd.size r hr o hor
      simp only [decide_eq_true_eq, this]
      intro e
      exact hk.1 (e ▸ List.mem_map_of_mem hr)
    · rw [ih hd hp', List.filter_eq_nil_iff.2, List.nil_append]
      intro o ho
      have := h.size q (by simp) o ho
      simp only [decide_eq_true_eq, this]
      intro e
      exact hk.1 (e ▸ List.mem_map_of_mem hp')

theorem entry_eq_filter {size : ℕ → ℕ} {S : OrbitSpace} (h : SelOk size S) {p : ℕ × List Orb}
    (hp : p ∈ S.dict) : p.2 = S.orbits.filter fun o => decide (size o.tag = p.1) := by
  rw [orbits_of_sorted h.ok.sorted]
  exact (flatMap_filter_key S.dict h.keyed p hp).symm

theorem lookup_entry {size : ℕ → ℕ} {S : OrbitSpace} (h : SelOk size S) (s : ℕ) :
    S.dict.lookup s = if ∃ o ∈ S.orbits, size o.tag = s then
      some (S.orbits.filter fun o => decide (size o.tag = s)) else none := by
  classical
  split_ifs with hs
  · obtain ⟨o, ho, rfl⟩ := hs
    obtain ⟨p, hp, h1, _⟩ := entry_of_orbit h ho
    rw [← h1, ← entry_eq_filter h hp]
    have hk := h.keyed.keys
    clear h1 ho h
    generalize S.dict = d at hp hk
    induction d with
    | nil => simp at hp
    | cons q d ih =>
      rw [List.map_cons, List.nodup_cons] at hk
      rw [List.lookup_cons]
      rcases List.mem_cons.1 hp with rfl | hp
      · simp
      · have : p.1 ≠ q.1 := fun e => hk.1 (e ▸ List.mem_map_of_mem hp)
        rw [show (p.1 == q.1) = false from by simpa using this]
        exact ih hp hk.2
  · rw [List.lookup_eq_none_iff]
    intro p hp
    obtain ⟨o, ho⟩ := List.exists_mem_of_ne_nil _ (h.keyed.nonempty p hp)
    have h1 := (mem_entry h hp o).1 ho
    simp only [bne_iff_ne, ne_eq]
    intro e
    exact hs ⟨o, h1.1, h1.2.trans e.symm⟩

theorem maxOf_spec (l : List K) (m : K) (h : maxOf l = some m) : m ∈ l ∧ ∀ a ∈ l, a ≤ m := by
  cases l with
  | nil => simp [maxOf] at h
  | cons a l =>
    simp only [maxOf, Option.some.injEq] at h
    subst h
    induction l generalizing a with
    | nil => simp
    | cons b l ih =>
      obtain ⟨h1, h2⟩ := ih (max a b)
      rw [List.foldl_cons]
      constructor
      · rcases List.mem_cons.1 h1 with h | h
        · rw [h]
          rcases max_choice a b with e | e <;> rw [e] <;> simp
        · simp [h]
      · intro c hc
        have hm := h2 (max a b) (by simp)
        rcases List.mem_cons.1 hc with rfl | hc
        · exact le_trans (le_max_left _ _) hm
        · rcases List.mem_cons.1 hc with rfl | hc
          · exact le_trans (le_max_right _ _) hm
          · exact h2 c (by simp [hc])

theorem maxOf_isSome (l : List K) (h : l ≠ []) : ∃ m, maxOf l = some m := by
  cases l with
  | nil => exact absurd rfl h
  | cons a l => exact ⟨_, rfl⟩

/-- a loop that never raises -/
theorem mapM_total {α β : Type*} (f : α → Option β) (l : List α) (h : ∀ a ∈ l, ∃ b, f a = some b) :
    ∃ out, l.mapM f = some out := by
  induction l with
  | nil => exact ⟨[], rfl⟩
  | cons a l ih =>
    obtain ⟨b, hb⟩ := h a (by simp)
    obtain ⟨out, ho⟩ := ih fun x hx => h x (by simp [hx])
    exact ⟨b :: out, by simp [List.mapM_cons, hb, ho]⟩

theorem mapM_option_mem {α β : Type*} {f : α → Option β} {l : List α} {out : List β}
    (h : l.mapM f = some out) (b : β) : b ∈ out ↔ ∃ a ∈ l, f a = some b := by
  induction l generalizing out with
  | nil =>
    simp only [List.mapM_nil] at h
    cases h
    simp
  | cons a l ih =>
    simp only [List.mapM_cons, Option.bind_eq_bind, Option.bind_eq_some_iff] at h
    obtain ⟨c, hc, t, ht, h⟩ := h
    cases h
    rw [List.mem_cons, ih ht]
    constructor
    · rintro (rfl | ⟨x, hx, e⟩)
      · exact ⟨a, by simp, hc⟩
      · exact ⟨x, by simp [hx], e⟩
    · rintro ⟨x, hx, e⟩
      rcases List.mem_cons.1 hx with rfl | hx
      · left
        rw [hc] at e
        exact (Option.some.inj e).symm
      · exact Or.inr ⟨x, hx, e⟩

theorem mapM_map {α β : Type*} {f : α → Option β} {g : α → β} {l : List α}
    (h : ∀ a ∈ l, f a = some (g a)) : l.mapM f = some (l.map g) := by
  induction l with
  | nil => rfl
  | cons a l ih =>
    rw [List.mapM_cons, h a (by simp), ih fun x hx => h x (by simp [hx])]
    rfl

/-! ### stable grouping -/

theorem filter_orderedInsert {α : Type*} (key : α → K) (k : K) (a : α) (l : List α) :
    (l.orderedInsert (keyBelow key) a).filter (fun b => decide (key b = k)) =
      if key a = k then a :: l.filter (fun b => decide (key b = k))
      else l.filter fun b => decide (key b = k) := by
  induction l with
  | nil => by_cases h : key a = k <;> simp [h]
  | cons b l ih =>
    rw [List.orderedInsert_cons]
    split_ifs with hab hk hk
    · rw [List.filter_cons_of_pos (by simpa using hk)]
    · rw [List.filter_cons_of_neg (by simpa using hk)]
    · have hb : key b ≠ k := by
        intro e
        exact hab (le_of_eq (by rw [hk, e]))
      rw [List.filter_cons_of_neg (by simpa using hb), ih, if_pos hk,
        List.filter_cons_of_neg (by simpa using hb)]
    · by_cases hb : key b = k
      · rw [List.filter_cons_of_pos (by simpa using hb), ih, if_neg hk,
          List.filter_cons_of_pos (by simpa using hb)]
      · rw [List.filter_cons_of_neg (by simpa using hb), ih, if_neg hk,
          List.filter_cons_of_neg (by simpa using hb)]

theorem filter_insertionSort {α : Type*} (key : α → K) (k : K) (l : List α) :
    (l.insertionSort (keyBelow key)).filter (fun b => decide (key b = k)) =
      l.filter fun b => decide (key b = k) := by
  induction l with
  | nil => rfl
  | cons a l ih =>
    rw [List.insertionSort_cons, filter_orderedInsert, ih]
    by_cases h : key a = k <;> simp [h]

theorem insertionSort_keyBelow {α : Type*} (key : α → K) (l : List α) :
    (l.insertionSort (keyBelow key)).Pairwise (keyBelow key) := by
  have h1 : Std.Total (keyBelow key) := ⟨fun a b => le_total (key a) (key b)⟩
  have h2 : IsTrans α (keyBelow key) := ⟨fun _ _ _ => le_trans⟩
  exact List.pairwise_insertionSort _ l

theorem runsByKey_sorted {α : Type*} (key : α → K) (l : List α) (hl : l.Pairwise (keyBelow key)) :
    ((runsByKey key l).map Prod.fst).Pairwise (· < ·) ∧
    (∀ q ∈ runsByKey key l, q.2 ≠ [] ∧ q.2 = l.filter fun b => decide (key b = q.1)) ∧
    (∀ a ∈ l, ∃ q ∈ runsByKey key l, q.1 = key a) ∧
    (∀ a t, l = a :: t → ∃ g rest, runsByKey key l = (key a, g) :: rest) := by
  induction l with
  | nil => simp [runsByKey]
  | cons a l ih =>
    rw [List.pairwise_cons] at hl
    obtain ⟨i1, i2, i3, i4⟩ := ih hl.2
    rw [runsByKey]
    cases hg : runsByKey key l with
    | nil =>
      have hn : l = [] := by
        by_contra hne
        obtain ⟨b, hb⟩ := List.exists_mem_of_ne_nil _ hne
        obtain ⟨q, hq, _⟩ := i3 b hb
        rw [hg] at hq
        simp at hq
      subst hn
      refine ⟨by simp, ?_, ?_, ?_⟩
      · intro q hq
        simp only [List.mem_singleton] at hq
        subst hq
        simp
      · intro b hb
        simp only [List.mem_singleton] at hb
        subst hb
        simp
      · intro b t e
        cases e
        exact ⟨_, _, rfl⟩
    | cons q rest =>
      obtain ⟨k, g⟩ := q
      simp only
      rw [hg] at i1 i2 i3 i4
      obtain ⟨b, t, rfl⟩ : ∃ b t, l = b :: t := by
        cases l with
        | nil => simp [runsByKey] at hg
        | cons b t => exact ⟨b, t, rfl⟩
      obtain ⟨g', rest', e⟩ := i4 b t rfl
      cases e
      have hab : key a ≤ key b := hl.1 b (by simp)
      split_ifs with hk
      · refine ⟨by simpa using i1, ?_, ?_, ?_⟩
        · intro q hq
          rcases List.mem_cons.1 hq with rfl | hq
          · refine ⟨by simp, ?_⟩
            rw [List.filter_cons_of_pos (by simpa using hk)]
            exact congrArg (List.cons a) (i2 (key b, g) (by simp)).2
          · have h2 := i2 q (by simp [hq])
            refine ⟨h2.1, ?_⟩
            have hlt : key b < q.1 := by
              rw [List.map_cons, List.pairwise_cons] at i1
              exact i1.1 q.1 (List.mem_map_of_mem hq)
            rw [List.filter_cons_of_neg, ← h2.2]
            simp only [decide_eq_true_eq]
            rw [hk]
            exact hlt.ne
        · intro c hc
          rcases List.mem_cons.1 hc with rfl | hc
          · exact ⟨_, List.mem_cons_self, hk.symm⟩
          · obtain ⟨q, hq, e⟩ := i3 c hc
            rcases List.mem_cons.1 hq with rfl | hq
            · exact ⟨_, List.mem_cons_self, e⟩
            · exact ⟨q, by simp [hq], e⟩
        · intro c t' e
          cases e
          exact ⟨a :: g, rest, by rw [hk]⟩
      · have hlt : key a < key b := lt_of_le_of_ne hab hk
        have hall : ∀ q ∈ (key b, g) :: rest, key a < q.1 := by
          intro q hq
          rcases List.mem_cons.1 hq with rfl | hq
          · exact hlt
          · rw [List.map_cons, List.pairwise_cons] at i1
            exact hlt.trans (i1.1 q.1 (List.mem_map_of_mem hq))
        refine ⟨?_, ?_, ?_, ?_⟩
        · rw [List.map_cons, List.pairwise_cons]
          refine ⟨?_, i1⟩
          intro k' hk'
          obtain ⟨q, hq, rfl⟩ := List.mem_map.1 hk'
          exact hall q hq
        · intro q hq
          rcases List.mem_cons.1 hq with rfl | hq
          · refine ⟨by simp, ?_⟩
            rw [List.filter_cons_of_pos (by simp), List.filter_eq_nil_iff.2]
            intro c hc
            simp only [decide_eq_true_eq]
            have : key b ≤ key c := by
              rcases List.mem_cons.1 hc with rfl | hc
              · exact le_rfl
              · exact (List.pairwise_cons.1 hl.2).1 c hc
            exact (hlt.trans_le this).ne'
          · have h2 := i2 q hq
            refine ⟨h2.1, ?_⟩
            rw [List.filter_cons_of_neg, ← h2.2]
            simp only [decide_eq_true_eq]
            exact (hall q hq).ne
        · intro c hc
          rcases List.mem_cons.1 hc with rfl | hc
          · exact ⟨_, List.mem_cons_self, rfl⟩
          · obtain ⟨q, hq, e⟩ := i3 c hc
            exact ⟨q, by simp only [List.mem_cons] at hq ⊢; exact Or.inr hq, e⟩
        · intro c t' e
          cases e
          exact ⟨[a], _, rfl⟩

/-! ### blocks of function ids -/

theorem blocks_flat (l : List Orb) (b : ℕ)
    (h : ∀ (j : ℕ) (o : Orb), l[j]? = some o → o.bitId = b + nFuns (l.take j)) :
    l.flatMap (fun o => List.range' o.bitId o.combos.length) = List.range' b (nFuns l) := by
  induction l generalizing b with
  | nil => simp [nFuns]
  | cons a l ih =>
    have ha : a.bitId = b := by simpa [nFuns] using h 0 a rfl
    rw [List.flatMap_cons, ih (b + a.combos.length)]
    · rw [ha, show nFuns (a :: l) = a.combos.length + nFuns l from by simp [nFuns],
        ← List.range'_append_1]
    · intro j o ho
      have := h (j + 1) o (by simpa using ho)
      rw [this]
      simp [nFuns]; omega

/-- consecutive blocks make one range from the first to the last -/
theorem block_range (l : List Orb) (b : ℕ) (a z : Orb) (ha : l.head? = some a)
    (hz : l.getLast? = some z)
    (h : ∀ (j : ℕ) (o : Orb), l[j]? = some o → o.bitId = b + nFuns (l.take j)) :
    List.range' a.bitId (z.bitId + z.combos.length - a.bitId) =
      l.flatMap fun o => List.range' o.bitId o.combos.length := by
  rw [blocks_flat l b h]
  have h1 : a.bitId = b := by
    have := h 0 a (by rw [← List.head?_eq_getElem?]; exact ha)
    simpa [nFuns] using this
  have h2 : z.bitId + z.combos.length = b + nFuns l := by
    rw [List.getLast?_eq_getElem?] at hz
    have := h _ z hz
    rw [this]
    have hlt : l.length - 1 < l.length := (List.getElem?_eq_some_iff.1 hz).1
    have he : l = l.take (l.length - 1) ++ [z] := by
      have e1 := List.take_append_getElem hlt (l := l)
      rw [(List.getElem?_eq_some_iff.1 hz).2] at e1
      rw [e1, List.take_of_length_le (by omega)]
    have : nFuns l = nFuns (l.take (l.length - 1)) + z.combos.length := by
      conv_lhs => rw [he]
      simp [nFuns]
    omega
  rw [h1, h2, Nat.add_sub_cancel_left]

theorem entry_blocks {S : OrbitSpace} (h : S.Ok) (pre : List (ℕ × List Orb)) (p : ℕ × List Orb)
    (post : List (ℕ × List Orb)) (hd : S.dict = pre ++ p :: post) (j : ℕ) (o : Orb)
    (ho : p.2[j]? = some o) :
    o.bitId = 1 + nFuns (pre.flatMap Prod.snd) + nFuns (p.2.take j) := by
  have hS := orbits_of_sorted h.sorted
  rw [hd, List.flatMap_append, List.flatMap_cons] at hS
  have hj : j < p.2.length := (List.getElem?_eq_some_iff.1 ho).1
  have hget : S.orbits[(pre.flatMap Prod.snd).length + j]? = some o := by
    rw [hS, List.getElem?_append_right (by omega), Nat.add_sub_cancel_left,
      List.getElem?_append_left hj, ho]
  rw [(h.get _ o hget).2, hS]
  have : (pre.flatMap Prod.snd ++ (p.2 ++ post.flatMap Prod.snd)).take
      ((pre.flatMap Prod.snd).length + j) = pre.flatMap Prod.snd ++ p.2.take j := by
    rw [List.take_append, List.take_of_length_le (by omega), Nat.add_sub_cancel_left,
      List.take_append_of_le_length hj.le]
  rw [this]
  simp [nFuns]; omega

theorem indsBySize_eq {size : ℕ → ℕ} {S : OrbitSpace} (h : SelOk size S) :
    S.indsBySize = some (S.dict.map fun p =>
      (p.1, p.2.flatMap fun o => List.range' o.bitId o.combos.length)) := by
  unfold OrbitSpace.indsBySize
  apply mapM_map
  intro p hp
  have hne := h.keyed.nonempty p hp
  obtain ⟨pre, post, hd⟩ := List.append_of_mem hp
  cases ha : p.2.head? with
  | none => exact absurd (List.head?_eq_none_iff.1 ha) hne
  | some a =>
    cases hz : p.2.getLast? with
    | none => exact absurd (List.getLast?_eq_none_iff.1 hz) hne
    | some z =>
      simp only
      rw [block_range p.2 _ a z ha hz (fun j o ho => entry_blocks h.ok pre p post hd j o ho)]

theorem foldl_blocks (l : List Orb) (acc : List ℕ) :
    l.foldl (fun inds o => inds ++ List.range' o.bitId o.combos.length) acc =
      acc ++ l.flatMap fun o => List.range' o.bitId o.combos.length := by
  induction l generalizing acc with
  | nil => simp
  | cons a l ih => simp [ih, List.flatMap_cons]

/-- the functions of an orbit are those of its block -/
theorem owner_iff {S : OrbitSpace} (h : S.Ok) {o : Orb} (ho : o ∈ S.orbits) (j : ℕ) :
    S.functionOrbitIds[j]? = some o.id ↔ o.bitId ≤ j ∧ j < o.bitId + o.combos.length := by
  have hfi : S.functionOrbitIds =
      0 :: S.orbits.flatMap fun o => List.replicate o.combos.length o.id := by
    unfold OrbitSpace.functionOrbitIds; rw [foldl_replicate]; rfl
  obtain ⟨k, hk, rfl⟩ := List.getElem_of_mem ho
  have hget := List.getElem?_eq_getElem hk
  obtain ⟨h1, h2⟩ := h.get k _ hget
  constructor
  · intro hj
    rw [hfi] at hj
    cases j with
    | zero =>
      simp only [List.getElem?_cons_zero, Option.some.injEq] at hj
      omega
    | succ f =>
      rw [List.getElem?_cons_succ] at hj
      have hf : f < nFuns S.orbits := by
        rw [← length_flatMap_replicate]
        exact (List.getElem?_eq_some_iff.1 hj).1
      obtain ⟨k', o', i, c, ho', hc, rfl⟩ := exists_block S.orbits f hf
      have hi := (List.getElem?_eq_some_iff.1 hc).1
      rw [get_flatMap_replicate _ _ _ ho' i hi, Option.some.injEq, (h.get k' o' ho').1, h1] at hj
      have : k' = k := by omega
      subst this
      rw [hget, Option.some.injEq] at ho'
      subst ho'
      omega
  · rintro ⟨ha, hb⟩
    obtain ⟨i, rfl⟩ := Nat.exists_eq_add_of_le ha
    rw [hfi, h2, show 1 + nFuns (List.take k S.orbits) + i =
        (nFuns (List.take k S.orbits) + i) + 1 by omega, List.getElem?_cons_succ]
    exact get_flatMap_replicate _ _ _ hget i (by omega)

theorem mem_blocks (l : List Orb) (j : ℕ) :
    j ∈ l.flatMap (fun o => List.range' o.bitId o.combos.length) ↔
      ∃ o ∈ l, o.bitId ≤ j ∧ j < o.bitId + o.combos.length := by
  simp [List.mem_flatMap, List.mem_range'_1]

theorem keys_lt {size : ℕ → ℕ} {S : OrbitSpace} (h : SelOk size S) :
    (S.dict.map Prod.fst).Pairwise (· < ·) := by
  have h1 := (keys_pairwise S.dict).1 h.ok.sorted
  exact (h1.and h.keyed.keys).imp fun ⟨a, b⟩ => lt_of_le_of_ne a b

omit [LinearOrder K] in
/-- the lower bound of a size -/
theorem lookup_dict_all {size : ℕ → ℕ} {S : OrbitSpace} (h : SelOk size S) (x : K) (s : ℕ)
    (hs : ∃ o ∈ S.orbits, size o.tag = s) : ((Bound.all x).dict S).lookup s = some x := by
  obtain ⟨o, ho, rfl⟩ := hs
  obtain ⟨p, hp, h1, _⟩ := entry_of_orbit h ho
  rw [← h1]
  change (S.dict.map fun p => (p.1, x)).lookup p.1 = some x
  generalize S.dict = d at hp
  clear h1 ho h
  induction d with
  | nil => simp at hp
  | cons q d ih =>
    rw [List.map_cons, List.lookup_cons]
    by_cases e : p.1 = q.1
    · simp [e]
    · rw [show (p.1 == q.1) = false from by simpa using e]
      rcases List.mem_cons.1 hp with rfl | hp
      · exact absurd rfl e
      · exact ih hp

theorem mapM_none {α β : Type*} {f : α → Option β} {l : List α} {a : α} (ha : a ∈ l)
    (h : f a = none) : l.mapM f = none := by
  induction l with
  | nil => simp at ha
  | cons b l ih =>
    rw [List.mapM_cons]
    rcases List.mem_cons.1 ha with rfl | ha
    · rw [h]; rfl
    · cases f b with
      | none => rfl
      | some c => rw [ih ha]; rfl

/-- the tags of the orbits after removing functions so that no orbit vanishes -/
theorem removeCorr_tags {S T : OrbitSpace} (h : S.Ok) (ids : List ℤ)
    (he : (S.orbits.filter fun o =>
      decide (¬ (o.toRemove ids).isEmpty ∧ (o.removeCorr ids).combos = [])).isEmpty)
    (hT : S.removeCorr ids = some T) : T.orbits.map Orb.tag = S.orbits.map Orb.tag := by
  unfold OrbitSpace.removeCorr at hT
  dsimp only at hT
  rw [List.isEmpty_iff] at he
  rw [he] at hT
  simp only [List.map_nil, List.isEmpty_nil, if_true, Option.some.injEq] at hT
  subst hT
  have hc := congrArg (List.map Prod.fst) (assigned_content
    (S.dict.map fun p => (p.1, p.2.map fun o => o.removeCorr ids)))
  rw [List.map_map, List.map_map] at hc
  refine hc.trans ?_
  rw [dictOrbits_of_sorted (map_keys_sorted h.sorted _), flat_map_map, List.map_map,
    orbits_of_sorted h.sorted]
  apply List.map_congr_left
  intro o _
  exact (removeCorr_fixed o ids).2.1

/-- the cache holds what would be computed -/
def SelState.Ok (rdiam : ℕ → K) (s : SelState K) : Prop :=
  s.space.Ok ∧ ∀ c, s.cache = some c → c = s.space.computeByDiameter rdiam

theorem selStep_ok (rdiam : ℕ → K) {s : SelState K} (h : s.Ok rdiam) (op : SelOp) :
    (s.step rdiam op).Ok rdiam := by
  cases op with
  | orbits ids =>
    unfold SelState.step
    dsimp only
    cases hT : s.space.removeOrbits ids with
    | none => exact h
    | some T =>
      have := step_ok h.1 (.orbits ids)
      rw [show s.space.step (.orbits ids) = T from by
        show (s.space.removeOrbits ids).getD _ = T
        rw [hT]; rfl] at this
      exact ⟨this, by simp⟩
  | functions ids =>
    unfold SelState.step
    dsimp only
    cases hT : s.space.removeCorr ids with
    | none => exact h
    | some T =>
      have := step_ok h.1 (.functions ids)
      rw [show s.space.step (.functions ids) = T from by
        show (s.space.removeCorr ids).getD _ = T
        rw [hT]; rfl] at this
      refine ⟨this, ?_⟩
      intro c hc
      dsimp only at hc
      split_ifs at hc with he
      rw [h.2 c hc]
      unfold OrbitSpace.computeByDiameter
      rw [removeCorr_tags h.1 ids he hT]
  | read =>
    unfold SelState.step SelState.read
    cases hc : s.cache with
    | some c => exact h
    | none =>
      refine ⟨h.1, ?_⟩
      intro c hc
      dsimp only at hc
      exact (Option.some.inj hc).symm

theorem selRun_ok (rdiam : ℕ → K) {s : SelState K} (h : s.Ok rdiam) (ops : List SelOp) :
    (s.run rdiam ops).Ok rdiam := by
  induction ops generalizing s with
  | nil => exact h
  | cons op ops ih => exact ih (selStep_ok rdiam h op)

theorem read_eq (rdiam : ℕ → K) {s : SelState K} (h : s.Ok rdiam) :
    (s.read rdiam).1 = s.space.computeByDiameter rdiam := by
  unfold SelState.read
  cases hc : s.cache with
  | some c => exact h.2 c hc
  | none => rfl

/-- The bound that holds for a size. -/
def boundAt : Bound K → ℕ → Option K
  | .all x, _ => some x
  | .bySize l, s => l.lookup s

theorem pick_eq {size : ℕ → ℕ} {S : OrbitSpace} (h : SelOk size S) (diam : ℕ → K)
    (lower : Bound K) (q : ℕ × K) :
    S.pick diam (lower.dict S) q =
      if (∃ o ∈ S.orbits, size o.tag = q.1) ∧ (boundAt lower q.1).isSome then
        some (S.orbits.filter fun o => decide (size o.tag = q.1) && (decide (diam o.tag ≤ q.2) &&
          (boundAt lower q.1).any fun l => decide (l ≤ diam o.tag)))
      else none := by
  unfold OrbitSpace.pick
  rw [lookup_entry h]
  by_cases hs : ∃ o ∈ S.orbits, size o.tag = q.1
  · rw [if_pos hs]
    have hl : (lower.dict S).lookup q.1 = boundAt lower q.1 := by
      cases lower with
      | all x => exact lookup_dict_all h x q.1 hs
      | bySize l => rfl
    have hne : (S.orbits.filter fun o => decide (size o.tag = q.1)) ≠ [] := by
      obtain ⟨o, ho, e⟩ := hs
      exact List.ne_nil_of_mem (List.mem_filter.2 ⟨ho, by simpa using e⟩)
    simp only [hne, if_false, hl]
    cases hb : boundAt lower q.1 with
    | none => simp
    | some l =>
      simp only [Option.isSome_some, and_true, hs, if_true, Option.any_some, List.filter_filter,
        Option.some.injEq]
      apply List.filter_congr
      intro o _
      by_cases h1 : size o.tag = q.1 <;> by_cases h2 : diam o.tag ≤ q.2 <;>
        by_cases h3 : l ≤ diam o.tag <;> simp [h1, h2, h3]
  · rw [if_neg hs, if_neg fun h => hs h.1]

theorem fromCutoffs_some {size : ℕ → ℕ} {S : OrbitSpace} (h : SelOk size S) (diam : ℕ → K)
    (upper lower : Bound K) (os : List Orb) :
    S.fromCutoffs diam upper lower = some os ↔
      (∀ q ∈ upper.dict S, (∃ o ∈ S.orbits, size o.tag = q.1) ∧ (boundAt lower q.1).isSome) ∧
      os = (upper.dict S).flatMap fun q => S.orbits.filter fun o =>
        decide (size o.tag = q.1) && (decide (diam o.tag ≤ q.2) &&
          (boundAt lower q.1).any fun l => decide (l ≤ diam o.tag)) := by
  unfold OrbitSpace.fromCutoffs
  by_cases hall : ∀ q ∈ upper.dict S,
      (∃ o ∈ S.orbits, size o.tag = q.1) ∧ (boundAt lower q.1).isSome
  · rw [mapM_map (f := S.pick diam (lower.dict S)) (l := upper.dict S) fun q hq => by
      rw [pick_eq h, if_pos (hall q hq)]]
    simp only [Option.map_some, Option.some.injEq]
    rw [List.flatMap_def]
    constructor
    · intro e
      exact ⟨hall, e.symm⟩
    · intro e
      exact e.2.symm
  · push Not at hall
    obtain ⟨q, hq, hn⟩ := hall
    rw [mapM_none hq (by rw [pick_eq h, if_neg]; rintro ⟨a, b⟩; exact hn a b)]
    constructor
    · intro e
      simp at e
    · rintro ⟨a, -⟩
      exact absurd (a q hq).2 (hn (a q hq).1)

theorem flatMap_entries {size : ℕ → ℕ} (d : List (ℕ × List Orb)) (h : Keyed size d)
    (f : Orb → Bool) (g : ℕ → Orb → Bool) (hg : ∀ p ∈ d, ∀ o ∈ p.2, g p.1 o = f o)
    (l : List Orb) (hl : l = d.flatMap Prod.snd) :
    (d.flatMap fun p => l.filter fun o => decide (size o.tag = p.1) && g p.1 o) = l.filter f := by
  have h1 : ∀ p ∈ d, (l.filter fun o => decide (size o.tag = p.1) && g p.1 o) = p.2.filter f := by
    intro p hp
    have e : (fun o : Orb => decide (size o.tag = p.1) && g p.1 o) =
        fun o => g p.1 o && decide (size o.tag = p.1) := by
      funext o; rw [Bool.and_comm]
    rw [e, ← List.filter_filter, hl, flatMap_filter_key d h p hp]
    apply List.filter_congr
    intro o ho
    exact hg p hp o ho
  rw [List.flatMap_congr h1, hl]
  clear h1 hl hg h
  induction d with
  | nil => rfl
  | cons p d ih => rw [List.flatMap_cons, List.flatMap_cons, List.filter_append, ih]

end Smol
