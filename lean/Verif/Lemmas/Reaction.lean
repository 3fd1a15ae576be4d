import Verif.Spec.Reaction
import Mathlib.Tactic.Ring
import Mathlib.Tactic.Linarith
import Mathlib.Data.List.Nodup
import Mathlib.Algebra.BigOperators.Group.List.Basic

/-! Lemmas for reactions. -/

namespace Smol
open Smol.Spec

/-! ### slots -/

theorem mem_slotsFrom {sl start : ℕ} {bits : List (List ℕ)} {k sp d : ℕ} :
    (k, sp, d) ∈ slotsFrom sl start bits ↔
      ∃ i l j, bits[i]? = some l ∧ l[j]? = some sp ∧ k = sl + i ∧
        d = start + components (bits.take i) + j := by
  induction bits generalizing sl start with
  | nil => simp [slotsFrom]
  | cons species bits ih =>
    unfold slotsFrom
    rw [List.mem_append, ih]
    constructor
    · rintro (h | ⟨i, l, j, h1, h2, h3, h4⟩)
      · obtain ⟨p, hp, he⟩ := List.mem_map.1 h
        obtain ⟨a, b⟩ := p
        simp only [Prod.mk.injEq] at he
        obtain ⟨rfl, rfl, rfl⟩ := he
        obtain ⟨j, hj⟩ := List.mem_iff_getElem?.1 hp
        rw [List.getElem?_zip_eq_some] at hj
        obtain ⟨h1, h2⟩ := hj
        refine ⟨0, species, j, rfl, h1, rfl, ?_⟩
        have hlt := (List.getElem?_eq_some_iff.1 h1).1
        rw [List.getElem?_range' hlt] at h2
        simp only [Option.some.injEq] at h2
        simp [components]
        omega
      · refine ⟨i + 1, l, j, by simpa using h1, h2, by omega, ?_⟩
        simp only [List.take_succ_cons, components, List.map_cons, List.sum_cons] at h4 ⊢
        omega
    · rintro ⟨i, l, j, h1, h2, h3, h4⟩
      cases i with
      | zero =>
        left
        simp only [List.getElem?_cons_zero, Option.some.injEq] at h1
        subst h1
        have hlt := (List.getElem?_eq_some_iff.1 h2).1
        refine List.mem_map.2 ⟨(sp, d), ?_, by simp [h3]⟩
        apply List.mem_iff_getElem?.2
        refine ⟨j, ?_⟩
        rw [List.getElem?_zip_eq_some]
        refine ⟨h2, ?_⟩
        rw [List.getElem?_range' hlt]
        simp only [List.take_zero, components, List.map_nil, List.sum_nil] at h4
        simp only [Option.some.injEq]
        omega
      | succ i =>
        right
        refine ⟨i, l, j, by simpa using h1, h2, by omega, ?_⟩
        simp only [List.take_succ_cons, components, List.map_cons, List.sum_cons] at h4 ⊢
        omega

theorem mem_slots {bits : List (List ℕ)} {k sp d : ℕ} :
    (k, sp, d) ∈ slotsFrom 0 0 bits ↔ IsComponent bits k sp d := by
  rw [mem_slotsFrom]
  unfold IsComponent
  constructor
  · rintro ⟨i, l, j, h1, h2, h3, h4⟩
    obtain rfl : k = i := by omega
    exact ⟨l, j, h1, h2, by omega⟩
  · rintro ⟨l, j, h1, h2, h3⟩
    exact ⟨k, l, j, h1, h2, by omega, by omega⟩

theorem components_take {bits : List (List ℕ)} {k : ℕ} {l : List ℕ} (h : bits[k]? = some l) :
    components (bits.take k) + l.length ≤ components bits := by
  induction bits generalizing k with
  | nil => simp at h
  | cons b bits ih =>
    cases k with
    | zero =>
      simp only [List.getElem?_cons_zero, Option.some.injEq] at h
      subst h
      simp [components]
    | succ k =>
      have := ih (k := k) (by simpa using h)
      simp only [components, List.take_succ_cons, List.map_cons, List.sum_cons] at this ⊢
      omega

theorem component_lt {bits : List (List ℕ)} {k sp d : ℕ} (h : IsComponent bits k sp d) :
    d < components bits := by
  obtain ⟨l, j, h1, h2, rfl⟩ := h
  have := components_take h1
  have := (List.getElem?_eq_some_iff.1 h2).1
  omega

theorem exists_component {bits : List (List ℕ)} {d : ℕ} (h : d < components bits) :
    ∃ k sp, IsComponent bits k sp d := by
  induction bits generalizing d with
  | nil => simp [components] at h
  | cons b bits ih =>
    by_cases hd : d < b.length
    · exact ⟨0, b[d], b, d, rfl, List.getElem?_eq_getElem hd, by simp [components]⟩
    · have hlt : d - b.length < components bits := by
        simp only [components, List.map_cons, List.sum_cons] at h ⊢
        omega
      obtain ⟨k, sp, l, j, h1, h2, h3⟩ := ih hlt
      refine ⟨k + 1, sp, l, j, by simpa using h1, h2, ?_⟩
      simp only [components, List.take_succ_cons, List.map_cons, List.sum_cons] at h3 ⊢
      omega

theorem component_unique {name : ℕ → List Char} {bits : List (List ℕ)} (hr : Readable name bits)
    {k sp sp' d d' : ℕ} (h : IsComponent bits k sp d) (h' : IsComponent bits k sp' d')
    (hn : name sp = name sp') : d = d' := by
  obtain ⟨l, j, h1, h2, rfl⟩ := h
  obtain ⟨l', j', h1', h2', rfl⟩ := h'
  obtain rfl : l = l' := Option.some.inj (h1.symm.trans h1')
  have hnd := hr.2 l (List.mem_of_getElem? h1)
  have e1 : (l.map name)[j]? = some (name sp) := by rw [List.getElem?_map, h2]; rfl
  have e2 : (l.map name)[j']? = some (name sp) := by rw [List.getElem?_map, h2', hn]; rfl
  have := (List.getElem?_inj (List.getElem?_eq_some_iff.1 e1).1 hnd).1 (e1.trans e2.symm)
  omega

/-! ### sides -/

theorem reactionSide_spec (sgn : ℤ) (hs : sgn = 1 ∨ sgn = -1) (u : List ℤ) (slots : List (ℕ × ℕ × ℕ))
    (h : ∀ s ∈ slots, s.2.2 < u.length) : ∃ side, reactionSide sgn u slots = some side ∧
      ∀ n sp k, (n, sp, k) ∈ side ↔ 0 < n ∧ ∃ d, (k, sp, d) ∈ slots ∧ u[d]? = some (sgn * n) := by
  induction slots with
  | nil => exact ⟨[], rfl, by simp⟩
  | cons s slots ih =>
    obtain ⟨sl, sp0, d0⟩ := s
    obtain ⟨side, h1, h2⟩ := ih fun s hs => h s (List.mem_cons_of_mem _ hs)
    have hlt : d0 < u.length := h _ List.mem_cons_self
    have hu : u[d0]? = some u[d0] := List.getElem?_eq_getElem hlt
    set x := u[d0] with hx
    refine ⟨if 0 < sgn * x then (x.natAbs, sp0, sl) :: side else side, ?_, ?_⟩
    · unfold reactionSide
      rw [hu, h1]
    · intro n sp k
      have key : (0 < n ∧ x = sgn * n) ↔ (0 < sgn * x ∧ n = x.natAbs) := by
        rcases hs with rfl | rfl <;> constructor <;> rintro ⟨a, b⟩ <;> constructor <;> omega
      have hsplit : (0 < n ∧ ∃ d, (k, sp, d) ∈ (sl, sp0, d0) :: slots ∧ u[d]? = some (sgn * n)) ↔
          (((0 < n ∧ x = sgn * n) ∧ k = sl ∧ sp = sp0) ∨
            (0 < n ∧ ∃ d, (k, sp, d) ∈ slots ∧ u[d]? = some (sgn * n))) := by
        constructor
        · rintro ⟨hn, d, hm, hd⟩
          rcases List.mem_cons.1 hm with he | hm
          · simp only [Prod.mk.injEq] at he
            obtain ⟨rfl, rfl, rfl⟩ := he
            rw [hu] at hd
            exact Or.inl ⟨⟨hn, Option.some.inj hd⟩, rfl, rfl⟩
          · exact Or.inr ⟨hn, d, hm, hd⟩
        · rintro (⟨⟨hn, he⟩, rfl, rfl⟩ | ⟨hn, d, hm, hd⟩)
          · exact ⟨hn, d0, List.mem_cons_self, by rw [hu, he]⟩
          · exact ⟨hn, d, List.mem_cons_of_mem _ hm, hd⟩
      rw [hsplit, key, ← h2]
      by_cases hp : 0 < sgn * x
      · rw [if_pos hp, List.mem_cons]
        simp only [Prod.mk.injEq, hp, true_and]
        constructor
        · rintro (⟨rfl, rfl, rfl⟩ | h)
          · exact Or.inl ⟨rfl, rfl, rfl⟩
          · exact Or.inr h
        · rintro (⟨rfl, rfl, rfl⟩ | h)
          · exact Or.inl ⟨rfl, rfl, rfl⟩
          · exact Or.inr h
      · rw [if_neg hp]
        simp [hp]

theorem reactionSide_none (sgn : ℤ) (u : List ℤ) (slots : List (ℕ × ℕ × ℕ))
    (h : ∃ s ∈ slots, u.length ≤ s.2.2) : reactionSide sgn u slots = none := by
  induction slots with
  | nil =>
    obtain ⟨s, hs, -⟩ := h
    simp at hs
  | cons s slots ih =>
    obtain ⟨sl, sp0, d0⟩ := s
    obtain ⟨q, hq, hle⟩ := h
    unfold reactionSide
    rcases List.mem_cons.1 hq with rfl | hq
    · rw [List.getElem?_eq_none_iff.2 hle]
    · rw [ih ⟨q, hq, hle⟩]
      cases u[d0]? <;> rfl

theorem reactionSide_neg (sgn : ℤ) (u : List ℤ) (slots : List (ℕ × ℕ × ℕ)) :
    reactionSide sgn (u.map fun x => -x) slots = reactionSide (-sgn) u slots := by
  induction slots with
  | nil => rfl
  | cons s slots ih =>
    obtain ⟨sl, sp0, d0⟩ := s
    unfold reactionSide
    rw [ih, List.getElem?_map]
    cases u[d0]? with
    | none => rfl
    | some x =>
      cases reactionSide (-sgn) u slots with
      | none => rfl
      | some r => simp only [Option.map_some, Int.natAbs_neg, mul_neg, neg_mul]

theorem side_total (w : ℕ → ℕ → ℤ) (u : List ℤ) (slots : List (ℕ × ℕ × ℕ)) {l r : List (ℕ × ℕ × ℕ)}
    (hl : reactionSide (-1) u slots = some l) (hr : reactionSide 1 u slots = some r) :
    sideTotal w r - sideTotal w l = (slots.map fun s => w s.1 s.2.1 * u.getD s.2.2 0).sum := by
  induction slots generalizing l r with
  | nil =>
    cases hl
    cases hr
    rfl
  | cons s slots ih =>
    obtain ⟨sl, sp0, d0⟩ := s
    unfold reactionSide at hl hr
    cases hx : u[d0]? with
    | none => rw [hx] at hl; cases hl
    | some x =>
      rw [hx] at hl hr
      cases h1 : reactionSide (-1) u slots with
      | none => rw [h1] at hl; cases hl
      | some l' =>
        cases h2 : reactionSide 1 u slots with
        | none => rw [h2] at hr; cases hr
        | some r' =>
          rw [h1] at hl
          rw [h2] at hr
          simp only [Option.some.injEq] at hl hr
          have := ih h1 h2
          have hd : u.getD d0 0 = x := by rw [List.getD_eq_getElem?_getD, hx]; rfl
          simp only [List.map_cons, List.sum_cons, hd, ← this]
          subst hl
          subst hr
          have hc : ∀ (t : ℕ × ℕ × ℕ) (s : List (ℕ × ℕ × ℕ)),
              sideTotal w (t :: s) = (t.1 : ℤ) * w t.2.2 t.2.1 + sideTotal w s := by
            intro t s; simp [sideTotal]
          rcases lt_trichotomy x 0 with h0 | h0 | h0
          · rw [if_neg (by omega), if_pos (by omega), hc]
            simp only
            have : (x.natAbs : ℤ) = -x := by omega
            rw [this]; ring
          · subst h0
            rw [if_neg (by omega), if_neg (by omega)]; ring
          · rw [if_pos (by omega), if_neg (by omega), hc]
            simp only
            have : (x.natAbs : ℤ) = x := by omega
            rw [this]; ring

theorem sum_reaction_slots (w : ℕ → ℕ → ℤ) (u : List ℤ) (bits : List (List ℕ)) (sl start : ℕ)
    (h : start + components bits ≤ u.length) :
    ((slotsFrom sl start bits).map fun s => w s.1 s.2.1 * u.getD s.2.2 0).sum =
      changeOf w sl bits (u.drop start) := by
  induction bits generalizing sl start with
  | nil => simp [slotsFrom, changeOf]
  | cons b bits ih =>
    simp only [components, List.map_cons, List.sum_cons] at h
    unfold slotsFrom changeOf
    rw [List.map_append, List.sum_append, ih _ _ (by simp only [components]; omega), List.drop_drop]
    congr 1
    rw [List.map_map]
    congr 1
    have hb : start + b.length ≤ u.length := by omega
    clear ih h
    induction b generalizing start with
    | nil => simp
    | cons sp b ih =>
      simp only [List.length_cons] at hb
      have hlt : start < u.length := by omega
      rw [List.length_cons, List.range'_succ, List.zip_cons_cons, List.map_cons, ih (start + 1) (by omega)]
      rw [List.drop_eq_getElem_cons hlt, List.zipWith_cons_cons]
      simp only [Function.comp, List.getD_eq_getElem?_getD, List.getElem?_eq_getElem hlt, Option.getD_some]

theorem reactionSide_sublist {sgn : ℤ} {u : List ℤ} {slots side : List (ℕ × ℕ × ℕ)}
    (h : reactionSide sgn u slots = some side) :
    (side.map Prod.snd).Sublist (slots.map fun s => (s.2.1, s.1)) := by
  induction slots generalizing side with
  | nil =>
    cases h
    exact List.Sublist.refl _
  | cons s slots ih =>
    obtain ⟨sl, sp0, d0⟩ := s
    unfold reactionSide at h
    cases hx : u[d0]? with
    | none => rw [hx] at h; cases h
    | some x =>
      cases hr : reactionSide sgn u slots with
      | none => rw [hx, hr] at h; cases h
      | some r =>
        rw [hx, hr] at h
        simp only [Option.some.injEq] at h
        have := ih hr
        rw [List.map_cons]
        subst h
        split
        · rw [List.map_cons]
          exact this.cons_cons _
        · exact this.cons _

theorem slots_nodup {name : ℕ → List Char} (bits : List (List ℕ)) (sl start : ℕ)
    (h : ∀ l ∈ bits, (l.map name).Nodup) :
    ((slotsFrom sl start bits).map fun s => (s.2.1, s.1)).Nodup := by
  induction bits generalizing sl start with
  | nil => simp [slotsFrom]
  | cons b bits ih =>
    unfold slotsFrom
    rw [List.map_append, List.nodup_append]
    refine ⟨?_, ih _ _ fun l hl => h l (List.mem_cons_of_mem _ hl), ?_⟩
    · have hb : b.Nodup := List.Nodup.of_map _ (h b List.mem_cons_self)
      rw [List.map_map]
      have : (b.zip (List.range' start b.length)).map Prod.fst = b :=
        List.map_fst_zip (by simp)
      have h2 : (b.zip (List.range' start b.length)).map
          ((fun s : ℕ × ℕ × ℕ => (s.2.1, s.1)) ∘ fun p => (sl, p.1, p.2)) = b.map fun a => (a, sl) := by
        conv_rhs => rw [← this]
        rw [List.map_map]
        rfl
      rw [h2]
      exact hb.map fun a a' he => (Prod.mk.inj he).1
    · intro a ha a' ha' he
      subst he
      obtain ⟨s, hs, rfl⟩ := List.mem_map.1 ha
      obtain ⟨p, -, rfl⟩ := List.mem_map.1 hs
      obtain ⟨⟨k, sp, d⟩, hs', he⟩ := List.mem_map.1 ha'
      obtain ⟨i, l, j, -, -, hk, -⟩ := mem_slotsFrom.1 hs'
      simp only [Prod.mk.injEq] at he
      omega

/-- What a reaction is made of. -/
theorem flipToReaction_some (name : ℕ → List Char) (u : List ℤ) (bits : List (List ℕ))
    (hu : components bits ≤ u.length) : ∃ l r,
      reactionSide (-1) u (slotsFrom 0 0 bits) = some l ∧ reactionSide 1 u (slotsFrom 0 0 bits) = some r ∧
      Lists bits u (-1) l ∧ Lists bits u 1 r ∧
      flipToReaction name u bits = some (joinPlus (l.map (termText name)) ++ [' ', '-', '>', ' '] ++
        joinPlus (r.map (termText name))) := by
  have hs : ∀ s ∈ slotsFrom 0 0 bits, s.2.2 < u.length := by
    rintro ⟨k, sp, d⟩ h
    exact lt_of_lt_of_le (component_lt (mem_slots.1 h)) hu
  obtain ⟨l, h1, h2⟩ := reactionSide_spec (-1) (Or.inr rfl) u _ hs
  obtain ⟨r, h3, h4⟩ := reactionSide_spec 1 (Or.inl rfl) u _ hs
  refine ⟨l, r, h1, h3, ?_, ?_, by unfold flipToReaction; rw [h1, h3]⟩
  · intro n sp k
    rw [h2]
    simp only [mem_slots]
  · intro n sp k
    rw [h4]
    simp only [mem_slots]

theorem lists_names {name : ℕ → List Char} {bits : List (List ℕ)} {u : List ℤ} {sgn : ℤ}
    {side : List (ℕ × ℕ × ℕ)} (hr : Readable name bits) (h : Lists bits u sgn side) :
    ∀ t ∈ side, ' ' ∉ name t.2.1 := by
  rintro ⟨n, sp, k⟩ ht
  obtain ⟨-, d, ⟨l, j, h1, h2, -⟩, -⟩ := (h n sp k).1 ht
  exact hr.1 l (List.mem_of_getElem? h1) sp (List.mem_of_getElem? h2)

/-! ### texts -/

theorem toString_digits (n : ℕ) : (toString n).toList = Nat.toDigits 10 n := by
  change (Nat.repr n).toList = _
  unfold Nat.repr
  simp

theorem joinPlus_eq (name : ℕ → List Char) (side : List (ℕ × ℕ × ℕ)) :
    joinPlus (side.map (termText name)) = sideText name side := by
  unfold sideText
  have : (fun t : ℕ × ℕ × ℕ => (toString t.1).toList ++ " ".toList ++ name t.2.1 ++ "(".toList ++
      (toString t.2.2).toList ++ ")".toList) = termText name := by
    funext t
    rw [toString_digits, toString_digits]
    rfl
  rw [this]
  generalize side.map (termText name) = ts
  induction ts with
  | nil => rfl
  | cons t ts ih =>
    cases ts with
    | nil => simp [joinPlus, List.intercalate]
    | cons t' ts =>
      rw [joinPlus, ih]
      · simp [List.intercalate]
      · simp

/-- empty, or beginning with the character -/
def Begins (c : Char) (x : List Char) : Prop := x = [] ∨ ∃ y, x = c :: y

theorem cut_unique {c : Char} {a a' x x' : List Char} (ha : c ∉ a) (ha' : c ∉ a')
    (hx : Begins c x) (hx' : Begins c x') (h : a ++ x = a' ++ x') : a = a' ∧ x = x' := by
  induction a generalizing a' with
  | nil =>
    cases a' with
    | nil => exact ⟨rfl, by simpa using h⟩
    | cons b a' =>
      exfalso
      simp only [List.nil_append, List.cons_append] at h
      rcases hx with rfl | ⟨y, rfl⟩
      · cases h
      · simp only [List.cons.injEq] at h
        exact ha' (by rw [h.1]; exact List.mem_cons_self)
  | cons b a ih =>
    cases a' with
    | nil =>
      exfalso
      simp only [List.nil_append, List.cons_append] at h
      rcases hx' with rfl | ⟨y, rfl⟩
      · cases h
      · simp only [List.cons.injEq] at h
        exact ha (by rw [← h.1]; exact List.mem_cons_self)
    | cons b' a' =>
      simp only [List.cons_append, List.cons.injEq] at h
      obtain ⟨rfl, h⟩ := h
      obtain ⟨rfl, rfl⟩ := ih (fun hm => ha (List.mem_cons_of_mem _ hm))
        (fun hm => ha' (List.mem_cons_of_mem _ hm)) h
      exact ⟨rfl, rfl⟩

theorem digits_no {n : ℕ} {c : Char} (hc : c.isDigit = false) : c ∉ Nat.toDigits 10 n := by
  intro h
  have := Nat.isDigit_of_mem_toDigits (by decide) (by decide) h
  rw [hc] at this
  cases this

theorem digits_inj {n m : ℕ} (h : Nat.toDigits 10 n = Nat.toDigits 10 m) : n = m := by
  have := congrArg (fun l => Nat.ofDigitChars 10 l 0) h
  simpa only [Nat.ofDigitChars_toDigits (by decide : 1 < 10) (le_refl 10)] using this

/-- species and sublattice of a term -/
def labelText (name : ℕ → List Char) (t : ℕ × ℕ × ℕ) : List Char :=
  name t.2.1 ++ ['('] ++ Nat.toDigits 10 t.2.2 ++ [')']

theorem labelText_inj {name : ℕ → List Char} {t t' : ℕ × ℕ × ℕ} (h : labelText name t = labelText name t') :
    name t.2.1 = name t'.2.1 ∧ t.2.2 = t'.2.2 := by
  unfold labelText at h
  have h1 : name t.2.1 ++ ['('] ++ Nat.toDigits 10 t.2.2 = name t'.2.1 ++ ['('] ++ Nat.toDigits 10 t'.2.2 :=
    List.append_cancel_right h
  have h2 := congrArg List.reverse h1
  simp only [List.reverse_append, List.reverse_cons, List.reverse_nil, List.nil_append,
    List.singleton_append] at h2
  obtain ⟨e1, e2⟩ := cut_unique (c := '(') (by
      rw [List.mem_reverse]; exact digits_no (by decide)) (by
      rw [List.mem_reverse]; exact digits_no (by decide)) (Or.inr ⟨_, rfl⟩) (Or.inr ⟨_, rfl⟩) h2
  constructor
  · have := (List.cons.inj e2).2
    exact List.reverse_injective this
  · exact digits_inj (List.reverse_injective e1)

theorem labelText_no {name : ℕ → List Char} {t : ℕ × ℕ × ℕ} (h : ' ' ∉ name t.2.1) :
    ' ' ∉ labelText name t := by
  unfold labelText
  simp only [List.mem_append, not_or]
  exact ⟨⟨⟨h, by decide⟩, digits_no (by decide)⟩, by decide⟩

theorem termText_eq (name : ℕ → List Char) (t : ℕ × ℕ × ℕ) (x : List Char) :
    termText name t ++ x = Nat.toDigits 10 t.1 ++ (' ' :: (labelText name t ++ x)) := by
  unfold termText labelText
  simp [List.append_assoc]

/-- the terms after the first -/
def plusTail (name : ℕ → List Char) : List (ℕ × ℕ × ℕ) → List Char
  | [] => []
  | t :: ts => ' ' :: '+' :: ' ' :: (termText name t ++ plusTail name ts)

theorem joinPlus_cons (name : ℕ → List Char) (t : ℕ × ℕ × ℕ) (ts : List (ℕ × ℕ × ℕ)) :
    joinPlus ((t :: ts).map (termText name)) = termText name t ++ plusTail name ts := by
  induction ts generalizing t with
  | nil => simp [joinPlus, plusTail]
  | cons t' ts ih =>
    have := ih t'
    simp only [List.map_cons] at this ⊢
    rw [joinPlus, this, plusTail]
    · simp [List.append_assoc]
    · simp

/-- the end of a side: the end of the text, or an arrow -/
def Ends (e : List Char) : Prop := e = [] ∨ ∃ y, e = ' ' :: '-' :: y

/-- two terms read the same -/
def SameTerm (name : ℕ → List Char) (t t' : ℕ × ℕ × ℕ) : Prop :=
  t.1 = t'.1 ∧ name t.2.1 = name t'.2.1 ∧ t.2.2 = t'.2.2

theorem begins_tail (name : ℕ → List Char) (ts : List (ℕ × ℕ × ℕ)) {e : List Char} (he : Ends e) :
    Begins ' ' (plusTail name ts ++ e) := by
  cases ts with
  | nil =>
    rcases he with rfl | ⟨y, rfl⟩
    · exact Or.inl rfl
    · exact Or.inr ⟨_, rfl⟩
  | cons t ts => exact Or.inr ⟨_, rfl⟩

theorem term_cut {name : ℕ → List Char} {t t' : ℕ × ℕ × ℕ} {x x' : List Char}
    (ht : ' ' ∉ name t.2.1) (ht' : ' ' ∉ name t'.2.1) (hx : Begins ' ' x) (hx' : Begins ' ' x')
    (h : termText name t ++ x = termText name t' ++ x') : SameTerm name t t' ∧ x = x' := by
  rw [termText_eq, termText_eq] at h
  obtain ⟨e1, e2⟩ := cut_unique (c := ' ') (digits_no (by decide)) (digits_no (by decide))
    (Or.inr ⟨_, rfl⟩) (Or.inr ⟨_, rfl⟩) h
  obtain ⟨e3, e4⟩ := cut_unique (c := ' ') (labelText_no ht) (labelText_no ht') hx hx' (List.cons.inj e2).2
  obtain ⟨e5, e6⟩ := labelText_inj e3
  exact ⟨⟨digits_inj e1, e5, e6⟩, e4⟩

theorem tail_unique {name : ℕ → List Char} (ts ts' : List (ℕ × ℕ × ℕ)) {e e' : List Char}
    (hts : ∀ t ∈ ts, ' ' ∉ name t.2.1) (hts' : ∀ t ∈ ts', ' ' ∉ name t.2.1) (he : Ends e) (he' : Ends e')
    (h : plusTail name ts ++ e = plusTail name ts' ++ e') :
    List.Forall₂ (SameTerm name) ts ts' ∧ e = e' := by
  induction ts generalizing ts' with
  | nil =>
    cases ts' with
    | nil => exact ⟨.nil, by simpa [plusTail] using h⟩
    | cons t ts' =>
      exfalso
      simp only [plusTail, List.nil_append, List.cons_append] at h
      rcases he with rfl | ⟨y, rfl⟩
      · cases h
      · simp only [List.cons.injEq, true_and] at h
        exact absurd h.1 (by decide)
  | cons t ts ih =>
    cases ts' with
    | nil =>
      exfalso
      simp only [plusTail, List.nil_append, List.cons_append] at h
      rcases he' with rfl | ⟨y, rfl⟩
      · cases h
      · simp only [List.cons.injEq, true_and] at h
        exact absurd h.1 (by decide)
    | cons t' ts' =>
      simp only [plusTail, List.cons_append, List.cons.injEq, true_and, List.append_assoc] at h
      obtain ⟨e1, e2⟩ := term_cut (hts t List.mem_cons_self) (hts' t' List.mem_cons_self)
        (begins_tail name ts he) (begins_tail name ts' he') h
      obtain ⟨e3, e4⟩ := ih ts' (fun q hq => hts q (List.mem_cons_of_mem _ hq))
        (fun q hq => hts' q (List.mem_cons_of_mem _ hq)) e2
      exact ⟨.cons e1 e3, e4⟩

theorem digits_head {n : ℕ} {x y : List Char} (h : Nat.toDigits 10 n ++ x = ' ' :: y) : False := by
  cases hd : Nat.toDigits 10 n with
  | nil => exact Nat.toDigits_ne_nil hd
  | cons c l =>
    rw [hd] at h
    simp only [List.cons_append, List.cons.injEq] at h
    have : c ∈ Nat.toDigits 10 n := by rw [hd]; exact List.mem_cons_self
    exact digits_no (n := n) (c := ' ') (by decide) (h.1 ▸ this)

theorem side_unique {name : ℕ → List Char} (ts ts' : List (ℕ × ℕ × ℕ)) {e e' : List Char}
    (hts : ∀ t ∈ ts, ' ' ∉ name t.2.1) (hts' : ∀ t ∈ ts', ' ' ∉ name t.2.1) (he : Ends e) (he' : Ends e')
    (h : joinPlus (ts.map (termText name)) ++ e = joinPlus (ts'.map (termText name)) ++ e') :
    List.Forall₂ (SameTerm name) ts ts' ∧ e = e' := by
  have empty : ∀ {t : ℕ × ℕ × ℕ} {ts : List (ℕ × ℕ × ℕ)} {e e' : List Char}, Ends e →
      e = joinPlus ((t :: ts).map (termText name)) ++ e' → False := by
    intro t ts e e' he h
    rw [joinPlus_cons, List.append_assoc, termText_eq] at h
    rcases he with rfl | ⟨y, rfl⟩
    · have := congrArg List.length h
      simp at this
    · exact digits_head h.symm
  cases ts with
  | nil =>
    cases ts' with
    | nil => exact ⟨.nil, by simpa [joinPlus] using h⟩
    | cons t' ts' => exact (empty he (by simpa [joinPlus] using h)).elim
  | cons t ts =>
    cases ts' with
    | nil => exact (empty he' (by simpa [joinPlus] using h.symm)).elim
    | cons t' ts' =>
      rw [joinPlus_cons, joinPlus_cons, List.append_assoc, List.append_assoc] at h
      obtain ⟨e1, e2⟩ := term_cut (hts t List.mem_cons_self) (hts' t' List.mem_cons_self)
        (begins_tail name ts he) (begins_tail name ts' he') h
      obtain ⟨e3, e4⟩ := tail_unique ts ts' (fun q hq => hts q (List.mem_cons_of_mem _ hq))
        (fun q hq => hts' q (List.mem_cons_of_mem _ hq)) he he' e2
      exact ⟨.cons e1 e3, e4⟩

theorem mem_same {name : ℕ → List Char} {ts ts' : List (ℕ × ℕ × ℕ)}
    (h : List.Forall₂ (SameTerm name) ts ts') {t : ℕ × ℕ × ℕ} (ht : t ∈ ts) :
    ∃ t' ∈ ts', SameTerm name t t' := by
  induction h with
  | nil => cases ht
  | cons h1 h2 ih =>
    rcases List.mem_cons.1 ht with rfl | ht
    · exact ⟨_, List.mem_cons_self, h1⟩
    · obtain ⟨t', h3, h4⟩ := ih ht
      exact ⟨t', List.mem_cons_of_mem _ h3, h4⟩

/-- A component that changes in one flip changes alike in another with the same terms. -/
theorem change_carried {name : ℕ → List Char} {bits : List (List ℕ)} (hr : Readable name bits)
    {u u' : List ℤ} {sgn : ℤ} {side side' : List (ℕ × ℕ × ℕ)} (h : Lists bits u sgn side)
    (h' : Lists bits u' sgn side') (hf : List.Forall₂ (SameTerm name) side side') {d n : ℕ}
    (hd : d < components bits) (hn : 0 < n) (hx : u[d]? = some (sgn * n)) : u'[d]? = some (sgn * n) := by
  obtain ⟨k, sp, hc⟩ := exists_component hd
  obtain ⟨⟨n', sp', k'⟩, hm, e1, e2, e3⟩ := mem_same hf ((h n sp k).2 ⟨hn, d, hc, hx⟩)
  simp only at e1 e2 e3
  subst e1 e3
  obtain ⟨-, d', hc', hx'⟩ := (h' n sp' k).1 hm
  obtain rfl := component_unique hr hc hc' e2
  exact hx'

theorem sameTerm_symm {name : ℕ → List Char} {ts ts' : List (ℕ × ℕ × ℕ)}
    (h : List.Forall₂ (SameTerm name) ts ts') : List.Forall₂ (SameTerm name) ts' ts := by
  induction h with
  | nil => exact .nil
  | cons h1 _ ih => exact .cons ⟨h1.1.symm, h1.2.1.symm, h1.2.2.symm⟩ ih

end Smol
