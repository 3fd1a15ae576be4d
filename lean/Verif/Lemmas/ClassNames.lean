import Verif.Model.ClassNames
import Verif.Spec.ClassNames

namespace Smol
open Spec

/-! ### Characters -/

theorem mem_range_of_char {lo : ℕ} {len : ℕ} {c : Char} (P : Char → Prop)
    (h : ∀ n ∈ List.range' lo len, P (Char.ofNat n)) (h1 : lo ≤ c.toNat) (h2 : c.toNat < lo + len) : P c := by
  have := h c.toNat (by rw [List.mem_range'_1]; omega)
  rwa [Char.ofNat_toNat] at this

theorem capital_cases {c : Char} (P : Char → Prop) (h : ∀ n ∈ List.range' 65 26, P (Char.ofNat n))
    (hc : isCapital c = true) : P c := by
  simp only [isCapital, Bool.and_eq_true, decide_eq_true_eq] at hc
  have h1 : ('A' : Char).toNat ≤ c.toNat := hc.1
  have h2 : c.toNat ≤ ('Z' : Char).toNat := hc.2
  have h3 : ('A' : Char).toNat = 65 := rfl
  have h4 : ('Z' : Char).toNat = 90 := rfl
  exact mem_range_of_char P h (by omega) (by omega)

theorem letter_cases {c : Char} (P : Char → Prop) (h : ∀ n ∈ List.range' 65 26, P (Char.ofNat n))
    (h' : ∀ n ∈ List.range' 97 26, P (Char.ofNat n)) (hc : isLetter c = true) : P c := by
  simp only [isLetter, Bool.or_eq_true, Bool.and_eq_true, decide_eq_true_eq] at hc
  rcases hc with hc | hc
  · have h1 : ('a' : Char).toNat ≤ c.toNat := hc.1
    have h2 : c.toNat ≤ ('z' : Char).toNat := hc.2
    have h3 : ('a' : Char).toNat = 97 := rfl
    have h4 : ('z' : Char).toNat = 122 := rfl
    exact mem_range_of_char P h' (by omega) (by omega)
  · exact capital_cases P h (by simpa [isCapital] using hc)

theorem capital_facts {c : Char} (hc : isCapital c = true) :
    isLetter c = true ∧ c ≠ '-' ∧ c.toUpper = c ∧ isLetter c.toLower = true ∧ c.toLower ≠ '-' ∧
    c.toLower.toUpper = c ∧ isCapital c.toLower = false ∧ c.toLower.toLower = c.toLower := by
  refine capital_cases (fun c => isLetter c = true ∧ c ≠ '-' ∧ c.toUpper = c ∧ isLetter c.toLower = true ∧
    c.toLower ≠ '-' ∧ c.toLower.toUpper = c ∧ isCapital c.toLower = false ∧
    c.toLower.toLower = c.toLower) ?_ hc
  decide

theorem letter_facts {c : Char} (hc : isLetter c = true) : isCapital c.toUpper = true ∧ c ≠ '-' := by
  refine letter_cases (fun c => isCapital c.toUpper = true ∧ c ≠ '-') ?_ ?_ hc <;> decide

theorem toLower_of_not_capital {c : Char} (hc : isCapital c = false) : c.toLower = c := by
  by_contra h
  have hc' : ¬ isCapital c = true := by simp [hc]
  apply hc'
  unfold Char.toLower at h
  split at h
  · rename_i h2
    simp only [isCapital, Bool.and_eq_true, decide_eq_true_eq]
    exact h2
  · exact absurd rfl h

theorem toLower_facts (c : Char) : isCapital c.toLower = false ∧ c.toLower.toLower = c.toLower ∧
    (c ≠ '-' → c.toLower ≠ '-') := by
  cases hc : isCapital c with
  | true =>
    obtain ⟨-, -, -, -, h5, -, h7, h8⟩ := capital_facts hc
    exact ⟨h7, h8, fun _ => h5⟩
  | false =>
    have := toLower_of_not_capital hc
    rw [this]
    exact ⟨hc, this, id⟩

/-! ### Words -/

/-- A capital followed by characters that are not capitals or hyphens and are their own lower case. -/
def NWord (w : List Char) : Prop :=
  ∃ c r, w = c :: r ∧ isCapital c = true ∧ ∀ x ∈ r, isCapital x = false ∧ x ≠ '-' ∧ x.toLower = x

theorem camel_nword {w : List Char} (h : CamelWord w) : NWord w := by
  obtain ⟨c, r, rfl, hc, hr⟩ := h
  have h1 : ∀ c ∈ "ABCDEFGHIJKLMNOPQRSTUVWXYZ".toList, isCapital c = true := by decide
  have h2 : ∀ x ∈ "abcdefghijklmnopqrstuvwxyz0123456789".toList,
      isCapital x = false ∧ x ≠ '-' ∧ x.toLower = x := by decide
  exact ⟨c, r, rfl, h1 c hc, fun x hx => h2 x (hr x hx)⟩

theorem capitalize_nword {w : List Char} (h : NWord w) :
    capitalize w = w ∧ capitalize (smallInitial w) = w := by
  obtain ⟨c, r, rfl, hc, hr⟩ := h
  obtain ⟨-, -, h3, -, -, h6, -, -⟩ := capital_facts hc
  have : r.map Char.toLower = r := by
    conv_rhs => rw [← List.map_id r]
    exact List.map_congr_left fun x hx => (hr x hx).2.2
  simp only [capitalize, smallInitial, h3, h6, this, and_self]

/-- Splitting and searching in one pass. -/
def wordsGo : Option (List Char) → List Char → List (List Char)
  | none, [] => []
  | none, c :: cs =>
    if c = '-' then wordsGo none cs else if isLetter c then wordsGo (some [c]) cs else wordsGo none cs
  | some w, [] => [w.reverse]
  | some w, c :: cs =>
    if c = '-' then w.reverse :: wordsGo none cs
    else if isCapital c then w.reverse :: wordsGo (some [c]) cs else wordsGo (some (c :: w)) cs

/-- What reading one character emits, and the state after. -/
def wordStep : Option (List Char) → Char → List (List Char) × Option (List Char)
  | none, c => if isLetter c then ([], some [c]) else ([], none)
  | some w, c => if isCapital c then ([w.reverse], some [c]) else ([], some (c :: w))

def pendingWord : Option (List Char) → List (List Char)
  | none => []
  | some w => [w.reverse]

def emitted (st : Option (List Char)) : List Char → List (List Char)
  | [] => []
  | c :: cs => (wordStep st c).1 ++ emitted (wordStep st c).2 cs

def stateAfter (st : Option (List Char)) : List Char → Option (List Char)
  | [] => st
  | c :: cs => stateAfter (wordStep st c).2 cs

theorem emitted_append (st : Option (List Char)) (a b : List Char) :
    emitted st (a ++ b) = emitted st a ++ emitted (stateAfter st a) b := by
  induction a generalizing st with
  | nil => rfl
  | cons c a ih => simp [emitted, stateAfter, ih]

theorem stateAfter_append (st : Option (List Char)) (a b : List Char) :
    stateAfter st (a ++ b) = stateAfter (stateAfter st a) b := by
  induction a generalizing st with
  | nil => rfl
  | cons c a ih => simp [stateAfter, ih]

theorem findWordsGo_eq (st : Option (List Char)) (s : List Char) :
    findWordsGo isLetter st s = emitted st s ++ pendingWord (stateAfter st s) := by
  induction s generalizing st with
  | nil => cases st <;> rfl
  | cons c s ih =>
    cases st with
    | none =>
      by_cases hl : isLetter c = true
      · simp [findWordsGo, emitted, stateAfter, wordStep, hl, ih]
      · simp [findWordsGo, emitted, stateAfter, wordStep, hl, ih]
    | some w =>
      by_cases hc : isCapital c = true
      · have hl := (capital_facts hc).1
        simp [findWordsGo, emitted, stateAfter, wordStep, hl, hc, ih]
      · simp [findWordsGo, emitted, stateAfter, wordStep, hc, ih]

theorem wordsGo_cons (st : Option (List Char)) {c : Char} (hc : c ≠ '-') (s : List Char) :
    wordsGo st (c :: s) = (wordStep st c).1 ++ wordsGo (wordStep st c).2 s := by
  cases st with
  | none =>
    by_cases hl : isLetter c = true <;> simp [wordsGo, wordStep, hc, hl]
  | some w =>
    by_cases hl : isCapital c = true <;> simp [wordsGo, wordStep, hc, hl]

theorem wordsGo_dash (st : Option (List Char)) (s : List Char) :
    wordsGo st ('-' :: s) = pendingWord st ++ wordsGo none s := by
  cases st <;> simp [wordsGo, pendingWord]

theorem wordsGo_nil (st : Option (List Char)) : wordsGo st [] = pendingWord st := by
  cases st <;> rfl

theorem splitDash_words (s : List Char) : ∀ cur : List Char,
    (splitDashGo cur s).flatMap (findWords isLetter) =
      emitted none cur.reverse ++ wordsGo (stateAfter none cur.reverse) s := by
  induction s with
  | nil =>
    intro cur
    simp [splitDashGo, findWords, findWordsGo_eq, wordsGo_nil]
  | cons c s ih =>
    intro cur
    by_cases hc : c = '-'
    · subst hc
      simp only [splitDashGo, if_true, List.flatMap_cons, ih, wordsGo_dash, findWords, findWordsGo_eq]
      simp [emitted, stateAfter]
    · rw [splitDashGo, if_neg hc, ih, wordsGo_cons _ hc, List.reverse_cons, emitted_append,
        stateAfter_append]
      simp [emitted, stateAfter]

theorem classNameFromStr_eq (s : List Char) :
    classNameFromStr s = ((wordsGo none s).map capitalize).flatten := by
  unfold classNameFromStr splitDash
  rw [splitDash_words]
  simp [emitted, stateAfter]

theorem wordsGo_tail {r : List Char} (hr : ∀ x ∈ r, isCapital x = false ∧ x ≠ '-' ∧ x.toLower = x)
    (w s : List Char) : wordsGo (some w) (r ++ s) = wordsGo (some (r.reverse ++ w)) s := by
  induction r generalizing w with
  | nil => rfl
  | cons x r ih =>
    obtain ⟨h1, h2, -⟩ := hr x (by simp)
    rw [List.cons_append, wordsGo_cons _ h2, wordStep, h1]
    simp only [Bool.false_eq_true, if_false, List.nil_append]
    rw [ih fun y hy => hr y (by simp [hy])]
    simp

theorem wordsGo_capital {w : List Char} (h : NWord w) (st : Option (List Char)) (s : List Char) :
    wordsGo st (w ++ s) = pendingWord st ++ wordsGo (some w.reverse) s := by
  obtain ⟨c, r, rfl, hc, hr⟩ := h
  obtain ⟨h1, h2, -⟩ := capital_facts hc
  have := wordsGo_tail hr [c] s
  rw [List.cons_append, wordsGo_cons _ h2]
  cases st <;> simp [wordStep, h1, hc, pendingWord, this]

theorem wordsGo_small {w : List Char} (h : NWord w) (s : List Char) :
    wordsGo none (smallInitial w ++ s) = wordsGo (some (smallInitial w).reverse) s := by
  obtain ⟨c, r, rfl, hc, hr⟩ := h
  obtain ⟨-, -, -, h4, h5, -⟩ := capital_facts hc
  have := wordsGo_tail hr [c.toLower] s
  rw [smallInitial, List.cons_append, wordsGo_cons _ h5]
  simp [wordStep, h4, this]

/-- The words of a spelling. -/
theorem wordsGo_spelled {b : Bool} {ws : List (List Char)} {s : List Char} (h : SpelledFrom b ws s)
    (hw : ∀ w ∈ ws, NWord w) (st : Option (List Char)) (hst : b = true → st = none) :
    (wordsGo st s).map capitalize = (pendingWord st).map capitalize ++ ws := by
  induction h generalizing st with
  | done b => rw [wordsGo_nil]; simp
  | hyphen b ws s h ih =>
    rw [wordsGo_dash, List.map_append, ih hw none (fun _ => rfl)]
    rfl
  | capital b w ws s h ih =>
    have hw0 := hw w (by simp)
    rw [wordsGo_capital hw0, List.map_append, ih (fun v hv => hw v (by simp [hv])) _ (by simp)]
    simp [pendingWord, (capitalize_nword hw0).1]
  | small w ws s h ih =>
    have hw0 := hw w (by simp)
    rw [hst rfl, wordsGo_small hw0, ih (fun v hv => hw v (by simp [hv])) _ (by simp)]
    simp [pendingWord, (capitalize_nword hw0).2]

theorem className_spelled {ws : List (List Char)} {s : List Char} (h : Spelled ws s)
    (hw : ∀ w ∈ ws, NWord w) : classNameFromStr s = ws.flatten := by
  rw [classNameFromStr_eq, wordsGo_spelled h hw none fun _ => rfl]
  rfl

theorem spelled_camel (ws : List (List Char)) (b : Bool) : SpelledFrom b ws ws.flatten := by
  induction ws generalizing b with
  | nil => exact .done b
  | cons w ws ih => exact .capital b w ws _ (ih false)

/-- Every word found starts with a letter and has no capital or hyphen after it. -/
theorem wordsGo_shape (s : List Char) (st : Option (List Char))
    (hst : ∀ w ∈ st, ∃ c r, w.reverse = c :: r ∧ isLetter c = true ∧ ∀ x ∈ r, x ≠ '-') :
    ∀ w ∈ wordsGo st s, ∃ c r, w = c :: r ∧ isLetter c = true ∧ ∀ x ∈ r, x ≠ '-' := by
  induction s generalizing st with
  | nil =>
    rw [wordsGo_nil]
    cases st with
    | none => simp [pendingWord]
    | some w => simpa [pendingWord] using hst w rfl
  | cons c s ih =>
    by_cases hc : c = '-'
    · subst hc
      rw [wordsGo_dash]
      intro w hw
      rcases List.mem_append.1 hw with hw | hw
      · cases st with
        | none => simp [pendingWord] at hw
        | some v =>
          simp only [pendingWord, List.mem_singleton] at hw
          subst hw
          exact hst v rfl
      · exact ih none (by simp) w hw
    · rw [wordsGo_cons _ hc]
      intro w hw
      cases st with
      | none =>
        by_cases hl : isLetter c = true
        · simp only [wordStep, hl, if_true, List.nil_append] at hw
          exact ih (some [c]) (by rintro v ⟨⟩; exact ⟨c, [], by simp, hl, by simp⟩) w hw
        · simp only [wordStep, hl, Bool.false_eq_true, if_false, List.nil_append] at hw
          exact ih none (by simp) w hw
      | some v =>
        by_cases hl : isCapital c = true
        · simp only [wordStep, hl, if_true, List.singleton_append, List.mem_cons] at hw
          rcases hw with rfl | hw
          · exact hst v rfl
          · exact ih (some [c]) (by
              rintro u ⟨⟩; exact ⟨c, [], by simp, (capital_facts hl).1, by simp⟩) w hw
        · simp only [wordStep, hl, Bool.false_eq_true, if_false, List.nil_append] at hw
          refine ih (some (c :: v)) ?_ w hw
          rintro u ⟨⟩
          obtain ⟨d, r, h1, h2, h3⟩ := hst v rfl
          refine ⟨d, r ++ [c], by simp [h1], h2, ?_⟩
          intro x hx
          rcases List.mem_append.1 hx with hx | hx
          · exact h3 x hx
          · simp only [List.mem_singleton] at hx; exact hx ▸ hc

theorem capitalized_nword (s : List Char) : ∀ w ∈ (wordsGo none s).map capitalize, NWord w := by
  intro w hw
  obtain ⟨v, hv, rfl⟩ := List.mem_map.1 hw
  obtain ⟨c, r, rfl, h1, h2⟩ := wordsGo_shape s none (by simp) v hv
  refine ⟨c.toUpper, r.map Char.toLower, rfl, (letter_facts h1).1, ?_⟩
  intro x hx
  obtain ⟨y, hy, rfl⟩ := List.mem_map.1 hx
  obtain ⟨a, b, c⟩ := toLower_facts y
  exact ⟨a, c (h2 y hy), b⟩

/-! ### Listed names -/

theorem findCapital_tail {r : List Char} (hr : ∀ x ∈ r, isCapital x = false ∧ x ≠ '-' ∧ x.toLower = x)
    (w s : List Char) :
    findWordsGo isCapital (some w) (r ++ s) = findWordsGo isCapital (some (r.reverse ++ w)) s := by
  induction r generalizing w with
  | nil => rfl
  | cons x r ih =>
    rw [List.cons_append, findWordsGo, (hr x (by simp)).1]
    simp only [Bool.false_eq_true, if_false]
    rw [ih fun y hy => hr y (by simp [hy])]
    simp

theorem findCapital_words (ws : List (List Char)) (hw : ∀ w ∈ ws, NWord w) (st : Option (List Char)) :
    findWordsGo isCapital st ws.flatten = pendingWord st ++ ws := by
  induction ws generalizing st with
  | nil => cases st <;> rfl
  | cons w ws ih =>
    obtain ⟨c, r, rfl, hc, hr⟩ := hw w (by simp)
    have := findCapital_tail hr [c] ws.flatten
    rw [List.flatten_cons, List.cons_append]
    have ih := ih fun v hv => hw v (by simp [hv])
    cases st <;> simp [findWordsGo, hc, this, ih, pendingWord]

theorem map_lower_nword {w : List Char} (h : NWord w) : w.map Char.toLower = smallInitial w := by
  obtain ⟨c, r, rfl, hc, hr⟩ := h
  have : r.map Char.toLower = r := by
    conv_rhs => rw [← List.map_id r]
    exact List.map_congr_left fun x hx => (hr x hx).2.2
  simp [smallInitial, this]

theorem map_lower_join (ws : List (List Char)) (hw : ∀ w ∈ ws, NWord w) :
    (joinDash ws).map Char.toLower = joinDash (ws.map smallInitial) := by
  induction ws with
  | nil => rfl
  | cons w ws ih =>
    have h0 := map_lower_nword (hw w (by simp))
    have ih := ih fun v hv => hw v (by simp [hv])
    cases ws with
    | nil => simpa [joinDash] using h0
    | cons v ws =>
      simp only [joinDash, List.map_append, List.map_cons, h0] at ih ⊢
      rw [ih]
      rfl

theorem spelled_join (ws : List (List Char)) : Spelled ws (joinDash (ws.map smallInitial)) := by
  induction ws with
  | nil => exact .done true
  | cons w ws ih =>
    cases ws with
    | nil =>
      have := SpelledFrom.small w [] [] (.done false)
      simpa [joinDash, Spelled] using this
    | cons v ws => exact .small w _ _ (.hyphen false _ _ ih)

theorem SpelledFrom_append {b : Bool} {ws vs : List (List Char)} {s t : List Char}
    (h : SpelledFrom b ws s) (h' : SpelledFrom true vs t) :
    SpelledFrom b (ws ++ vs) (s ++ '-' :: t) := by
  induction h with
  | done b => exact .hyphen b _ _ h'
  | hyphen b ws s h ih => exact .hyphen b _ _ ih
  | capital b w ws s h ih =>
    rw [List.append_assoc]
    exact .capital b w _ _ ih
  | small w ws s h ih =>
    rw [List.append_assoc]
    exact .small w _ _ ih

theorem bias_nword : NWord "Bias".toList := camel_nword ⟨'B', "ias".toList, rfl, by decide, by decide⟩

theorem joinDash_last (l : List (List Char)) (w : List Char) :
    joinDash (l ++ [w]) = (l.flatMap fun v => v ++ ['-']) ++ w := by
  induction l with
  | nil => rfl
  | cons v l ih =>
    cases l with
    | nil => simp [joinDash]
    | cons u l =>
      simp only [List.cons_append, joinDash, List.flatMap_cons] at ih ⊢
      rw [ih]
      simp

theorem spelled_hyphens (ws : List (List Char)) :
    Spelled ws ((ws.map smallInitial).flatMap fun v => v ++ ['-']) := by
  induction ws with
  | nil => exact .done true
  | cons w ws ih =>
    have := SpelledFrom.small w ws _ (.hyphen false _ _ ih)
    simpa [Spelled] using this

theorem beforeFirst_end (pat p : List Char) (hp : pat ≠ [])
    (h : ∀ a r, p ++ pat = a ++ pat ++ r → r = []) : beforeFirst pat (p ++ pat) = p := by
  induction p with
  | nil =>
    obtain ⟨c, r, rfl⟩ := List.exists_cons_of_ne_nil hp
    simp [beforeFirst]
  | cons c p ih =>
    rw [List.cons_append, beforeFirst, if_neg]
    · rw [ih fun a r e => h (c :: a) r (by simp [e])]
    · rintro ⟨r, hr⟩
      have := h [] r (by simpa using hr.symm)
      subst this
      have := congrArg List.length hr
      simp at this
      omega

end Smol
