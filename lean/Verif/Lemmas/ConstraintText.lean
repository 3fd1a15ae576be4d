import Verif.Lemmas.ConstraintString
import Verif.Lemmas.Rounding
import Verif.Spec.ConstraintText

namespace Smol
open Spec

/-! ### Characters -/

theorem isWs_iff (c : Char) : isWs c = true ↔ Blank c := by
  unfold isWs Blank
  generalize c.toNat = n
  simp only [Bool.or_eq_true, Bool.and_eq_true, decide_eq_true_eq, List.contains_iff_mem,
    List.mem_cons, List.not_mem_nil, or_false]
  omega

theorem isWs_false_iff (c : Char) : isWs c = false ↔ ¬ Blank c := by
  rw [← isWs_iff, Bool.not_eq_true]

theorem isLetter_of (c : Char) (h : Letter c) : isLetter c = true := by
  have : ∀ c ∈ "abcdefghijklmnopqrstuvwxyzABCDEFGHIJKLMNOPQRSTUVWXYZ".toList, isLetter c = true := by
    decide
  exact this c h

theorem isNumeral_digit (d : Fin 10) :
    isNumeral ("0123456789".toList.getD d '?') = true ∧
    ("0123456789".toList.getD d '?').toNat - '0'.toNat = d := by
  revert d; decide

theorem digitsText_numeral (ds : List (Fin 10)) : ∀ c ∈ digitsText ds, isNumeral c = true := by
  intro c hc
  obtain ⟨d, -, rfl⟩ := List.mem_map.1 hc
  exact (isNumeral_digit d).1

theorem digitsText_ne_nil {ds : List (Fin 10)} (h : ds ≠ []) : digitsText ds ≠ [] := by
  simpa [digitsText] using h

theorem takeWhile_numeral {ds r : List Char} (h : ∀ c ∈ ds, isNumeral c = true)
    (hr : ∀ c ∈ r.head?, isNumeral c = false) :
    (ds ++ r).takeWhile isNumeral = ds ∧ (ds ++ r).dropWhile isNumeral = r := by
  induction ds with
  | nil =>
    cases r with
    | nil => simp
    | cons c r =>
      have := hr c (by simp)
      simp [this]
  | cons c ds ih =>
    have hc := h c (List.mem_cons_self ..)
    have := ih fun d hd => h d (List.mem_cons_of_mem _ hd)
    simp [hc, this]

theorem lexUnsigned_digits {ds : List Char} (h0 : ds ≠ []) (h : ∀ c ∈ ds, isNumeral c = true) :
    lexUnsigned ds = some (digitsVal ds) := by
  have e := takeWhile_numeral (r := []) h (by simp)
  simp only [List.append_nil] at e
  unfold lexUnsigned
  simp only [e.1, e.2, if_neg h0]
  rfl

theorem lexUnsigned_decimal {ds fs : List Char} (h0 : ds ≠ []) (h : ∀ c ∈ ds, isNumeral c = true)
    (hf : ∀ c ∈ fs, isNumeral c = true) :
    lexUnsigned (ds ++ '.' :: fs) = some ((digitsVal ds : ℚ) + (digitsVal fs : ℚ) / 10 ^ fs.length) := by
  have e := takeWhile_numeral (r := '.' :: fs) h (by simp [isNumeral])
  unfold lexUnsigned
  simp only [e.1, e.2, if_neg h0]
  rw [if_pos ⟨trivial, by simpa using hf⟩]

theorem lexNum_unsigned {w : List Char} (h : ∀ c ∈ w.head?, isNumeral c = true) :
    lexNum w = (lexUnsigned w).map roundIfClose := by
  unfold lexNum
  split
  · exact absurd (h '+' (by simp)) (by decide)
  · exact absurd (h '-' (by simp)) (by decide)
  · rfl

theorem digitsVal_snoc (ds : List Char) (c : Char) :
    digitsVal (ds ++ [c]) = 10 * digitsVal ds + (c.toNat - '0'.toNat) := by
  simp [digitsVal, List.foldl_append]

theorem lexUnsigned_letter {c : Char} {w : List Char} (hc : isNumeral c = false) :
    lexUnsigned (c :: w) = none := by
  unfold lexUnsigned
  simp [hc]

theorem letter_not_numeral {c : Char} (h : isLetter c = true) :
    isNumeral c = false ∧ c ≠ '+' ∧ c ≠ '-' := by
  refine ⟨?_, ?_, ?_⟩
  · by_contra hn
    simp only [Bool.not_eq_false] at hn
    simp only [isLetter, isNumeral, Bool.or_eq_true, Bool.and_eq_true, decide_eq_true_eq] at h hn
    have h9 : c ≤ '9' := hn.2
    rcases h with ⟨ha, -⟩ | ⟨ha, -⟩
    · have := Char.le_trans ha h9
      exact absurd this (by decide)
    · have := Char.le_trans ha h9
      exact absurd this (by decide)
  · rintro rfl; exact absurd h (by decide)
  · rintro rfl; exact absurd h (by decide)

theorem lexLit_letter (get : List Char → Option ℕ) {c : Char} {w : List Char}
    (hc : isLetter c = true) : lexLit get (c :: w) =
      match lexSub (c :: w) with
      | some (name, k) => (get name).map fun s => .sp s (some k)
      | none => (get (c :: w)).map fun s => .sp s none := by
  obtain ⟨h1, h2, h3⟩ := letter_not_numeral hc
  unfold lexLit
  rw [if_neg (by simp [h2]), if_neg (by simp [h3])]
  have : lexNum (c :: w) = none := by
    unfold lexNum
    split
    · rename_i heq; simp only [List.cons.injEq] at heq; exact absurd heq.1 h2
    · rename_i heq; simp only [List.cons.injEq] at heq; exact absurd heq.1 h3
    · rw [lexUnsigned_letter h1]; rfl
  rw [this]
  rfl

theorem digitsVal_text (ds : List (Fin 10)) : digitsVal (digitsText ds) = digitsNum ds := by
  induction ds using List.reverseRecOn with
  | nil => rfl
  | append_singleton ds d ih =>
    have e : digitsText (ds ++ [d]) = digitsText ds ++ ["0123456789".toList.getD d '?'] := by
      simp [digitsText]
    rw [e, digitsVal_snoc, ih, (isNumeral_digit d).2]
    unfold digitsNum
    rw [List.reverse_append, List.map_append]
    simp only [List.reverse_singleton, List.map_singleton, List.singleton_append, Nat.ofDigits_cons]
    omega

/-! ### Numbers -/

theorem npRound_nearestEven (v : ℚ) : NearestEven v (npRound v) := by
  refine ⟨npRound_dist v, ?_⟩
  have h1 := Int.floor_le v
  have h2 := Int.lt_floor_add_one v
  unfold npRound
  split_ifs with a b c
  · intro h
    rw [abs_of_nonneg (by linarith)] at h
    linarith
  · intro h
    push_cast at h
    rw [abs_of_neg (by linarith)] at h
    linarith
  · intro _; exact Int.even_iff.2 c
  · intro _; exact (Int.not_even_iff_odd.1 fun h => c (Int.even_iff.1 h)).add_one

theorem nearestEven_unique {v : ℚ} {k l : ℤ} (hk : NearestEven v k) (hl : NearestEven v l) : k = l := by
  by_contra hne
  wlog h : k < l generalizing k l
  · exact this hl hk (Ne.symm hne) (by omega)
  have hkl : (k : ℚ) + 1 ≤ l := by exact_mod_cast h
  have a := abs_le.1 hk.1
  have b := abs_le.1 hl.1
  have e1 : v - k = 1 / 2 := by linarith
  have e2 : v - l = -(1 / 2) := by linarith
  have e3 : l = k + 1 := by
    have : (l : ℚ) = k + 1 := by linarith
    exact_mod_cast this
  have p1 := hk.2 (by rw [e1]; norm_num)
  have p2 := hl.2 (by rw [e2]; norm_num)
  subst e3
  exact (Int.not_even_iff_odd.2 p1.add_one) p2

theorem roundIfClose_eq {v : ℚ} {k : ℤ} (hk : NearestEven v k) :
    (CloseTo v k → roundIfClose v = k) ∧ (¬ CloseTo v k → roundIfClose v = v) := by
  obtain rfl := nearestEven_unique hk (npRound_nearestEven v)
  unfold roundIfClose CloseTo
  constructor
  · intro h; rw [if_pos (by norm_num at h ⊢; exact h)]
  · intro h; rw [if_neg (by norm_num at h ⊢; exact h)]

theorem roundIfClose_plain {v : ℚ} (h : Plain v) : roundIfClose v = v := by
  rcases h with ⟨k, rfl⟩ | h
  · unfold roundIfClose
    rw [npRound_intCast]
    split <;> rfl
  · exact (roundIfClose_eq (npRound_nearestEven v)).2 (h _)

/-- The number before rounding. -/
theorem lexUnsigned_text (ds : List (Fin 10)) (f : Option (List (Fin 10))) (h : ds ≠ []) :
    lexUnsigned (digitsText ds ++ fracText f) = some ((digitsNum ds : ℚ) + fracNum f) := by
  cases f with
  | none =>
    simp only [fracText, fracNum, List.append_nil, add_zero]
    rw [lexUnsigned_digits (digitsText_ne_nil h) (digitsText_numeral _), digitsVal_text]
    rfl
  | some f =>
    simp only [fracText, fracNum]
    rw [lexUnsigned_decimal (digitsText_ne_nil h) (digitsText_numeral _) (digitsText_numeral _),
      digitsVal_text, digitsVal_text]
    simp [digitsText]

theorem lexLit_of_num (get : List Char → Option ℕ) {w : List Char} {q : ℚ} (h1 : w ≠ ['+'])
    (h2 : w ≠ ['-']) (h : lexNum w = some q) : lexLit get w = some (.num q) := by
  unfold lexLit
  rw [if_neg h1, if_neg h2, h]

theorem lexLit_numeral (get : List Char → Option ℕ) (n : Numeral) (h : n.whole ≠ []) :
    lexLit get n.text = some (.num (roundIfClose n.value)) := by
  obtain ⟨sign, whole, frac⟩ := n
  have hu := lexUnsigned_text whole frac h
  obtain ⟨d, ds, hds⟩ := List.exists_cons_of_ne_nil (digitsText_ne_nil h)
  have hds' : digitsText whole = d :: ds := hds
  have hd : isNumeral d = true := digitsText_numeral whole d (by rw [hds']; simp)
  have hp : d ≠ '+' := by rintro rfl; exact absurd hd (by decide)
  have hm : d ≠ '-' := by rintro rfl; exact absurd hd (by decide)
  rcases sign with _ | b | b
  · have et : (Numeral.mk none whole frac).text = d :: (ds ++ fracText frac) := by
      simp [Numeral.text, signText, hds']
    have ev : (Numeral.mk none whole frac).value = (digitsNum whole : ℚ) + fracNum frac := by
      simp [Numeral.value]
    rw [hds', List.cons_append] at hu
    rw [et, ev]
    refine lexLit_of_num get (by simp [hp]) (by simp [hm]) ?_
    rw [lexNum_unsigned (by simpa using hd), hu]
    rfl
  · have et : (Numeral.mk (some false) whole frac).text = '-' :: (digitsText whole ++ fracText frac) := rfl
    have ev : (Numeral.mk (some false) whole frac).value = -((digitsNum whole : ℚ) + fracNum frac) := by
      simp [Numeral.value]
    rw [et, ev]
    refine lexLit_of_num get (by simp) (by simp [hds']) ?_
    show (lexUnsigned (digitsText whole ++ fracText frac)).map (fun q => roundIfClose (-q)) = _
    rw [hu]
    rfl
  · have et : (Numeral.mk (some true) whole frac).text = '+' :: (digitsText whole ++ fracText frac) := rfl
    have ev : (Numeral.mk (some true) whole frac).value = (digitsNum whole : ℚ) + fracNum frac := by
      simp [Numeral.value]
    rw [et, ev]
    refine lexLit_of_num get (by simp [hds']) (by simp) ?_
    show (lexUnsigned (digitsText whole ++ fracText frac)).map roundIfClose = _
    rw [hu]
    rfl

/-! ### Names -/

theorem lexLit_name (get : List Char → Option ℕ) {c : Char} {name : List Char} (hc : isLetter c = true)
    (h : ∀ x ∈ (c :: name).getLast?, x ≠ ')') :
    lexLit get (c :: name) = (get (c :: name)).map fun s => .sp s none := by
  rw [lexLit_letter get hc]
  have : lexSub (c :: name) = none := by
    unfold lexSub
    split
    · rename_i r heq
      have : (c :: name).getLast? = some ')' := by
        rw [List.getLast?_eq_head?_reverse, heq]
        rfl
      exact absurd rfl (h ')' (by simp [this]))
    · rfl
  rw [this]

theorem lexLit_nameSub (get : List Char → Option ℕ) {c : Char} {name ds : List Char}
    (hc : isLetter c = true) (h0 : ds ≠ []) (hd : ∀ d ∈ ds, isNumeral d = true) :
    lexLit get (c :: (name ++ '(' :: (ds ++ [')']))) =
      (get (c :: name)).map fun s => .sp s (some (digitsVal ds)) := by
  rw [lexLit_letter get hc]
  have : lexSub (c :: (name ++ '(' :: (ds ++ [')']))) = some (c :: name, digitsVal ds) := by
    unfold lexSub
    have e : (c :: (name ++ '(' :: (ds ++ [')']))).reverse =
        ')' :: (ds.reverse ++ '(' :: (c :: name).reverse) := by simp
    rw [e]
    have t := takeWhile_numeral (ds := ds.reverse) (r := '(' :: (c :: name).reverse)
      (by simpa using hd) (by simp [isNumeral])
    simp only [t.1, t.2, List.reverse_reverse]
    rw [if_pos ⟨by simpa using h0, hc⟩]
  rw [this]

theorem lexLit_species (get : List Char → Option ℕ) (t : WTerm) (h : t.Ok) :
    lexLit get (t.name ++ subText t.sub) = (get t.name).map fun s => .sp s (t.sub.map digitsNum) := by
  obtain ⟨c, rest, hn, hc⟩ := h.letter
  have hb := h.bracket
  have hd := h.digits
  rw [hn] at hb ⊢
  cases hs : t.sub with
  | none =>
    simp only [subText, List.append_nil, Option.map_none]
    exact lexLit_name get (isLetter_of c hc) (hb hs)
  | some ds =>
    simp only [subText, List.cons_append, Option.map_some]
    rw [lexLit_nameSub get (isLetter_of c hc) (digitsText_ne_nil (hd ds hs)) (digitsText_numeral ds),
      digitsVal_text]

/-! ### Words of a side -/

theorem mapM_append_some {α β : Type*} {f : α → Option β} {l m : List α} {a b : List β}
    (h1 : l.mapM f = some a) (h2 : m.mapM f = some b) : (l ++ m).mapM f = some (a ++ b) := by
  rw [List.mapM_append, h1, h2]
  rfl

theorem mapM_map_some {α β γ : Type*} {f : β → Option γ} {g : α → β} {h : α → γ} (l : List α)
    (H : ∀ x ∈ l, f (g x) = some (h x)) : (l.map g).mapM f = some (l.map h) := by
  induction l with
  | nil => rfl
  | cons x l ih =>
    rw [List.map_cons, List.mapM_cons, H x (by simp), ih fun y hy => H y (by simp [hy])]
    rfl

theorem mapM_flatMap_some {α β γ : Type*} {f : β → Option γ} {g : α → List β} {h : α → List γ}
    (l : List α) (H : ∀ x ∈ l, (g x).mapM f = some (h x)) :
    (l.flatMap g).mapM f = some (l.flatMap h) := by
  induction l with
  | nil => rfl
  | cons x l ih =>
    rw [List.flatMap_cons, List.flatMap_cons]
    exact mapM_append_some (H x (by simp)) (ih fun y hy => H y (by simp [hy]))

theorem mapM_none_of_mem {α β : Type*} {f : α → Option β} {l : List α} {x : α} (hx : x ∈ l)
    (h : f x = none) : l.mapM f = none := by
  induction l with
  | nil => exact absurd hx (by simp)
  | cons y l ih =>
    rw [List.mapM_cons]
    rcases List.mem_cons.1 hx with rfl | hx
    · rw [h]; rfl
    · rw [ih hx]
      cases f y <;> rfl

theorem lexLit_sign (get : List Char → Option ℕ) (b : Bool) :
    lexLit get (signWord b) = some (signLit b) := by
  cases b <;> simp [signWord, signLit, lexLit]

theorem lex_signs (get : List Char → Option ℕ) (signs : List Bool) :
    (signs.map signWord).mapM (lexLit get) = some (signs.map signLit) :=
  mapM_map_some _ fun b _ => lexLit_sign get b

theorem lex_term (get : List Char → Option ℕ) (species : List Char → ℕ) (t : WTerm) (h : t.Ok)
    (hg : get t.name = some (species t.name)) :
    t.words.mapM (lexLit get) = some (t.meaning species).lits := by
  unfold WTerm.words Term.lits WTerm.meaning
  rw [← List.append_assoc]
  refine mapM_append_some (mapM_append_some (lex_signs get _) ?_) ?_
  · have hc := h.coef
    cases hcf : t.coef with
    | none => rfl
    | some n =>
      have ok := hc n hcf
      simp only [Option.map_some, Option.toList_some]
      rw [List.mapM_cons, lexLit_numeral get n ok.digits, roundIfClose_plain ok.plain]
      rfl
  · rw [List.mapM_cons, lexLit_species get t h, hg]
    rfl

theorem lex_side (get : List Char → Option ℕ) (species : List Char → ℕ) (s : WSide) (h : s.Ok)
    (hg : ∀ t ∈ s.terms, get t.name = some (species t.name)) :
    s.words.mapM (lexLit get) = some (s.meaning species).lits := by
  unfold WSide.words Side.lits WSide.meaning
  refine mapM_append_some ?_ ?_
  · rw [List.flatMap_map]
    exact mapM_flatMap_some _ fun t ht => lex_term get species t (h.terms t ht) (hg t ht)
  · have hi := h.intercept
    cases hp : s.intercept with
    | none => rfl
    | some p =>
      have ok := hi p hp
      obtain ⟨signs, n⟩ := p
      simp only [Option.map_some, interceptWords, interceptLits]
      refine mapM_append_some (lex_signs get _) ?_
      rw [List.mapM_cons, lexLit_numeral get n ok.digits, roundIfClose_plain ok.plain]
      rfl

theorem lex_unknown (get : List Char → Option ℕ) (s : WSide) (h : s.Ok) (t : WTerm) (ht : t ∈ s.terms)
    (hg : get t.name = none) : s.words.mapM (lexLit get) = none := by
  refine mapM_none_of_mem (x := t.name ++ subText t.sub) ?_ ?_
  · refine List.mem_append_left _ (List.mem_flatMap.2 ⟨t, ht, ?_⟩)
    simp [WTerm.words]
  · rw [lexLit_species get t (h.terms t ht), hg]
    rfl

/-! ### Spacing -/

/-- No character of a word is blank, and a word does not start like a relation symbol. -/
def GoodWord (w : List Char) : Prop :=
  w ≠ [] ∧ (∀ c ∈ w, ¬ Blank c) ∧ ∀ c ∈ w.head?, c ∉ ['=', '<', '>']

theorem numeral_char {c : Char} (h : isNumeral c = true) : ¬ Blank c ∧ c ∉ ['=', '<', '>'] := by
  have h' : c ∈ "0123456789".toList := by
    simp only [isNumeral, Bool.and_eq_true, decide_eq_true_eq] at h
    have h1 : ('0' : Char).toNat ≤ c.toNat := h.1
    have h2 : c.toNat ≤ ('9' : Char).toNat := h.2
    have h3 : ('0' : Char).toNat = 48 := rfl
    have h4 : ('9' : Char).toNat = 57 := rfl
    have hc : c = Char.ofNat c.toNat := (Char.ofNat_toNat c).symm
    rw [hc]
    generalize c.toNat = n at h1 h2
    have : n ∈ List.range' 48 10 := by rw [List.mem_range'_1]; omega
    revert n
    intro n _ _ hn
    have : ∀ n ∈ List.range' 48 10, Char.ofNat n ∈ "0123456789".toList := by decide
    exact this n hn
  have : ∀ c ∈ "0123456789".toList, ¬ Blank c ∧ c ∉ ['=', '<', '>'] := by
    unfold Blank; decide
  exact this c h'

theorem letter_char {c : Char} (h : Letter c) : c ∉ ['=', '<', '>'] := by
  have : ∀ c ∈ "abcdefghijklmnopqrstuvwxyzABCDEFGHIJKLMNOPQRSTUVWXYZ".toList,
    c ∉ ['=', '<', '>'] := by decide
  exact this c h

theorem signWord_good (b : Bool) : GoodWord (signWord b) := by
  cases b <;> refine ⟨by decide, ?_, ?_⟩ <;> simp [signWord, Blank]

theorem numeral_good (n : Numeral) (h : n.whole ≠ []) : GoodWord n.text := by
  obtain ⟨d, ds, hds⟩ := List.exists_cons_of_ne_nil (digitsText_ne_nil h)
  have hd := numeral_char (digitsText_numeral n.whole d (by rw [hds]; simp))
  have hall : ∀ c ∈ digitsText n.whole ++ fracText n.frac, ¬ Blank c := by
    intro c hc
    rcases List.mem_append.1 hc with hc | hc
    · exact (numeral_char (digitsText_numeral _ c hc)).1
    · cases hf : n.frac with
      | none => rw [hf] at hc; exact absurd hc (by simp [fracText])
      | some f =>
        rw [hf] at hc
        rcases List.mem_cons.1 hc with rfl | hc
        · unfold Blank; decide
        · exact (numeral_char (digitsText_numeral _ c hc)).1
  unfold Numeral.text
  rcases n.sign with _ | b | b
  · refine ⟨by simp [signText, hds], by simpa [signText] using hall, ?_⟩
    rw [hds]
    simpa [signText] using hd.2
  · refine ⟨by simp [signText], ?_, by simp [signText]⟩
    simp only [signText, List.singleton_append, List.forall_mem_cons]
    exact ⟨by unfold Blank; decide, hall⟩
  · refine ⟨by simp [signText], ?_, by simp [signText]⟩
    simp only [signText, List.singleton_append, List.forall_mem_cons]
    exact ⟨by unfold Blank; decide, hall⟩

theorem name_good (t : WTerm) (h : t.Ok) : GoodWord (t.name ++ subText t.sub) := by
  obtain ⟨c, rest, hn, hc⟩ := h.letter
  refine ⟨by simp [hn], ?_, ?_⟩
  · intro x hx
    rcases List.mem_append.1 hx with hx | hx
    · exact h.noBlank x hx
    · cases hs : t.sub with
      | none => rw [hs] at hx; exact absurd hx (by simp [subText])
      | some ds =>
        rw [hs] at hx
        simp only [subText, List.mem_cons, List.mem_append, List.not_mem_nil, or_false] at hx
        rcases hx with rfl | hx | rfl
        · unfold Blank; decide
        · exact (numeral_char (digitsText_numeral _ x hx)).1
        · unfold Blank; decide
  · rw [hn]
    simpa using letter_char hc

theorem side_good (s : WSide) (h : s.Ok) : s.words ≠ [] ∧ ∀ w ∈ s.words, GoodWord w := by
  constructor
  · rcases h.nonempty with h0 | h0
    · obtain ⟨t, ts, e⟩ := List.exists_cons_of_ne_nil h0
      simp [WSide.words, e, WTerm.words]
    · obtain ⟨p, e⟩ := Option.ne_none_iff_exists'.1 h0
      simp [WSide.words, e, interceptWords]
  · intro w hw
    rcases List.mem_append.1 hw with hw | hw
    · obtain ⟨t, ht, hw⟩ := List.mem_flatMap.1 hw
      have ok := h.terms t ht
      rcases List.mem_append.1 hw with hw | hw
      · rcases List.mem_append.1 hw with hw | hw
        · obtain ⟨b, -, rfl⟩ := List.mem_map.1 hw
          exact signWord_good b
        · cases hc : t.coef with
          | none => rw [hc] at hw; exact absurd hw (by simp)
          | some n =>
            rw [hc] at hw
            simp only [Option.map_some, Option.toList_some, List.mem_singleton] at hw
            subst hw
            exact numeral_good n (ok.coef n hc).digits
      · rw [List.mem_singleton] at hw
        subst hw
        exact name_good t ok
    · cases hi : s.intercept with
      | none => rw [hi] at hw; exact absurd hw (by simp [interceptWords])
      | some p =>
        rw [hi] at hw
        rcases List.mem_append.1 hw with hw | hw
        · obtain ⟨b, -, rfl⟩ := List.mem_map.1 hw
          exact signWord_good b
        · rw [List.mem_singleton] at hw
          subst hw
          exact numeral_good p.2 (h.intercept p hi).digits

theorem splitWsGo_blanks (g rest : List Char) (hg : ∀ c ∈ g, Blank c) :
    splitWsGo [] (g ++ rest) = splitWsGo [] rest := by
  induction g with
  | nil => rfl
  | cons c g ih =>
    rw [List.cons_append, splitWsGo, (isWs_iff c).2 (hg c (by simp))]
    simpa using ih fun d hd => hg d (by simp [hd])

theorem splitWsGo_end (w : List Char) (hw : w ≠ [] ∧ ∀ c ∈ w, ¬ Blank c) (g rest : List Char) (hg : ∀ c ∈ g, Blank c)
    (h0 : g ≠ []) : splitWsGo [] (w ++ (g ++ rest)) = w :: splitWsGo [] rest := by
  rw [splitWsGo_word w (fun c hc => (isWs_false_iff c).2 (hw.2 c hc))]
  obtain ⟨c, g, rfl⟩ := List.exists_cons_of_ne_nil h0
  rw [List.cons_append, splitWsGo, (isWs_iff c).2 (hg c (by simp))]
  rw [if_pos rfl, if_neg (by simpa using hw.1), splitWsGo_blanks g rest fun d hd => hg d (by simp [hd])]
  simp

/-- The words are recovered, whatever the spacing. -/
theorem splitWs_spaced {ws : List (List Char)} {s : List Char} (h : Spaced ws s)
    (hws : ∀ w ∈ ws, w ≠ [] ∧ ∀ c ∈ w, ¬ Blank c) (pre post : List Char) (hpre : ∀ c ∈ pre, Blank c)
    (hpost : ∀ c ∈ post, Blank c) : splitWs (pre ++ (s ++ post)) = ws := by
  unfold splitWs
  rw [splitWsGo_blanks pre _ hpre]
  induction h with
  | one w =>
    have hw := hws w (by simp)
    by_cases hp : post = []
    · subst hp
      rw [splitWsGo_word w (fun c hc => (isWs_false_iff c).2 (hw.2 c hc)), splitWsGo,
        if_neg (by simpa using hw.1)]
      simp
    · have := splitWsGo_end w hw post [] hpost hp
      rw [List.append_nil] at this
      rw [this]
      rfl
  | cons w gap ws s h0 hgap h ih =>
    rw [List.append_assoc, List.append_assoc, splitWsGo_end w (hws w (by simp)) gap _ hgap h0,
      ih fun u hu => hws u (by simp [hu])]

/-- A text of good words starts and ends with characters that are not blank. -/
theorem spaced_ends {ws : List (List Char)} {s : List Char} (h : Spaced ws s)
    (hws : ∀ w ∈ ws, GoodWord w) :
    (∃ c r, s = c :: r ∧ ¬ Blank c ∧ c ∉ ['=', '<', '>']) ∧ ∃ r d, s = r ++ [d] ∧ ¬ Blank d := by
  induction h with
  | one w =>
    have hw := hws w (by simp)
    constructor
    · obtain ⟨c, r, rfl⟩ := List.exists_cons_of_ne_nil hw.1
      exact ⟨c, r, rfl, hw.2.1 c (by simp), hw.2.2 c (by simp)⟩
    · exact ⟨w.dropLast, w.getLast hw.1, (List.dropLast_append_getLast hw.1).symm,
        hw.2.1 _ (List.getLast_mem hw.1)⟩
  | cons w gap ws s h0 hgap h ih =>
    have hw := hws w (by simp)
    obtain ⟨-, r, d, hs, hd⟩ := ih fun u hu => hws u (by simp [hu])
    constructor
    · obtain ⟨c, r, rfl⟩ := List.exists_cons_of_ne_nil hw.1
      exact ⟨c, r ++ (gap ++ s), rfl, hw.2.1 c (by simp), hw.2.2 c (by simp)⟩
    · exact ⟨w ++ (gap ++ r), d, by simp [hs], hd⟩

/-! ### The separator -/

theorem relAt_shape {c : Char} {s : List Char} (h : relAt (c :: s) ≠ none) :
    c = ' ' ∧ ∃ d ∈ s.head?, d ∈ ['=', '<', '>'] := by
  unfold relAt at h
  split at h
  · rename_i heq; simp only [List.cons.injEq] at heq; exact ⟨heq.1, '=', by simp [heq.2], by simp⟩
  · rename_i heq; simp only [List.cons.injEq] at heq; exact ⟨heq.1, '=', by simp [heq.2], by simp⟩
  · rename_i heq; simp only [List.cons.injEq] at heq; exact ⟨heq.1, '<', by simp [heq.2], by simp⟩
  · rename_i heq; simp only [List.cons.injEq] at heq; exact ⟨heq.1, '>', by simp [heq.2], by simp⟩
  · exact absurd rfl h

/-- What follows a list without relation symbols: prepending a word or blanks adds none. -/
theorem splitRel_cons_none {c : Char} {s : List Char} (hs : splitRel s = none)
    (h : c ≠ ' ' ∨ ∀ d ∈ s.head?, d ∉ ['=', '<', '>']) : splitRel (c :: s) = none := by
  rw [splitRel, hs]
  simp only
  have : relAt (c :: s) = none := by
    by_contra hr
    obtain ⟨hc, d, hd, hd'⟩ := relAt_shape hr
    rcases h with h | h
    · exact h hc
    · exact h d hd hd'
  rw [this]
  rfl

theorem space_blank : Blank ' ' := by unfold Blank; decide

theorem splitRel_word (w : List Char) (hw : ∀ c ∈ w, ¬ Blank c) (s : List Char) (hs : splitRel s = none) :
    splitRel (w ++ s) = none := by
  induction w with
  | nil => exact hs
  | cons c w ih =>
    exact splitRel_cons_none (ih fun d hd => hw d (by simp [hd]))
      (.inl fun e => hw c (by simp) (e ▸ space_blank))

theorem blank_not_rel {c : Char} (h : Blank c) : c ∉ ['=', '<', '>'] := by
  intro hc
  simp only [List.mem_cons, List.not_mem_nil, or_false] at hc
  rcases hc with rfl | rfl | rfl <;> revert h <;> unfold Blank <;> decide

theorem splitRel_blanks (g : List Char) (hg : ∀ c ∈ g, Blank c) (s : List Char) (hs : splitRel s = none)
    (h : ∀ d ∈ s.head?, d ∉ ['=', '<', '>']) :
    splitRel (g ++ s) = none ∧ ∀ d ∈ (g ++ s).head?, d ∉ ['=', '<', '>'] := by
  induction g with
  | nil => exact ⟨hs, h⟩
  | cons c g ih =>
    obtain ⟨i1, i2⟩ := ih fun d hd => hg d (by simp [hd])
    refine ⟨splitRel_cons_none i1 (.inr i2), ?_⟩
    intro d hd
    simp only [List.cons_append, List.head?_cons, Option.mem_def, Option.some.injEq] at hd
    subst hd
    exact blank_not_rel (hg _ (by simp))

theorem splitRel_spaced {ws : List (List Char)} {s : List Char} (h : Spaced ws s)
    (hws : ∀ w ∈ ws, GoodWord w) : splitRel s = none := by
  induction h with
  | one w =>
    have := splitRel_word w (hws w (by simp)).2.1 [] rfl
    simpa using this
  | cons w gap ws s h0 hgap h ih =>
    have hws' : ∀ u ∈ ws, GoodWord u := fun u hu => hws u (by simp [hu])
    obtain ⟨⟨c, r, hs, -, hc⟩, -⟩ := spaced_ends h hws'
    exact splitRel_word w (hws w (by simp)).2.1 _
      (splitRel_blanks gap hgap s (ih hws') (by rw [hs]; simpa using hc)).1

/-- The separator found is the one written, if the right side has none. -/
theorem splitRel_sep {rel : Rel} {w l r : List Char} (hw : w ∈ relString rel)
    (hr : splitRel (' ' :: r) = none) : splitRel (l ++ ' ' :: (w ++ ' ' :: r)) = some (l, rel, r) := by
  induction l with
  | nil =>
    have key : ∀ (c : Char) (s : List Char), c ≠ ' ' → splitRel s = none → splitRel (c :: s) = none :=
      fun c s hc hs => splitRel_cons_none hs (.inl hc)
    have h2 : splitRel (w ++ ' ' :: r) = none := by
      cases rel <;> simp only [relString, List.mem_cons, List.not_mem_nil, or_false] at hw
      · rcases hw with rfl | rfl
        · exact key _ _ (by decide) hr
        · exact key _ _ (by decide) (key _ _ (by decide) hr)
      · subst hw; exact key _ _ (by decide) (key _ _ (by decide) hr)
      · subst hw; exact key _ _ (by decide) (key _ _ (by decide) hr)
    rw [List.nil_append, splitRel, h2]
    cases rel <;> simp only [relString, List.mem_cons, List.not_mem_nil, or_false] at hw
    · rcases hw with rfl | rfl <;> rfl
    · subst hw; rfl
    · subst hw; rfl
  | cons c l ih => rw [List.cons_append, splitRel, ih]

theorem dropWhile_blanks (g s : List Char) (hg : ∀ c ∈ g, Blank c) (hs : ∀ c ∈ s.head?, ¬ Blank c) :
    (g ++ s).dropWhile isWs = s := by
  induction g with
  | nil =>
    cases s with
    | nil => rfl
    | cons c s =>
      rw [List.nil_append, List.dropWhile_cons_of_neg]
      rw [isWs_iff]
      exact hs c (by simp)
  | cons c g ih =>
    rw [List.cons_append, List.dropWhile_cons_of_pos ((isWs_iff c).2 (hg c (by simp))),
      ih fun d hd => hg d (by simp [hd])]

/-- Blanks at both ends are removed, nothing else. -/
theorem strip_blanks (pre s post : List Char) (hpre : ∀ c ∈ pre, Blank c) (hpost : ∀ c ∈ post, Blank c)
    (h1 : ∀ c ∈ s.head?, ¬ Blank c) (h2 : ∀ c ∈ s.getLast?, ¬ Blank c) (h0 : s ≠ []) :
    strip (pre ++ (s ++ post)) = s := by
  unfold strip
  rw [dropWhile_blanks pre _ hpre, List.reverse_append, dropWhile_blanks, List.reverse_reverse]
  · intro c hc; exact hpost c (List.mem_reverse.1 hc)
  · intro c hc; rw [List.head?_reverse] at hc; exact h2 c hc
  · obtain ⟨c, r, rfl⟩ := List.exists_cons_of_ne_nil h0
    simpa using h1

end Smol
