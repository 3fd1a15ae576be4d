import Verif.Lemmas.ConstraintText

/-!
# C39 Constraint strings, C40 the constraints attribute
-/

namespace Smol
open Spec

/-- The relation between two numbers. -/
def Holds : Rel → ℚ → ℚ → Prop
  | .eq, a, b => a = b
  | .leq, a, b => a ≤ b
  | .geq, a, b => b ≤ a

/-- **C39** (one side): the literals of a written expression are packed into the coefficients and
the constant it denotes. -/
theorem C39_side (s : Side) (h : s.terms ≠ [] ∨ s.intercept ≠ none) :
    handleLits s.lits =
      some (s.terms.map fun t => (t.coefficient, t.species, t.sub), s.constant) :=
  handleLits_side s h

/-- **C39** (refusal): two numbers in front of a species are refused, wherever they occur. -/
theorem C39_two_numbers_refused (a b : List Lit) (p q : ℚ) (s : ℕ) (k : Option ℕ) :
    handleLits (a ++ .num p :: .num q :: .sp s k :: b) = none := by
  obtain ⟨x, b', h⟩ := takeIntercept_sp (a ++ [.num p, .num q]) b s k
  simp only [List.append_assoc, List.cons_append, List.nil_append] at h
  unfold handleLits
  rw [h]
  simp [packGo_two_numbers]

/-- **C39** (what is not refused): a number at the start of a side, followed by a sign, has no effect
at all; only an intercept at the end of a side counts. -/
theorem C39_leading_number_ignored (q : ℚ) (x : Lit) (hx : x = .plus ∨ x = .minus) (l : List Lit)
    (s : ℕ) (k : Option ℕ) (hl : .sp s k ∈ l) : handleLits (.num q :: x :: l) = handleLits (x :: l) := by
  obtain ⟨a, b, rfl⟩ := List.append_of_mem hl
  obtain ⟨y, b', h1, h2⟩ : ∃ y b', takeIntercept (.num q :: x :: (a ++ .sp s k :: b)) =
      some (y, .num q :: x :: (a ++ .sp s k :: b')) ∧
      takeIntercept (x :: (a ++ .sp s k :: b)) = some (y, x :: (a ++ .sp s k :: b')) := by
    unfold takeIntercept
    simp only [List.reverse_cons, List.reverse_append, List.append_assoc]
    rcases hb : b.reverse with _ | ⟨y, r⟩
    · exact ⟨0, [], by simp, by simp⟩
    · cases y with
      | num p =>
        obtain ⟨r', h⟩ := symsBack_drop_sp r s k (a.reverse ++ [x])
        obtain ⟨r'', h'⟩ := symsBack_drop_sp r s k (a.reverse ++ [x, .num q])
        have hs : symsBack (r ++ .sp s k :: (a.reverse ++ [x, .num q])) =
            symsBack (r ++ .sp s k :: (a.reverse ++ [x])) := by
          have := symsBack_tail (r ++ .sp s k :: (a.reverse ++ [x])) q
          simpa using this
        have hr : r'' = r' := by
          have h3 := congrArg List.length h
          have h4 := congrArg List.length h'
          rw [hs] at h4
          have e : r'' ++ .sp s k :: (a.reverse ++ [x, .num q]) =
              (r' ++ .sp s k :: (a.reverse ++ [x])) ++ [.num q] := by
            rw [← h', hs, ← h, ← List.drop_append_of_le_length]
            · simp
            · have := congrArg List.length h
              simp only [List.length_drop, List.length_append, List.length_cons] at this ⊢
              omega
          have e' : r'' ++ .sp s k :: (a.reverse ++ [x, .num q]) =
              r' ++ .sp s k :: (a.reverse ++ [x, .num q]) := by rw [e]; simp
          exact List.append_cancel_right e'
        refine ⟨(symsBack (r ++ .sp s k :: (a.reverse ++ [x]))).1 * p, r'.reverse, ?_, ?_⟩
        · rw [hs, hr] at h'
          simp only [List.cons_append, List.nil_append, Option.some.injEq, Prod.mk.injEq, hs, h']
          exact ⟨trivial, by simp⟩
        · simp only [List.cons_append, List.nil_append, Option.some.injEq, Prod.mk.injEq, h]
          exact ⟨trivial, by simp⟩
      | plus => exact ⟨1, r.reverse, by simp, by simp⟩
      | minus => exact ⟨-1, r.reverse, by simp, by simp⟩
      | sp t j => exact ⟨0, r.reverse ++ [.sp t j], by simp, by simp⟩
  unfold handleLits
  rw [h1, h2]
  have := packGo_tail x q hx (a ++ .sp s k :: b') []
  simp only [List.nil_append] at this
  rcases hx with rfl | rfl <;> simp [packGo, this]

/-- Once both sides are read. -/
theorem convert_core (get : List Char → Option ℕ) (bits : List (List ℕ)) (L R : Side)
    (hL : L.terms ≠ [] ∨ L.intercept ≠ none) (hR : R.terms ≠ [] ∨ R.intercept ≠ none)
    (entry l r : List Char) (rel : Rel) (hnl : '\n' ∉ strip entry)
    (hsep : splitRel (strip entry) = some (l, rel, r))
    (hlexL : (splitWs l).mapM (lexLit get) = some L.lits)
    (hlexR : (splitWs r).mapM (lexLit get) = some R.lits) :
    ((∀ t ∈ L.terms ++ R.terms, Present bits t.species t.sub) →
      ∃ vec rhs, convertString get bits entry = some (vec, rhs, rel) ∧
        ∀ n : ℕ → ℚ, dotv bits.flatten.length vec n - rhs = L.value bits n - R.value bits n ∧
          (Holds rel (dotv bits.flatten.length vec n) rhs ↔ Holds rel (L.value bits n) (R.value bits n))) ∧
    (¬ (∀ t ∈ L.terms ++ R.terms, Present bits t.species t.sub) →
      convertString get bits entry = none) := by
  have hconv : convertString get bits entry =
      (convertSides bits (L.terms.map Term.packed, L.constant) (R.terms.map Term.packed, R.constant)).map
        fun q => (q.1, q.2, rel) := by
    unfold convertString handleSide
    rw [if_neg hnl, hsep]
    simp only [Option.bind_some, hlexL, hlexR, handleLits_side L hL, handleLits_side R hR]
  have hpres : ∀ s : Side, (∀ t ∈ s.terms.map Term.packed, Present bits t.2.1 t.2.2) ↔
      ∀ t ∈ s.terms, Present bits t.species t.sub := by
    intro s
    simp only [List.forall_mem_map, Term.packed]
  have hsum : ∀ (s : Side) (n : ℕ → ℚ),
      ((s.terms.map Term.packed).map fun t => t.1 * countOf bits n t.2.1 t.2.2).sum =
        s.value bits n - s.constant := by
    intro s n
    rw [List.map_map, Side.value, add_sub_cancel_right]
    rfl
  rw [hconv]
  unfold convertSides
  constructor
  · intro h
    obtain ⟨v1, e1, f1⟩ := (addTerms_spec bits 1 (L.terms.map Term.packed) fun _ => 0).1
      ((hpres L).2 fun t ht => h t (List.mem_append_left _ ht))
    obtain ⟨v2, e2, f2⟩ := (addTerms_spec bits (-1) (R.terms.map Term.packed) v1).1
      ((hpres R).2 fun t ht => h t (List.mem_append_right _ ht))
    refine ⟨v2, R.constant - L.constant, by simp [e1, e2], fun n => ?_⟩
    have key : dotv bits.flatten.length v2 n - (R.constant - L.constant) =
        L.value bits n - R.value bits n := by
      rw [f2, f1, hsum, hsum]
      have : dotv bits.flatten.length (fun _ => 0) n = 0 := by simp [dotv]
      rw [this]
      ring
    refine ⟨key, ?_⟩
    cases rel <;> simp only [Holds] <;> constructor <;> intro _ <;> linarith
  · intro h
    by_cases hLp : ∀ t ∈ L.terms, Present bits t.species t.sub
    · obtain ⟨v1, e1, -⟩ := (addTerms_spec bits 1 (L.terms.map Term.packed) fun _ => 0).1 ((hpres L).2 hLp)
      have hRp : ¬ ∀ t ∈ R.terms, Present bits t.species t.sub := fun h' => h fun t ht => by
        rcases List.mem_append.1 ht with ht | ht
        · exact hLp t ht
        · exact h' t ht
      have := (addTerms_spec bits (-1) (R.terms.map Term.packed) v1).2 (fun h' => hRp ((hpres R).1 h'))
      simp [e1, this]
    · have := (addTerms_spec bits 1 (L.terms.map Term.packed) fun _ => 0).2
        (fun h' => hLp ((hpres L).1 h'))
      simp [this]

/-! ### From the text -/

/-- The text of a constraint: two sides around a relation symbol that has a space on both sides. -/
def conText (pre l padL w padR r post : List Char) : List Char :=
  pre ++ ((l ++ (padL ++ ' ' :: (w ++ ' ' :: (padR ++ r)))) ++ post)

theorem conText_parts {L R : WSide} (hL : L.Ok) (hR : R.Ok) {l r : List Char}
    (hl : Spaced L.words l) (hr : Spaced R.words r) {pre padL padR post : List Char}
    (hb : ∀ c ∈ pre ++ padL ++ padR ++ post, Blank c) {rel : Rel} {w : List Char}
    (hw : w ∈ relString rel) :
    strip (conText pre l padL w padR r post) = l ++ (padL ++ ' ' :: (w ++ ' ' :: (padR ++ r))) ∧
    splitRel (l ++ (padL ++ ' ' :: (w ++ ' ' :: (padR ++ r)))) = some (l ++ padL, rel, padR ++ r) ∧
    splitWs (l ++ padL) = L.words ∧ splitWs (padR ++ r) = R.words := by
  simp only [List.forall_mem_append] at hb
  obtain ⟨⟨⟨hpre, hpadL⟩, hpadR⟩, hpost⟩ := hb
  have gL := (side_good L hL).2
  have gR := (side_good R hR).2
  obtain ⟨⟨c, l', rfl, hc, -⟩, -⟩ := spaced_ends hl gL
  obtain ⟨⟨d, r'', hrd, -, hd⟩, r', e, hre, he⟩ := spaced_ends hr gR
  refine ⟨?_, ?_, ?_, ?_⟩
  · refine strip_blanks _ _ _ hpre hpost (by simpa using hc) ?_ (by simp)
    intro x hx
    have : (c :: l' ++ (padL ++ ' ' :: (w ++ ' ' :: (padR ++ r)))) =
        (c :: l' ++ (padL ++ ' ' :: (w ++ ' ' :: (padR ++ r')))) ++ [e] := by
      simp [hre]
    rw [this, List.getLast?_append_of_ne_nil _ (by simp)] at hx
    simp only [List.getLast?_singleton, Option.mem_def, Option.some.injEq] at hx
    exact hx ▸ he
  · have h1 := splitRel_blanks padR hpadR r (splitRel_spaced hr gR) (by rw [hrd]; simpa using hd)
    have := splitRel_sep (l := c :: l' ++ padL) (r := padR ++ r) hw (splitRel_cons_none h1.1 (.inr h1.2))
    rw [← this]
    simp
  · have := splitWs_spaced hl (fun w hw => ⟨(gL w hw).1, (gL w hw).2.1⟩) [] padL (by simp) hpadL
    simpa using this
  · have := splitWs_spaced hr (fun w hw => ⟨(gR w hw).1, (gR w hw).2.1⟩) padR [] hpadR (by simp)
    simpa using this

/-- **C39** (whole constraint): the text of two expressions with a relation symbol between them,
spaced in any way on one line, is converted to a coefficient vector and a right-hand side such that,
for every composition, "vector · n relation right-hand side" says what the text says; if a species
named is not where it is claimed to be, the conversion raises. -/
theorem C39_text (get : List Char → Option ℕ) (species : List Char → ℕ) (bits : List (List ℕ))
    (L R : WSide) (hL : L.Ok) (hR : R.Ok)
    (hget : ∀ t ∈ L.terms ++ R.terms, get t.name = some (species t.name))
    (l r : List Char) (hl : Spaced L.words l) (hr : Spaced R.words r)
    (pre padL padR post : List Char) (hb : ∀ c ∈ pre ++ padL ++ padR ++ post, Blank c)
    (hline : '\n' ∉ l ++ padL ++ padR ++ r) (rel : Rel) (w : List Char) (hw : w ∈ relString rel) :
    ((∀ t ∈ L.terms ++ R.terms, Present bits (species t.name) (t.sub.map digitsNum)) →
      ∃ vec rhs, convertString get bits (conText pre l padL w padR r post) = some (vec, rhs, rel) ∧
        ∀ n : ℕ → ℚ, dotv bits.flatten.length vec n - rhs =
            (L.meaning species).value bits n - (R.meaning species).value bits n ∧
          (Holds rel (dotv bits.flatten.length vec n) rhs ↔
            Holds rel ((L.meaning species).value bits n) ((R.meaning species).value bits n))) ∧
    (¬ (∀ t ∈ L.terms ++ R.terms, Present bits (species t.name) (t.sub.map digitsNum)) →
      convertString get bits (conText pre l padL w padR r post) = none) := by
  obtain ⟨h1, h2, h3, h4⟩ := conText_parts hL hR hl hr hb hw
  have ne : ∀ s : WSide, s.Ok → (s.meaning species).terms ≠ [] ∨ (s.meaning species).intercept ≠ none := by
    intro s hs
    rcases hs.nonempty with h | h
    · exact .inl (by simpa [WSide.meaning] using h)
    · exact .inr (by simpa [WSide.meaning] using h)
  have hp : (∀ t ∈ (L.meaning species).terms ++ (R.meaning species).terms, Present bits t.species t.sub) ↔
      ∀ t ∈ L.terms ++ R.terms, Present bits (species t.name) (t.sub.map digitsNum) := by
    simp only [WSide.meaning, ← List.map_append, List.forall_mem_map]
    rfl
  have hnl : '\n' ∉ strip (conText pre l padL w padR r post) := by
    rw [h1]
    simp only [List.mem_append, not_or] at hline
    have hwn : '\n' ∉ w := by
      cases rel <;> simp only [relString, List.mem_cons, List.not_mem_nil, or_false] at hw
      · rcases hw with rfl | rfl <;> decide
      · subst hw; decide
      · subst hw; decide
    simp [hline, hwn]
  have := convert_core get bits (L.meaning species) (R.meaning species) (ne L hL) (ne R hR) _ _ _ rel hnl
    (by rw [h1]; exact h2)
    (by rw [h3]; exact lex_side get species L hL fun t ht => hget t (List.mem_append_left _ ht))
    (by rw [h4]; exact lex_side get species R hR fun t ht => hget t (List.mem_append_right _ ht))
  rw [hp] at this
  exact this

/-- **C39** (unknown names): a name that is not that of a species makes the conversion raise. -/
theorem C39_unknown_name (get : List Char → Option ℕ) (bits : List (List ℕ))
    (L R : WSide) (hL : L.Ok) (hR : R.Ok) (hget : ∃ t ∈ L.terms ++ R.terms, get t.name = none)
    (l r : List Char) (hl : Spaced L.words l) (hr : Spaced R.words r)
    (pre padL padR post : List Char) (hb : ∀ c ∈ pre ++ padL ++ padR ++ post, Blank c)
    (rel : Rel) (w : List Char) (hw : w ∈ relString rel) :
    convertString get bits (conText pre l padL w padR r post) = none := by
  obtain ⟨h1, h2, h3, h4⟩ := conText_parts hL hR hl hr hb hw
  obtain ⟨t, ht, hg⟩ := hget
  unfold convertString handleSide
  rw [h1]
  split_ifs
  · rfl
  · rw [h2]
    simp only [Option.bind_some, h3, h4]
    rcases List.mem_append.1 ht with ht | ht
    · rw [lex_unknown get L hL t ht hg]; rfl
    · rw [lex_unknown get R hR t ht hg]
      cases (L.words.mapM (lexLit get)).bind handleLits <;> rfl

/-- **C39** (no relation): a text without relation symbol is refused. -/
theorem C39_relation_required (get : List Char → Option ℕ) (bits : List (List ℕ)) (L : WSide)
    (hL : L.Ok) (l : List Char) (hl : Spaced L.words l) (pre post : List Char)
    (hb : ∀ c ∈ pre ++ post, Blank c) : convertString get bits (pre ++ (l ++ post)) = none := by
  simp only [List.forall_mem_append] at hb
  have gL := (side_good L hL).2
  have hs : splitRel l = none := splitRel_spaced hl gL
  obtain ⟨⟨c, l', hc, hcb, -⟩, r, d, hd, hdb⟩ := spaced_ends hl gL
  have : strip (pre ++ (l ++ post)) = l := by
    refine strip_blanks _ _ _ hb.1 hb.2 (by rw [hc]; simpa using hcb) (by rw [hd]; simpa using hdb) ?_
    rw [hc]; simp
  unfold convertString
  rw [this, hs]
  split_ifs <;> rfl

/-- **C39** (line breaks): a text with a line break that is not at one of its ends is refused. -/
theorem C39_line_break_refused (get : List Char → Option ℕ) (bits : List (List ℕ))
    (c d : Char) (s : List Char) (hc : ¬ Blank c) (hd : ¬ Blank d) (h : '\n' ∈ s) :
    convertString get bits (c :: (s ++ [d])) = none := by
  have : strip (c :: (s ++ [d])) = c :: (s ++ [d]) :=
    strip_id ((isWs_false_iff c).2 hc) ((isWs_false_iff d).2 hd)
  unfold convertString
  rw [this, if_pos (by simp [h])]
  rfl

/-- **C39** (numbers): a word with the text of a number stands for its value, or, if the nearest
integer is within `numpy.isclose`, for that integer. -/
theorem C39_numbers (get : List Char → Option ℕ) (n : Numeral) (h : n.whole ≠ []) (k : ℤ)
    (hk : NearestEven n.value k) :
    (CloseTo n.value k → lexLit get n.text = some (.num k)) ∧
    (¬ CloseTo n.value k → lexLit get n.text = some (.num n.value)) := by
  rw [lexLit_numeral get n h]
  constructor
  · intro hc; rw [(roundIfClose_eq hk).1 hc]
  · intro hc; rw [(roundIfClose_eq hk).2 hc]

/-- **C39** (finding): because the tolerance is relative, numbers from fifty thousand on lose their
fractions. -/
theorem C39_large_fractions_lost (get : List Char → Option ℕ) (n : Numeral) (h : n.whole ≠ [])
    (hn : 50001 ≤ |n.value|) : ∃ k : ℤ, lexLit get n.text = some (.num k) ∧ |n.value - k| ≤ 1 / 2 := by
  have hk := npRound_nearestEven n.value
  refine ⟨npRound n.value, (C39_numbers get n h _ hk).1 ?_, hk.1⟩
  unfold CloseTo
  have h1 : |n.value| ≤ |n.value - npRound n.value| + |((npRound n.value : ℤ) : ℚ)| := by
    have := abs_add_le (n.value - npRound n.value) ((npRound n.value : ℤ) : ℚ)
    simpa using this
  have h2 := hk.1
  have h3 : (0 : ℚ) ≤ 1 / 10 ^ 8 := by norm_num
  linarith

/-- **C39** (finding): a sign at the end of a side counts as one. -/
theorem C39_trailing_sign (ts : List Term) (b : Bool) :
    handleLits ((Side.mk ts none).lits ++ [signLit b]) =
      some (ts.map fun t => (t.coefficient, t.species, t.sub), if b then 1 else -1) := by
  have h : packGo [] (ts.flatMap Term.lits) = some (ts.map Term.packed) := by
    have := packGo_terms ts [] trivial
    simpa using this
  unfold handleLits takeIntercept
  have e : ((Side.mk ts none).lits ++ [signLit b]).reverse = signLit b :: (ts.flatMap Term.lits).reverse := by
    simp [Side.lits, interceptLits]
  rw [e]
  cases b <;> simp only [signLit, if_true, Bool.false_eq_true, if_false, Option.bind_some,
    List.reverse_reverse, h] <;> rfl

/-- **C39** (spacing): words without whitespace are recovered from any text that spaces them. -/
theorem C39_words (ws : List (List Char)) (s pre post : List Char) (hs : Spaced ws s)
    (h : ∀ w ∈ ws, w ≠ [] ∧ ∀ c ∈ w, ¬ Blank c) (hb : ∀ c ∈ pre ++ post, Blank c) :
    splitWs (pre ++ (s ++ post)) = ws := by
  simp only [List.forall_mem_append] at hb
  exact splitWs_spaced hs h pre post hb.1 hb.2

/-! ### The stored constraints -/

/-- What one readable entry says about a composition. -/
def EntryHolds (get : List Char → Option ℕ) (bits : List (List ℕ)) (n : ℕ → ℚ) : ConEntry → Prop
  | .tuple v r rel => Holds rel (dotv bits.flatten.length v n) r
  | .str s => ∃ q, convertString get bits s = some q ∧
      Holds q.2.2 (dotv bits.flatten.length q.1 n) q.2.1
  | _ => False

/-- A composition satisfies the stored equalities and inequalities. -/
def Stored.SatisfiedBy (dims : ℕ) (st : Stored) (n : ℕ → ℚ) : Prop :=
  (∀ p ∈ st.eqs, dotv dims p.1 n = p.2) ∧ ∀ p ∈ st.leqs, dotv dims p.1 n ≤ p.2

theorem file_satisfied (dims : ℕ) (st : Stored) (v : ℕ → ℚ) (r : ℚ) (rel : Rel) (n : ℕ → ℚ) :
    (st.file v r rel).SatisfiedBy dims n ↔ st.SatisfiedBy dims n ∧ Holds rel (dotv dims v n) r := by
  have hneg : dotv dims (fun i => -1 * v i) n = -dotv dims v n := by
    simp [dotv]
  cases rel with
  | eq =>
    simp only [Stored.SatisfiedBy, Stored.file, List.forall_mem_append, List.forall_mem_cons, Holds]
    constructor
    · rintro ⟨⟨a, b, -⟩, c⟩; exact ⟨⟨a, c⟩, b⟩
    · rintro ⟨⟨a, c⟩, b⟩; exact ⟨⟨a, b, by simp⟩, c⟩
  | leq =>
    simp only [Stored.SatisfiedBy, Stored.file, List.forall_mem_append, List.forall_mem_cons, Holds]
    constructor
    · rintro ⟨a, b, c, -⟩; exact ⟨⟨a, b⟩, c⟩
    · rintro ⟨⟨a, b⟩, c⟩; exact ⟨a, b, c, by simp⟩
  | geq =>
    simp only [Stored.SatisfiedBy, Stored.file, List.forall_mem_append, List.forall_mem_cons, Holds,
      hneg]
    constructor
    · rintro ⟨a, b, c, -⟩; exact ⟨⟨a, b⟩, by linarith⟩
    · rintro ⟨⟨a, b⟩, c⟩; exact ⟨a, b, by linarith, by simp⟩

/-- **C39** (the list): what is stored is satisfied by exactly the compositions satisfying every
entry, provided all relations are known ones. -/
theorem C39_stored_means_entries (get : List Char → Option ℕ) (bits : List (List ℕ))
    (es : List ConEntry) (st : Stored) (h : storeOf get bits es = some st)
    (hes : ∀ e ∈ es, ∀ v r, e ≠ .other v r) (n : ℕ → ℚ) :
    st.SatisfiedBy bits.flatten.length n ↔ ∀ e ∈ es, EntryHolds get bits n e := by
  have key : ∀ (es : List ConEntry) (st0 st : Stored), es.foldlM (Stored.add get bits) st0 = some st →
      (∀ e ∈ es, ∀ v r, e ≠ .other v r) →
      (st.SatisfiedBy bits.flatten.length n ↔
        st0.SatisfiedBy bits.flatten.length n ∧ ∀ e ∈ es, EntryHolds get bits n e) := by
    intro es
    induction es with
    | nil =>
      intro st0 st h _
      simp only [List.foldlM_nil] at h
      cases h
      simp
    | cons e es ih =>
      intro st0 st h hes
      rw [List.foldlM_cons] at h
      cases ha : Stored.add get bits st0 e with
      | none => rw [ha] at h; exact absurd h (by simp)
      | some st1 =>
        rw [ha] at h
        rw [ih st1 st h fun x hx => hes x (List.mem_cons_of_mem _ hx), List.forall_mem_cons]
        have : st1.SatisfiedBy bits.flatten.length n ↔
            st0.SatisfiedBy bits.flatten.length n ∧ EntryHolds get bits n e := by
          cases e with
          | tuple v r rel =>
            simp only [Stored.add, Option.some.injEq] at ha
            rw [← ha, file_satisfied]
            rfl
          | other v r => exact absurd rfl (hes _ (List.mem_cons_self ..) v r)
          | str s =>
            simp only [Stored.add, Option.map_eq_some_iff] at ha
            obtain ⟨q, hq, rfl⟩ := ha
            rw [file_satisfied]
            simp only [EntryHolds, hq, Option.some.injEq, exists_eq_left']
          | unreadable => simp [Stored.add] at ha
        rw [this]
        tauto
  have := key es {} st h hes
  rw [this]
  simp [Stored.SatisfiedBy]

/-! ### Examples -/

/-- Species: `Ag+` is 0, `Cl-` is 1, `Mn2+` is 2. -/
def getExample (w : List Char) : Option ℕ :=
  if w = "Ag+".toList then some 0 else if w = "Cl-".toList then some 1
  else if w = "Mn2+".toList then some 2 else none

def sideL : Side := ⟨[⟨[], some 2, 0, some 0⟩, ⟨[true], none, 1, some 1⟩], none⟩
def sideR : Side := ⟨[⟨[], some 3, 2, none⟩], some ([true], 4)⟩

example : ((splitWs "2 Ag+(0) + Cl-(1)".toList).mapM (lexLit getExample)) = some sideL.lits := by
  decide +kernel

example : ((splitWs "3 Mn2+ + 4".toList).mapM (lexLit getExample)) = some sideR.lits := by
  decide +kernel

example : (convertString getExample [[0, 2], [1, 2]] "2 Ag+(0) + Cl-(1) <= 3 Mn2+ + 4".toList).map
    (fun q => ((List.range 4).map q.1, q.2)) = some ([2, -3, 1, -3], 4, .leq) := by decide +kernel

/-- `2 Ag+(0) + 0.5 Cl-(1)` and `3 Mn2+ +4`, as typed. -/
def typedL : WSide := ⟨[⟨[], some ⟨none, [2], none⟩, "Ag+".toList, some [0]⟩,
  ⟨[true], some ⟨none, [0], some [5]⟩, "Cl-".toList, some [1]⟩], none⟩
def typedR : WSide := ⟨[⟨[], some ⟨none, [3], none⟩, "Mn2+".toList, none⟩],
  some ([], ⟨some true, [4], none⟩)⟩

theorem typedL_ok : typedL.Ok := by
  refine ⟨?_, by simp [typedL], by simp [typedL]⟩
  have plain_half : Plain (Numeral.mk none [0] (some [5])).value := by
    refine .inr fun k hk => ?_
    have e : (Numeral.mk none [0] (some [5])).value = 1 / 2 := by decide +kernel
    unfold CloseTo at hk
    rw [e] at hk
    rcases le_or_gt k 0 with h | h
    · have h' : (k : ℚ) ≤ 0 := by exact_mod_cast h
      rw [abs_of_nonneg (by linarith), abs_of_nonpos h'] at hk
      linarith
    · have h' : (1 : ℚ) ≤ k := by exact_mod_cast h
      rw [abs_of_neg (by linarith), abs_of_pos (by linarith)] at hk
      linarith
  simp only [typedL, List.forall_mem_cons, List.not_mem_nil, false_imp_iff, implies_true, and_true]
  refine ⟨⟨?_, ⟨'A', "g+".toList, by decide, by unfold Letter; decide⟩, by unfold Blank; decide, by simp, by simp⟩,
    ⟨?_, ⟨'C', "l-".toList, by decide, by unfold Letter; decide⟩, by unfold Blank; decide, by simp, by simp⟩⟩
  · rintro n ⟨⟩
    exact ⟨by simp, .inl ⟨2, by decide +kernel⟩⟩
  · rintro n ⟨⟩
    exact ⟨by simp, plain_half⟩

theorem typedR_ok : typedR.Ok := by
  refine ⟨?_, ?_, by simp [typedR]⟩
  · simp only [typedR, List.forall_mem_cons, List.not_mem_nil, false_imp_iff, implies_true, and_true]
    refine ⟨?_, ⟨'M', "n2+".toList, by decide, by unfold Letter; decide⟩, by unfold Blank; decide,
      fun _ => by decide, by simp⟩
    rintro n ⟨⟩
    exact ⟨by simp, .inl ⟨3, by decide +kernel⟩⟩
  · rintro p ⟨⟩
    exact ⟨by simp, .inl ⟨4, by decide +kernel⟩⟩

theorem typedL_spaced : Spaced typedL.words "2  Ag+(0) + 0.5\tCl-(1)".toList :=
  .cons ['2'] [' ', ' '] _ _ (by simp) (by unfold Blank; decide)
    (.cons "Ag+(0)".toList [' '] _ _ (by simp) (by unfold Blank; decide)
      (.cons ['+'] [' '] _ _ (by simp) (by unfold Blank; decide)
        (.cons "0.5".toList ['\t'] _ _ (by simp) (by unfold Blank; decide) (.one "Cl-(1)".toList))))

theorem typedR_spaced : Spaced typedR.words "3 Mn2+ +4".toList :=
  .cons ['3'] [' '] _ _ (by simp) (by unfold Blank; decide)
    (.cons "Mn2+".toList [' '] _ _ (by simp) (by unfold Blank; decide) (.one "+4".toList))

example : ∃ vec rhs, convertString getExample [[0, 2], [1, 2]]
    "\n 2  Ag+(0) + 0.5\tCl-(1)  >= 3 Mn2+ +4 ".toList = some (vec, rhs, .geq) ∧
    ∀ n : ℕ → ℚ, (rhs ≤ dotv 4 vec n ↔ 3 * (n 1 + n 3) + 4 ≤ 2 * n 0 + 1 / 2 * n 2) := by
  obtain ⟨vec, rhs, h, hn⟩ := (C39_text getExample (fun w => (getExample w).getD 0) [[0, 2], [1, 2]]
    typedL typedR typedL_ok typedR_ok (by decide) _ _ typedL_spaced typedR_spaced ['\n', ' '] [' '] [] [' ']
    (by unfold Blank; decide) (by decide) .geq ['>', '='] (by decide)).1
    (by
      simp only [typedL, typedR, List.cons_append, List.nil_append, List.forall_mem_cons,
        List.not_mem_nil, false_imp_iff, implies_true, and_true]
      refine ⟨⟨[0, 2], rfl, by decide⟩, ⟨[1, 2], rfl, by decide⟩, ⟨[0, 2], by simp, by decide⟩⟩)
  refine ⟨vec, rhs, h, fun n => (hn n).2.trans ?_⟩
  have e1 : (typedL.meaning fun w => (getExample w).getD 0) =
      ⟨[⟨[], some 2, 0, some 0⟩, ⟨[true], some (1 / 2), 1, some 1⟩], none⟩ := by decide +kernel
  have e2 : (typedR.meaning fun w => (getExample w).getD 0) =
      ⟨[⟨[], some 3, 2, none⟩], some ([], 4)⟩ := by decide +kernel
  rw [e1, e2]
  simp [Holds, Side.value, Term.coefficient, Side.constant, signOf, countOf, countFrom, List.idxOf_cons]

/-- Large numbers lose their fraction. -/
example : lexLit getExample "100000.4".toList = some (.num 100000) ∧
    lexLit getExample "-70000.5".toList = some (.num (-70000)) ∧
    lexLit getExample "1000.4".toList = some (.num (10004 / 10)) := by decide +kernel

/-- A number that is not at the end of its side is silently ignored. -/
example : (convertString getExample [[0, 2], [1, 2]] "5 + Ag+ = 1".toList).map
    (fun q => ((List.range 4).map q.1, q.2)) = some ([1, 0, 0, 0], 1, .eq) := by decide +kernel

/-! ### C40 -/

/-- **C40** (violation): while the attribute is set, an assignment changes nothing. -/
theorem C40_second_assignment_ignored (get : List Char → Option ℕ) (bits : List (List ℕ))
    (st : Stored) (es : List ConEntry) : conStep get bits (some st) (.set es) = some st := by
  simp only [conStep]
  split <;> rfl

/-- **C40** (violation): a constraint with an unknown relation is accepted and dropped. -/
theorem C40_unknown_relation_dropped (get : List Char → Option ℕ) (bits : List (List ℕ))
    (es : List ConEntry) (v : ℕ → ℚ) (r : ℚ) :
    storeOf get bits (es ++ [.other v r]) = storeOf get bits es := by
  unfold storeOf
  rw [List.foldlM_append]
  cases es.foldlM (Stored.add get bits) {} <;> rfl

/-- **C40**: what holds: after any history, an assignment takes effect if the attribute has been
deleted just before. -/
theorem C40_after_delete_partial (get : List Char → Option ℕ) (bits : List (List ℕ))
    (ops : List ConOp) (es : List ConEntry) :
    conRun get bits (ops ++ [.delete, .set es]) = storeOf get bits es := by
  unfold conRun
  rw [List.foldl_append]
  simp only [List.foldl_cons, List.foldl_nil, conStep]
  cases storeOf get bits es <;> rfl

example : storeOf getExample [[0, 2], [1, 2]] [.str "Ag+ = Cl-".toList] ≠ none := by
  have : (storeOf getExample [[0, 2], [1, 2]] [.str "Ag+ = Cl-".toList]).isSome = true := by decide +kernel
  exact fun h => by rw [h] at this; exact absurd this (by simp)

end Smol
