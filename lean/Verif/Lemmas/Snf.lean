import Verif.Lemmas.IntLinAlg

/-! Lemmas on the loops of `compute_snf`. -/

namespace Smol

/-- Rows and columns before `i` are cleared, with nonzero diagonal. -/
structure Clean (p q i : ℕ) (m : IMat) : Prop where
  off : ∀ r < p, ∀ c < q, r ≠ c → (r < i ∨ c < i) → m r c = 0
  diag : ∀ r < i, m r r ≠ 0

theorem Clean.row {p q i : ℕ} {m : IMat} (h : Clean p q i m) {i0 i1 : ℕ} (h0 : i ≤ i0) (h1 : i ≤ i1)
    (h0p : i0 < p) (h1p : i1 < p) (a b c d : ℤ) : Clean p q i (leftmult m i0 i1 a b c d) where
  off r hr k hk hne hlt := by
    have z : ∀ s, s < p → i ≤ s → k < i → m s k = 0 := fun s hs his hki =>
      h.off s hs k hk (by omega) (Or.inr hki)
    simp only [leftmult]
    split_ifs with e1 e2
    · rw [z i0 h0p h0 (by omega), z i1 h1p h1 (by omega)]; ring
    · rw [z i0 h0p h0 (by omega), z i1 h1p h1 (by omega)]; ring
    · exact h.off r hr k hk hne hlt
  diag r hr := by
    simp only [leftmult]
    rw [if_neg (by omega), if_neg (by omega)]
    exact h.diag r hr

/-- The transposed state. -/
def Snf.tr (x : Snf) : Snf := ⟨fun i j => x.t j i, fun i j => x.m j i, fun i j => x.s j i⟩

theorem Snf.tr_tr (x : Snf) : x.tr.tr = x := rfl

theorem Snf.colOp_tr (x : Snf) (j0 j1 : ℕ) (a b c d : ℤ) :
    x.colOp j0 j1 a b c d = (x.tr.rowOp j0 j1 a c b d).tr := rfl

theorem Clean.tr {p q i : ℕ} {x : Snf} (h : Clean p q i x.m) : Clean q p i x.tr.m where
  off r hr c hc hne hlt := h.off c hc r hr hne.symm hlt.symm
  diag := h.diag

theorem Clean.col {p q i : ℕ} {m : IMat} (h : Clean p q i m) {i0 i1 : ℕ} (h0 : i ≤ i0) (h1 : i ≤ i1)
    (h0q : i0 < q) (h1q : i1 < q) (a b c d : ℤ) : Clean p q i (rightmult m i0 i1 a b c d) := by
  have h' : Clean q p i (Snf.tr ⟨m, m, m⟩).m := Clean.tr (x := ⟨m, m, m⟩) h
  have := Clean.tr (x := ⟨m, leftmult (Snf.tr ⟨m, m, m⟩).m i0 i1 a c b d, m⟩)
    (h'.row h0 h1 h0q h1q a c b d)
  exact this

theorem Snf.Good.tr {p q : ℕ} {a : IMat} {x : Snf} (h : x.Good p q a) :
    x.tr.Good q p (fun i j => a j i) where
  eq := by
    have := congrArg Matrix.transpose h.eq
    rw [Matrix.transpose_mul, Matrix.transpose_mul, ← Matrix.mul_assoc] at this
    exact this
  su := by
    have := h.tu
    rw [← Matrix.det_transpose] at this
    exact this
  tu := by
    have := h.su
    rw [← Matrix.det_transpose] at this
    exact this

theorem clearCol_tr (i : ℕ) (x : Snf × Bool) (jj : ℕ) :
    clearColEntry i x jj =
      ((clearRowEntry i (x.1.tr, x.2) jj).1.tr, (clearRowEntry i (x.1.tr, x.2) jj).2) := by
  obtain ⟨x, f⟩ := x
  by_cases h0 : x.m i jj = 0
  · have h0' : x.tr.m jj i = 0 := h0
    rw [clearColEntry, clearRowEntry, if_pos h0, if_pos h0']
    rfl
  · have h0' : ¬ x.tr.m jj i = 0 := h0
    rw [clearColEntry, clearRowEntry, if_neg h0, if_neg h0']
    by_cases h1 : (x.m i jj).fmod (x.m i i) ≠ 0
    · have h1' : (x.tr.m jj i).fmod (x.tr.m i i) ≠ 0 := h1
      simp only [if_pos h1, if_pos h1']
      rfl
    · have h1' : ¬ (x.tr.m jj i).fmod (x.tr.m i i) ≠ 0 := h1
      simp only [if_neg h1, if_neg h1']
      rfl

/-- What a pass over the rows ensures. -/
structure RowPass (p q i : ℕ) (a : IMat) (x x' : Snf) : Prop where
  good : x'.Good p q a
  clean : Clean p q i x'.m
  pivot : x'.m i i ≠ 0
  progress : (x'.m i i).natAbs < (x.m i i).natAbs ∨ ∀ c, x'.m i c = x.m i c

theorem clearRowEntry_spec {p q i : ℕ} {a : IMat} {x : Snf} {f : Bool} (hg : x.Good p q a)
    (hc : Clean p q i x.m) (hp : x.m i i ≠ 0) {ii : ℕ} (hi : i < ii) (hii : ii < p) :
    RowPass p q i a x (clearRowEntry i (x, f) ii).1 ∧
    (clearRowEntry i (x, f) ii).1.m ii i = 0 ∧
    (∀ r, r ≠ i → r ≠ ii → ∀ c, (clearRowEntry i (x, f) ii).1.m r c = x.m r c) ∧
    ((clearRowEntry i (x, f) ii).2 = false →
      f = false ∧ (clearRowEntry i (x, f) ii).1 = x ∧ x.m ii i = 0) := by
  have hip : i < p := by omega
  unfold clearRowEntry
  split_ifs with h0
  · simp only at h0
    exact ⟨⟨hg, hc, hp, Or.inr fun _ => rfl⟩, h0, fun _ _ _ _ => rfl, fun h => ⟨h, rfl, h0⟩⟩
  · simp only at h0 ⊢
    by_cases hd : (x.m ii i).fmod (x.m i i) = 0
    · rw [if_neg (by simpa using hd)]
      refine ⟨⟨hg.rowOp hip hii (by omega) _ _ _ _ 1 (by ring), hc.row (le_refl _) hi.le hip hii _ _ _ _,
        ?_, Or.inr ?_⟩, ?_, ?_, by simp⟩
      · simp only [Snf.rowOp, leftmult, if_neg (show i ≠ ii by omega), if_true]
        simpa using hp
      · intro c
        simp only [Snf.rowOp, leftmult, if_neg (show i ≠ ii by omega), if_true]
        ring
      · simp only [Snf.rowOp, leftmult, if_true]
        have := Int.mul_fdiv_add_fmod (x.m ii i) (x.m i i)
        rw [hd] at this
        linear_combination -this
      · intro r hr1 hr2 c
        simp only [Snf.rowOp, leftmult, if_neg hr1, if_neg hr2]
    · rw [if_pos (by simpa using hd)]
      obtain ⟨d1, d2, d3, d4⟩ := gcdex_det (b := x.m ii i) hp
      obtain ⟨g1, g2⟩ := gcdex_spec (x.m i i) (x.m ii i)
      set e := gcdex (x.m i i) (x.m ii i) with he
      set y := x.rowOp i ii e.1 e.2.1 (-((x.m ii i).fdiv e.2.2)) ((x.m i i).fdiv e.2.2) with hy
      have yg : y.Good p q a := hg.rowOp hip hii (by omega) _ _ _ _ 1 (by linear_combination d1)
      have yc : Clean p q i y.m := hc.row (le_refl _) hi.le hip hii _ _ _ _
      have y1 : y.m i i = e.2.2 := by
        simp only [hy, Snf.rowOp, leftmult, if_neg (show i ≠ ii by omega), if_true]
        exact g1
      have y2 : y.m ii i = 0 := by
        simp only [hy, Snf.rowOp, leftmult, if_true]
        generalize (x.m ii i).fdiv e.2.2 = u at *
        generalize (x.m i i).fdiv e.2.2 = v at *
        linear_combination u * d3 - v * d4
      have y3 : ∀ r, r ≠ i → r ≠ ii → ∀ c, y.m r c = x.m r c := by
        intro r hr1 hr2 c
        simp only [hy, Snf.rowOp, leftmult, if_neg hr1, if_neg hr2]
      have hlt : e.2.2.natAbs < (x.m i i).natAbs := by
        rw [g2]
        apply lt_of_le_of_ne
        · exact Nat.le_of_dvd (by omega) (by
            have := Int.gcd_dvd_left (x.m i i) (x.m ii i)
            rwa [← Int.dvd_natAbs, Int.natCast_dvd_natCast] at this)
        · intro heq
          apply hd
          apply Int.fmod_eq_zero_of_dvd
          rw [← Int.natAbs_dvd, ← heq]
          exact Int.gcd_dvd_right _ _
      rw [y2]
      refine ⟨⟨yg.rowOp hip hii (by omega) _ _ _ _ 1 (by ring), yc.row (le_refl _) hi.le hip hii _ _ _ _,
        ?_, Or.inl ?_⟩, ?_, ?_, by simp⟩
      · simp only [Snf.rowOp, leftmult, if_neg (show i ≠ ii by omega), if_true, y1]
        simpa using d2
      · simp only [Snf.rowOp, leftmult, if_neg (show i ≠ ii by omega), if_true, y1]
        simpa using hlt
      · simp only [Snf.rowOp, leftmult, if_true, y2]
        simp
      · intro r hr1 hr2 c
        simp only [Snf.rowOp, leftmult, if_neg hr1, if_neg hr2]
        exact y3 r hr1 hr2 c

theorem rowPass_spec {p q i : ℕ} {a : IMat} {x : Snf} {f : Bool} (hg : x.Good p q a)
    (hc : Clean p q i x.m) (hp : x.m i i ≠ 0) (n : ℕ) (hn : i + 1 + n ≤ p) :
    let r := (List.range' (i + 1) n).foldl (clearRowEntry i) (x, f)
    RowPass p q i a x r.1 ∧ (∀ s, i < s → s < i + 1 + n → r.1.m s i = 0) ∧
    (r.2 = false → f = false ∧ r.1 = x) := by
  induction n with
  | zero =>
    simp only [List.range'_zero, List.foldl_nil]
    exact ⟨⟨hg, hc, hp, Or.inr fun _ => rfl⟩, fun s h1 h2 => by omega, fun h => ⟨h, trivial⟩⟩
  | succ n ih =>
    intro r
    obtain ⟨h1, h2, h3⟩ := ih (by omega)
    have hr : r = clearRowEntry i ((List.range' (i + 1) n).foldl (clearRowEntry i) (x, f)) (i + 1 + n) := by
      simp only [r, List.range'_1_concat, List.foldl_append, List.foldl_cons, List.foldl_nil]
    set w := (List.range' (i + 1) n).foldl (clearRowEntry i) (x, f) with hw
    obtain ⟨k1, k2, k3, k4⟩ := clearRowEntry_spec (f := w.2) h1.good h1.clean h1.pivot
      (ii := i + 1 + n) (by omega) (by omega)
    have hwe : ((w.1, w.2) : Snf × Bool) = w := rfl
    rw [hwe, ← hr] at k1 k2 k3 k4
    refine ⟨⟨k1.good, k1.clean, k1.pivot, ?_⟩, ?_, ?_⟩
    · rcases k1.progress with hk | hk
      · rcases h1.progress with hh | hh
        · exact Or.inl (lt_trans hk hh)
        · rw [hh i] at hk; exact Or.inl hk
      · rcases h1.progress with hh | hh
        · rw [← hk i] at hh; exact Or.inl hh
        · exact Or.inr fun c => (hk c).trans (hh c)
    · intro s hs1 hs2
      by_cases hs : s = i + 1 + n
      · subst hs; exact k2
      · rw [k3 s (by omega) hs i]
        exact h2 s hs1 (by omega)
    · intro hf
      obtain ⟨e1, e2, _⟩ := k4 hf
      obtain ⟨e3, e4⟩ := h3 e1
      exact ⟨e3, e2.trans e4⟩

theorem colFold_tr (i : ℕ) (l : List ℕ) (x : Snf) (f : Bool) :
    l.foldl (clearColEntry i) (x, f) =
      ((l.foldl (clearRowEntry i) (x.tr, f)).1.tr, (l.foldl (clearRowEntry i) (x.tr, f)).2) := by
  induction l generalizing x f with
  | nil => rfl
  | cons j l ih =>
    rw [List.foldl_cons, clearCol_tr, ih, List.foldl_cons, Snf.tr_tr]

/-- One pass of the `while` loop. -/
theorem onePass_spec {p q i : ℕ} {a : IMat} {x : Snf} (hg : x.Good p q a)
    (hc : Clean p q i x.m) (hp : x.m i i ≠ 0) (hip : i < p) (hiq : i < q) :
    let r := (List.range' (i + 1) (q - (i + 1))).foldl (clearColEntry i)
      ((List.range' (i + 1) (p - (i + 1))).foldl (clearRowEntry i) (x, false))
    r.1.Good p q a ∧ Clean p q i r.1.m ∧ r.1.m i i ≠ 0 ∧
    ((r.1.m i i).natAbs < (x.m i i).natAbs ∨
      ((∀ s, i < s → s < p → r.1.m s i = 0) ∧ ∀ s, i < s → s < q → r.1.m i s = 0)) ∧
    (r.2 = false → (∀ s, i < s → s < p → r.1.m s i = 0) ∧ ∀ s, i < s → s < q → r.1.m i s = 0) := by
  intro r
  obtain ⟨h1, h2, h3⟩ := rowPass_spec (f := false) hg hc hp (p - (i + 1)) (by omega)
  set w := (List.range' (i + 1) (p - (i + 1))).foldl (clearRowEntry i) (x, false) with hw
  obtain ⟨k1, k2, k3⟩ := rowPass_spec (p := q) (q := p) (i := i) (f := w.2) h1.good.tr h1.clean.tr
    (show w.1.tr.m i i ≠ 0 from h1.pivot) (q - (i + 1)) (by omega)
  have hr : r = (((List.range' (i + 1) (q - (i + 1))).foldl (clearRowEntry i) (w.1.tr, w.2)).1.tr,
      ((List.range' (i + 1) (q - (i + 1))).foldl (clearRowEntry i) (w.1.tr, w.2)).2) :=
    colFold_tr i _ w.1 w.2
  set v := (List.range' (i + 1) (q - (i + 1))).foldl (clearRowEntry i) (w.1.tr, w.2) with hv
  have hr1 : r.1 = v.1.tr := by rw [hr]
  have hr2 : r.2 = v.2 := by rw [hr]
  rw [hr1, hr2]
  refine ⟨k1.good.tr, k1.clean.tr, k1.pivot, ?_, ?_⟩
  · rcases k1.progress with hk | hk
    · left
      rcases h1.progress with hh | hh
      · exact lt_trans hk hh
      · have : (v.1.tr.m i i).natAbs < (w.1.m i i).natAbs := hk
        rwa [hh i] at this
    · rcases h1.progress with hh | hh
      · left
        have e : v.1.tr.m i i = w.1.m i i := hk i
        rw [e]; exact hh
      · right
        refine ⟨fun s hs1 hs2 => ?_, fun s hs1 hs2 => k2 s hs1 (by omega)⟩
        have e : v.1.tr.m s i = w.1.m s i := hk s
        rw [e]; exact h2 s hs1 (by omega)
  · intro hf
    obtain ⟨_, e2⟩ := k3 hf
    refine ⟨fun s hs1 hs2 => ?_, fun s hs1 hs2 => k2 s hs1 (by omega)⟩
    rw [e2]; exact h2 s hs1 (by omega)

theorem onePass_done {p q i : ℕ} {x : Snf} (h1 : ∀ s, i < s → s < p → x.m s i = 0)
    (h2 : ∀ s, i < s → s < q → x.m i s = 0) :
    (List.range' (i + 1) (q - (i + 1))).foldl (clearColEntry i)
      ((List.range' (i + 1) (p - (i + 1))).foldl (clearRowEntry i) (x, false)) = (x, false) := by
  have r : ∀ (l : List ℕ), (∀ s ∈ l, x.m s i = 0) → l.foldl (clearRowEntry i) (x, false) = (x, false) := by
    intro l
    induction l with
    | nil => intro _; rfl
    | cons s l ih =>
      intro h
      rw [List.foldl_cons, clearRowEntry, if_pos (h s (List.mem_cons_self ..))]
      exact ih fun t ht => h t (List.mem_cons_of_mem _ ht)
  have c : ∀ (l : List ℕ), (∀ s ∈ l, x.m i s = 0) → l.foldl (clearColEntry i) (x, false) = (x, false) := by
    intro l
    induction l with
    | nil => intro _; rfl
    | cons s l ih =>
      intro h
      rw [List.foldl_cons, clearColEntry, if_pos (h s (List.mem_cons_self ..))]
      exact ih fun t ht => h t (List.mem_cons_of_mem _ ht)
  rw [r _ fun s hs => ?_, c _ fun s hs => ?_]
  · rw [List.mem_range'_1] at hs; exact h2 s (by omega) (by omega)
  · rw [List.mem_range'_1] at hs; exact h1 s (by omega) (by omega)

theorem Clean.succ {p q i : ℕ} {m : IMat} (h : Clean p q i m) (hp : m i i ≠ 0)
    (h1 : ∀ s, i < s → s < p → m s i = 0) (h2 : ∀ s, i < s → s < q → m i s = 0) :
    Clean p q (i + 1) m where
  off r hr c hc hne hlt := by
    by_cases hlt' : r < i ∨ c < i
    · exact h.off r hr c hc hne hlt'
    · by_cases hri : r = i
      · subst hri; exact h2 c (by omega) hc
      · have : c = i := by omega
        subst this
        exact h1 r (by omega) hr
  diag r hr := by
    by_cases hri : r = i
    · subst hri; exact hp
    · exact h.diag r (by omega)

theorem pivotLoop_spec {p q i : ℕ} {a : IMat} (n : ℕ) {x : Snf} (hg : x.Good p q a)
    (hc : Clean p q i x.m) (hp : x.m i i ≠ 0) (hip : i < p) (hiq : i < q)
    (hn : (x.m i i).natAbs < n ∨ (0 < n ∧ (∀ s, i < s → s < p → x.m s i = 0) ∧
      ∀ s, i < s → s < q → x.m i s = 0)) :
    ∃ x', pivotLoop p q i n x = some x' ∧ x'.Good p q a ∧ Clean p q (i + 1) x'.m := by
  induction n generalizing x with
  | zero => omega
  | succ n ih =>
    rw [pivotLoop]
    rcases hn with hn | ⟨-, h1, h2⟩
    · obtain ⟨k1, k2, k3, k4, k5⟩ := onePass_spec hg hc hp hip hiq
      split_ifs with hf
      · refine ih k1 k2 k3 ?_
        rcases k4 with k4 | k4
        · left; omega
        · right
          have := Int.natAbs_ne_zero.2 hp
          exact ⟨by omega, k4⟩
      · obtain ⟨e1, e2⟩ := k5 (by simpa using hf)
        exact ⟨_, rfl, k1, k2.succ k3 e1 e2⟩
    · simp only [onePass_done h1 h2]
      exact ⟨x, rfl, hg, hc.succ hp h1 h2⟩

theorem movePivot_spec {p q i j : ℕ} {a : IMat} {x : Snf} (hg : x.Good p q a)
    (hc : Clean p q i x.m) (hip : i < p) (hij : i ≤ j) (hjq : j < q)
    (hnz : ∃ r < p, x.m r j ≠ 0) :
    (movePivot p i j x).Good p q a ∧ Clean p q i (movePivot p i j x).m ∧
      (movePivot p i j x).m i i ≠ 0 := by
  have main : ∀ y : Snf, y.Good p q a → Clean p q i y.m → y.m i j ≠ 0 →
      (y.colOp j i 0 1 1 0).Good p q a ∧ Clean p q i (y.colOp j i 0 1 1 0).m ∧
        (y.colOp j i 0 1 1 0).m i i ≠ 0 := by
    intro y yg yc yn
    refine ⟨?_, yc.col hij (le_refl _) hjq (by omega) _ _ _ _, ?_⟩
    · by_cases h : j = i
      · have : y.colOp j i 0 1 1 0 = y := by
          subst h
          simp only [Snf.colOp, rightmult_swap_self]
        rw [this]; exact yg
      · exact yg.colOp hjq (by omega) h _ _ _ _ (-1) (by ring)
    · simp only [Snf.colOp, rightmult, if_true]
      simpa using yn
  unfold movePivot
  apply main
  · split_ifs with h
    · split
      · rename_i ii hf
        have h1 := List.mem_of_find?_eq_some hf
        have h2 := List.find?_some hf
        simp only [decide_eq_true_eq] at h2
        exact hg.rowOp hip (List.mem_range.1 h1) (fun e => h2 (e ▸ h)) _ _ _ _ (-1) (by ring)
      · exact hg
    · exact hg
  · split_ifs with h
    · split
      · rename_i ii hf
        have h1 := List.mem_of_find?_eq_some hf
        have h2 := List.find?_some hf
        simp only [decide_eq_true_eq] at h2
        refine hc.row (le_refl _) ?_ hip (List.mem_range.1 h1) _ _ _ _
        by_contra hlt
        exact h2 (hc.off ii (List.mem_range.1 h1) j hjq (by omega) (by omega))
      · exact hc
    · exact hc
  · split_ifs with h
    · split
      · rename_i ii hf
        have h1 := List.mem_of_find?_eq_some hf
        have h2 := List.find?_some hf
        simp only [decide_eq_true_eq] at h2
        have hne : i ≠ ii := fun e => h2 (e ▸ h)
        simp only [Snf.rowOp, leftmult, if_neg hne, if_true]
        simpa using h2
      · rename_i hf
        rw [List.find?_eq_none] at hf
        obtain ⟨r, hr, hn⟩ := hnz
        exact absurd hn (by simpa using hf r (List.mem_range.2 hr))
    · exact h

/-- Diagonal with the nonzero entries first. -/
structure DiagForm (p q k : ℕ) (m : IMat) : Prop where
  off : ∀ r < p, ∀ c < q, r ≠ c → m r c = 0
  nz : ∀ r < k, m r r ≠ 0
  z : ∀ r, k ≤ r → r < p → r < q → m r r = 0

theorem diagonalise_spec {p q : ℕ} {a : IMat} (n i : ℕ) {x : Snf} (hg : x.Good p q a)
    (hc : Clean p q i x.m) (hni : n + i = p) (hiq : i ≤ q) :
    ∃ x', diagonalise p q n i x = some x' ∧ x'.Good p q a ∧
      ∃ k ≤ min p q, DiagForm p q k x'.m := by
  induction n generalizing i x with
  | zero =>
    refine ⟨x, rfl, hg, i, by omega, ⟨fun r hr c hc' hne => hc.off r hr c hc' hne (by omega), hc.diag,
      fun r h1 h2 => by omega⟩⟩
  | succ n ih =>
    rw [diagonalise]
    cases hf : findColumn p q i x.m with
    | none =>
      refine ⟨x, rfl, hg, i, by omega, ?_⟩
      have hz : ∀ r < p, ∀ c, i ≤ c → c < q → x.m r c = 0 := by
        intro r hr c h1 h2
        unfold findColumn at hf
        rw [List.find?_eq_none] at hf
        have := hf c (by rw [List.mem_range'_1]; omega)
        simp only [List.any_eq_true, List.mem_range, decide_eq_true_eq, not_exists, not_and,
          not_not] at this
        exact this r hr
      refine ⟨fun r hr c hc' hne => ?_, hc.diag, fun r h1 h2 h3 => hz r h2 r h1 h3⟩
      by_cases h : c < i
      · exact hc.off r hr c hc' hne (Or.inr h)
      · exact hz r hr c (by omega) hc'
    | some j =>
      unfold findColumn at hf
      have h1 := List.mem_of_find?_eq_some hf
      have h2 := List.find?_some hf
      rw [List.mem_range'_1] at h1
      simp only [List.any_eq_true, List.mem_range, decide_eq_true_eq] at h2
      obtain ⟨m1, m2, m3⟩ := movePivot_spec hg hc (by omega) (show i ≤ j by omega) (by omega) h2
      obtain ⟨y, y1, y2, y3⟩ := pivotLoop_spec (((movePivot p i j x).m i i).natAbs + 1) m1 m2 m3
        (by omega) (by omega) (Or.inl (by omega))
      simp only [y1, Option.bind_some]
      exact ih (i + 1) y2 y3 (by omega) (by omega)

/-- What one step of the second loop does to the diagonal. -/
theorem mergeDiag_spec {p q k : ℕ} {a : IMat} {x : Snf} (hg : x.Good p q a)
    (hd : DiagForm p q k x.m) {i0 i1 : ℕ} (h01 : i0 < i1) (h1p : i1 < p) (h1q : i1 < q) :
    (mergeDiag i1 x i0).Good p q a ∧ DiagForm p q k (mergeDiag i1 x i0).m ∧
    (∀ r, r ≠ i0 → r ≠ i1 → (mergeDiag i1 x i0).m r r = x.m r r) ∧
    (mergeDiag i1 x i0).m i0 i0 ∣ (mergeDiag i1 x i0).m i1 i1 ∧
    x.m i1 i1 ∣ (mergeDiag i1 x i0).m i1 i1 ∧
    ((mergeDiag i1 x i0).m i0 i0).natAbs = Int.gcd (x.m i0 i0) (x.m i1 i1) := by
  obtain ⟨g1, g2⟩ := gcdex_spec (x.m i0 i0) (x.m i1 i1)
  unfold mergeDiag
  set e := gcdex (x.m i0 i0) (x.m i1 i1) with he
  simp only
  split_ifs with h0
  · have hz : Int.gcd (x.m i0 i0) (x.m i1 i1) = 0 := by rw [← g2, h0]; rfl
    have hz' := Int.gcd_eq_zero_iff.1 hz
    refine ⟨hg, hd, fun _ _ _ => rfl, ?_, dvd_refl _, ?_⟩
    · rw [hz'.1, hz'.2]
    · rw [hz, hz'.1]; rfl
  · have ha : e.2.2 ∣ x.m i0 i0 := by
      rw [← Int.natAbs_dvd, g2]; exact Int.gcd_dvd_left _ _
    have hb : e.2.2 ∣ x.m i1 i1 := by
      rw [← Int.natAbs_dvd, g2]; exact Int.gcd_dvd_right _ _
    have ea : e.2.2 * (x.m i0 i0).fdiv e.2.2 = x.m i0 i0 := Int.mul_fdiv_cancel_of_dvd ha
    have eb : e.2.2 * (x.m i1 i1).fdiv e.2.2 = x.m i1 i1 := Int.mul_fdiv_cancel_of_dvd hb
    generalize hc3 : (x.m i1 i1).fdiv e.2.2 = c3 at *
    generalize hc4 : (x.m i0 i0).fdiv e.2.2 = c4 at *
    set y := (x.rowOp i0 i1 1 e.2.1 c3 (e.2.1 * c3 - 1)).colOp i0 i1 e.1 (1 - e.1 * c4) 1 (-c4) with hy
    have hne : i0 ≠ i1 := by omega
    have hne' : i1 ≠ i0 := by omega
    have z01 : x.m i0 i1 = 0 := hd.off i0 (by omega) i1 h1q hne
    have z10 : x.m i1 i0 = 0 := hd.off i1 h1p i0 (by omega) hne'
    have e00 : y.m i0 i0 = e.2.2 := by
      simp only [hy, Snf.rowOp, Snf.colOp, leftmult, rightmult, if_neg hne, if_true, z01, z10]
      linear_combination g1
    have e01 : y.m i0 i1 = 0 := by
      simp only [hy, Snf.rowOp, Snf.colOp, leftmult, rightmult, if_neg hne, if_true, z01, z10]
      linear_combination -ea - c4 * g1
    have e10 : y.m i1 i0 = 0 := by
      simp only [hy, Snf.rowOp, Snf.colOp, leftmult, rightmult, if_neg hne, if_true, z01, z10]
      linear_combination eb + c3 * g1
    have e11 : y.m i1 i1 = c4 * x.m i1 i1 := by
      simp only [hy, Snf.rowOp, Snf.colOp, leftmult, rightmult, if_true, z01, z10]
      linear_combination -c4 * c3 * g1 - c3 * ea
    have eo : ∀ r, r ≠ i0 → r ≠ i1 → ∀ c, c ≠ i0 → c ≠ i1 → y.m r c = x.m r c := by
      intro r r0 r1 c c0 c1
      simp only [hy, Snf.rowOp, Snf.colOp, leftmult, rightmult, if_neg r0, if_neg r1, if_neg c0,
        if_neg c1]
    have er : ∀ r < p, r ≠ i0 → r ≠ i1 → ∀ c, (c = i0 ∨ c = i1) → y.m r c = 0 := by
      intro r hr r0 r1 c hc
      have w0 := hd.off r hr i0 (by omega) r0
      have w1 := hd.off r hr i1 h1q r1
      rcases hc with rfl | rfl
      · simp only [hy, Snf.rowOp, Snf.colOp, leftmult, rightmult, if_neg r0, if_neg r1, if_neg hne,
          if_true, w0, w1]
        ring
      · simp only [hy, Snf.rowOp, Snf.colOp, leftmult, rightmult, if_neg r0, if_neg r1,
          if_true, w0, w1]
        ring
    have ec : ∀ c < q, c ≠ i0 → c ≠ i1 → ∀ r, (r = i0 ∨ r = i1) → y.m r c = 0 := by
      intro c hc c0 c1 r hr
      have w0 := hd.off i0 (by omega) c hc (Ne.symm c0)
      have w1 := hd.off i1 h1p c hc (Ne.symm c1)
      rcases hr with rfl | rfl
      · simp only [hy, Snf.rowOp, Snf.colOp, leftmult, rightmult, if_neg c0, if_neg c1, if_neg hne,
          if_true, w0, w1]
        ring
      · simp only [hy, Snf.rowOp, Snf.colOp, leftmult, rightmult, if_neg c0, if_neg c1,
          if_true, w0, w1]
        ring
    have hk0 : i0 < k := by
      by_contra hk
      have d0 := hd.z i0 (by omega) (by omega) (by omega)
      have d1 := hd.z i1 (by omega) (by omega) (by omega)
      rw [d0, d1] at g1
      apply h0
      rw [← g1]; ring
    have hc4 : c4 ≠ 0 := by
      intro h
      rw [h, mul_zero] at ea
      exact hd.nz i0 hk0 ea.symm
    refine ⟨?_, ⟨?_, ?_, ?_⟩, ?_, ?_, ?_, ?_⟩
    · exact (hg.rowOp (by omega) h1p hne _ _ _ _ (-1) (by ring)).colOp (by omega) h1q hne _ _ _ _ (-1)
        (by ring)
    · intro r hr c hc hrc
      by_cases r0 : r = i0
      · by_cases c1 : c = i1
        · rw [r0, c1]; exact e01
        · exact ec c hc (by omega) c1 r (Or.inl r0)
      · by_cases r1 : r = i1
        · by_cases c0 : c = i0
          · rw [r1, c0]; exact e10
          · exact ec c hc c0 (by omega) r (Or.inr r1)
        · by_cases cc : c = i0 ∨ c = i1
          · exact er r hr r0 r1 c cc
          · rw [eo r r0 r1 c (by tauto) (by tauto)]
            exact hd.off r hr c hc hrc
    · intro r hr
      by_cases r0 : r = i0
      · rw [r0, e00]; exact h0
      · by_cases r1 : r = i1
        · rw [r1, e11]
          exact mul_ne_zero hc4 (hd.nz i1 (r1 ▸ hr))
        · rw [eo r r0 r1 r r0 r1]
          exact hd.nz r hr
    · intro r h1 h2 h3
      have r0 : r ≠ i0 := by omega
      by_cases r1 : r = i1
      · rw [r1, e11, hd.z i1 (by omega) (by omega) (by omega), mul_zero]
      · rw [eo r r0 r1 r r0 r1]
        exact hd.z r h1 h2 h3
    · intro r r0 r1; exact eo r r0 r1 r r0 r1
    · rw [e00, e11]; exact Dvd.dvd.mul_left hb _
    · rw [e11]; exact Dvd.intro_left _ rfl
    · rw [e00]; exact g2

theorem mergeInner_spec {p q k : ℕ} {a : IMat} (n : ℕ) {x : Snf} (hg : x.Good p q a)
    (hd : DiagForm p q k x.m) {i1 : ℕ} (hn : n ≤ i1) (h1p : i1 < p) (h1q : i1 < q) :
    let y := (List.range n).reverse.foldl (mergeDiag i1) x
    y.Good p q a ∧ DiagForm p q k y.m ∧ x.m i1 i1 ∣ y.m i1 i1 ∧
    (∀ r, n ≤ r → r ≠ i1 → y.m r r = x.m r r) ∧ (∀ r < n, y.m r r ∣ y.m i1 i1) := by
  induction n generalizing x with
  | zero => exact ⟨hg, hd, dvd_refl _, fun _ _ _ => rfl, fun r hr => by omega⟩
  | succ n ih =>
    simp only [List.range_succ, List.reverse_append, List.reverse_cons, List.reverse_nil,
      List.nil_append, List.cons_append, List.foldl_cons]
    obtain ⟨m1, m2, m3, m4, m5, _⟩ := mergeDiag_spec hg hd (i0 := n) (i1 := i1) (by omega) h1p h1q
    obtain ⟨k1, k2, k3, k4, k5⟩ := ih m1 m2 (by omega)
    refine ⟨k1, k2, dvd_trans m5 k3, ?_, ?_⟩
    · intro r hr hne
      rw [k4 r (by omega) hne, m3 r (by omega) hne]
    · intro r hr
      by_cases h : r = n
      · subst h
        rw [k4 r (le_refl _) (by omega)]
        exact dvd_trans m4 k3
      · exact k5 r (by omega)

theorem mergeAll_spec {p q k : ℕ} {a : IMat} (n : ℕ) {x : Snf} (hg : x.Good p q a)
    (hd : DiagForm p q k x.m) (hnp : n ≤ p) (hnq : n ≤ q) :
    (mergeAll n x).Good p q a ∧ DiagForm p q k (mergeAll n x).m ∧
    (∀ r, r + 1 < n → (mergeAll n x).m r r ∣ (mergeAll n x).m (n - 1) (n - 1)) := by
  induction n with
  | zero => exact ⟨hg, hd, fun r hr => by omega⟩
  | succ n ih =>
    obtain ⟨h1, h2, _⟩ := ih (by omega) (by omega)
    have e : mergeAll (n + 1) x = (List.range n).reverse.foldl (mergeDiag n) (mergeAll n x) := by
      simp only [mergeAll, List.range_succ, List.foldl_append, List.foldl_cons, List.foldl_nil]
    rw [e]
    obtain ⟨k1, k2, _, _, k5⟩ := mergeInner_spec n h1 h2 (i1 := n) (le_refl _) (by omega) (by omega)
    exact ⟨k1, k2, fun r hr => k5 r (by omega)⟩

/-- The result of `compute_snf`. -/
theorem computeSnf_spec (p q : ℕ) (a : IMat) : ∃ x, computeSnf p q a = some x ∧ x.Good p q a ∧
    ∃ k ≤ min p q, DiagForm p q k x.m ∧
      ∀ r, r + 1 < min p q → x.m r r ∣ x.m (min p q - 1) (min p q - 1) := by
  have g0 : (Snf.mk IMat.one a IMat.one).Good p q a := by
    refine ⟨?_, ?_, ?_⟩
    · simp only [toM_one, Matrix.one_mul, Matrix.mul_one]
    · simp only [toM_one, Matrix.det_one, isUnit_one]
    · simp only [toM_one, Matrix.det_one, isUnit_one]
  have c0 : Clean p q 0 (Snf.mk IMat.one a IMat.one).m := ⟨fun r hr c hc hne h => by omega, fun r hr => by omega⟩
  obtain ⟨x, h1, h2, k, hk, h3⟩ := diagonalise_spec p 0 g0 c0 (by omega) (by omega)
  obtain ⟨m1, m2, m3⟩ := mergeAll_spec (min p q) h2 h3 (by omega) (by omega)
  refine ⟨mergeAll (min p q) x, ?_, m1, k, hk, m2, m3⟩
  rw [computeSnf, h1]; rfl

end Smol
