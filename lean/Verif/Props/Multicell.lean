import Verif.Model.Multicell
import Verif.Lemmas.Sampler

/-!
# C27, C28 Multicell sampling
-/

namespace Smol
variable {K : Type*} [CommRing K]

theorem dot_swap (a b : List K) : dot a b = dot b a := by
  unfold dot
  rw [List.zipWith_comm]
  simp only [mul_comm]

/-- What is assumed of the cells: feature vectors of one length, the same parameters (checked by the
constructor), and exact changes for local proposals from the occupancies in `I`, which the proposals
do not leave. -/
structure CellsOk (cells : ℕ → Kern K) (I : Occ → Prop) (cs : List MChoice) : Prop where
  len : ∀ i j x y, ((cells i).feature x).length = ((cells j).feature y).length
  params : ∀ i j, (cells i).params = (cells j).params
  localI : ∀ c ∈ cs, ∀ x, I x → I (applyStep x (c.localStep x).1)
  hopI : ∀ c ∈ cs, ∀ x, I x → I (applyStep x (c.hopStep x).1)
  change : ∀ c ∈ cs, ∀ i x, I x → (cells i).change x (c.localStep x).1 = List.zipWith (· - ·)
    ((cells i).feature (applyStep x (c.localStep x).1)) ((cells i).feature x)

/-- The row holds features and enthalpy of its occupancy in its cell, and agrees with the kernel. -/
structure MultiOk (cells : ℕ → Kern K) (I : Occ → Prop) (s : Multi K) (r : MRow K) : Prop where
  heap : ∀ a, I (s.heap a)
  occ : r.occ = s.heap 0
  cell : r.cell = s.cur
  feats : s.feats s.cur = (cells s.cur).feature (s.heap 0)
  features : r.features = (cells s.cur).feature (s.heap 0)
  enthalpy : r.enthalpy = dot (cells s.cur).params ((cells s.cur).feature (s.heap 0))

theorem update_I {I : Occ → Prop} {h : ℕ → Occ} (hh : ∀ a, I (h a)) (i : ℕ) {x : Occ} (hx : I x) :
    ∀ a, I (Function.update h i x a) := by
  intro a
  by_cases ha : a = i
  · subst ha; rwa [Function.update_self]
  · rw [Function.update_of_ne ha]; exact hh a

theorem multi_step_ok {cells : ℕ → Kern K} {I : Occ → Prop} {c : MChoice} {cs : List MChoice}
    (h : CellsOk cells I cs) (hc : c ∈ cs) (s : Multi K) (r : MRow K) (hok : MultiOk cells I s r) :
    MultiOk cells I (s.step cells c).1 (r.update (s.step cells c).2) := by
  unfold Multi.step
  split_ifs with hd
  · -- hop
    unfold Multi.hop
    simp only
    split_ifs with ha
    · set new := applyStep (s.heap (s.ref c.target)) (c.hopStep (s.heap (s.ref c.target))).1 with hn
      have hnew : I new := h.hopI c hc _ (hok.heap _)
      have hrow : ∀ g : ℕ → Occ, Function.update g 0 (Function.update s.heap (s.ref c.target) new
          (s.ref c.target)) 0 = new := by
        intro g; rw [Function.update_self, Function.update_self]
      have hfull : List.zipWith (· + ·) (s.feats s.cur) (List.zipWith (· - ·)
          ((cells c.target).feature new) (s.feats s.cur)) = (cells c.target).feature new := by
        apply zip_add_sub
        rw [hok.feats]; exact h.len _ _ _ _
      have hcopy : Function.update (Function.update s.heap (s.ref c.target) new) 0
          (Function.update s.heap (s.ref c.target) new (s.ref c.target)) (s.ref c.target) = new := by
        by_cases h0 : s.ref c.target = 0
        · rw [h0, Function.update_self, Function.update_self]
        · rw [Function.update_of_ne h0, Function.update_self]
      constructor
      · apply update_I (update_I hok.heap _ hnew)
        rw [Function.update_self]; exact hnew
      · simp only [MRow.update, if_true]
        rw [hcopy, hrow]
      · rfl
      · simp only [Function.update_self]
      · simp only [hrow, MRow.update, if_true]
        rw [hok.features, ← hok.feats]; exact hfull
      · simp only [hrow, MRow.update, if_true]
        rw [hok.enthalpy, ← hok.feats, dot_swap _ (cells c.target).params,
          h.params s.cur c.target, ← dot_add, hfull]
        rw [List.length_zipWith, hok.feats, h.len c.target s.cur new (s.heap 0), min_self]
    · constructor
      · exact hok.heap
      · rfl
      · rfl
      · exact hok.feats
      · exact hok.features
      · exact hok.enthalpy
  · -- local step
    unfold Multi.localMove
    simp only [Kern.singleStep]
    have hch := h.change c hc s.cur _ (hok.heap 0)
    have hfull : List.zipWith (· + ·) ((cells s.cur).feature (s.heap 0))
        ((cells s.cur).change (s.heap 0) (c.localStep (s.heap 0)).1) =
        (cells s.cur).feature (applyStep (s.heap 0) (c.localStep (s.heap 0)).1) := by
      rw [hch]; exact zip_add_sub _ _ (h.len _ _ _ _)
    by_cases ha : (c.localStep (s.heap 0)).2 = true
    · simp only [ha, if_true]
      constructor
      · exact update_I hok.heap _ (h.localI c hc _ (hok.heap 0))
      · simp only [MRow.update, if_true, Function.update_self]
      · rfl
      · simp only [Function.update_self]
        rw [hok.feats, hfull]
      · simp only [Function.update_self, MRow.update, if_true]
        rw [hok.features, hfull]
      · simp only [Function.update_self, MRow.update, if_true]
        rw [hok.enthalpy, ← dot_add, hfull]
        rw [hch, List.length_zipWith, h.len s.cur s.cur
          (applyStep (s.heap 0) (c.localStep (s.heap 0)).1) (s.heap 0), min_self]
    · simp only [ha, Bool.false_eq_true, if_false]
      constructor
      · exact update_I hok.heap _ (hok.heap 0)
      · simp only [MRow.update, Function.update_self, Bool.false_eq_true, if_false]
      · rfl
      · simp only [Function.update_self]; exact hok.feats
      · simp only [Function.update_self, MRow.update, Bool.false_eq_true, if_false]
        exact hok.features
      · simp only [Function.update_self, MRow.update, Bool.false_eq_true, if_false]
        exact hok.enthalpy

theorem multiRun_ok {cells : ℕ → Kern K} {I : Occ → Prop} {cs : List MChoice}
    (h : CellsOk cells I cs) (ds : List MChoice) (hds : ∀ d ∈ ds, d ∈ cs) (s : Multi K) (r : MRow K)
    (hok : MultiOk cells I s r) : ∀ p ∈ multiRun cells ds (s, r), MultiOk cells I p.1 p.2 := by
  induction ds generalizing s r with
  | nil => intro p hp; simp [multiRun] at hp
  | cons d ds ih =>
    intro p hp
    have h1 := multi_step_ok h (hds d (by simp)) s r hok
    simp only [multiRun, List.mem_cons] at hp
    rcases hp with rfl | hp
    · exact h1
    · exact ih (fun d hd => hds d (by simp [hd])) _ _ h1 p hp

/-- C27. In a run started with one occupancy per cell, for any number of cells, any hop periods and
any sequence of steps, hops, acceptances and rejections, every recorded row holds the features and
the enthalpy of its occupancy evaluated in the cell it names. -/
theorem C27_rows_match_cell (cells : ℕ → Kern K) (I : Occ → Prop) (cs : List MChoice)
    (h : CellsOk cells I cs) (s : Multi K) (occs : ℕ → Occ) (hocc : ∀ k, I (occs k)) :
    let s0 := s.setAux cells occs
    ∀ p ∈ multiRun cells cs (s0, s0.initialRow cells),
      p.2.features = (cells p.2.cell).feature p.2.occ ∧
      p.2.enthalpy =
        (List.zipWith (· * ·) (cells p.2.cell).params ((cells p.2.cell).feature p.2.occ)).sum ∧
      p.2.cell = p.1.cur := by
  intro s0 p hp
  have hok : MultiOk cells I s0 (s0.initialRow cells) := by
    constructor
    · intro a
      simp only [s0, Multi.setAux]
      split_ifs <;> exact hocc _
    all_goals rfl
  have := multiRun_ok h cs (fun _ hd => hd) s0 _ hok p hp
  rw [this.cell, this.occ]
  exact ⟨this.features, this.enthalpy, rfl⟩

/-- C27, for a run that goes on from the current occupancy of the kernel. -/
theorem C27_rows_match_cell_resumed (cells : ℕ → Kern K) (I : Occ → Prop) (cs : List MChoice)
    (h : CellsOk cells I cs) (s : Multi K) (hs : ∀ a, I (s.heap a)) (occ : Occ) (hocc : I occ)
    (fresh : ℕ) :
    let s0 := s.setAuxOne cells occ fresh
    ∀ p ∈ multiRun cells cs (s0, s0.initialRow cells),
      p.2.features = (cells p.2.cell).feature p.2.occ ∧
      p.2.enthalpy =
        (List.zipWith (· * ·) (cells p.2.cell).params ((cells p.2.cell).feature p.2.occ)).sum := by
  intro s0 p hp
  have hok : MultiOk cells I s0 (s0.initialRow cells) := by
    constructor
    · exact update_I (update_I hs _ (hs 0)) _ hocc
    · rfl
    · rfl
    · simp only [s0, Multi.setAuxOne, Function.update_self]
    · rfl
    · rfl
  have := multiRun_ok h cs (fun _ hd => hd) s0 _ hok p hp
  rw [this.cell, this.occ]
  exact ⟨this.features, this.enthalpy⟩

/-- C27. Hops come exactly when due: after an attempt with next period `p > 0`, the next `p - 1`
calls stay in the cell and the `p`-th attempts a hop. -/
theorem C27_hop_period (cells : ℕ → Kern K) (s : Multi K) (c : MChoice) (cs : List MChoice)
    (hdue : s.hopDue = true) (hp : 0 < c.nextPeriod) (r : MRow K) (i : ℕ) (p : Multi K × MRow K)
    (hi : (multiRun cells (c :: cs) (s, r))[i]? = some p) (hle : i < c.nextPeriod) :
    p.1.hopDue = decide (i + 1 = c.nextPeriod) := by
  have key : ∀ (cs : List MChoice) (s : Multi K) (r : MRow K) (q : ℕ), s.period = c.nextPeriod →
      s.counter = q → 0 < q → ∀ i p, (multiRun cells cs (s, r))[i]? = some p →
      q + i < c.nextPeriod → p.1.hopDue = decide (q + i + 1 = c.nextPeriod) := by
    intro cs
    induction cs with
    | nil => intro s r q _ _ _ i p hi; simp [multiRun] at hi
    | cons d cs ih =>
      intro s r q h1 h2 h3 i p hi hlt
      have hnd : s.hopDue = false := by
        simp only [Multi.hopDue, h1, h2]
        rw [Nat.mod_eq_of_lt (by omega)]
        simp; omega
      have hstep : s.step cells d = s.localMove cells (d.localStep (s.heap 0)) := by
        rw [Multi.step, hnd]; rfl
      have hc : (s.step cells d).1.counter = q + 1 ∧ (s.step cells d).1.period = c.nextPeriod := by
        rw [hstep]; exact ⟨by rw [← h2]; rfl, h1⟩
      simp only [multiRun] at hi
      cases i with
      | zero =>
        simp only [List.getElem?_cons_zero, Option.some.injEq] at hi
        rw [← hi]
        simp only [Multi.hopDue, hc.1, hc.2]
        by_cases he : q + 1 = c.nextPeriod
        · simp [he]
        · rw [Nat.mod_eq_of_lt (by omega)]
          simp [he]; omega
      | succ i =>
        rw [List.getElem?_cons_succ] at hi
        rw [ih _ _ (q + 1) hc.2 hc.1 (by omega) i p hi (by omega)]
        congr 1
        simp only [eq_iff_iff]
        omega
  have hs1 : (s.step cells c).1.counter = 1 ∧ (s.step cells c).1.period = c.nextPeriod := by
    rw [Multi.step, hdue]
    unfold Multi.hop
    simp only [if_true]
    split_ifs <;> exact ⟨rfl, rfl⟩
  simp only [multiRun] at hi
  cases i with
  | zero =>
    simp only [List.getElem?_cons_zero, Option.some.injEq] at hi
    rw [← hi]
    simp only [Multi.hopDue, hs1.1, hs1.2]
    by_cases he : 1 = c.nextPeriod
    · simp [← he]
    · rw [Nat.mod_eq_of_lt (by omega)]
      simp [he]; omega
  | succ i =>
    rw [List.getElem?_cons_succ] at hi
    rw [key cs _ _ 1 hs1.2 hs1.1 (by omega) i p hi (by omega)]
    congr 1
    simp only [eq_iff_iff]
    omega

/-! ### C28 -/

/-- C28, the claim fails whenever a cell was left after a step of its own: after any step in cell
`i` followed by an accepted hop, the array that cell `i` remembers holds the
configuration of the new cell. -/
theorem C28_memory_overwritten (cells : ℕ → Kern K) (s : Multi K) (c d : MChoice)
    (h1 : s.hopDue = false) (h2 : (s.step cells c).1.hopDue = true)
    (hacc : (d.hopStep ((s.step cells c).1.heap ((s.step cells c).1.ref d.target))).2 = true) :
    let s2 := ((s.step cells c).1.step cells d).1
    s2.cur = d.target ∧ s2.heap (s2.ref s.cur) = s2.heap 0 := by
  intro s2
  have e1 : (s.step cells c).1 = (s.localMove cells (c.localStep (s.heap 0))).1 := by
    rw [Multi.step, h1]; rfl
  have hs2 : s2 = (Multi.hop cells (s.step cells c).1 d.target
      (d.hopStep ((s.step cells c).1.heap ((s.step cells c).1.ref d.target))) d.nextPeriod).1 := by
    simp only [s2]
    conv_lhs => rw [Multi.step, h2]
    simp
  rw [hs2]
  unfold Multi.hop
  simp only [hacc, if_true]
  refine ⟨trivial, ?_⟩
  have : (s.step cells c).1.ref s.cur = 0 := by rw [e1]; simp [Multi.localMove]
  rw [this]

/-- C28, what does hold: an array that only cell `j` refers to, and that is not the sampler's row,
keeps its content as long as no hop to `j` is accepted.
`_partial`: the code violates the claim for all other cells, see `C28_memory_overwritten`. -/
theorem C28_memory_kept_partial (cells : ℕ → Kern K) (cs : List MChoice) (s : Multi K) (r : MRow K)
    (j : ℕ) (hcur : s.cur ≠ j) (h0 : s.ref j ≠ 0) (hown : ∀ i, i ≠ j → s.ref i ≠ s.ref j) :
    ∀ p ∈ multiRun cells cs (s, r),
      (∀ q ∈ multiRun cells cs (s, r), q.1.cur ≠ j) →
      p.1.ref j = s.ref j ∧ p.1.heap (p.1.ref j) = s.heap (s.ref j) := by
  induction cs generalizing s r with
  | nil => intro p hp; simp [multiRun] at hp
  | cons c cs ih =>
    intro p hp hq
    simp only [multiRun, List.mem_cons] at hp hq
    have hcur' : (s.step cells c).1.cur ≠ j := hq _ (Or.inl rfl)
    have hstep : (s.step cells c).1.ref j = s.ref j ∧
        (s.step cells c).1.heap (s.ref j) = s.heap (s.ref j) ∧
        ∀ i, i ≠ j → (s.step cells c).1.ref i ≠ s.ref j := by
      have hupd : ∀ i, i ≠ j → Function.update s.ref s.cur 0 i ≠ s.ref j := by
        intro i hi
        by_cases hic : i = s.cur
        · rw [hic, Function.update_self]; exact h0.symm
        · rw [Function.update_of_ne hic]; exact hown i hi
      rw [Multi.step] at hcur' ⊢
      split_ifs at hcur' ⊢ with hd
      · unfold Multi.hop at hcur' ⊢
        simp only at hcur' ⊢
        split_ifs at hcur' ⊢ with ha
        · refine ⟨rfl, ?_, hown⟩
          dsimp only
          rw [Function.update_of_ne h0, Function.update_of_ne]
          exact fun he => hown c.target hcur' he.symm
        · exact ⟨Function.update_of_ne (Ne.symm hcur) _ _, rfl, hupd⟩
      · refine ⟨?_, ?_, ?_⟩
        · simp only [Multi.localMove]; exact Function.update_of_ne (Ne.symm hcur) _ _
        · simp only [Multi.localMove]; exact Function.update_of_ne h0 _ _
        · simp only [Multi.localMove]; exact hupd
    obtain ⟨e1, e2, e3⟩ := hstep
    rcases hp with rfl | hp
    · simp only
      rw [e1]; exact ⟨rfl, e2⟩
    · have := ih (s.step cells c).1 (r.update (s.step cells c).2) hcur' (by rw [e1]; exact h0)
        (by rw [e1]; exact e3) p hp fun q hq' => hq q (Or.inr hq')
      rw [e1, e2] at this
      exact this

/-! ### A concrete system: two cells of two sites with different features -/

def twoCells : ℕ → Kern ℚ := fun k =>
  ⟨[2], fun o => [((k : ℚ) + 1) * o 0 + o 1],
    fun o st => List.zipWith (· - ·) [((k : ℚ) + 1) * applyStep o st 0 + applyStep o st 1]
      [((k : ℚ) + 1) * o 0 + o 1], none, fun _ _ => 0⟩

/-- A step in the cell, hop to the other cell, hop back; period 2, then 1. -/
def hopChoices : List MChoice :=
  [⟨fun _ => ([(0, 5)], true), 0, fun _ => ([], true), 1⟩,
   ⟨fun _ => ([], true), 1, fun _ => ([(1, 6)], true), 1⟩,
   ⟨fun _ => ([], true), 0, fun _ => ([(1, 7)], true), 1⟩]

def hopStart : Multi ℚ := ⟨fun _ _ => 0, fun _ => 0, fun _ => [], 0, 1, 2⟩

/-- C28, the failure in full: cell 0 starts at `0,0`, moves to `5,0`, the walker hops to cell 1
(`1,1`, becoming `1,6`) and back to cell 0 with a proposal for site 1.  Instead of `5,7` the
walker is then at `1,7`: cell 0 resumed from the configuration of cell 1. -/
theorem C28_resumes_elsewhere :
    let s0 := hopStart.setAux twoCells fun k _ => k
    (multiRun twoCells hopChoices (s0, s0.initialRow twoCells)).map
      (fun p => (p.2.cell, [p.2.occ 0, p.2.occ 1])) = [(0, [5, 0]), (1, [1, 6]), (0, [1, 7])] := by
  decide +kernel

/-- The hypotheses of C27 hold for it, with all occupancies. -/
example : CellsOk twoCells (fun _ => True) hopChoices where
  len := fun _ _ _ _ => rfl
  params := fun _ _ => rfl
  localI := fun _ _ _ _ => trivial
  hopI := fun _ _ _ _ => trivial
  change := fun _ _ _ _ _ => rfl

/-- The recorded features and enthalpies along that run, and a hop that is due. -/
example :
    let s0 := hopStart.setAux twoCells fun k _ => k
    (multiRun twoCells hopChoices (s0, s0.initialRow twoCells)).map
      (fun p => (p.2.features, p.2.enthalpy, p.1.hopDue)) =
      [([5], 10, true), ([8], 16, true), ([8], 16, true)] ∧
    s0.hopDue = false ∧ s0.ref 1 ≠ 0 ∧ s0.cur ≠ 1 ∧ ∀ i, i ≠ 1 → s0.ref i ≠ s0.ref 1 := by
  refine ⟨by decide +kernel, by decide +kernel, by decide, by decide, ?_⟩
  intro i hi h
  apply hi
  simpa [hopStart, Multi.setAux] using h

end Smol
