import Verif.Lemmas.UsherTree

/-! Programs that never raise and whose choices are probability distributions. -/

namespace Smol
open Prog Spec

/-- Every draw that can be reached is from a probability distribution (so from at least one
alternative): the program never raises. -/
def Prog.Proper {α : Type} : Prog α → Prop
  | ret _ => True
  | pick _ _ w k => (∑ i, w i = 1) ∧ (∀ i, 0 ≤ w i) ∧ ∀ i, w i ≠ 0 → (k i).Proper

theorem Prog.Proper.bind {α β : Type} {p : Prog α} {f : α → Prog β} (hp : p.Proper)
    (hf : ∀ a, p.Outcome a → (f a).Proper) : (p.bind f).Proper := by
  induction p with
  | ret a => exact hf a rfl
  | pick g n w k ih =>
    exact ⟨hp.1, hp.2.1, fun i hi => ih i (hp.2.2 i hi) fun a ha => hf a ⟨i, hi, ha⟩⟩

theorem Prog.Proper.total {α : Type} {p : Prog α} (hp : p.Proper) (c : ℝ) :
    p.expect (fun _ => c) = c := by
  induction p with
  | ret a => rfl
  | pick g n w k ih =>
    simp only [expect]
    have : ∀ i, (w i : ℝ) * (k i).expect (fun _ => c) = (w i : ℝ) * c := by
      intro i
      by_cases h : w i = 0
      · rw [h]; simp
      · rw [ih i (hp.2.2 i h)]
    rw [Finset.sum_congr rfl fun i _ => this i, ← Finset.sum_mul]
    have h1 : (∑ i, (w i : ℝ)) = ((∑ i, w i : ℚ) : ℝ) := (map_sum (Rat.castHom ℝ) _ _).symm
    rw [h1, hp.1]
    simp

theorem Prog.Proper.exists {α : Type} {p : Prog α} (hp : p.Proper) : ∃ a, p.Outcome a := by
  induction p with
  | ret a => exact ⟨a, rfl⟩
  | pick g n w k ih =>
    have : ∃ i, w i ≠ 0 := by
      by_contra hcon
      push Not at hcon
      have h1 := hp.1
      simp [hcon] at h1
    obtain ⟨i, hi⟩ := this
    obtain ⟨a, ha⟩ := ih i (hp.2.2 i hi)
    exact ⟨a, i, hi, ha⟩

theorem proper_choose {β : Type} (g : Rng) (l : List β) (h : l ≠ []) : (choose g l).Proper := by
  have : (l.length : ℚ) ≠ 0 := by
    rw [Nat.cast_ne_zero]
    exact fun h' => h (List.length_eq_zero_iff.1 h')
  refine ⟨?_, fun i => by positivity, fun _ _ => trivial⟩
  rw [Finset.sum_const, Finset.card_univ, Fintype.card_fin, nsmul_eq_mul]
  field_simp

/-- a list of probabilities for `n` alternatives -/
structure ProbList (n : ℕ) (p : List ℚ) : Prop where
  len : p.length = n
  nonneg : ∀ a ∈ p, 0 ≤ a
  total : p.sum = 1

theorem proper_chooseW {β : Type} (g : Rng) (l : List β) (p : List ℚ) (h : ProbList l.length p) :
    (chooseW g l p).Proper := by
  refine ⟨?_, fun i => ?_, fun _ _ => trivial⟩
  · rw [← h.total, ← List.sum_ofFn]
    congr 1
    apply List.ext_getElem
    · rw [List.length_ofFn, h.len]
    · intro i h1 h2
      rw [List.getElem_ofFn, List.getD_eq_getElem?_getD, List.getElem?_eq_getElem h2,
        Option.getD_some]
  · beta_reduce
    rw [List.getD_eq_getElem?_getD]
    cases hh : p[i.1]? with
    | none => simp
    | some a => exact h.nonneg a (List.mem_of_getElem? hh)

theorem proper_chooseSub (g : Rng) (k : ℕ) (l : List ℕ) (h : k ≤ l.length) :
    (chooseSub g k l).Proper := by
  apply proper_choose
  intro h'
  have := List.length_sublistsLen k l
  rw [h', List.length_nil] at this
  exact (Nat.choose_pos h).ne this

/-- sublattices from which a flip or swap can be drawn -/
structure Drawable (act : List Sublattice) : Prop where
  sites : ∀ sl ∈ act, sl.active ≠ []
  codes : ∀ sl ∈ act, sl.encoding.Nodup ∧ 2 ≤ sl.encoding.length

theorem proper_flip (g : Rng) (act : List Sublattice) (probs : List ℚ) (h : Drawable act)
    (hp : ProbList act.length probs) (x : Occ) : (flipPropose g act probs x).Proper := by
  refine (proper_chooseW _ _ _ hp).bind fun sl hsl => ?_
  have hsl := outcome_chooseW _ _ _ _ hsl
  refine (proper_choose _ _ (h.sites sl hsl)).bind fun s hs => ?_
  refine (proper_choose _ _ ?_).bind fun c hc => trivial
  obtain ⟨hnd, h2⟩ := h.codes sl hsl
  intro hnil
  rw [List.filter_eq_nil_iff] at hnil
  have hall : ∀ c ∈ sl.encoding, c = x s := by
    intro c hc
    have := hnil c (List.mem_dedup.2 hc)
    simpa using this
  match he : sl.encoding, hnd, h2 with
  | a :: b :: l, hnd, _ =>
    rw [he] at hall
    have h1 := hall a (by simp)
    have h3 := hall b (by simp)
    simp [h1, h3] at hnd

theorem proper_swap (g : Rng) (act : List Sublattice) (probs : List ℚ)
    (h : ∀ sl ∈ act, sl.active ≠ []) (hp : ProbList act.length probs) (x : Occ) :
    (swapPropose g act probs x).Proper := by
  refine (proper_chooseW _ _ _ hp).bind fun sl hsl => ?_
  have hsl := outcome_chooseW _ _ _ _ hsl
  refine (proper_choose _ _ (h sl hsl)).bind fun s hs => ?_
  simp only
  split_ifs with hne
  · exact (proper_choose _ _ hne).bind fun _ _ => trivial
  · trivial

theorem proper_multiLoop (inner : Occ → Prog Step) (I : Occ → Prop)
    (hp : ∀ x, I x → (inner x).Proper)
    (hI : ∀ x st, I x → (inner x).Outcome st → I (applyStep x st)) (k : ℕ) (x : Occ) (acc : Step)
    (hx : I x) : (multiLoop inner k x acc).Proper := by
  induction k generalizing x acc with
  | zero => trivial
  | succ k ih =>
    rw [multiLoop]
    refine (hp x hx).bind fun st hst => ?_
    split_ifs
    · exact ih _ _ (hI x st hx hst)
    · exact ih _ _ hx

theorem proper_multi (g : Rng) (lens : List ℕ) (p : List ℚ) (inner : Occ → Prog Step)
    (I : Occ → Prop) (hl : ProbList lens.length p) (hp : ∀ x, I x → (inner x).Proper)
    (hI : ∀ x st, I x → (inner x).Outcome st → I (applyStep x st)) (x : Occ) (hx : I x) :
    (multiPropose g lens p inner x).Proper := by
  refine (proper_chooseW _ _ _ hl).bind fun len _ => (hp x hx).bind fun st hst => ?_
  exact proper_multiLoop inner I hp hI _ _ _ (hI x st hx hst)

theorem probList_weights (n : ℕ) (w : List ℚ) (hlen : w.length = n) (hw : ∀ a ∈ w, 0 ≤ a)
    (hs : w.sum ≠ 0) : ProbList n (w.map fun a => a / w.sum) := by
  have h0 : 0 ≤ w.sum := List.sum_nonneg hw
  refine ⟨by simpa using hlen, ?_, ?_⟩
  · intro a ha
    obtain ⟨b, hb, rfl⟩ := List.mem_map.1 ha
    exact div_nonneg (hw b hb) h0
  · have : (w.map fun a => a / w.sum) = w.map fun a => a * (w.sum)⁻¹ := by
      simp only [div_eq_mul_inv]
    rw [this, List.sum_map_mul_right, List.map_id', mul_inv_cancel₀ hs]

theorem proper_composite (g : Rng) (us : List (Occ → Prog Step)) (w : List ℚ)
    (hlen : w.length = us.length) (hw : ∀ a ∈ w, 0 ≤ a) (hs : w.sum ≠ 0) (x : Occ)
    (hp : ∀ u ∈ us, (u x).Proper) : (compositePropose g us w x).Proper := by
  refine (proper_chooseW _ _ _ (probList_weights _ _ hlen hw hs)).bind fun u hu => ?_
  exact hp u (outcome_chooseW _ _ _ _ hu)

/-! ### Table flips -/

theorem proper_fromLoop (species : ℕ → List ℕ) (u : ℕ → ℤ) (ds acc : List ℕ)
    (h : ∀ d ∈ ds, (-(u d)).toNat ≤ (species d).length) : (fromLoop species u ds acc).Proper := by
  induction ds generalizing acc with
  | nil => trivial
  | cons d ds ih =>
    exact (proper_chooseSub _ _ _ (h d (by simp))).bind fun t _ =>
      ih _ fun e he => h e (by simp [he])

theorem outcome_fromLoop_length (species : ℕ → List ℕ) (u : ℕ → ℤ) (ds acc r : List ℕ)
    (h : (fromLoop species u ds acc).Outcome r) :
    r.length = acc.length + (ds.map fun d => (-(u d)).toNat).sum := by
  induction ds generalizing acc with
  | nil => rw [fromLoop, Outcome] at h; subst h; simp
  | cons d ds ih =>
    rw [fromLoop, outcome_bind] at h
    obtain ⟨t, ht, hr⟩ := h
    rw [outcome_chooseSub] at ht
    rw [ih _ hr, List.length_append, ht.2, List.map_cons, List.sum_cons]
    omega

theorem proper_toLoop (u : ℕ → ℤ) (tos : List (ℕ × ℕ)) (siteIds : List ℕ) (step : Step)
    (hn : siteIds.Nodup) (h : (tos.map fun p => (u p.1).toNat).sum = siteIds.length) :
    (toLoop u tos siteIds step).Proper := by
  induction tos generalizing siteIds step with
  | nil =>
    have : siteIds = [] := List.length_eq_zero_iff.1 (by simpa using h.symm)
    rw [toLoop, if_pos this]
    trivial
  | cons p tos ih =>
    rw [List.map_cons, List.sum_cons] at h
    refine (proper_chooseSub _ _ _ (by omega)).bind fun t ht => ?_
    rw [outcome_chooseSub] at ht
    apply ih _ _ (hn.filter _)
    have h1 : t = siteIds.filter fun s => decide (s ∈ t) := sublist_eq_filter ht.1 hn
    have h2 := List.length_eq_length_filter_add (l := siteIds) (fun s => decide (s ∈ t))
    rw [← h1, ht.2] at h2
    have h3 : (siteIds.filter fun s => !decide (s ∈ t)) = siteIds.filter fun s => decide (s ∉ t) := by
      apply List.filter_congr; intro s _; simp
    rw [h3] at h2
    omega

theorem from_eq_to (u : ℕ → ℤ) (dims enc : List ℕ) (hl : dims.length = enc.length)
    (h0 : (dims.map u).sum = 0) :
    (((dims.zip enc).filter fun p => decide (u p.1 > 0)).map fun p => (u p.1).toNat).sum =
      ((dims.filter fun d => decide (u d < 0)).map fun d => (-(u d)).toNat).sum := by
  have key : ∀ (dims enc : List ℕ), dims.length = enc.length →
      ((((dims.zip enc).filter fun p => decide (u p.1 > 0)).map fun p => (u p.1).toNat).sum : ℤ) -
      ((dims.filter fun d => decide (u d < 0)).map fun d => (-(u d)).toNat).sum =
        (dims.map u).sum := by
    intro dims
    induction dims with
    | nil => intro enc h; simp
    | cons d dims ih =>
      intro enc h
      cases enc with
      | nil => simp at h
      | cons e enc =>
        have := ih enc (by simpa using h)
        rw [List.zip_cons_cons, List.map_cons, List.sum_cons]
        rcases lt_trichotomy (u d) 0 with hd | hd | hd
        · rw [List.filter_cons_of_neg (by simp; omega), List.filter_cons_of_pos (by simpa using hd),
            List.map_cons, List.sum_cons, Nat.cast_add]
          omega
        · rw [List.filter_cons_of_neg (by simp; omega), List.filter_cons_of_neg (by simp; omega)]
          omega
        · rw [List.filter_cons_of_pos (by simpa using hd), List.filter_cons_of_neg (by simp; omega),
            List.map_cons, List.sum_cons, Nat.cast_add]
          dsimp only
          omega
  have := key dims enc hl
  omega

theorem proper_tableLoop (x : Occ) (species : ℕ → List ℕ) (u : ℕ → ℤ)
    (bs : List (Sublattice × List ℕ)) (hb : ∀ b ∈ bs, BlockOk x species b.1 b.2)
    (hz : ∀ b ∈ bs, (b.2.map u).sum = 0)
    (hle : ∀ b ∈ bs, ∀ d ∈ b.2, (-(u d)).toNat ≤ (species d).length) (step : Step) :
    (tableLoop species u bs step).Proper := by
  induction bs generalizing step with
  | nil => trivial
  | cons b bs ih =>
    obtain ⟨sl, dims⟩ := b
    have hrec := fun st => ih (fun b hm => hb b (by simp [hm])) (fun b hm => hz b (by simp [hm]))
      (fun b hm => hle b (by simp [hm])) st
    rw [tableLoop]
    have hB := hb (sl, dims) (by simp)
    split_ifs with hact
    · refine (proper_fromLoop _ _ _ _ fun d hd => hle (sl, dims) (by simp) d
        (List.mem_of_mem_filter hd)).bind fun ids hids => ?_
      refine (proper_toLoop _ _ _ _ ?_ ?_).bind fun st _ => hrec st
      · have hzip : ∀ d ∈ dims, ∃ c, (d, c) ∈ dims.zip sl.encoding := by
          intro d hd
          obtain ⟨i, hi, rfl⟩ := List.mem_iff_getElem.1 hd
          have hl : dims.length = sl.encoding.length := hB.len
          refine ⟨sl.encoding[i], ?_⟩
          rw [List.mem_iff_getElem]
          exact ⟨i, by rw [List.length_zip]; omega, by simp⟩
        apply outcome_fromLoop_nodup _ _ _ _ _ hids List.nodup_nil
        · intro d hd
          obtain ⟨c, hc⟩ := hzip d (List.mem_of_mem_filter hd)
          exact hB.snodup _ hc
        · refine List.Pairwise.imp_of_mem ?_ (hB.dnodup.filter _)
          intro d e hd he hne s hs hs'
          obtain ⟨c, hc⟩ := hzip d (List.mem_of_mem_filter hd)
          obtain ⟨c', hc'⟩ := hzip e (List.mem_of_mem_filter he)
          have h1 := ((hB.mem _ hc s).1 hs).2
          have h2 := ((hB.mem _ hc' s).1 hs').2
          simp only at h1 h2
          apply hne
          obtain ⟨i, hi, hi'⟩ := List.mem_iff_getElem.1 hc
          obtain ⟨j, hj, hj'⟩ := List.mem_iff_getElem.1 hc'
          rw [List.getElem_zip, Prod.mk.injEq] at hi' hj'
          have hij : i = j := by
            apply hB.enodup.getElem_inj_iff.1
            · rw [hi'.2, hj'.2, ← h1, ← h2]
          subst hij
          rw [← hi'.1, ← hj'.1]
        · simp
      · rw [outcome_fromLoop_length _ _ _ _ _ hids, List.length_nil, zero_add]
        exact from_eq_to u dims sl.encoding hB.len (hz (sl, dims) (by simp))
    · exact hrec step

/-- Every row keeps the number of sites of every sublattice. -/
def TableFlipper.RowsBalanced (t : TableFlipper) : Prop :=
  ∀ u ∈ t.table, ∀ dims ∈ t.dimIds, (dims.map fun d => u.getD d 0).sum = 0

theorem sum_map_neg (f : ℕ → ℤ) (l : List ℕ) : (l.map fun d => -f d).sum = -(l.map f).sum := by
  induction l with
  | nil => simp
  | cons d l ih => simp only [List.map_cons, List.sum_cons, neg_add, ih]

theorem direction_balanced {t : TableFlipper} (hb : t.RowsBalanced) {idx : ℕ}
    (hi : idx < 2 * t.table.length) {dims : List ℕ} (hd : dims ∈ t.dimIds) :
    (dims.map (t.direction idx)).sum = 0 := by
  have hrow : idx / 2 < t.table.length := by omega
  have hu : t.table.getD (idx / 2) [] ∈ t.table := by
    rw [List.getD_eq_getElem?_getD, List.getElem?_eq_getElem hrow, Option.getD_some]
    exact List.getElem_mem _
  have h0 := hb _ hu dims hd
  unfold TableFlipper.direction
  by_cases hodd : idx % 2 = 1
  · simp only [if_pos hodd]
    rw [sum_map_neg, h0, neg_zero]
  · simp only [if_neg hodd]
    exact h0

theorem proper_table {t : TableFlipper} {n : ℕ} (h : TableOk t n) (hr : TableRows t)
    (hb : t.RowsBalanced) (h0 : 0 ≤ t.swapWeight) (h1 : t.swapWeight ≤ 1)
    (hact : activeSublattices t.sls ≠ []) (x : Occ) (hx : FullLegal t.sls x) :
    (t.propose n x).Proper := by
  have hswap : (t.swap x).Proper := by
    apply proper_swap
    · intro sl hsl
      have := (List.mem_filter.1 hsl).2
      intro h'
      simp [Sublattice.isActive, h'] at this
    · have hl : ((activeSublattices t.sls).length : ℚ) ≠ 0 := by
        rw [Nat.cast_ne_zero]
        exact fun h' => hact (List.length_eq_zero_iff.1 h')
      refine ⟨by simp, ?_, ?_⟩
      · intro a ha
        rw [List.eq_of_mem_replicate ha]
        positivity
      · rw [List.sum_replicate, nsmul_eq_mul]
        field_simp
  refine Prog.Proper.bind ?_ fun sw _ => ?_
  · refine ⟨?_, fun i => ?_, fun _ _ => trivial⟩
    · rw [Fin.sum_univ_two]; simp
    · beta_reduce
      split_ifs
      · exact h0
      · linarith
  · cases sw with
    | true => exact hswap
    | false =>
      simp only [Bool.false_eq_true, if_false]
      obtain ⟨sp, hsp, hspl, hspd⟩ := h.speciesList hx
      obtain ⟨spF, hspF, hspFl⟩ := h.speciesFull hx
      have hmw : t.maskedWeights (sp.map List.length) (spF.map List.length) = t.mwx x := by
        rw [hspl, hspFl]; rfl
      have hlen := mwx_length h x
      unfold TableFlipper.tableStep
      rw [hsp, hspF]
      simp only [hmw]
      rw [if_neg (by push Not; exact mwx_nonneg hr x)]
      split_ifs with hzero
      · exact hswap
      · have hsum : (t.mwx x).sum ≠ 0 := by
          intro hs
          apply hzero
          intro w hw
          have := List.single_le_sum (mwx_nonneg hr x) w hw
          exact le_antisymm (by rw [← hs]; exact this) (mwx_nonneg hr x w hw)
        have hpl := probList_weights (List.range (t.mwx x).length).length (t.mwx x) (by simp)
          (mwx_nonneg hr x) hsum
        refine (proper_chooseW _ _ _ hpl).bind fun idx hidx => ?_
        obtain ⟨i, hwi, hi⟩ := hidx
        have hil : i.1 < 2 * t.table.length := by
          have h' := lt_of_lt_of_eq i.2 (List.length_range (n := (t.mwx x).length)); omega
        have hi : idx = i.1 := by
          rw [Outcome] at hi
          rw [hi]; simp
        subst hi
        have hne : (t.mwx x).getD i 0 ≠ 0 := by
          intro h'
          apply hwi
          beta_reduce
          rw [List.getD_eq_getElem?_getD] at h' ⊢
          rw [List.getElem?_map]
          cases hg : (t.mwx x)[i.1]? with
          | none => rfl
          | some a => rw [hg] at h'; simp at h'; simp [h']
        have hfeas := (mwx_feas h hil hne).2
        apply proper_tableLoop x _ _ _ (h.blocks hx sp hspd)
        · intro b hbm
          exact direction_balanced hb hil (List.of_mem_zip (show (b.1, b.2) ∈ _ from hbm)).2
        · intro b hbm d hd
          have hB := h.blocks hx sp hspd b hbm
          obtain ⟨j, hj, rfl⟩ := List.mem_iff_getElem.1 hd
          have hl : b.2.length = b.1.encoding.length := hB.len
          have hp : (b.2[j], b.1.encoding[j]) ∈ b.2.zip b.1.encoding := by
            rw [List.mem_iff_getElem]
            exact ⟨j, by rw [List.length_zip]; omega, by simp⟩
          have hdl := ((h.block_dims b hbm).2 _ hp).1
          have hf := (hfeas _ hdl).1
          have hc : (countVec true t.sls x).getD b.2[j] 0 = (sp.getD b.2[j] []).length := by
            rw [← hspl, List.getD_eq_getElem?_getD, List.getElem?_map, List.getD_eq_getElem?_getD]
            cases sp[b.2[j]]? <;> simp
          simp only at hf
          rw [hc] at hf
          omega

/-- Ushers that were built properly: the constructors check lengths and sums of probabilities;
sublattices have sites to draw from and two codes or more. -/
def Usher.Built : Usher → Prop
  | .flip _ act probs => Drawable act ∧ ProbList act.length probs
  | .swap _ act probs => (∀ sl ∈ act, sl.active ≠ []) ∧ ProbList act.length probs
  | .multi _ lens p inner => ProbList lens.length p ∧ inner.Built
  | .composite _ n us w => w.length = n ∧ (∀ a ∈ w, 0 ≤ a) ∧ w.sum ≠ 0 ∧ ∀ i, (us i).Built
  | .table t _ => TableRows t ∧ t.RowsBalanced ∧ 0 ≤ t.swapWeight ∧ t.swapWeight ≤ 1 ∧
      activeSublattices t.sls ≠ []

theorem proper_tree {sls : List Sublattice} (h : SublatticesOk sls) (u : Usher) (hu : u.Over sls)
    (hb : u.Built) (x : Occ) (hx : FullLegal sls x) : (u.propose x).Proper := by
  induction u generalizing x with
  | flip g act probs => exact proper_flip g act probs hb.1 hb.2 x
  | swap g act probs => exact proper_swap g act probs hb.1 hb.2 x
  | multi g lens p inner ih =>
    refine proper_multi g lens p inner.propose (FullLegal sls) hb.1 (fun x hx => ih hu hb.2 x hx)
      (fun x st hx hst => ?_) x hx
    apply fullLegal_apply h hx
    intro f hf
    obtain ⟨sl, a, b⟩ := (tree_legal h inner hu x hx st hst).flips f hf
    exact ⟨sl, activeSublattices_mem a, b⟩
  | composite g n us w ih =>
    refine proper_composite g _ w (by simpa using hb.1) hb.2.1 hb.2.2.1 x fun v hv => ?_
    obtain ⟨i, rfl⟩ := (List.mem_ofFn' _ _).1 hv
    exact ih i (hu i) (hb.2.2.2 i) x hx
  | table t n =>
    obtain ⟨h1, h2, h3, h4, h5⟩ := hb
    obtain ⟨ho, rfl⟩ := hu
    exact proper_table ho h1 h2 h3 h4 h5 x hx

end Smol
