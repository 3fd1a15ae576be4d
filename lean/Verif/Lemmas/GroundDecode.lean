import Verif.Lemmas.GroundVars
import Mathlib.Tactic.NormNum

namespace Smol
open Spec

theorem mapM_some_of {α β : Type} {f : α → Option β} {g : α → β} :
    ∀ {l : List α}, (∀ a ∈ l, f a = some (g a)) → l.mapM f = some (l.map g) := by
  intro l
  induction l with
  | nil => intro _; rfl
  | cons a l ih =>
    intro h
    rw [List.mapM_cons, h a (by simp), ih fun b hb => h b (by simp [hb])]
    rfl

theorem mapM_congr_mem {α β : Type} {f g : α → Option β} :
    ∀ {l : List α}, (∀ a ∈ l, f a = g a) → l.mapM f = l.mapM g := by
  intro l
  induction l with
  | nil => intro _; rfl
  | cons a l ih =>
    intro h
    rw [List.mapM_cons, List.mapM_cons, h a (by simp), ih fun b hb => h b (by simp [hb])]

/-- a list of zeros and ones with sum zero is zero -/
theorem zeros_of_sum {l : List ℤ} (hb : ∀ x ∈ l, x = 0 ∨ x = 1) (hs : l.sum = 0) :
    ∀ x ∈ l, x = 0 := by
  induction l with
  | nil => simp
  | cons a l ih =>
    have hnn : 0 ≤ l.sum := List.sum_nonneg fun x hx => by
      rcases hb x (by simp [hx]) with h | h <;> omega
    rw [List.sum_cons] at hs
    have ha := hb a (by simp)
    intro x hx
    rcases List.mem_cons.1 hx with rfl | hx
    · rcases ha with h | h <;> omega
    · exact ih (fun x hx => hb x (by simp [hx])) (by rcases ha with h | h <;> omega) x hx

theorem one_of_sum {l : List ℤ} (hb : ∀ x ∈ l, x = 0 ∨ x = 1) (hs : l.sum = 1) :
    ∃ p < l.length, ∀ q < l.length, l.getD q 0 = if q = p then 1 else 0 := by
  induction l with
  | nil => simp at hs
  | cons a l ih =>
    have hb' : ∀ x ∈ l, x = 0 ∨ x = 1 := fun x hx => hb x (by simp [hx])
    rw [List.sum_cons] at hs
    rcases hb a (by simp) with rfl | rfl
    · obtain ⟨p, hp, h⟩ := ih hb' (by omega)
      refine ⟨p + 1, by simp; omega, ?_⟩
      intro q hq
      cases q with
      | zero => simp
      | succ q => rw [List.getD_cons_succ, h q (by simp at hq; omega)]; simp
    · have hz := zeros_of_sum hb' (by omega)
      refine ⟨0, by simp, ?_⟩
      intro q hq
      cases q with
      | zero => simp
      | succ q =>
        have hq' : q < l.length := by simp at hq; omega
        rw [List.getD_cons_succ, List.getD_eq_getElem?_getD, List.getElem?_eq_getElem hq',
          Option.getD_some, hz _ (List.getElem_mem hq')]
        simp

theorem sum_of_one {l : List ℤ} {p : ℕ} (hp : p < l.length)
    (h : ∀ q < l.length, l.getD q 0 = if q = p then 1 else 0) : l.sum = 1 := by
  induction l generalizing p with
  | nil => simp at hp
  | cons a l ih =>
    rw [List.sum_cons]
    cases p with
    | zero =>
      have h0 := h 0 (by simp)
      simp only [List.getD_cons_zero, if_true] at h0
      have : l.sum = 0 := List.sum_eq_zero fun x hx => by
        obtain ⟨q, hq, rfl⟩ := List.getElem_of_mem hx
        have := h (q + 1) (by simp; omega)
        rw [List.getD_cons_succ, List.getD_eq_getElem?_getD, List.getElem?_eq_getElem hq] at this
        simpa using this
      omega
    | succ p =>
      have h0 := h 0 (by simp)
      simp only [List.getD_cons_zero] at h0
      rw [if_neg (by omega)] at h0
      have := ih (p := p) (by simp at hp; omega) fun q hq => by
        have := h (q + 1) (by simp; omega)
        rw [List.getD_cons_succ] at this
        rw [this]; simp
      omega

/-- the values of a block of variables -/
def blockOf (values : List ℤ) (base k : ℕ) : List ℤ :=
  (List.range' base k).map fun i => values.getD i 0

theorem blockOf_length (values : List ℤ) (base k : ℕ) : (blockOf values base k).length = k := by
  simp [blockOf]

theorem blockOf_getD (values : List ℤ) {base k q : ℕ} (hq : q < k) :
    (blockOf values base k).getD q 0 = values.getD (base + q) 0 := by
  unfold blockOf
  rw [List.getD_eq_getElem?_getD, List.getElem?_map, List.getElem?_range' hq]
  simp

theorem mapM_block {values : List ℤ} {base k : ℕ} (h : base + k ≤ values.length) :
    (List.range' base k).mapM (fun i => values[i]?) = some (blockOf values base k) := by
  unfold blockOf
  apply mapM_some_of
  intro i hi
  rw [List.mem_range'_1] at hi
  rw [List.getD_eq_getElem?_getD, List.getElem?_eq_getElem (by omega)]
  rfl

theorem onesOf_eq {l : List ℤ} {p : ℕ} (hp : p < l.length)
    (h : ∀ q < l.length, l.getD q 0 = if q = p then 1 else 0) : onesOf l = [p] := by
  unfold onesOf
  apply List.Perm.eq_singleton
  rw [List.perm_ext_iff_of_nodup (List.nodup_range.filter _) (List.nodup_singleton p)]
  intro q
  simp only [List.mem_filter, List.mem_range, decide_eq_true_eq, List.mem_singleton]
  constructor
  · rintro ⟨hq, h1⟩
    have := h q hq
    rw [List.getD_eq_getElem?_getD, h1, Option.getD_some] at this
    by_contra hne
    rw [if_neg hne] at this; omega
  · rintro rfl
    refine ⟨hp, ?_⟩
    have := h q hp
    rw [List.getD_eq_getElem?_getD, List.getElem?_eq_getElem hp, Option.getD_some,
      if_pos rfl] at this
    rw [List.getElem?_eq_getElem hp, this]

theorem decode_free {sl : Sublattice} {space : List ℕ} {base : ℕ} {row values : List ℤ}
    (hr : FreeRow sl space base row) (hk : 0 < sl.encoding.length)
    (hlen : base + sl.encoding.length ≤ values.length) :
    decodeSite sl values row =
      if 1 < (onesOf (blockOf values base sl.encoding.length)).length then none
      else (onesOf (blockOf values base sl.encoding.length))[0]?.bind fun p => sl.encoding[p]? := by
  unfold decodeSite
  rw [hr.inds]
  have : List.range' base sl.encoding.length ≠ [] := by
    intro h; have := congrArg List.length h; simp at this
    rw [this] at hk; simp at hk
  rw [if_pos this, mapM_block hlen, Option.bind_some]

theorem decode_fixed {sl : Sublattice} {space : List ℕ} {f : ℕ} {row values : List ℤ}
    (hr : FixedRow space f row) (hf : f < space.length) :
    decodeSite sl values row = some f := by
  unfold decodeSite
  rw [hr.inds, if_neg (by simp)]
  have h1 := hr.mark f hf
  rw [if_pos rfl] at h1
  have hm : (-1 : ℤ) ∈ row := List.mem_of_getElem? h1
  rw [if_pos hm]
  congr 1
  have hp := List.idxOf_lt_length_of_mem hm
  have h2 := hr.mark (row.idxOf (-1)) (hr.length ▸ hp)
  rw [List.getElem?_eq_getElem hp, List.getElem_idxOf] at h2
  by_contra hne
  rw [if_neg hne] at h2; simp at h2

section layout
variable {subls : List Sublattice} {spaces : List (List ℕ)} {init : Option Occ}
  {marks : List (List ℤ)} {n : ℕ} {base : ℕ → ℕ}

theorem Layout.step (L : Layout subls spaces init marks n base) (h : GroundFits subls spaces)
    {s : ℕ} (hs : s < spaces.length) : base s ≤ base (s + 1) := by
  obtain ⟨sl, hsl, hss⟩ := h.cover s hs
  by_cases hf : FreeSite sl s
  · have := (L.free sl hsl s hss hf).1; omega
  · have := (L.fixed sl hsl s hss hf).1; omega

theorem Layout.mono (L : Layout subls spaces init marks n base) (h : GroundFits subls spaces)
    {s t : ℕ} (hst : s ≤ t) (ht : t ≤ spaces.length) : base s ≤ base t := by
  induction t, hst using Nat.le_induction with
  | base => exact le_refl _
  | succ t hst ih => exact (ih (by omega)).trans (L.step h (by omega))

theorem Layout.block_le (L : Layout subls spaces init marks n base) (h : GroundFits subls spaces)
    {sl : Sublattice} (hsl : sl ∈ subls) {s : ℕ} (hs : s ∈ sl.sites) (hf : FreeSite sl s) :
    base s + sl.encoding.length ≤ n := by
  rw [← (L.free sl hsl s hs hf).1, ← L.last]
  exact L.mono h (h.lt hsl hs) (le_refl _)

/-- every variable belongs to a free site -/
theorem Layout.cover (L : Layout subls spaces init marks n base) (h : GroundFits subls spaces)
    {i : ℕ} (hi : i < n) : ∃ sl ∈ subls, ∃ s ∈ sl.sites, FreeSite sl s ∧ base s ≤ i ∧
      i < base s + sl.encoding.length := by
  have key : ∀ t, t ≤ spaces.length → i < base t → ∃ sl ∈ subls, ∃ s ∈ sl.sites,
      FreeSite sl s ∧ base s ≤ i ∧ i < base s + sl.encoding.length := by
    intro t
    induction t with
    | zero => intro _ hi; rw [L.first] at hi; omega
    | succ t ih =>
      intro ht hi
      rcases Nat.lt_or_ge i (base t) with hlt | hge
      · exact ih (by omega) hlt
      · obtain ⟨sl, hsl, hss⟩ := h.cover t (by omega)
        by_cases hf : FreeSite sl t
        · have := (L.free sl hsl t hss hf).1
          exact ⟨sl, hsl, t, hss, hf, hge, by omega⟩
        · have := (L.fixed sl hsl t hss hf).1; omega
  exact key _ (le_refl _) (by rw [L.last]; exact hi)

theorem _root_.Smol.Spec.GroundFits.enc_pos (h : GroundFits subls spaces) {sl : Sublattice}
    (hsl : sl ∈ subls) {s : ℕ} (hs : s ∈ sl.sites) : 0 < sl.encoding.length := by
  obtain ⟨space, _, hfit⟩ := h.fits sl hsl s hs
  rw [hfit.length]; exact List.length_pos_iff.2 hfit.nonempty

theorem _root_.Smol.Spec.GroundFits.enc_nodup (h : GroundFits subls spaces) {sl : Sublattice}
    (hsl : sl ∈ subls) {s : ℕ} (hs : s ∈ sl.sites) : sl.encoding.Nodup := by
  obtain ⟨space, _, hfit⟩ := h.fits sl hsl s hs
  exact hfit.enc_nodup

theorem _root_.Smol.Spec.GroundFits.fitsD (h : GroundFits subls spaces) {sl : Sublattice}
    (hsl : sl ∈ subls) {s : ℕ} (hs : s ∈ sl.sites) : SiteFits sl (spaces.getD s []) := by
  obtain ⟨space, e, hfit⟩ := h.fits sl hsl s hs
  rw [List.getD_eq_getElem?_getD, e]; exact hfit

/-- The values say that the free sites hold the codes of the occupancy. -/
def VarMatches (subls : List Sublattice) (base : ℕ → ℕ) (values : List ℤ) (occ : Occ) : Prop :=
  ∀ sl ∈ subls, ∀ s ∈ sl.sites, FreeSite sl s → ∀ q (hq : q < sl.encoding.length),
    values.getD (base s + q) 0 = if sl.encoding[q] = occ s then 1 else 0

/-- normalization of a site in terms of its block -/
theorem holds_block {values : List ℤ} {base k : ℕ} :
    (⟨[(1, List.range' base k)], 0, false, 1⟩ : LinCon).Holds
      (fun i => ((values.getD i 0 : ℤ) : ℚ)) ↔ (blockOf values base k).sum = 1 := by
  have : (((blockOf values base k).sum : ℤ) : ℚ) =
      ((List.range' base k).map fun i => ((values.getD i 0 : ℤ) : ℚ)).sum := by
    unfold blockOf
    induction List.range' base k with
    | nil => simp
    | cons a l ih => simp only [List.map_cons, List.sum_cons, Int.cast_add, ih]
  unfold LinCon.Holds LinCon.lhs
  simp only [Bool.false_eq_true, if_false, List.map_cons, List.map_nil, List.sum_cons,
    List.sum_nil, one_mul, add_zero]
  rw [← this]
  exact_mod_cast Iff.rfl

theorem Layout.norm_iff (L : Layout subls spaces init marks n base) (h : GroundFits subls spaces)
    (values : List ℤ) :
    (∀ c ∈ normalizationConstraints marks, c.Holds fun i => ((values.getD i 0 : ℤ) : ℚ)) ↔
    ∀ sl ∈ subls, ∀ s ∈ sl.sites, FreeSite sl s →
      (blockOf values (base s) sl.encoding.length).sum = 1 := by
  constructor
  · intro hc sl hsl s hs hf
    obtain ⟨_, row, hrow, hr⟩ := L.free sl hsl s hs hf
    rw [← holds_block, ← hr.inds]
    apply hc
    unfold normalizationConstraints
    rw [List.mem_map]
    refine ⟨row, List.mem_filter.2 ⟨List.mem_of_getElem? hrow, ?_⟩, rfl⟩
    rw [decide_eq_true_eq, hr.inds]
    intro he
    have := congrArg List.length he
    have hp := h.enc_pos hsl hs
    simp at this; rw [this] at hp; simp at hp
  · intro hb c hc
    unfold normalizationConstraints at hc
    rw [List.mem_map] at hc
    obtain ⟨row, hrow, rfl⟩ := hc
    obtain ⟨hm, hne⟩ := List.mem_filter.1 hrow
    rw [decide_eq_true_eq] at hne
    obtain ⟨s, hs⟩ := List.mem_iff_getElem?.1 hm
    have hlt : s < spaces.length := L.length ▸ (List.getElem?_eq_some_iff.1 hs).1
    obtain ⟨sl, hsl, hss⟩ := h.cover s hlt
    by_cases hf : FreeSite sl s
    · obtain ⟨_, row', hrow', hr⟩ := L.free sl hsl s hss hf
      rw [hs, Option.some.injEq] at hrow'; subst hrow'
      rw [hr.inds, holds_block]
      exact hb sl hsl s hss hf
    · obtain ⟨_, row', hrow', hr, _⟩ := L.fixed sl hsl s hss hf
      rw [hs, Option.some.injEq] at hrow'; subst hrow'
      exact absurd hr.inds hne

theorem occupancyFromVariables_eq (L : Layout subls spaces init marks n base)
    (h : GroundFits subls spaces) (values : List ℤ) :
    occupancyFromVariables subls values marks = (List.range spaces.length).mapM fun s =>
      (subls.find? fun sl => decide (s ∈ sl.sites)).bind fun sl =>
        decodeSite sl values (marks.getD s []) := by
  obtain ⟨ids, hids, hil, hat⟩ := sublatticeIds_eq h
  unfold occupancyFromVariables
  rw [hids, Option.bind_some]
  have e : marks.zipIdx = (List.range spaces.length).map fun s => (marks.getD s [], s) := by
    apply List.ext_getElem
    · simp [L.length]
    · intro i h1 h2
      have : i < marks.length := by simpa using h1
      simp [List.getElem?_eq_getElem this]
  rw [e, List.mapM_map]
  apply mapM_congr_mem
  intro s hs
  obtain ⟨sl, hsl, hss⟩ := h.cover s (List.mem_range.1 hs)
  simp only [Function.comp]
  rw [hat sl hsl s hss]
  have hf : (subls.find? fun sl => decide (s ∈ sl.sites)) = some sl := by
    cases hh : subls.find? fun sl => decide (s ∈ sl.sites) with
    | none =>
      rw [List.find?_eq_none] at hh
      exact absurd (by simpa using hss) (hh sl hsl)
    | some sl' =>
      have h1 := List.mem_of_find?_eq_some hh
      have h2 := List.find?_some hh
      rw [h.unique hsl h1 hss (by simpa using h2)]
  rw [hf]

theorem find_sublattice (h : GroundFits subls spaces) {sl : Sublattice} (hsl : sl ∈ subls) {s : ℕ}
    (hss : s ∈ sl.sites) : (subls.find? fun sl => decide (s ∈ sl.sites)) = some sl := by
  cases hh : subls.find? fun sl => decide (s ∈ sl.sites) with
  | none =>
    rw [List.find?_eq_none] at hh
    exact absurd (by simpa using hss) (hh sl hsl)
  | some sl' =>
    have h1 := List.mem_of_find?_eq_some hh
    have h2 := List.find?_some hh
    rw [h.unique hsl h1 hss (by simpa using h2)]

/-- Values that match a legal occupancy decode to it. -/
theorem decode_matches (L : Layout subls spaces init marks n base) (h : GroundFits subls spaces)
    {values : List ℤ} (hl : values.length = n) {occ : Occ}
    (hocc : GroundLegal subls init occ) (hm : VarMatches subls base values occ) :
    occupancyFromVariables subls values marks = some ((List.range spaces.length).map occ) := by
  rw [occupancyFromVariables_eq L h]
  apply mapM_some_of
  intro s hs
  obtain ⟨sl, hsl, hss⟩ := h.cover s (List.mem_range.1 hs)
  rw [find_sublattice h hsl hss, Option.bind_some]
  obtain ⟨ho1, ho2⟩ := hocc sl hsl s hss
  by_cases hf : FreeSite sl s
  · obtain ⟨_, row, hrow, hr⟩ := L.free sl hsl s hss hf
    have erow : marks.getD s [] = row := by rw [List.getD_eq_getElem?_getD, hrow]; rfl
    rw [erow, decode_free hr (h.enc_pos hsl hss) (hl ▸ L.block_le h hsl hss hf)]
    have hp := List.idxOf_lt_length_of_mem ho1
    have := onesOf_eq (l := blockOf values (base s) sl.encoding.length)
      (p := sl.encoding.idxOf (occ s)) (by rw [blockOf_length]; exact hp) (by
        intro q hq
        rw [blockOf_length] at hq
        rw [blockOf_getD values hq, hm sl hsl s hss hf q hq]
        apply if_congr _ rfl rfl
        constructor
        · intro e; rw [← e]; exact ((h.enc_nodup hsl hss).idxOf_getElem _ _).symm
        · intro e; subst e; exact List.getElem_idxOf hp)
    rw [this]
    simp [List.getElem?_eq_getElem hp]
  · obtain ⟨_, row, hrow, hr, hfe⟩ := L.fixed sl hsl s hss hf
    have erow : marks.getD s [] = row := by rw [List.getD_eq_getElem?_getD, hrow]; rfl
    rw [erow, decode_fixed hr ((h.fitsD hsl hss).enc_lt hfe)]
    congr 1
    unfold forcedCode
    split
    · rename_i h1
      obtain ⟨o, e, e2⟩ := ho2 h1 (fun h2 => hf ⟨h1, h2⟩)
      rw [e, e2]; rfl
    · rename_i h1
      have := single_encoding (h.fitsD hsl hss) h1
      rw [this] at ho1
      exact (List.mem_singleton.1 ho1).symm

/-- Normalized values match a legal occupancy. -/
theorem exists_matches (L : Layout subls spaces init marks n base) (h : GroundFits subls spaces)
    (hi : InitLegal subls init) {values : List ℤ} (hn : Normalized marks n values) :
    ∃ occ, GroundLegal subls init occ ∧ VarMatches subls base values occ := by
  have hnorm := (L.norm_iff h values).1 hn.norm
  have key : ∀ s, ∃ c, ∀ sl ∈ subls, s ∈ sl.sites → c ∈ sl.encoding ∧
      (FreeSite sl s → ∀ q (hq : q < sl.encoding.length),
        values.getD (base s + q) 0 = if sl.encoding[q] = c then 1 else 0) ∧
      (1 < sl.species.length → s ∉ sl.active → ∃ o, init = some o ∧ c = o s) := by
    intro s
    by_cases hs : s < spaces.length
    swap
    · exact ⟨0, fun sl hsl hss => absurd (h.lt hsl hss) hs⟩
    obtain ⟨sl, hsl, hss⟩ := h.cover s hs
    suffices hh : ∃ c, c ∈ sl.encoding ∧
        (FreeSite sl s → ∀ q (hq : q < sl.encoding.length),
          values.getD (base s + q) 0 = if sl.encoding[q] = c then 1 else 0) ∧
        (1 < sl.species.length → s ∉ sl.active → ∃ o, init = some o ∧ c = o s) by
      obtain ⟨c, hc⟩ := hh
      refine ⟨c, fun sl' hsl' hss' => ?_⟩
      rw [← h.unique hsl hsl' hss hss']; exact hc
    by_cases hf : FreeSite sl s
    · have hb : ∀ x ∈ blockOf values (base s) sl.encoding.length, x = 0 ∨ x = 1 := by
        intro x hx
        obtain ⟨i, hi, rfl⟩ := List.mem_map.1 hx
        rw [List.mem_range'_1] at hi
        have := L.block_le h hsl hss hf
        have hi' : i < values.length := by rw [hn.length]; omega
        rw [List.getD_eq_getElem?_getD, List.getElem?_eq_getElem hi']
        exact hn.bool _ (List.getElem_mem hi')
      obtain ⟨p, hp, hpq⟩ := one_of_sum hb (hnorm sl hsl s hss hf)
      rw [blockOf_length] at hp
      refine ⟨sl.encoding[p], List.getElem_mem hp, ?_, fun _ h2 => absurd hf.2 h2⟩
      intro _ q hq
      have := hpq q (by rw [blockOf_length]; exact hq)
      rw [blockOf_getD values hq] at this
      rw [this]
      apply if_congr _ rfl rfl
      rw [(h.enc_nodup hsl hss).getElem_inj_iff]
    · by_cases h1 : 1 < sl.species.length
      · have h2 : s ∉ sl.active := fun h2 => hf ⟨h1, h2⟩
        obtain ⟨o, ho, ho'⟩ := hi sl hsl s hss h1 h2
        exact ⟨o s, ho', fun h => absurd h hf, fun _ _ => ⟨o, ho, rfl⟩⟩
      · have hp := h.enc_pos hsl hss
        exact ⟨sl.encoding[0], List.getElem_mem hp, fun h => absurd h hf, fun h => absurd h h1⟩
  choose occ hocc using key
  exact ⟨occ, fun sl hsl s hs => ⟨(hocc s sl hsl hs).1, (hocc s sl hsl hs).2.2⟩,
    fun sl hsl s hs => (hocc s sl hsl hs).2.1⟩

/-- Values matching a legal occupancy are normalized. -/
theorem normalized_of_matches (L : Layout subls spaces init marks n base)
    (h : GroundFits subls spaces) {values : List ℤ} (hl : values.length = n) {occ : Occ}
    (hocc : GroundLegal subls init occ) (hm : VarMatches subls base values occ) :
    Normalized marks n values := by
  refine ⟨hl, ?_, (L.norm_iff h values).2 ?_⟩
  · intro x hx
    obtain ⟨i, hi, rfl⟩ := List.getElem_of_mem hx
    obtain ⟨sl, hsl, s, hs, hf, h1, h2⟩ := L.cover h (hl ▸ hi)
    have := hm sl hsl s hs hf (i - base s) (by omega)
    have e : base s + (i - base s) = i := by omega
    rw [e, List.getD_eq_getElem?_getD, List.getElem?_eq_getElem hi, Option.getD_some] at this
    rw [this]; split <;> simp
  · intro sl hsl s hs hf
    have ho := (hocc sl hsl s hs).1
    have hp := List.idxOf_lt_length_of_mem ho
    apply sum_of_one (p := sl.encoding.idxOf (occ s)) (by rw [blockOf_length]; exact hp)
    intro q hq
    rw [blockOf_length] at hq
    rw [blockOf_getD values hq, hm sl hsl s hs hf q hq]
    apply if_congr _ rfl rfl
    constructor
    · intro e; rw [← e]; exact ((h.enc_nodup hsl hs).idxOf_getElem _ _).symm
    · intro e; subst e; exact List.getElem_idxOf hp

theorem matches_unique (L : Layout subls spaces init marks n base) (h : GroundFits subls spaces)
    {v w : List ℤ} (hv : v.length = n) (hw : w.length = n) {occ : Occ}
    (h1 : VarMatches subls base v occ) (h2 : VarMatches subls base w occ) : v = w := by
  apply List.ext_getElem (hv.trans hw.symm)
  intro i hi hi'
  obtain ⟨sl, hsl, s, hs, hf, k1, k2⟩ := L.cover h (hv ▸ hi)
  have e1 := h1 sl hsl s hs hf (i - base s) (by omega)
  have e2 := h2 sl hsl s hs hf (i - base s) (by omega)
  have e : base s + (i - base s) = i := by omega
  rw [e, List.getD_eq_getElem?_getD, List.getElem?_eq_getElem hi, Option.getD_some] at e1
  rw [e, List.getD_eq_getElem?_getD, List.getElem?_eq_getElem hi', Option.getD_some] at e2
  rw [e1, e2]

/-! ### encoding -/

theorem valuesLoop_eq (L : Layout subls spaces init marks n base) (h : GroundFits subls spaces)
    {ids : List ℕ} (hids : ∀ sl ∈ subls, ∀ s ∈ sl.sites, sublatticeAt subls ids s = some sl)
    {occ : Occ}
    (hocc : ∀ sl ∈ subls, ∀ s ∈ sl.sites, FreeSite sl s → occ s ∈ sl.encoding) :
    ∀ (rest : List (List ℤ)) (s : ℕ) (values : List ℤ), marks.drop s = rest →
      values.length = n → (∀ i, base s ≤ i → values.getD i 0 = 0) →
      ∃ out, valuesLoop subls ids occ s rest values = some out ∧ out.length = n ∧
        (∀ i < base s, out.getD i 0 = values.getD i 0) ∧
        ∀ sl ∈ subls, ∀ t ∈ sl.sites, s ≤ t → FreeSite sl t → ∀ q (hq : q < sl.encoding.length),
          out.getD (base t + q) 0 = if sl.encoding[q] = occ t then 1 else 0 := by
  intro rest
  induction rest with
  | nil =>
    intro s values hd hl hz
    refine ⟨values, rfl, hl, fun _ _ => rfl, ?_⟩
    intro sl hsl t ht hst
    have := congrArg List.length hd
    have := h.lt hsl ht
    have := L.length
    simp at *; omega
  | cons row rest ih =>
    intro s values hd hl hz
    have hs : s < marks.length := by
      by_contra hn
      rw [List.drop_eq_nil_of_le (by omega)] at hd
      cases hd
    have hrow : marks[s]? = some row := by
      have := congrArg List.head? hd
      simpa [List.head?_drop] using this
    have hd' : marks.drop (s + 1) = rest := by
      have := congrArg List.tail hd
      simpa using this
    have hs' : s < spaces.length := L.length ▸ hs
    obtain ⟨sl, hsl, hss⟩ := h.cover s hs'
    rw [valuesLoop, hids sl hsl s hss, Option.bind_some]
    by_cases hf : FreeSite sl s
    · obtain ⟨hb, row', hrow', hr⟩ := L.free sl hsl s hss hf
      rw [hrow, Option.some.injEq] at hrow'; subst hrow'
      have hpos := h.enc_pos hsl hss
      have hne : varInds row ≠ [] := by
        rw [hr.inds]; intro he
        have := congrArg List.length he
        simp at this; rw [this] at hpos; simp at hpos
      have hmem := hocc sl hsl s hss hf
      have hp := List.idxOf_lt_length_of_mem hmem
      have hle := L.block_le h hsl hss hf
      rw [if_pos hne, if_pos hmem, hr.inds, List.getElem?_range' hp, Option.bind_some, one_mul]
      obtain ⟨out, e1, e2, e3, e4⟩ := ih (s + 1)
        (values.set (base s + sl.encoding.idxOf (occ s)) 1) hd' (by simp [hl]) (by
          intro i hi
          have := hz i (by omega)
          rw [List.getD_eq_getElem?_getD, List.getElem?_set_ne (by omega),
            ← List.getD_eq_getElem?_getD]; exact this)
      refine ⟨out, e1, e2, ?_, ?_⟩
      · intro i hi
        rw [e3 i (by omega), List.getD_eq_getElem?_getD, List.getElem?_set_ne (by omega),
          ← List.getD_eq_getElem?_getD]
      · intro sl' hsl' t ht hst hf' q hq
        rcases Nat.eq_or_lt_of_le hst with e | hlt
        · subst e
          have := h.unique hsl hsl' hss ht
          subst this
          rw [e3 _ (by omega)]
          by_cases hqe : sl.encoding[q] = occ s
          · have : q = sl.encoding.idxOf (occ s) := by
              rw [← hqe]; exact ((h.enc_nodup hsl hss).idxOf_getElem _ _).symm
            rw [if_pos hqe, this, List.getD_eq_getElem?_getD, List.getElem?_set_self (by omega)]
            rfl
          · rw [if_neg hqe, List.getD_eq_getElem?_getD, List.getElem?_set_ne (by
              intro he
              have : q = sl.encoding.idxOf (occ s) := by omega
              subst this
              exact hqe (List.getElem_idxOf hp)), ← List.getD_eq_getElem?_getD]
            exact hz _ (by omega)
        · exact e4 sl' hsl' t ht hlt hf' q hq
    · obtain ⟨hb, row', hrow', hr, _⟩ := L.fixed sl hsl s hss hf
      rw [hrow, Option.some.injEq] at hrow'; subst hrow'
      rw [hr.inds, if_neg (by simp)]
      obtain ⟨out, e1, e2, e3, e4⟩ := ih (s + 1) values hd' hl (fun i hi => hz i (by omega))
      refine ⟨out, e1, e2, fun i hi => e3 i (by omega), ?_⟩
      intro sl' hsl' t ht hst hf' q hq
      rcases Nat.eq_or_lt_of_le hst with e | hlt
      · subst e
        have := h.unique hsl hsl' hss ht
        subst this
        exact absurd hf' hf
      · exact e4 sl' hsl' t ht hlt hf' q hq

theorem foldl_max_le (l : List ℤ) : ∀ a b : ℤ, l.foldl max a ≤ b ↔ a ≤ b ∧ ∀ x ∈ l, x ≤ b := by
  induction l with
  | nil => intro a b; simp
  | cons c l ih =>
    intro a b
    rw [List.foldl_cons, ih]
    simp only [List.mem_cons, forall_eq_or_imp, max_le_iff]
    tauto

theorem numVariables_eq (L : Layout subls spaces init marks n base) (h : GroundFits subls spaces) :
    numVariables marks = n := by
  have hub : ∀ row ∈ marks, ∀ m ∈ row, m ≤ (n : ℤ) - 1 := by
    intro row hrow m hm
    obtain ⟨s, hs⟩ := List.mem_iff_getElem?.1 hrow
    have hlt : s < spaces.length := L.length ▸ (List.getElem?_eq_some_iff.1 hs).1
    obtain ⟨sl, hsl, hss⟩ := h.cover s hlt
    obtain ⟨c, hc, rfl⟩ := List.getElem_of_mem hm
    by_cases hf : FreeSite sl s
    · obtain ⟨_, row', hrow', hr⟩ := L.free sl hsl s hss hf
      rw [hs, Option.some.injEq] at hrow'; subst hrow'
      have hmk := hr.mark c (hr.length ▸ hc)
      rw [List.getElem?_eq_getElem hc, Option.some.injEq] at hmk
      rw [hmk]
      split
      · rename_i he
        have := List.idxOf_lt_length_of_mem he
        have := L.block_le h hsl hss hf
        push_cast; omega
      · omega
    · obtain ⟨_, row', hrow', hr, _⟩ := L.fixed sl hsl s hss hf
      rw [hs, Option.some.injEq] at hrow'; subst hrow'
      have hmk := hr.mark c (hr.length ▸ hc)
      rw [List.getElem?_eq_getElem hc, Option.some.injEq] at hmk
      rw [hmk]
      split <;> omega
  unfold numVariables
  set M := (marks.map fun row => row.foldl max (-2)).foldl max (-2) with hM
  have hle : M ≤ (n : ℤ) - 1 := by
    rw [hM, foldl_max_le]
    refine ⟨by omega, ?_⟩
    intro x hx
    obtain ⟨row, hrow, rfl⟩ := List.mem_map.1 hx
    rw [foldl_max_le]
    exact ⟨by omega, hub row hrow⟩
  by_cases h0 : n = 0
  · subst h0; omega
  · obtain ⟨sl, hsl, s, hs, hf, h1, h2⟩ := L.cover h (i := n - 1) (by omega)
    obtain ⟨_, row, hrow, hr⟩ := L.free sl hsl s hs hf
    have hq : n - 1 - base s < sl.encoding.length := by omega
    have hmk := hr.mark _ ((h.fitsD hsl hs).enc_lt (List.getElem_mem hq))
    rw [if_pos (List.getElem_mem hq), (h.enc_nodup hsl hs).idxOf_getElem] at hmk
    have h3 : ((base s + (n - 1 - base s) : ℕ) : ℤ) ≤ row.foldl max (-2) :=
      ((foldl_max_le row (-2) _).1 (le_refl _)).2 _ (List.mem_of_getElem? hmk)
    have h4 : row.foldl max (-2) ≤ M := by
      rw [hM]
      exact ((foldl_max_le _ (-2) _).1 (le_refl _)).2 _
        (List.mem_map.2 ⟨row, List.mem_of_getElem? hrow, rfl⟩)
    omega

theorem row_ne_nil (L : Layout subls spaces init marks n base) (h : GroundFits subls spaces) :
    [] ∉ marks := by
  intro hm
  obtain ⟨s, hs⟩ := List.mem_iff_getElem?.1 hm
  have hlt : s < spaces.length := L.length ▸ (List.getElem?_eq_some_iff.1 hs).1
  obtain ⟨sl, hsl, hss⟩ := h.cover s hlt
  have hpos : 0 < (spaces.getD s []).length :=
    Nat.lt_of_le_of_lt (Nat.zero_le _)
      ((h.fitsD hsl hss).enc_lt (List.getElem_mem (h.enc_pos hsl hss)))
  by_cases hf : FreeSite sl s
  · obtain ⟨_, row', hrow', hr⟩ := L.free sl hsl s hss hf
    rw [hs, Option.some.injEq] at hrow'; subst hrow'
    have := hr.length; rw [List.length_nil] at this; omega
  · obtain ⟨_, row', hrow', hr, _⟩ := L.fixed sl hsl s hss hf
    rw [hs, Option.some.injEq] at hrow'; subst hrow'
    have := hr.length; rw [List.length_nil] at this; omega

theorem encode_matches (L : Layout subls spaces init marks n base) (h : GroundFits subls spaces)
    (hne : spaces ≠ []) {occ : Occ}
    (hocc : ∀ sl ∈ subls, ∀ s ∈ sl.sites, FreeSite sl s → occ s ∈ sl.encoding) :
    ∃ values, valuesFromOccupancy subls occ marks = some values ∧ values.length = n ∧
      VarMatches subls base values occ := by
  obtain ⟨ids, hids, _, hat⟩ := sublatticeIds_eq h
  have hm : marks ≠ [] := by
    intro e; have := L.length; rw [e] at this
    exact hne (List.length_eq_zero_iff.1 this.symm)
  obtain ⟨out, e1, e2, e3, e4⟩ := valuesLoop_eq L h hat hocc marks 0 (List.replicate n 0)
    (by simp) (by simp) (by
      intro i _
      rw [List.getD_eq_getElem?_getD, List.getElem?_replicate]
      split <;> rfl)
  refine ⟨out, ?_, e2, ?_⟩
  · unfold valuesFromOccupancy
    rw [if_neg (by rintro (h1 | h1); exact hm h1; exact row_ne_nil L h h1), hids,
      Option.bind_some, numVariables_eq L h]
    exact e1
  · intro sl hsl s hs hf q hq
    exact e4 sl hsl s hs (Nat.zero_le _) hf q hq

end layout

end Smol
