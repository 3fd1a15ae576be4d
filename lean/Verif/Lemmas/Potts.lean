import Verif.Model.Potts
import Verif.Spec.Potts
import Verif.Lemmas.Orbit

/-! Lemmas on Potts subspaces -/

namespace Smol
open Spec

variable {σ : Type*}

/-! ### python indexing -/

theorem pyGet_nat {α : Type*} (l : List α) (n : ℕ) : pyGet l (n : ℤ) = l[n]? := by
  simp [pyGet]

theorem pyGet_neg {α : Type*} (l : List α) (n : ℕ) (h : 0 < n) (hn : n ≤ l.length) :
    pyGet l (-(n : ℤ)) = l[l.length - n]? := by
  unfold pyGet
  rw [if_neg (by omega), if_pos (by omega)]
  congr 1
  omega

/-! ### decorations -/

theorem decorate_speciesOf (spaces : List (List σ)) (bits : List ℕ) (d : List σ)
    (hl : bits.length = spaces.length) :
    decorate spaces bits = some d ↔ speciesOf spaces bits = d.map some := by
  induction spaces generalizing bits d with
  | nil =>
    obtain rfl : bits = [] := List.length_eq_zero_iff.1 hl
    cases d <;> simp [decorate, speciesOf]
  | cons s ss ih =>
    cases bits with
    | nil => simp at hl
    | cons b bs =>
      have hl' : bs.length = ss.length := by simpa using hl
      simp only [decorate, speciesOf, List.zipWith_cons_cons]
      cases d with
      | nil =>
        simp only [List.map_nil, reduceCtorEq, iff_false]
        split <;> simp
      | cons x xs =>
        rw [List.map_cons, List.cons.injEq]
        have := ih bs xs hl'
        unfold speciesOf at this
        rw [← this]
        cases hs : s[b]? with
        | none => simp
        | some y =>
          cases hd : decorate ss bs with
          | none => simp
          | some ys => simp

theorem decorate_total (spaces : List (List σ)) (bits : List ℕ)
    (h : List.Forall₂ (fun b s => b < s.length) bits spaces) :
    ∃ d, decorate spaces bits = some d := by
  induction h with
  | nil => exact ⟨[], rfl⟩
  | @cons x s _ _ h1 _ ih =>
    obtain ⟨d, hd⟩ := ih
    exact ⟨s[x] :: d, by simp [decorate, hd, List.getElem?_eq_getElem h1]⟩

theorem speciesOf_inj (spaces : List (List σ)) (hn : ∀ s ∈ spaces, s.Nodup) (a b : List ℕ)
    (ha : List.Forall₂ (fun b s => b < s.length) a spaces)
    (hb : b.length = spaces.length)
    (h : speciesOf spaces a = speciesOf spaces b) : a = b := by
  induction ha generalizing b with
  | nil => exact (List.length_eq_zero_iff.1 hb).symm
  | @cons x s xs ss h1 h2 ih =>
    cases b with
    | nil => simp at hb
    | cons y ys =>
      simp only [speciesOf, List.zipWith_cons_cons, List.cons.injEq] at h
      have e1 : x = y := by
        have := h.1
        exact (List.getElem?_inj h1 (hn s (List.mem_cons_self ..))).1 this
      have e2 := ih (fun s hs => hn s (List.mem_cons_of_mem _ hs)) ys (by simpa using hb) h.2
      rw [e1, e2]

theorem choice_range_iff (spaces : List (List σ)) (a : List ℕ) :
    Choice (spaces.map fun s => List.range s.length) a ↔
      List.Forall₂ (fun b s => b < s.length) a spaces := by
  unfold Choice
  rw [List.forall₂_map_right_iff]
  simp only [List.mem_range]

theorem decorateAll_eq (spaces : List (List σ)) (cl : List (List ℕ))
    (h : ∀ b ∈ cl, List.Forall₂ (fun b s => b < s.length) b spaces) :
    ∃ ds, decorateAll spaces cl = some ds ∧
      List.Forall₂ (fun b d => speciesOf spaces b = d.map some) cl ds := by
  induction cl with
  | nil => exact ⟨[], rfl, .nil⟩
  | cons b bs ih =>
    obtain ⟨ds, h1, h2⟩ := ih fun x hx => h x (List.mem_cons_of_mem _ hx)
    have hb := h b (List.mem_cons_self ..)
    obtain ⟨d, hd⟩ := decorate_total spaces b hb
    exact ⟨d :: ds, by simp [decorateAll, hd, h1],
      .cons ((decorate_speciesOf spaces b d hb.length_eq).1 hd) h2⟩

/-- Codes of a decoration. -/
theorem exists_codes (spaces : List (List σ)) (d : List σ) (h : Decoration spaces d) :
    ∃ a, List.Forall₂ (fun b s => b < s.length) a spaces ∧ speciesOf spaces a = d.map some := by
  induction h with
  | nil => exact ⟨[], .nil, rfl⟩
  | @cons x s _ _ h1 _ ih =>
    obtain ⟨a, ha, hs⟩ := ih
    obtain ⟨i, hi, rfl⟩ := List.getElem_of_mem h1
    refine ⟨i :: a, .cons hi ha, ?_⟩
    unfold speciesOf at hs ⊢
    rw [List.zipWith_cons_cons, hs, List.map_cons, List.getElem?_eq_getElem hi]

theorem decoration_of_codes (spaces : List (List σ)) (a : List ℕ) (d : List σ)
    (ha : List.Forall₂ (fun b s => b < s.length) a spaces)
    (hs : speciesOf spaces a = d.map some) : Decoration spaces d := by
  induction ha generalizing d with
  | nil =>
    cases d with
    | nil => exact .nil
    | cons => simp [speciesOf] at hs
  | @cons x s _ _ h1 _ ih =>
    cases d with
    | nil => simp [speciesOf] at hs
    | cons y ys =>
      simp only [speciesOf, List.zipWith_cons_cons, List.map_cons, List.cons.injEq] at hs
      exact .cons (List.mem_of_getElem? hs.1) (ih ys hs.2)

theorem speciesOf_get (spaces : List (List σ)) (a : List ℕ) (d : List σ)
    (hs : speciesOf spaces a = d.map some) (i : ℕ) :
    d[i]? = (spaces[i]?).bind fun s => (a[i]?).bind fun c => s[c]? := by
  have h : (d.map some)[i]? = (speciesOf spaces a)[i]? := by rw [hs]
  unfold speciesOf at h
  rw [List.getElem?_map, List.getElem?_zipWith] at h
  cases hd : d[i]? with
  | some x =>
    rw [hd] at h
    cases hsp : spaces[i]? with
    | none => simp [hsp] at h
    | some s =>
      cases hai : a[i]? with
      | none => simp [hsp, hai] at h
      | some c => simp only [hsp, hai, Option.map_some, Option.some.injEq] at h; simpa using h
  | none =>
    rw [hd] at h
    cases hsp : spaces[i]? with
    | none => rfl
    | some s =>
      cases hai : a[i]? with
      | none => rfl
      | some c => simp [hsp, hai] at h

/-- Equivalent codes are rearranged decorations. -/
theorem rearranged_iff (spaces : List (List σ)) (hn : ∀ s ∈ spaces, s.Nodup)
    (perms : List (List ℕ)) (G : PermGroup spaces.length perms) (hr : Respects perms spaces)
    (a b : List ℕ) (d e : List σ) (ha : List.Forall₂ (fun b s => b < s.length) a spaces)
    (hb : List.Forall₂ (fun b s => b < s.length) b spaces)
    (hd : speciesOf spaces a = d.map some) (he : speciesOf spaces b = e.map some) :
    Rearranged perms d e ↔ Equivalent perms a b := by
  have hld : d.length = spaces.length := (decoration_of_codes spaces a d ha hd).length_eq
  have hle : e.length = spaces.length := (decoration_of_codes spaces b e hb he).length_eq
  constructor
  · rintro ⟨p, hp, hl, h⟩
    refine ⟨p, hp, by rw [hb.length_eq, ← hle, hl], fun i j hij => ?_⟩
    have h1 := h i j hij
    rw [speciesOf_get spaces a d hd, speciesOf_get spaces b e he, hr p hp i j hij] at h1
    have hi : i < spaces.length := by
      rw [← hle, hl]; exact (List.getElem?_eq_some_iff.1 hij).1
    have hj : j < spaces.length := G.lt hp j (List.mem_of_getElem? hij)
    have hia : j < a.length := by rw [ha.length_eq]; exact hj
    have hib : i < b.length := by rw [hb.length_eq]; exact hi
    rw [List.getElem?_eq_getElem hi, List.getElem?_eq_getElem hia,
      List.getElem?_eq_getElem hib] at h1
    simp only [Option.bind_some] at h1
    rw [List.getElem?_eq_getElem hia, List.getElem?_eq_getElem hib]
    have hbl : b[i] < spaces[i].length := List.Forall₂.get hb (i := i) hib hi
    rw [(List.getElem?_inj hbl (hn _ (List.getElem_mem hi))).1 h1]
  · rintro ⟨p, hp, hl, h⟩
    refine ⟨p, hp, by rw [hle, ← hb.length_eq, hl], fun i j hij => ?_⟩
    rw [speciesOf_get spaces a d hd, speciesOf_get spaces b e he, hr p hp i j hij,
      h i j hij]

theorem bitCombos_shape (spaces : List (List σ)) (perms : List (List ℕ))
    (G : PermGroup spaces.length perms) (hr : Respects perms spaces) :
    ∀ cl ∈ bitCombos (spaces.map fun s => List.range s.length) perms, ∀ b ∈ cl,
      List.Forall₂ (fun b s => b < s.length) b spaces := by
  intro cl hcl b hb
  have G' : PermGroup (spaces.map fun s => List.range s.length).length perms := by
    rwa [List.length_map]
  have hr' : Respects perms (spaces.map fun s => List.range s.length) := by
    intro p hp i j hij
    rw [List.getElem?_map, List.getElem?_map, hr p hp i j hij]
  obtain ⟨c, hc, rfl⟩ := (bitCombos_inv G').cls cl hcl
  obtain ⟨p, hp, rfl⟩ := (mem_classOf _ _ _).1 hb
  exact (choice_range_iff _ _).1 (choice_permute G' hr' hc hp)

theorem forall₂_get' {α β : Type*} {R : α → β → Prop} {l : List α} {m : List β}
    (h : List.Forall₂ R l m) {i : ℕ} {x : α} (hx : l[i]? = some x) :
    ∃ y, m[i]? = some y ∧ R x y := by
  obtain ⟨hi, rfl⟩ := List.getElem?_eq_some_iff.1 hx
  have hi' : i < m.length := h.length_eq ▸ hi
  exact ⟨m[i], List.getElem?_eq_getElem hi', List.Forall₂.get h hi hi'⟩

theorem forall₂_get_right {α β : Type*} {R : α → β → Prop} {l : List α} {m : List β}
    (h : List.Forall₂ R l m) {i : ℕ} {y : β} (hy : m[i]? = some y) :
    ∃ x, l[i]? = some x ∧ R x y := by
  obtain ⟨hi, rfl⟩ := List.getElem?_eq_some_iff.1 hy
  have hi' : i < l.length := h.length_eq.symm ▸ hi
  exact ⟨l[i], List.getElem?_eq_getElem hi', List.Forall₂.get h hi' hi⟩

theorem forall₂_mem_left {α β : Type*} {R : α → β → Prop} {l : List α} {m : List β}
    (h : List.Forall₂ R l m) {x : α} (hx : x ∈ l) : ∃ y ∈ m, R x y := by
  obtain ⟨i, hi⟩ := List.mem_iff_getElem?.1 hx
  obtain ⟨y, h1, h2⟩ := forall₂_get' h hi
  exact ⟨y, List.mem_of_getElem? h1, h2⟩

theorem forall₂_mem_right {α β : Type*} {R : α → β → Prop} {l : List α} {m : List β}
    (h : List.Forall₂ R l m) {y : β} (hy : y ∈ m) : ∃ x ∈ l, R x y := by
  obtain ⟨i, hi⟩ := List.mem_iff_getElem?.1 hy
  obtain ⟨x, h1, h2⟩ := forall₂_get_right h hi
  exact ⟨x, List.mem_of_getElem? h1, h2⟩

/-- The classes of codes and the classes of decorations they stand for. -/
theorem exists_decs (spaces : List (List σ)) (classes : List (List (List ℕ)))
    (h : ∀ cl ∈ classes, ∀ b ∈ cl, List.Forall₂ (fun b s => b < s.length) b spaces) :
    ∃ decs, List.Forall₂ (fun cl ds => decorateAll spaces cl = some ds ∧
      List.Forall₂ (fun b d => speciesOf spaces b = d.map some) cl ds) classes decs := by
  induction classes with
  | nil => exact ⟨[], .nil⟩
  | cons cl cls ih =>
    obtain ⟨decs, hd⟩ := ih fun x hx => h x (List.mem_cons_of_mem _ hx)
    obtain ⟨ds, h1⟩ := decorateAll_eq spaces cl (h cl (List.mem_cons_self ..))
    exact ⟨ds :: decs, .cons h1 hd⟩

/-- Distinct codes, distinct decorations. -/
theorem nodup_decs (spaces : List (List σ)) (hn : ∀ s ∈ spaces, s.Nodup) (cl : List (List ℕ))
    (ds : List (List σ)) (hcl : ∀ b ∈ cl, List.Forall₂ (fun b s => b < s.length) b spaces)
    (h : List.Forall₂ (fun b d => speciesOf spaces b = d.map some) cl ds) (hnd : cl.Nodup) :
    ds.Nodup := by
  induction h with
  | nil => exact List.nodup_nil
  | @cons b d bs ds' h1 h2 ih =>
    rw [List.nodup_cons] at hnd ⊢
    refine ⟨fun hm => hnd.1 ?_, ih (fun x hx => hcl x (List.mem_cons_of_mem _ hx)) hnd.2⟩
    obtain ⟨b', hb', e⟩ := forall₂_mem_right h2 hm
    have hl := (hcl b' (List.mem_cons_of_mem _ hb')).length_eq
    rw [speciesOf_inj spaces hn b b' (hcl b (List.mem_cons_self ..)) hl (h1.trans e.symm)]
    exact hb'

theorem decorationClasses_of (spaces : List (List σ)) (hn : ∀ s ∈ spaces, s.Nodup)
    (perms : List (List ℕ)) (G : PermGroup spaces.length perms) (hr : Respects perms spaces)
    (decs : List (List (List σ)))
    (hd : List.Forall₂ (fun cl ds => decorateAll spaces cl = some ds ∧
      List.Forall₂ (fun b d => speciesOf spaces b = d.map some) cl ds)
      (bitCombos (spaces.map fun s => List.range s.length) perms) decs) :
    DecorationClasses spaces perms decs := by
  have hsh := bitCombos_shape spaces perms G hr
  have G' : PermGroup (spaces.map fun s => List.range s.length).length perms := by
    rwa [List.length_map]
  have hr' : Respects perms (spaces.map fun s => List.range s.length) := by
    intro p hp i j hij
    rw [List.getElem?_map, List.getElem?_map, hr p hp i j hij]
  have inv := bitCombos_inv G'
  constructor
  · intro ds hds
    obtain ⟨cl, hcl, -, h2⟩ := forall₂_mem_right hd hds
    obtain ⟨c, hc, rfl⟩ := inv.cls cl hcl
    obtain ⟨d, hdm, -⟩ := forall₂_mem_left h2 (classOf_self G' c hc.length)
    exact List.ne_nil_of_mem hdm
  · intro ds hds
    obtain ⟨cl, hcl, -, h2⟩ := forall₂_mem_right hd hds
    obtain ⟨c, hc, rfl⟩ := inv.cls cl hcl
    exact nodup_decs spaces hn _ ds (hsh _ hcl) h2 (nodup_uniqueRows _)
  · rw [List.pairwise_iff_getElem]
    intro i j hi hj hij d hdi hdj
    obtain ⟨x, hx, -, h2⟩ := forall₂_get_right hd (List.getElem?_eq_getElem hi)
    obtain ⟨y, hy, -, h3⟩ := forall₂_get_right hd (List.getElem?_eq_getElem hj)
    obtain ⟨a, ha, ea⟩ := forall₂_mem_right h2 hdi
    obtain ⟨b, hb, eb⟩ := forall₂_mem_right h3 hdj
    have hxm := List.mem_of_getElem? hx
    have hym := List.mem_of_getElem? hy
    have e := speciesOf_inj spaces hn a b (hsh x hxm a ha) (hsh y hym b hb).length_eq
      (ea.trans eb.symm)
    obtain ⟨hi', rfl⟩ := List.getElem?_eq_some_iff.1 hx
    obtain ⟨hj', rfl⟩ := List.getElem?_eq_some_iff.1 hy
    exact (List.pairwise_iff_getElem.1 inv.disj) i j hi' hj' hij a ha (e ▸ hb)
  · intro d
    constructor
    · rintro ⟨ds, hds, hdm⟩
      obtain ⟨cl, hcl, -, h2⟩ := forall₂_mem_right hd hds
      obtain ⟨a, ha, ea⟩ := forall₂_mem_right h2 hdm
      exact decoration_of_codes spaces a d (hsh cl hcl a ha) ea
    · intro h
      obtain ⟨a, ha, ea⟩ := exists_codes spaces d h
      obtain ⟨cl, hcl, hac⟩ := List.mem_flatten.1
        (inv.cov a ((mem_lexProduct _ _).2 ((choice_range_iff _ _).2 ha)))
      obtain ⟨ds, hds, -, h2⟩ := forall₂_mem_left hd hcl
      obtain ⟨d', hd', ed⟩ := forall₂_mem_left h2 hac
      have : d' = d := List.map_injective_iff.2 (Option.some_injective _) (ed.symm.trans ea)
      exact ⟨ds, hds, this ▸ hd'⟩
  · intro ds hds a ha b
    obtain ⟨cl, hcl, -, h2⟩ := forall₂_mem_right hd hds
    obtain ⟨x, hx, ex⟩ := forall₂_mem_right h2 ha
    obtain ⟨c, hc, rfl⟩ := inv.cls cl hcl
    have hxs := hsh _ hcl x hx
    constructor
    · intro hb
      obtain ⟨y, hy, ey⟩ := forall₂_mem_right h2 hb
      refine (rearranged_iff spaces hn perms G hr x y a b hxs (hsh _ hcl y hy) ex ey).2 ?_
      rw [equivalent_iff_permute G x y hxs.length_eq]
      exact (mem_classOf_of_mem G' hx y).1 hy
    · intro hab
      have hbd : Decoration spaces b := by
        obtain ⟨p, hp, hl, h⟩ := hab
        have had := decoration_of_codes spaces x a hxs ex
        have hbl : b.length = spaces.length := by rw [hl, G.length hp]
        refine List.forall₂_iff_get.2 ⟨hbl, fun i h1 h3 => ?_⟩
        have hip : i < p.length := by rw [G.length hp]; exact h3
        have hpi : p[i]? = some p[i] := List.getElem?_eq_getElem hip
        have e1 := h i _ hpi
        have e2 := hr p hp i _ hpi
        have hj : p[i] < spaces.length := G.lt hp _ (List.getElem_mem hip)
        have hja : p[i] < a.length := by rw [had.length_eq]; exact hj
        rw [List.getElem?_eq_getElem h1, List.getElem?_eq_getElem hja, Option.some.injEq] at e1
        rw [List.getElem?_eq_getElem h3, List.getElem?_eq_getElem hj, Option.some.injEq] at e2
        have := List.Forall₂.get had hja hj
        simp only [List.get_eq_getElem] at this ⊢
        rw [e1, ← e2]
        exact this
      obtain ⟨y, hy, ey⟩ := exists_codes spaces b hbd
      have := (rearranged_iff spaces hn perms G hr x y a b hxs hy ex ey).1 hab
      rw [equivalent_iff_permute G x y hxs.length_eq] at this
      obtain ⟨b', hb', eb⟩ := forall₂_mem_left h2 ((mem_classOf_of_mem G' hx y).2 this)
      have : b' = b := List.map_injective_iff.2 (Option.some_injective _) (eb.symm.trans ey)
      exact this ▸ hb'

/-! ### ids -/

/-- Number of functions of the orbits before the `j`-th. -/
def pottsOffset (os : List (PottsOrbit σ)) (j : ℕ) : ℕ :=
  ((os.take j).map fun o => o.classes.length).sum

theorem assignPotts_get (os : List (PottsOrbit σ)) (id bit j : ℕ) :
    (assignPotts os id bit)[j]? =
      os[j]?.map fun o => { o with id := id + j, bitId := bit + pottsOffset os j } := by
  induction os generalizing id bit j with
  | nil => simp [assignPotts]
  | cons o os ih =>
    cases j with
    | zero => simp [assignPotts, pottsOffset]
    | succ j =>
      simp only [assignPotts, List.getElem?_cons_succ, ih]
      congr 1
      funext x
      simp only [pottsOffset, List.take_succ_cons, List.map_cons, List.sum_cons]
      congr 1 <;> omega

theorem assignPotts_length (os : List (PottsOrbit σ)) (id bit : ℕ) :
    (assignPotts os id bit).length = os.length := by
  induction os generalizing id bit with
  | nil => rfl
  | cons o os ih => simp [assignPotts, ih]

theorem assignPotts_ids_get (os : List (PottsOrbit σ)) (id bit j k : ℕ) (o : PottsOrbit σ)
    (hj : os[j]? = some o) (hk : k < o.classes.length) :
    ((assignPotts os id bit).flatMap fun o => List.replicate o.classes.length o.id)[pottsOffset os j + k]?
      = some (id + j) := by
  induction os generalizing id bit j with
  | nil => simp at hj
  | cons o' os ih =>
    cases j with
    | zero =>
      obtain rfl : o' = o := by simpa using hj
      simp only [assignPotts, pottsOffset, List.take_zero, List.map_nil, List.sum_nil, zero_add,
        List.flatMap_cons]
      rw [List.getElem?_append_left (by simpa using hk)]
      simp [hk]
    | succ j =>
      simp only [assignPotts, pottsOffset, List.take_succ_cons, List.map_cons, List.sum_cons,
        List.flatMap_cons]
      rw [List.getElem?_append_right (by simp; omega)]
      have := ih (id + 1) (bit + o'.classes.length) j (by simpa using hj)
      unfold pottsOffset at this
      rw [List.length_replicate, show ∀ a b c : ℕ, a + b + c - a = b + c by intros; omega, this]
      congr 1
      omega

theorem assignPotts_ids_length (os : List (PottsOrbit σ)) (id bit : ℕ) :
    ((assignPotts os id bit).flatMap fun o => List.replicate o.classes.length o.id).length =
      (os.map fun o => o.classes.length).sum := by
  induction os generalizing id bit with
  | nil => rfl
  | cons o os ih =>
    simp only [assignPotts, List.flatMap_cons, List.length_append, List.length_replicate,
      List.map_cons, List.sum_cons, ih]

/-- Position of a number below the sum of the lengths. -/
theorem exists_offset (os : List (PottsOrbit σ)) (n : ℕ)
    (h : n < (os.map fun o => o.classes.length).sum) :
    ∃ (j k : ℕ) (o : PottsOrbit σ), os[j]? = some o ∧ k < o.classes.length ∧
      n = pottsOffset os j + k := by
  induction os generalizing n with
  | nil => simp at h
  | cons o os ih =>
    by_cases hn : n < o.classes.length
    · exact ⟨0, n, o, rfl, hn, by simp [pottsOffset]⟩
    · simp only [List.map_cons, List.sum_cons] at h
      obtain ⟨j, k, o', h1, h2, h3⟩ := ih (n - o.classes.length) (by omega)
      refine ⟨j + 1, k, o', by simpa using h1, h2, ?_⟩
      simp only [pottsOffset, List.take_succ_cons, List.map_cons, List.sum_cons] at h3 ⊢
      omega

theorem functionDecoration_assigned (os : List (PottsOrbit σ)) (j k : ℕ) (o : PottsOrbit σ)
    (hj : os[j]? = some o) (cl : List (List ℕ)) (hk : o.classes[k]? = some cl) :
    functionDecoration (assignPotts os 1 1) (((1 + pottsOffset os j + k : ℕ) : ℤ)) =
      decorateAll o.spaces cl := by
  have hkl := (List.getElem?_eq_some_iff.1 hk).1
  unfold functionDecoration
  rw [pyGet_nat, pottsOrbitIds, show 1 + pottsOffset os j + k = (pottsOffset os j + k) + 1 by omega,
    List.getElem?_cons_succ, assignPotts_ids_get os 1 1 j k o hj hkl]
  simp only [Nat.cast_add, Nat.cast_one, add_sub_cancel_left]
  rw [pyGet_nat, assignPotts_get, hj]
  simp only [Option.map_some, Nat.cast_add, Nat.cast_one]
  rw [show (pottsOffset os j : ℤ) + (k : ℤ) + 1 - (1 + (pottsOffset os j : ℤ)) = (k : ℤ) by ring,
    pyGet_nat, hk]

theorem decorationsFrom_eq (S : List (PottsOrbit σ)) (ds : List (List (List σ))) (bid : ℕ)
    (h : ∀ k d, ds[k]? = some d → functionDecoration S ((bid + k : ℕ) : ℤ) = some d) :
    decorationsFrom S bid ds.length = some ds := by
  induction ds generalizing bid with
  | nil => rfl
  | cons d ds ih =>
    have h0 := h 0 d rfl
    have h1 := ih (bid + 1) fun k d' hd => by
      have := h (k + 1) d' (by simpa using hd)
      rwa [show bid + (k + 1) = bid + 1 + k by omega] at this
    rw [Nat.add_zero] at h0
    simp [decorationsFrom, h0, h1]

/-! ### removal of the last decoration -/

theorem filter_last {α : Type*} (l : List α) :
    ((l.zipIdx.filter fun p => decide (p.2 ∉ [l.length - 1])).map Prod.fst) = l.dropLast := by
  rcases List.eq_nil_or_concat l with rfl | ⟨l', x, rfl⟩
  · rfl
  · rw [List.concat_eq_append, List.dropLast_concat, List.zipIdx_append, List.filter_append,
      List.map_append]
    have h1 : (l'.zipIdx.filter fun p => decide (p.2 ∉ [(l' ++ [x]).length - 1])) = l'.zipIdx := by
      rw [List.filter_eq_self]
      rintro ⟨a, i⟩ hm
      have := (List.mem_zipIdx' hm).1
      simp only [List.length_append, List.length_cons, List.length_nil, List.mem_singleton,
        decide_eq_true_eq]
      omega
    rw [h1]
    simp

theorem removeLast_eq (o : PottsOrbit σ) :
    o.removeLast = if o.classes.length ≤ 1 then none
      else some { o with classes := o.classes.dropLast } := by
  unfold PottsOrbit.removeLast
  simp only [filter_last]
  have : o.classes.dropLast = [] ↔ o.classes.length ≤ 1 := by
    rw [← List.length_eq_zero_iff, List.length_dropLast]
    omega
  by_cases h : o.classes.length ≤ 1
  · rw [if_pos h, if_pos (this.2 h)]
  · rw [if_neg h, if_neg fun e => h (this.1 e)]

theorem removeLastAll_eq (os : List (PottsOrbit σ)) :
    removeLastAll os = if ∃ o ∈ os, o.classes.length ≤ 1 then none
      else some (os.map fun o => { o with classes := o.classes.dropLast }) := by
  induction os with
  | nil => simp [removeLastAll]
  | cons o os ih =>
    unfold removeLastAll
    rw [removeLast_eq, ih]
    by_cases h1 : o.classes.length ≤ 1
    · rw [if_pos h1, if_pos (show ∃ x ∈ o :: os, x.classes.length ≤ 1 from
        ⟨o, List.mem_cons_self .., h1⟩)]
    · rw [if_neg h1]
      by_cases h2 : ∃ o ∈ os, o.classes.length ≤ 1
      · obtain ⟨x, hx, hx1⟩ := h2
        rw [if_pos ⟨x, hx, hx1⟩, if_pos ⟨x, List.mem_cons_of_mem _ hx, hx1⟩]
      · rw [if_neg h2, if_neg]
        · rfl
        · rintro ⟨x, hx, hx1⟩
          rcases List.mem_cons.1 hx with rfl | hx
          · exact h1 hx1
          · exact h2 ⟨x, hx, hx1⟩

/-! ### indicator functions -/

variable {K : Type*} [Field K] [DecidableEq σ]

theorem indicatorPhi_eq (spaces : List (List σ)) (hn : ∀ s ∈ spaces, s.Nodup) (i : ℕ) (s : List σ)
    (hs : spaces[i]? = some s) (b c : ℕ) (hb : b < s.length) (hc : c < s.length) :
    indicatorPhi K spaces i b c = if b = c then 1 else 0 := by
  have hsn : s.Nodup := hn s (List.mem_of_getElem? hs)
  unfold indicatorPhi indicatorArray
  simp only [List.getD_eq_getElem?_getD, hs, Option.getD_some, List.getElem?_map,
    List.getElem?_eq_getElem hb, List.getElem?_eq_getElem hc, Option.map_some]
  by_cases h : b = c
  · subst h; simp
  · rw [if_neg h, if_neg]
    intro e
    exact h ((List.Nodup.getElem_inj_iff hsn).1 e).symm

omit [DecidableEq σ] in
theorem clusterFunction_indicator (phi : ℕ → ℕ → ℕ → K) (spaces : List (List σ)) (s : ℕ)
    (hphi : ∀ (i : ℕ) (sp : List σ), spaces[i]? = some sp → ∀ b c, b < sp.length → c < sp.length →
      phi (s + i) b c = if b = c then 1 else 0)
    (b c : List ℕ) (hb : List.Forall₂ (fun b s => b < s.length) b spaces)
    (hc : List.Forall₂ (fun b s => b < s.length) c spaces) :
    clusterFunction phi s b c = if b = c then 1 else 0 := by
  induction hb generalizing s c with
  | nil => cases hc; simp [clusterFunction]
  | @cons x sp xs sps h1 h2 ih =>
    cases hc with
    | @cons y _ ys _ h3 h4 =>
      unfold clusterFunction
      rw [ih (s + 1) ?_ ys h4]
      · have := hphi 0 sp rfl x y h1 h3
        rw [Nat.add_zero] at this
        rw [this]
        by_cases e1 : x = y <;> by_cases e2 : xs = ys <;> simp [e1, e2]
      · intro i sp' hsp b c hb hc
        have := hphi (i + 1) sp' (by simpa using hsp) b c hb hc
        rwa [show s + (i + 1) = s + 1 + i by omega] at this

theorem correlation_indicator (spaces : List (List σ)) (hn : ∀ s ∈ spaces, s.Nodup)
    (cl : List (List ℕ)) (hnd : cl.Nodup)
    (hcl : ∀ b ∈ cl, List.Forall₂ (fun b s => b < s.length) b spaces) (codes : List ℕ)
    (hc : List.Forall₂ (fun b s => b < s.length) codes spaces) :
    correlation (indicatorPhi K spaces) cl codes = (if codes ∈ cl then 1 else 0) / (cl.length : K) := by
  unfold correlation
  congr 1
  rw [List.map_congr_left (g := fun b => if b = codes then (1 : K) else 0)]
  · clear hcl
    induction cl with
    | nil => simp
    | cons b bs ih =>
      rw [List.nodup_cons] at hnd
      rw [List.map_cons, List.sum_cons, ih hnd.2]
      by_cases e : b = codes
      · subst e; simp [hnd.1]
      · simp [e, Ne.symm e]
  · intro b hb
    refine clusterFunction_indicator _ spaces 0 ?_ b codes (hcl b hb) hc
    intro i sp hsp b c h1 h2
    rw [Nat.zero_add]
    exact indicatorPhi_eq spaces hn i sp hsp b c h1 h2

end Smol
