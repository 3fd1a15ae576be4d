import Verif.Lemmas.WranglerObjects

/-!
# C86 The rows and targets of a wrangler are those of its own structures
-/

namespace Smol
open Spec
variable {S Str Mat Map K : Type*} {lib : WrLib S Str Mat Map K}

/-- **C86**: `add_entry` puts the entry last, with the given matrix and mapping or those found by the
subspace, its correlation vector and its size, exactly if the names of properties and weights fit and
all of these can be found; otherwise nothing changes. -/
theorem C86_add (w : World S Str Mat Map K) (wi e : ℕ) (a : EArgs Mat Map) (verbose : Bool) :
    let w' := (w.apply lib (.add wi e a verbose)).1
    let sub := w.subs (w.wrs wi).sub
    (NamesFit w wi a → ∀ d, Processed lib sub (w.ents e).str a d →
      (w'.wrs wi).ents = (w.wrs wi).ents ++ [e] ∧ (w'.ents e).data = some d ∧
      (w'.ents e).str = (w.ents e).str ∧ w'.subs = w.subs ∧ (w'.wrs wi).sub = (w.wrs wi).sub ∧
      (∀ wj, wj ≠ wi → w'.wrs wj = w.wrs wj) ∧ ∀ x, x ≠ e → w'.ents x = w.ents x) ∧
    (¬ (NamesFit w wi a ∧ ∃ d, Processed lib sub (w.ents e).str a d) → w' = w) ∧
    (¬ NamesFit w wi a → (w.apply lib (.add wi e a verbose)).2 = true) := by
  intro w' sub
  refine ⟨fun hf d hd => ?_, fun hn => ?_, fun hn => ?_⟩
  · have hp := process_of (lib := lib) hf d hd
    generalize hW : ((w.setData e d).storeProps e a.props).storeWeights e a.weights = W at hp
    have hw : w' = W.setEnts wi ((W.wrs wi).ents ++ [e]) := by
      show (w.apply lib (.add wi e a verbose)).1 = _
      unfold World.apply
      dsimp only
      rw [hp]
    obtain ⟨-, d', hd', hdata⟩ := process_processed hp
    have := processed_unique hd hd'
    subst this
    obtain ⟨h1, h2, -, -, -, -, h7, -⟩ := process_facts hp
    rw [hw]
    refine ⟨?_, hdata, (h7 e).1, h1, ?_, fun wj hj => ?_, fun x hx => ?_⟩
    · simp only [World.setEnts, Function.update_self]; rw [h2]
    · simp only [World.setEnts, Function.update_self]; rw [h2]
    · simp only [World.setEnts, Function.update_of_ne hj]; rw [h2]
    · have a1 := (h7 x).1
      obtain ⟨a2, a3, a4⟩ := (h7 x).2 hx
      show W.ents x = w.ents x
      generalize W.ents x = o at *
      obtain ⟨o1, o2, o3, o4⟩ := o
      generalize w.ents x = o' at *
      obtain ⟨p1, p2, p3, p4⟩ := o'
      dsimp only at *
      rw [a1, a2, a3, a4]
  · show (w.apply lib (.add wi e a verbose)).1 = w
    unfold World.apply
    dsimp only
    cases hp : w.process lib wi e a with
    | error _ => rfl
    | ok o =>
      cases o with
      | none => rfl
      | some w₂ =>
        obtain ⟨hf, d, hd, -⟩ := process_processed hp
        exact absurd ⟨hf, d, hd⟩ hn
  · have hp : w.process lib wi e a = .error () := by
      rw [← accepts_iff, Bool.not_eq_true] at hn
      unfold World.process
      dsimp only
      rw [hn]
      rfl
    unfold World.apply
    dsimp only
    rw [hp]

/-- **C86**: an entry added for the first time has the properties and weights given, no more. -/
theorem C86_add_values (w : World S Str Mat Map K) (wi e : ℕ) (a : EArgs Mat Map) (verbose : Bool)
    (hf : NamesFit w wi a) (d : EData Mat Map K)
    (hd : Processed lib (w.subs (w.wrs wi).sub) (w.ents e).str a d)
    (hnew : (w.ents e).props = none ∧ (w.ents e).weights = none)
    (hp : ∀ r, a.props = some r → r < w.nDicts) (hw : ∀ r, a.weights = some r → r < w.nDicts) :
    let w' := (w.apply lib (.add wi e a verbose)).1
    w'.dictOf (w'.ents e).props = w.dictOf a.props ∧ w'.dictOf (w'.ents e).weights = w.dictOf a.weights := by
  have hpr := process_of (lib := lib) hf d hd
  intro w'
  have hw' : w' = _ := show (w.apply lib (.add wi e a verbose)).1 =
      (((w.setData e d).storeProps e a.props).storeWeights e a.weights).setEnts wi
        (((((w.setData e d).storeProps e a.props).storeWeights e a.weights).wrs wi).ents ++ [e]) by
    unfold World.apply
    dsimp only
    rw [hpr]
  rw [hw']
  obtain ⟨ap, aw, am, ax, ar⟩ := a
  dsimp only at hp hw ⊢
  cases ap with
  | none =>
    cases aw with
    | none => simp [World.setEnts, World.storeWeights, World.storeProps, World.setData, hnew, World.dictOf]
    | some s =>
      have := (hw s rfl).ne
      simp [World.setEnts, World.storeWeights, World.storeProps, World.setData, hnew, World.dictOf, this]
  | some r =>
    have h1 := (hp r rfl).ne
    cases aw with
    | none =>
      simp [World.setEnts, World.storeWeights, World.storeProps, World.setData, hnew, World.dictOf, h1]
    | some s =>
      simp [World.setEnts, World.storeWeights, World.storeProps, World.setData, hnew, World.dictOf]

/-- **C86**: an entry processed before keeps its properties and weights, except that those given again
have the new values. -/
theorem C86_process_again (w : World S Str Mat Map K) (wi e : ℕ) (a : EArgs Mat Map)
    (hf : NamesFit w wi a) (d : EData Mat Map K)
    (hd : Processed lib (w.subs (w.wrs wi).sub) (w.ents e).str a d) (r s : ℕ) (hrs : r ≠ s)
    (hr : (w.ents e).props = some r) (hs : (w.ents e).weights = some s) (ha : a.weights ≠ some r)
    (hp : ((w.dictOf a.props).map Prod.fst).Nodup) (hw : ((w.dictOf a.weights).map Prod.fst).Nodup) (k : String) :
    let w' := (w.apply lib (.process wi e a)).1
    (w'.dictOf (w'.ents e).props).lookup k =
      ((w.dictOf a.props).lookup k).orElse (fun _ => (w.dicts r).lookup k) ∧
    (w'.dictOf (w'.ents e).weights).lookup k =
      ((w.dictOf a.weights).lookup k).orElse fun _ => (w.dicts s).lookup k := by
  have hpr := process_of (lib := lib) hf d hd
  intro w'
  have hw' : w' = ((w.setData e d).storeProps e a.props).storeWeights e a.weights := by
    show (w.apply lib (.process wi e a)).1 = _
    unfold World.apply
    dsimp only
    rw [hpr]
  have h1 : (w.setData e d).storeProps e a.props =
      { w.setData e d with dicts := Function.update w.dicts r ((w.dicts r).updateWith (w.dictOf a.props)) } := by
    simp only [World.storeProps, World.setData, Function.update_self, hr]
    rfl
  rw [hw', h1]
  have h2 : ∀ D : ℕ → SDict K, World.storeWeights { w.setData e d with dicts := D } e a.weights =
      { w.setData e d with
        dicts := Function.update D s ((D s).updateWith ((a.weights.map D).getD [])) } := by
    intro D
    simp only [World.storeWeights, World.setData, Function.update_self, hs]
    rfl
  rw [h2]
  have h3 : (a.weights.map (Function.update w.dicts r ((w.dicts r).updateWith (w.dictOf a.props)))).getD [] =
      w.dictOf a.weights := by
    cases hx : a.weights with
    | none => rfl
    | some x =>
      have : x ≠ r := by rintro rfl; exact ha hx
      simp [World.dictOf, this]
  rw [h3]
  have h4 : (w.setData e d).ents e = { w.ents e with data := some d } := by simp [World.setData]
  constructor
  · simp only [World.dictOf, h4, hr, Option.map_some, Option.getD_some, Function.update_of_ne hrs,
      Function.update_self]
    exact lookup_updateWith _ _ hp k
  · simp only [World.dictOf, h4, hs, Option.map_some, Option.getD_some, Function.update_self,
      Function.update_of_ne hrs.symm]
    exact lookup_updateWith _ _ hw k

/-- **C86**: `remove_entry` takes out that entry and its row and target, and keeps the order of the
others; `remove_all_data` takes out all. -/
theorem C86_remove (w : World S Str Mat Map K) (wi i : ℕ) :
    let w' := (w.apply lib (.remove wi i)).1
    let w'' := (w.apply lib (.removeAll wi)).1
    (∀ j, (w'.rows wi)[j]? = (w.rows wi)[if j < i then j else j + 1]?) ∧
    w''.rows wi = [] ∧
    (∀ wj, wj ≠ wi → w'.rows wj = w.rows wj ∧ w''.rows wj = w.rows wj) ∧
    w'.ents = w.ents ∧ w'.dicts = w.dicts ∧ w'.subs = w.subs ∧ (w'.wrs wi).sub = (w.wrs wi).sub := by
  refine ⟨fun j => ?_, ?_, fun wj hj => ?_, rfl, rfl, rfl, ?_⟩
  · simp only [World.apply, World.rows, World.setEnts, Function.update_self, List.getElem?_map,
      List.getElem?_eraseIdx]
    split_ifs <;> rfl
  · simp [World.apply, World.rows, World.setEnts]
  · simp [World.apply, World.rows, World.setEnts, hj]
  · simp [World.apply, World.setEnts]

/-- **C86**: `update_features`, whatever happened before.  It raises exactly if the correlation vector
of some entry cannot be computed; otherwise all rows are the correlation vectors of the wrangler's
structures in its subspace as it is now.  Structures, matrices, mappings, sizes, properties, weights,
the order of the entries and the entries of other wranglers stay as they are. -/
theorem C86_update (w : World S Str Mat Map K) (wi : ℕ) :
    let r := w.apply lib (.update wi)
    let sub := w.subs (w.wrs wi).sub
    (r.2 = true ↔ ∃ e ∈ (w.wrs wi).ents, ∀ d row, (w.ents e).data = some d →
      lib.corr sub (w.ents e).str d.mat d.map ≠ .ok row) ∧
    (r.2 = false → RowsRight lib r.1 wi) ∧
    (r.1.subs = w.subs ∧ r.1.dicts = w.dicts ∧ r.1.wrs = w.wrs) ∧
    (∀ e, (r.1.ents e).str = (w.ents e).str ∧ (r.1.ents e).props = (w.ents e).props ∧
      (r.1.ents e).weights = (w.ents e).weights ∧
      (r.1.ents e).data.map (fun d => (d.mat, d.map, d.size)) =
        (w.ents e).data.map fun d => (d.mat, d.map, d.size)) ∧
    ∀ e, e ∉ (w.wrs wi).ents → r.1.ents e = w.ents e := by
  intro r sub
  obtain ⟨h1, h2, -, h4, h5, h6⟩ := updateAll_main (lib := lib) w sub (w.wrs wi).ents
  refine ⟨h1, fun h e he => ?_, ⟨h4.1, h4.2.1, h4.2.2.1⟩, h5, h6⟩
  show RowRight lib r.1 (r.1.subs (r.1.wrs wi).sub) e
  have hw : r.1.wrs = w.wrs := h4.2.2.1
  have hs : r.1.subs = w.subs := h4.1
  rw [hw] at he ⊢
  rw [hs]
  exact h2 h e he

/-- **C86**: `change_subspace` sets the subspace and does what `update_features` does. -/
theorem C86_change (w : World S Str Mat Map K) (wi s : ℕ) :
    let r := w.apply lib (.change wi s)
    (r.2 = true ↔ ∃ e ∈ (w.wrs wi).ents, ∀ d row, (w.ents e).data = some d →
      lib.corr (w.subs s) (w.ents e).str d.mat d.map ≠ .ok row) ∧
    (r.2 = false → RowsRight lib r.1 wi) ∧
    (r.1.subs = w.subs ∧ r.1.dicts = w.dicts ∧ r.1.wrs wi = ⟨s, (w.wrs wi).ents⟩ ∧
      ∀ wj, wj ≠ wi → r.1.wrs wj = w.wrs wj) ∧
    (∀ e, (r.1.ents e).str = (w.ents e).str ∧ (r.1.ents e).props = (w.ents e).props ∧
      (r.1.ents e).weights = (w.ents e).weights ∧
      (r.1.ents e).data.map (fun d => (d.mat, d.map, d.size)) =
        (w.ents e).data.map fun d => (d.mat, d.map, d.size)) ∧
    ∀ e, e ∉ (w.wrs wi).ents → r.1.ents e = w.ents e := by
  intro r
  set w₁ : World S Str Mat Map K :=
    { w with wrs := Function.update w.wrs wi { w.wrs wi with sub := s } } with hw₁
  have e1 : w₁.wrs wi = ⟨s, (w.wrs wi).ents⟩ := by simp [hw₁]
  have hr : r = w₁.updateAll lib (w.subs s) (w.wrs wi).ents := by
    show w₁.updateAll lib (w₁.subs (w₁.wrs wi).sub) (w₁.wrs wi).ents = _
    rw [e1]
  obtain ⟨h1, h2, -, h4, h5, h6⟩ := updateAll_main (lib := lib) w₁ (w.subs s) (w.wrs wi).ents
  rw [← hr] at h1 h2 h4 h5 h6
  refine ⟨h1, fun h e he => ?_, ⟨h4.1, h4.2.1, by rw [h4.2.2.1, e1], fun wj hj => ?_⟩, h5, h6⟩
  · rw [h4.2.2.1, e1] at he ⊢
    rw [h4.1]
    exact h2 h e he
  · rw [h4.2.2.1]; simp [hw₁, hj]

/-- **C86** (partial): if `update_features` raises, rows before the failing entry are new and the rest
are old.  Missing: that the matrix is then left alone. -/
theorem C86_update_raises_partial (w : World S Str Mat Map K) (wi : ℕ)
    (h : (w.apply lib (.update wi)).2 = true) :
    ∃ l₁ e l₂, (w.wrs wi).ents = l₁ ++ e :: l₂ ∧
      (∀ x ∈ l₁, RowRight lib (w.apply lib (.update wi)).1 (w.subs (w.wrs wi).sub) x) ∧
      ∀ x, x ∉ l₁ → (w.apply lib (.update wi)).1.ents x = w.ents x :=
  (updateAll_main (lib := lib) w (w.subs (w.wrs wi).sub) (w.wrs wi).ents).2.2.1 h

/-- **C86**: one operation keeps the rows of a wrangler right, if it does not edit its subspace,
append rows of another subspace, or process or update its entries with another subspace. -/
theorem C86_step_partial (w : World S Str Mat Map K) (wi : ℕ) (hv : Valid w) (hwi : wi < w.nWrs)
    (o : WrOp S Mat Map K) (ho : Harmless lib wi w o) (hr : RowsRight lib w wi) :
    RowsRight lib (w.apply lib o).1 wi := by
  have hproc : ∀ (wj e : ℕ) (a : EArgs Mat Map) (w' : World S Str Mat Map K),
      Agree w wi [e] (w.subs (w.wrs wj).sub) → w.process lib wj e a = .ok (some w') →
      RowsRight lib w' wi ∧ RowRight lib w' (w.subs (w.wrs wj).sub) e ∧ w'.wrs = w.wrs ∧ w'.subs = w.subs := by
    intro wj e a w' hag hp
    obtain ⟨h1, h2, -, -, -, -, h7, h8⟩ := process_facts hp
    refine ⟨?_, h8, h2, h1⟩
    intro x hx
    rw [h2] at hx ⊢
    rw [h1]
    by_cases hxe : x = e
    · subst hxe
      rw [← hag ⟨x, by simp, hx⟩]
      exact h8
    · exact (rowRight_congr (h7 x).1 ((h7 x).2 hxe).1).2 (hr x hx)
  have hset : ∀ (w' : World S Str Mat Map K) (wj : ℕ) (l : List ℕ),
      (∀ x ∈ (w'.wrs wi).ents, RowRight lib w' (w'.subs (w'.wrs wi).sub) x) →
      (wj = wi → ∀ x ∈ l, RowRight lib w' (w'.subs (w'.wrs wi).sub) x) →
      RowsRight lib (w'.setEnts wj l) wi := by
    intro w' wj l hr' h x hx
    unfold World.setEnts at hx ⊢
    dsimp only at hx ⊢
    by_cases hj : wj = wi
    · subst hj
      rw [Function.update_self] at hx ⊢
      exact h rfl x hx
    · rw [Function.update_of_ne (Ne.symm hj)] at hx ⊢
      exact hr' x hx
  cases o with
  | mkDict d => exact hr
  | new s =>
    refine rowsRight_congr (w := w) ?_ rfl (fun e _ => ⟨rfl, rfl⟩) hr
    show Function.update w.wrs w.nWrs _ wi = _
    rw [Function.update_of_ne (by omega)]
  | process wj e a =>
    unfold World.apply
    dsimp only
    cases hp : w.process lib wj e a with
    | error _ => exact hr
    | ok o =>
      cases o with
      | none => exact hr
      | some w' => exact (hproc wj e a w' ho hp).1
  | add wj e a v =>
    unfold World.apply
    dsimp only
    cases hp : w.process lib wj e a with
    | error _ => exact hr
    | ok o =>
      cases o with
      | none => exact hr
      | some w' =>
        obtain ⟨g1, g2, g3, g4⟩ := hproc wj e a w' ho hp
        refine hset w' wj _ g1 ?_
        rintro rfl x hx
        rcases List.mem_append.1 hx with hx | hx
        · exact g1 x hx
        · simp only [List.mem_singleton] at hx
          subst hx
          rw [g3, g4]; exact g2
  | append wj es =>
    obtain ⟨l, h1, -, h3, -⟩ := appendAll_facts wj es w
    show RowsRight lib (w.appendAll wj es).1 wi
    rw [h3]
    refine hset w wj _ hr ?_
    rintro rfl x hx
    rcases List.mem_append.1 hx with hx | hx
    · exact hr x hx
    · exact ho rfl x (h1.subset hx)
  | update wj => exact updateAll_keeps w wi _ _ ho hr
  | change wj s =>
    by_cases hj : wj = wi
    · subst hj
      have ho' : (w.apply lib (.change wj s)).2 = false := by simpa [Harmless] using ho
      exact (C86_change w wj s).2.1 ho'
    · have ho' : Agree w wi (w.wrs wj).ents (w.subs s) := by simpa [Harmless, hj] using ho
      have e1 : Function.update w.wrs wj { w.wrs wj with sub := s } wj = ⟨s, (w.wrs wj).ents⟩ := by simp
      have e2 : Function.update w.wrs wj { w.wrs wj with sub := s } wi = w.wrs wi := by
        simp [Ne.symm hj]
      show RowsRight lib (World.updateAll lib
        { w with wrs := Function.update w.wrs wj { w.wrs wj with sub := s } } (w.subs
          (Function.update w.wrs wj { w.wrs wj with sub := s } wj).sub)
          (Function.update w.wrs wj { w.wrs wj with sub := s } wj).ents).1 wi
      rw [e1]
      refine updateAll_keeps _ wi _ _ ?_ ?_
      · intro h
        dsimp only at h ⊢
        rw [e2] at h ⊢
        exact ho' h
      · exact rowsRight_congr (w := w) e2 rfl (fun e _ => ⟨rfl, rfl⟩) hr
  | edit s t =>
    refine rowsRight_congr (w := w) rfl ?_ (fun e _ => ⟨rfl, rfl⟩) hr
    show Function.update w.subs s t _ = _
    by_cases hs : s = (w.wrs wi).sub
    · rw [← hs, Function.update_self]; exact ho hs
    · rw [Function.update_of_ne (Ne.symm hs)]
  | remove wj i =>
    refine hset w wj _ hr ?_
    rintro rfl x hx
    exact hr x (List.mem_of_mem_eraseIdx hx)
  | removeAll wj => exact hset w wj _ hr fun _ x hx => absurd hx (by simp)
  | addProps wj k v =>
    unfold World.apply
    dsimp only
    split
    · exact hr
    · obtain ⟨d, h1, -⟩ := putAll_facts EObj.props k ((w.wrs wj).ents.zip v) w
      rw [h1]; exact hr
  | addWeights wj k v =>
    unfold World.apply
    dsimp only
    split
    · exact hr
    · obtain ⟨d, h1, -⟩ := putAll_facts EObj.weights k ((w.wrs wj).ents.zip v) w
      rw [h1]; exact hr
  | reload wj =>
    refine rowsRight_congr (w := w) ?_ ?_ (fun e he => ?_) hr
    · show Function.update w.wrs w.nWrs _ wi = _
      rw [Function.update_of_ne (by omega)]
    · show Function.update w.subs w.nSubs _ _ = _
      rw [Function.update_of_ne (by have := hv.sub wi hwi; omega)]
    · have := hv.ents wi hwi e he
      simp [World.apply, World.reload, Nat.not_le.2 this]

/-- **C86** (partial): the rows of a wrangler are right after any history of operations of any number
of wranglers whose operations leave them right.  Missing: operations of other wranglers on the same
entry objects, edits of the subspace and entries appended from elsewhere; see the findings. -/
theorem C86_rows_right_partial (w : World S Str Mat Map K) (wi : ℕ) (hv : Valid w) (hwi : wi < w.nWrs)
    (ops : List (WrOp S Mat Map K)) (hn : Along lib Names w ops) (ho : Along lib (Harmless lib wi) w ops)
    (hr : RowsRight lib w wi) : RowsRight lib (w.run lib ops) wi := by
  induction ops generalizing w with
  | nil => exact hr
  | cons o ops ih =>
    exact ih _ (valid_step hv o hn.1) (hwi.trans_le (nWrs_step w o)) hn.2 ho.2
      (C86_step_partial w wi hv hwi o ho.1 hr)

/-- **C86** (partial): in a history that gives every entry its own dictionaries and adds none twice to a
wrangler, no two entries ever share one.  Missing: callers who pass one dictionary object for several
entries, see `C86_shared_dictionary`. -/
theorem C86_dictionaries_partial (w : World S Str Mat Map K) (hv : Valid w) (ha : Apart w)
    (ops : List (WrOp S Mat Map K)) (hn : Along lib Names w ops) (hs : Along lib Separate w ops) :
    Valid (w.run lib ops) ∧ Apart (w.run lib ops) := by
  induction ops generalizing w with
  | nil => exact ⟨hv, ha⟩
  | cons o ops ih => exact ih _ (valid_step hv o hn.1) (apart_step hv ha o hn.1 hs.1) hn.2 hs.2

/-- **C86**: then `add_properties` gives each structure its value and changes nothing else. -/
theorem C86_add_properties (w : World S Str Mat Map K) (hv : Valid w) (ha : Apart w) (wi : ℕ)
    (hwi : wi < w.nWrs) (k : String) (v : List K) :
    let r := w.apply lib (.addProps wi k v)
    (r.2 = true ↔ (w.wrs wi).ents.length ≠ v.length) ∧
    (r.1.subs = w.subs ∧ r.1.ents = w.ents ∧ r.1.wrs = w.wrs) ∧
    ((w.wrs wi).ents.length = v.length → r.1.propertyVector wi k = some v) ∧
    (∀ k', k' ≠ k → r.1.propertyVector wi k' = w.propertyVector wi k') ∧
    (∀ wj < w.nWrs, ∀ k', r.1.weightVector wj k' = w.weightVector wj k') ∧
    ∀ e < w.nEnts, e ∉ (w.wrs wi).ents → r.1.dictOf (w.ents e).props = w.dictOf (w.ents e).props := by
  intro r
  by_cases hl : (w.wrs wi).ents.length = v.length
  · have hr : r = (w.putAll EObj.props k ((w.wrs wi).ents.zip v), false) := by
      show w.apply lib (.addProps wi k v) = _
      unfold World.apply
      dsimp only
      rw [if_neg (by simpa using hl)]
    obtain ⟨d, h1, h2⟩ := putAll_facts EObj.props k ((w.wrs wi).ents.zip v) w
    obtain ⟨h3, h4⟩ := putAll_look EObj.props k (w.wrs wi).ents v hl w
      (fun e he => (ha.have_ wi hwi e he).1) (apart_pairwise hv ha hwi).1
    have hun : ∀ s, (∀ e ∈ (w.wrs wi).ents, (w.ents e).props ≠ some s) → d s = w.dicts s :=
      fun s hs => h2 s fun p hp => hs p.1 (List.of_mem_zip hp).1
    rw [hr]
    dsimp only
    refine ⟨by simp [hl], by rw [h1]; exact ⟨rfl, rfl, rfl⟩, fun _ => ?_, fun k' hk => ?_, fun wj hj k' => ?_,
      fun e he hei => ?_⟩
    · unfold World.propertyVector
      rw [← h3, h1]
    · unfold World.propertyVector
      rw [mapM_via, mapM_via (l := (w.wrs wi).ents)]
      have : ∀ e, List.lookup k' ((w.putAll EObj.props k ((w.wrs wi).ents.zip v)).dictOf (w.ents e).props) = _ :=
        fun e => h4 k' e hk
      rw [show (w.putAll EObj.props k ((w.wrs wi).ents.zip v)).wrs = w.wrs by rw [h1],
        show (w.putAll EObj.props k ((w.wrs wi).ents.zip v)).ents = w.ents by rw [h1]]
      simp only [this]
    · unfold World.weightVector
      rw [mapM_via, mapM_via (l := (w.wrs wj).ents), h1]
      dsimp only
      congr 1
      refine List.map_congr_left fun e he => ?_
      congr 1
      unfold World.dictOf
      cases hw : (w.ents e).weights with
      | none => rfl
      | some s =>
        simp only [Option.map_some, Option.getD_some]
        exact hun s fun x hx hxs => ha.cross x (hv.ents wi hwi x hx) e (hv.ents wj hj e he) s hxs hw
    · rw [h1]
      unfold World.dictOf
      cases hw : (w.ents e).props with
      | none => rfl
      | some s =>
        simp only [Option.map_some, Option.getD_some]
        refine hun s fun x hx hxs => hei ?_
        rwa [← ha.props x (hv.ents wi hwi x hx) e he s hxs hw]
  · have hr : r = (w, true) := by
      show w.apply lib (.addProps wi k v) = _
      unfold World.apply
      dsimp only
      rw [if_pos hl]
    rw [hr]
    exact ⟨by simp [hl], ⟨rfl, rfl, rfl⟩, fun h => absurd h hl, fun _ _ => rfl, fun _ _ _ => rfl,
      fun _ _ _ => rfl⟩

/-- **C86**: the same for `add_weights`. -/
theorem C86_add_weights (w : World S Str Mat Map K) (hv : Valid w) (ha : Apart w) (wi : ℕ)
    (hwi : wi < w.nWrs) (k : String) (v : List K) :
    let r := w.apply lib (.addWeights wi k v)
    (r.2 = true ↔ (w.wrs wi).ents.length ≠ v.length) ∧
    (r.1.subs = w.subs ∧ r.1.ents = w.ents ∧ r.1.wrs = w.wrs) ∧
    ((w.wrs wi).ents.length = v.length → r.1.weightVector wi k = some v) ∧
    (∀ k', k' ≠ k → r.1.weightVector wi k' = w.weightVector wi k') ∧
    ∀ wj < w.nWrs, ∀ k', r.1.propertyVector wj k' = w.propertyVector wj k' := by
  intro r
  by_cases hl : (w.wrs wi).ents.length = v.length
  · have hr : r = (w.putAll EObj.weights k ((w.wrs wi).ents.zip v), false) := by
      show w.apply lib (.addWeights wi k v) = _
      unfold World.apply
      dsimp only
      rw [if_neg (by simpa using hl)]
    obtain ⟨d, h1, h2⟩ := putAll_facts EObj.weights k ((w.wrs wi).ents.zip v) w
    obtain ⟨h3, h4⟩ := putAll_look EObj.weights k (w.wrs wi).ents v hl w
      (fun e he => (ha.have_ wi hwi e he).2) (apart_pairwise hv ha hwi).2
    rw [hr]
    dsimp only
    refine ⟨by simp [hl], by rw [h1]; exact ⟨rfl, rfl, rfl⟩, fun _ => ?_, fun k' hk => ?_, fun wj hj k' => ?_⟩
    · unfold World.weightVector
      rw [← h3, h1]
    · unfold World.weightVector
      rw [mapM_via, mapM_via (l := (w.wrs wi).ents)]
      have : ∀ e, List.lookup k' ((w.putAll EObj.weights k ((w.wrs wi).ents.zip v)).dictOf (w.ents e).weights) = _ :=
        fun e => h4 k' e hk
      rw [show (w.putAll EObj.weights k ((w.wrs wi).ents.zip v)).wrs = w.wrs by rw [h1],
        show (w.putAll EObj.weights k ((w.wrs wi).ents.zip v)).ents = w.ents by rw [h1]]
      simp only [this]
    · unfold World.propertyVector
      rw [mapM_via, mapM_via (l := (w.wrs wj).ents), h1]
      dsimp only
      congr 1
      refine List.map_congr_left fun e he => ?_
      congr 1
      unfold World.dictOf
      cases hw : (w.ents e).props with
      | none => rfl
      | some s =>
        simp only [Option.map_some, Option.getD_some]
        refine h2 s fun p hp hxs => ?_
        have hx := (List.of_mem_zip hp).1
        exact ha.cross e (hv.ents wj hj e he) p.1 (hv.ents wi hwi _ hx) s hw hxs
  · have hr : r = (w, true) := by
      show w.apply lib (.addWeights wi k v) = _
      unfold World.apply
      dsimp only
      rw [if_pos hl]
    rw [hr]
    exact ⟨by simp [hl], ⟨rfl, rfl, rfl⟩, fun h => absurd h hl, fun _ _ => rfl, fun _ _ _ => rfl⟩

/-- **C86**: a saved and loaded wrangler has the same rows, properties and weights, right if they were
right; it shares no entry, dictionary or subspace with another wrangler, and all others stay as they
were. -/
theorem C86_reload (w : World S Str Mat Map K) (hv : Valid w) (wi : ℕ) :
    let w' := (w.apply lib (.reload wi)).1
    let new := w.nWrs
    w'.rows new = w.rows wi ∧
    (∀ k, w'.propertyVector new k = w.propertyVector wi k) ∧
    (∀ k, w'.weightVector new k = w.weightVector wi k) ∧
    (RowsRight lib w' new ↔ RowsRight lib w wi) ∧
    (∀ wj < w.nWrs, w'.rows wj = w.rows wj ∧ (∀ k, w'.propertyVector wj k = w.propertyVector wj k) ∧
      ∀ k, w'.weightVector wj k = w.weightVector wj k) ∧
    (∀ wj < w.nWrs, (w'.wrs wj).sub ≠ (w'.wrs new).sub ∧ ∀ e ∈ (w'.wrs new).ents, e ∉ (w'.wrs wj).ents) ∧
    (∀ e ∈ (w'.wrs new).ents, ∀ x < w.nEnts, ∀ r,
      ((w'.ents e).props = some r ∨ (w'.ents e).weights = some r) →
      (w'.ents x).props ≠ some r ∧ (w'.ents x).weights ≠ some r) := by
  intro w' new
  have hw' : w' = w.reload wi := rfl
  have hnew : w'.wrs new = ⟨w.nSubs, (List.range (w.wrs wi).ents.length).map fun i => w.nEnts + i⟩ := by
    simp [hw', World.reload, new]
  have hsubn : w'.subs w.nSubs = w.subs (w.wrs wi).sub := by simp [hw', World.reload]
  obtain ⟨o1, o2, o3, o4⟩ := reload_old w wi
  have hmap : ∀ {β : Type _} (f g : ℕ → β), (∀ i e, (w.wrs wi).ents[i]? = some e → f (w.nEnts + i) = g e) →
      ((w'.wrs new).ents.map f) = (w.wrs wi).ents.map g := by
    intro β f g h
    rw [hnew]
    refine List.ext_getElem? fun i => ?_
    simp only [List.getElem?_map]
    by_cases hi : i < (w.wrs wi).ents.length
    · rw [List.getElem?_range hi, List.getElem?_eq_getElem hi]
      simp only [Option.map_some, Option.some.injEq]
      exact h i _ (List.getElem?_eq_getElem hi)
    · rw [List.getElem?_eq_none (by simpa using hi), List.getElem?_eq_none (by simpa using hi)]
      rfl
  refine ⟨?_, fun k => ?_, fun k => ?_, ?_, fun wj hj => ⟨?_, fun k => ?_, fun k => ?_⟩, fun wj hj => ⟨?_, ?_⟩, ?_⟩
  · refine hmap _ _ fun i e h => ?_
    rw [hw', (reload_new w wi i e h).1]
  · unfold World.propertyVector
    rw [mapM_via, mapM_via (l := (w.wrs wi).ents)]
    refine congrArg _ (hmap _ _ fun i e h => ?_)
    rw [hw', (reload_new w wi i e h).1]
    dsimp only
    cases hp : (w.ents e).props with
    | none => rfl
    | some s =>
      show List.lookup k ((w.reload wi).dicts (w.nDicts + 2 * i)) = _
      rw [(reload_new w wi i e h).2.1, hp]
  · unfold World.weightVector
    rw [mapM_via, mapM_via (l := (w.wrs wi).ents)]
    refine congrArg _ (hmap _ _ fun i e h => ?_)
    rw [hw', (reload_new w wi i e h).1]
    dsimp only
    cases hp : (w.ents e).weights with
    | none => rfl
    | some s =>
      show List.lookup k ((w.reload wi).dicts (w.nDicts + 2 * i + 1)) = _
      rw [(reload_new w wi i e h).2.2, hp]
  · have key : ∀ i e, (w.wrs wi).ents[i]? = some e →
        (RowRight lib w' (w'.subs (w'.wrs new).sub) (w.nEnts + i) ↔
          RowRight lib w (w.subs (w.wrs wi).sub) e) := by
      intro i e h
      unfold RowRight
      rw [hnew]
      dsimp only
      rw [hsubn, hw', (reload_new w wi i e h).1]
    constructor
    · intro h e he
      obtain ⟨i, hi, rfl⟩ := List.getElem_of_mem he
      refine (key i _ (List.getElem?_eq_getElem hi)).1 (h _ ?_)
      rw [hnew]
      exact List.mem_map.2 ⟨i, List.mem_range.2 hi, rfl⟩
    · intro h x hx
      have hx' := hx
      rw [hnew] at hx'
      obtain ⟨i, hi, rfl⟩ := List.mem_map.1 hx'
      have hi' := List.mem_range.1 hi
      exact (key i _ (List.getElem?_eq_getElem hi')).2 (h _ (List.getElem_mem hi'))
  · unfold World.rows
    rw [hw', o4 wj hj]
    refine List.map_congr_left fun e he => ?_
    rw [o1 e (hv.ents wj hj e he)]
  · unfold World.propertyVector
    rw [mapM_via, mapM_via (l := (w.wrs wj).ents), hw', o4 wj hj]
    congr 1
    refine List.map_congr_left fun e he => ?_
    have hlt := hv.ents wj hj e he
    rw [o1 e hlt]
    cases hp : (w.ents e).props with
    | none => rfl
    | some s =>
      show List.lookup k ((w.reload wi).dicts s) = List.lookup k (w.dicts s)
      rw [o2 s (hv.props e hlt s hp)]
  · unfold World.weightVector
    rw [mapM_via, mapM_via (l := (w.wrs wj).ents), hw', o4 wj hj]
    congr 1
    refine List.map_congr_left fun e he => ?_
    have hlt := hv.ents wj hj e he
    rw [o1 e hlt]
    cases hp : (w.ents e).weights with
    | none => rfl
    | some s =>
      show List.lookup k ((w.reload wi).dicts s) = List.lookup k (w.dicts s)
      rw [o2 s (hv.weights e hlt s hp)]
  · rw [hnew, hw', o4 wj hj]
    have := hv.sub wj hj
    dsimp only
    omega
  · intro e he hej
    rw [hnew] at he
    obtain ⟨i, -, rfl⟩ := List.mem_map.1 he
    rw [hw', o4 wj hj] at hej
    have := hv.ents wj hj _ hej
    omega
  · intro e he x hx r hr
    rw [hnew] at he
    obtain ⟨i, hi, rfl⟩ := List.mem_map.1 he
    have hi' := List.mem_range.1 hi
    have hlt : w.nEnts + i < (w.reload wi).nEnts := by
      show _ < w.nEnts + (w.wrs wi).ents.length
      omega
    have hge : w.nDicts ≤ r := by
      rcases hr with hr | hr
      · rcases (reload_refs w wi hv _ hlt r).1 hr with h | ⟨j, -, -, rfl⟩ <;> omega
      · rcases (reload_refs w wi hv _ hlt r).2 hr with h | ⟨j, -, -, rfl⟩ <;> omega
    rw [hw', o1 x hx]
    exact ⟨fun h => absurd (hv.props x hx r h) (by omega), fun h => absurd (hv.weights x hx r h) (by omega)⟩

/-! ### Findings -/

/-- Subspaces and structures are numbers; subspace 3 does not know structure 1, subspace 2 has one more
function. -/
def toyLib : WrLib ℕ ℕ Unit Unit ℕ where
  findMat _ _ := some ()
  findMap _ _ _ := some ()
  size _ := 1
  corr s x _ _ :=
    if s = 3 ∧ x = 1 then .error true else if s = 2 then .ok [1, x, x] else .ok [1, (s + 1) * x]

/-- Subspaces 0, 1, 2, 3 and entries with structures 0, 1, 2. -/
def toyWorld : World ℕ ℕ Unit Unit ℕ :=
  ⟨id, fun i => ⟨i, none, none, none⟩, fun _ => [], fun _ => ⟨0, []⟩, 4, 3, 0, 0⟩

/-- no arguments besides the entry -/
def noArgs : EArgs Unit Unit := ⟨none, none, none, none, false⟩

/-- Whether the row of an entry is right in the toy world. -/
theorem toy_right (w : World ℕ ℕ Unit Unit ℕ) (sub e : ℕ) :
    RowRight toyLib w sub e ↔ (match (w.ents e).data with
      | none => false
      | some d => !(decide (sub = 3 ∧ (w.ents e).str = 1)) &&
        (if sub = 2 then decide ([1, (w.ents e).str, (w.ents e).str] = d.corr)
          else decide ([1, (sub + 1) * (w.ents e).str] = d.corr))) = true := by
  unfold RowRight
  cases h : (w.ents e).data with
  | none => simp
  | some d =>
    simp only [Option.some.injEq, exists_eq_left', toyLib]
    by_cases h1 : sub = 3 ∧ (w.ents e).str = 1
    · rw [if_pos h1]; simp [h1]
    · rw [if_neg h1]
      by_cases h2 : sub = 2
      · rw [if_pos h2, if_pos h2]; simp [h2]
      · rw [if_neg h2, if_neg h2]; simp only [Except.ok.injEq]; simp [h1]

/-- **C86** (finding): adding an entry to a second wrangler with another subspace changes the feature
matrix of the first. -/
theorem C86_shared_entry :
    ∃ (lib : WrLib ℕ ℕ Unit Unit ℕ) (w : World ℕ ℕ Unit Unit ℕ) (o : WrOp ℕ Unit Unit ℕ),
      (∃ e a b, o = .add 1 e a b) ∧ (w.apply lib o).2 = false ∧ RowsRight lib w 0 ∧
      w.rows 0 = [some [1, 1]] ∧ (w.apply lib o).1.rows 0 = [some [1, 2]] ∧
      ¬ RowsRight lib (w.apply lib o).1 0 := by
  refine ⟨toyLib, toyWorld.run toyLib [.new 0, .new 1, .add 0 1 noArgs true], .add 1 1 noArgs true,
    ⟨_, _, _, rfl⟩, ?_⟩
  simp only [RowsRight, toy_right]
  decide +kernel

/-- **C86** (finding): rows are those of the old subspace after the subspace was changed in place, until
`update_features`, and appended entries keep the rows of the wrangler that processed them. -/
theorem C86_stale_rows :
    ∃ (lib : WrLib ℕ ℕ Unit Unit ℕ) (w : World ℕ ℕ Unit Unit ℕ) (o o' : WrOp ℕ Unit Unit ℕ),
      RowsRight lib w 0 ∧ (∃ s, o = .edit 0 s) ∧ (∃ es, o' = .append 0 es) ∧
      ¬ RowsRight lib (w.apply lib o).1 0 ∧ (w.apply lib o').2 = false ∧
      ¬ RowsRight lib (w.apply lib o').1 0 ∧
      RowsRight lib (w.run lib [o, .update 0]) 0 ∧ RowsRight lib (w.run lib [o', .update 0]) 0 := by
  refine ⟨toyLib, toyWorld.run toyLib [.new 0, .new 1, .add 0 1 noArgs true, .process 1 2 noArgs],
    .edit 0 2, .append 0 [2], ?_, ⟨_, rfl⟩, ⟨_, rfl⟩, ?_⟩
  · simp only [RowsRight, toy_right]
    decide +kernel
  · simp only [RowsRight, toy_right]
    decide +kernel

/-- **C86** (finding): `change_subspace` that raises leaves the new subspace with rows of both. -/
theorem C86_mixed_rows :
    ∃ (lib : WrLib ℕ ℕ Unit Unit ℕ) (w : World ℕ ℕ Unit Unit ℕ),
      RowsRight lib w 0 ∧ w.rows 0 = [some [1, 2], some [1, 1]] ∧
      (w.apply lib (.change 0 3)).2 = true ∧
      (w.apply lib (.change 0 3)).1.rows 0 = [some [1, 8], some [1, 1]] := by
  refine ⟨toyLib, toyWorld.run toyLib [.new 0, .add 0 2 noArgs true, .add 0 1 noArgs true], ?_⟩
  simp only [RowsRight, toy_right]
  decide +kernel

/-- **C86** (finding): with one dictionary object given for two entries, the values of the last one are
stored for both; saving and loading before helps. -/
theorem C86_shared_dictionary :
    ∃ (lib : WrLib ℕ ℕ Unit Unit ℕ) (w : World ℕ ℕ Unit Unit ℕ),
      ((w.wrs 0).ents).Nodup ∧
      (w.run lib [.addProps 0 "gap" [5, 6]]).propertyVector 0 "gap" = some [6, 6] ∧
      (w.run lib [.reload 0, .addProps 1 "gap" [5, 6]]).propertyVector 1 "gap" = some [5, 6] :=
  ⟨toyLib, toyWorld.run toyLib [.new 0, .mkDict [("energy", 1)], .add 0 1 { noArgs with props := some 0 } true,
    .add 0 2 { noArgs with props := some 0 } true], by decide +kernel⟩

/-- **C86** (finding): an `add_entry` that raises has added the entry, if the rows have different
lengths. -/
theorem C86_raises_after_adding :
    ∃ (lib : WrLib ℕ ℕ Unit Unit ℕ) (w : World ℕ ℕ Unit Unit ℕ) (e : ℕ) (a : EArgs Unit Unit),
      (w.apply lib (.add 0 e a true)).2 = true ∧ e ∉ (w.wrs 0).ents ∧
      e ∈ ((w.apply lib (.add 0 e a true)).1.wrs 0).ents :=
  ⟨toyLib, toyWorld.run toyLib [.new 0, .add 0 1 noArgs true, .edit 0 2], 2, noArgs, by decide +kernel⟩

/-! ### Examples -/

theorem toy_valid : Valid toyWorld ∧ Apart toyWorld := by
  refine ⟨⟨?_, ?_, ?_, ?_⟩, ⟨?_, ?_, ?_, ?_, ?_⟩⟩ <;> simp [toyWorld]

/-- A history of two wranglers with their own entries. -/
def toyOps : List (WrOp ℕ Unit Unit ℕ) :=
  [.new 0, .new 1, .mkDict [("gap", 3)], .add 0 1 { noArgs with props := some 0 } true, .add 1 2 noArgs false,
    .change 1 2, .mkDict [("gap", 9)], .process 0 0 { noArgs with props := some 4 }, .append 0 [0], .reload 0,
    .edit 1 5, .addProps 0 "size" [7, 8], .remove 2 0]

/-- C86: the history keeps the rows of the first wrangler right. -/
example : Along toyLib (Harmless toyLib 0) (toyWorld.run toyLib [.new 0]) toyOps.tail ∧
    RowsRight toyLib (toyWorld.run toyLib [.new 0]) 0 ∧
    (toyWorld.run toyLib toyOps).rows 0 = [some [1, 1], some [1, 0]] ∧
    (toyWorld.run toyLib toyOps).rows 1 = [some [1, 2, 2]] ∧
    (toyWorld.run toyLib toyOps).rows 2 = [some [1, 0]] ∧
    (toyWorld.run toyLib toyOps).propertyVector 0 "gap" = some [3, 9] ∧
    (toyWorld.run toyLib toyOps).propertyVector 0 "size" = some [7, 8] := by
  refine ⟨?_, ?_, by decide +kernel, by decide +kernel, by decide +kernel, by decide +kernel,
    by decide +kernel⟩
  · simp only [toyOps, List.tail_cons, Along, Harmless, Agree, toy_right]
    decide +kernel
  · simp only [RowsRight, toy_right]
    decide +kernel

/-- C86: and it names objects that exist and gives each entry its own dictionaries. -/
example : Along toyLib Names toyWorld toyOps ∧ Along toyLib Separate toyWorld toyOps := by
  have hb : ∀ (o : Option ℕ) (n : ℕ), (o.all fun r => decide (r < n)) = true → ∀ r, o = some r → r < n := by
    rintro _ n h r rfl; simpa using h
  have hu : ∀ (w : World ℕ ℕ Unit Unit ℕ) (o : Option ℕ),
      (o.all fun r => (List.range w.nEnts).all fun e =>
        decide ((w.ents e).props ≠ some r ∧ (w.ents e).weights ≠ some r)) = true →
      ∀ r, o = some r → Unused w r := by
    rintro w _ h r rfl e he
    simp only [Option.all_some, List.all_eq_true, List.mem_range, decide_eq_true_eq] at h
    exact h e he
  have hne : ∀ o : Option ℕ, ∀ r, o = some r → (noArgs.weights : Option ℕ) ≠ some r := by
    intro o r _ h; cases h
  constructor
  · simp only [toyOps, Along, Names]
    refine ⟨by decide +kernel, by decide +kernel, trivial,
      ⟨by decide +kernel, by decide +kernel, hb _ _ (by decide +kernel), hb _ _ (by decide +kernel)⟩,
      ⟨by decide +kernel, by decide +kernel, hb _ _ (by decide +kernel), hb _ _ (by decide +kernel)⟩,
      by decide +kernel, trivial,
      ⟨by decide +kernel, by decide +kernel, hb _ _ (by decide +kernel), hb _ _ (by decide +kernel)⟩,
      by decide +kernel, by decide +kernel, by decide +kernel, by decide +kernel, by decide +kernel, trivial⟩
  · simp only [toyOps, Along, Separate]
    refine ⟨trivial, trivial, trivial,
      ⟨hu _ _ (by decide +kernel), hu _ _ (by decide +kernel), hne _, by decide +kernel⟩,
      ⟨hu _ _ (by decide +kernel), hu _ _ (by decide +kernel), hne _, by decide +kernel⟩,
      trivial, trivial, ⟨hu _ _ (by decide +kernel), hu _ _ (by decide +kernel), hne _⟩,
      ⟨by decide +kernel, by decide +kernel⟩, trivial, trivial, trivial, trivial, trivial⟩

/-- Adding an entry with properties to the wrangler of `toyOps`, and refusing other names. -/
example : let w := toyWorld.run toyLib [.new 0, .mkDict [("gap", 3)], .mkDict [("gap", 4)], .mkDict [("vol", 4)],
      .add 0 1 { noArgs with props := some 0 } true]
    NamesFit w 0 { noArgs with props := some 1 } ∧ ¬ NamesFit w 0 { noArgs with props := some 2 } ∧
    Processed toyLib (w.subs (w.wrs 0).sub) (w.ents 2).str { noArgs with props := some 1 } ⟨(), (), [1, 2], 1⟩ ∧
    (w.apply toyLib (.add 0 2 { noArgs with props := some 1 } true)).1.propertyVector 0 "gap" =
      some [3, 4] := by
  intro w
  rw [← accepts_iff, ← accepts_iff]
  refine ⟨by decide +kernel, by decide +kernel, ?_, by decide +kernel⟩
  exact ⟨Or.inr ⟨rfl, rfl⟩, Or.inr ⟨rfl, rfl⟩, rfl, rfl⟩

/-- Processing an entry again with a new value of one of two properties. -/
example : let w := toyWorld.run toyLib [.new 0, .mkDict [("gap", 3), ("vol", 5)], .mkDict [("gap", 4)],
      .process 0 1 { noArgs with props := some 0 }]
    NamesFit w 0 { noArgs with props := some 1 } ∧ (w.ents 1).props = some 0 ∧ (w.ents 1).weights = some 2 ∧
    ((w.dictOf (some 1)).map Prod.fst).Nodup ∧
    (w.apply toyLib (.process 0 1 { noArgs with props := some 1 })).1.dicts 0 = [("gap", 4), ("vol", 5)] := by
  intro w
  rw [← accepts_iff]
  decide +kernel

end Smol
