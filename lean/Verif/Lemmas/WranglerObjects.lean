import Mathlib.Data.List.TakeWhile
import Verif.Spec.WranglerObjects
import Verif.Props.WranglerState

namespace Smol
open Spec
variable {S Str Mat Map K : Type*} {lib : WrLib S Str Mat Map K}

/-- The row can be computed. -/
def goodEnt (lib : WrLib S Str Mat Map K) (sub : S) (o : EObj Str Mat Map K) : Bool :=
  match o.data with
  | none => false
  | some d => match lib.corr sub o.str d.mat d.map with
    | .ok _ => true
    | .error _ => false

/-- The entry with its row computed. -/
def newEnt (lib : WrLib S Str Mat Map K) (sub : S) (o : EObj Str Mat Map K) : EObj Str Mat Map K :=
  match o.data with
  | none => o
  | some d => match lib.corr sub o.str d.mat d.map with
    | .ok row => { o with data := some { d with corr := row } }
    | .error _ => o

theorem goodEnt_iff (sub : S) (o : EObj Str Mat Map K) :
    goodEnt lib sub o = true ↔ ∃ d row, o.data = some d ∧ lib.corr sub o.str d.mat d.map = .ok row := by
  unfold goodEnt
  cases hd : o.data with
  | none => simp
  | some d => cases hc : lib.corr sub o.str d.mat d.map <;> simp [hc]

theorem newEnt_same (sub : S) (o : EObj Str Mat Map K) :
    (newEnt lib sub o).str = o.str ∧ (newEnt lib sub o).props = o.props ∧
    (newEnt lib sub o).weights = o.weights ∧
    (newEnt lib sub o).data.map (fun d => (d.mat, d.map, d.size)) = o.data.map fun d => (d.mat, d.map, d.size) := by
  unfold newEnt
  cases hd : o.data with
  | none => simp [hd]
  | some d => cases hc : lib.corr sub o.str d.mat d.map <;> simp [hd, hc]

theorem newEnt_right (sub : S) (o : EObj Str Mat Map K) (h : goodEnt lib sub o = true) :
    ∃ d, (newEnt lib sub o).data = some d ∧ lib.corr sub (newEnt lib sub o).str d.mat d.map = .ok d.corr := by
  obtain ⟨d, row, h1, h2⟩ := (goodEnt_iff sub o).1 h
  unfold newEnt
  simp [h1, h2]

theorem newEnt_idem (sub : S) (o : EObj Str Mat Map K) :
    newEnt lib sub (newEnt lib sub o) = newEnt lib sub o ∧
    goodEnt lib sub (newEnt lib sub o) = goodEnt lib sub o := by
  cases hd : o.data with
  | none =>
    have h1 : newEnt lib sub o = o := by unfold newEnt; rw [hd]
    rw [h1, h1]; exact ⟨rfl, rfl⟩
  | some d =>
    cases hc : lib.corr sub o.str d.mat d.map with
    | error b =>
      have h1 : newEnt lib sub o = o := by unfold newEnt; rw [hd]; dsimp only; rw [hc]
      rw [h1, h1]; exact ⟨rfl, rfl⟩
    | ok row =>
      have h1 : newEnt lib sub o = { o with data := some { d with corr := row } } := by
        unfold newEnt; rw [hd]; dsimp only; rw [hc]
      rw [h1]
      constructor
      · unfold newEnt; dsimp only; rw [hc]
      · unfold goodEnt; dsimp only; rw [hd]

theorem newEnt_of_right (sub : S) (o : EObj Str Mat Map K) (d : EData Mat Map K) (h : o.data = some d)
    (h2 : lib.corr sub o.str d.mat d.map = .ok d.corr) : newEnt lib sub o = o := by
  unfold newEnt
  obtain ⟨str, data, p, q⟩ := o
  dsimp only at h h2 ⊢
  subst h
  dsimp only
  rw [h2]

theorem updateAll_eq (sub : S) (l : List ℕ) (w : World S Str Mat Map K) :
    w.updateAll lib sub l =
      ({ w with ents := fun e => if e ∈ l.takeWhile (fun e => goodEnt lib sub (w.ents e)) then
          newEnt lib sub (w.ents e) else w.ents e },
        !l.all fun e => goodEnt lib sub (w.ents e)) := by
  induction l generalizing w with
  | nil => simp [World.updateAll]
  | cons e l ih =>
    unfold World.updateAll
    cases hd : (w.ents e).data with
    | none =>
      have hb : goodEnt lib sub (w.ents e) = false := by unfold goodEnt; rw [hd]
      simp [hb]
    | some d =>
      cases hc : lib.corr sub (w.ents e).str d.mat d.map with
      | error b =>
        have hb : goodEnt lib sub (w.ents e) = false := by unfold goodEnt; rw [hd]; dsimp only; rw [hc]
        simp [hb, hc]
      | ok row =>
        have hb : goodEnt lib sub (w.ents e) = true := by unfold goodEnt; rw [hd]; dsimp only; rw [hc]
        have hn : ({ w.ents e with data := some { d with corr := row } } : EObj Str Mat Map K) =
            newEnt lib sub (w.ents e) := by unfold newEnt; rw [hd]; dsimp only; rw [hc]
        dsimp only
        rw [hc]
        dsimp only
        rw [ih]
        have hg : (fun x => goodEnt lib sub ((w.setData e { d with corr := row }).ents x)) =
            fun x => goodEnt lib sub (w.ents x) := by
          funext x
          unfold World.setData
          dsimp only
          rw [hn]
          by_cases hx : x = e
          · subst hx; rw [Function.update_self, (newEnt_idem _ _).2]
          · rw [Function.update_of_ne hx]
        rw [hg]
        refine Prod.ext ?_ (by simp [hb])
        dsimp only
        unfold World.setData
        congr 1
        funext x
        dsimp only
        rw [hn, List.takeWhile_cons_of_pos (p := fun x => goodEnt lib sub (w.ents x)) hb]
        by_cases hx : x = e
        · subst hx
          rw [Function.update_self, (newEnt_idem _ _).1]
          simp
        · rw [Function.update_of_ne hx]
          simp [hx]

theorem storeProps_facts (w : World S Str Mat Map K) (e : ℕ) (pr : Option ℕ) :
    (w.storeProps e pr).subs = w.subs ∧ (w.storeProps e pr).wrs = w.wrs ∧
    (w.storeProps e pr).nSubs = w.nSubs ∧ (w.storeProps e pr).nEnts = w.nEnts ∧
    (w.storeProps e pr).nWrs = w.nWrs ∧ w.nDicts ≤ (w.storeProps e pr).nDicts ∧
    (∀ x, ((w.storeProps e pr).ents x).str = (w.ents x).str ∧
      ((w.storeProps e pr).ents x).data = (w.ents x).data ∧
      ((w.storeProps e pr).ents x).weights = (w.ents x).weights ∧
      (x ≠ e → ((w.storeProps e pr).ents x).props = (w.ents x).props)) ∧
    (∀ r, (w.ents e).props = some r → ((w.storeProps e pr).ents e).props = some r) ∧
    ((w.ents e).props = none → ∀ r, pr = some r → ((w.storeProps e pr).ents e).props = some r) ∧
    ((w.ents e).props = none → pr = none → ((w.storeProps e pr).ents e).props = some w.nDicts ∧
      (w.storeProps e pr).nDicts = w.nDicts + 1) := by
  unfold World.storeProps
  cases hp : (w.ents e).props with
  | some r => simp [hp]
  | none =>
    cases pr with
    | some r =>
      refine ⟨rfl, rfl, rfl, rfl, rfl, le_rfl, fun x => ?_, by simp, by simp, by simp⟩
      by_cases hx : x = e
      · subst hx; simp
      · simp [hx]
    | none =>
      refine ⟨rfl, rfl, rfl, rfl, rfl, Nat.le_succ _, fun x => ?_, by simp, by simp, by simp⟩
      by_cases hx : x = e
      · subst hx; simp
      · simp [hx]

theorem storeWeights_facts (w : World S Str Mat Map K) (e : ℕ) (wt : Option ℕ) :
    (w.storeWeights e wt).subs = w.subs ∧ (w.storeWeights e wt).wrs = w.wrs ∧
    (w.storeWeights e wt).nSubs = w.nSubs ∧ (w.storeWeights e wt).nEnts = w.nEnts ∧
    (w.storeWeights e wt).nWrs = w.nWrs ∧ w.nDicts ≤ (w.storeWeights e wt).nDicts ∧
    (∀ x, ((w.storeWeights e wt).ents x).str = (w.ents x).str ∧
      ((w.storeWeights e wt).ents x).data = (w.ents x).data ∧
      ((w.storeWeights e wt).ents x).props = (w.ents x).props ∧
      (x ≠ e → ((w.storeWeights e wt).ents x).weights = (w.ents x).weights)) ∧
    (∀ r, (w.ents e).weights = some r → ((w.storeWeights e wt).ents e).weights = some r) ∧
    ((w.ents e).weights = none → ∀ r, wt = some r → ((w.storeWeights e wt).ents e).weights = some r) ∧
    ((w.ents e).weights = none → wt = none → ((w.storeWeights e wt).ents e).weights = some w.nDicts ∧
      (w.storeWeights e wt).nDicts = w.nDicts + 1) := by
  unfold World.storeWeights
  cases hp : (w.ents e).weights with
  | some r => simp [hp]
  | none =>
    cases wt with
    | some r =>
      refine ⟨rfl, rfl, rfl, rfl, rfl, le_rfl, fun x => ?_, by simp, by simp, by simp⟩
      by_cases hx : x = e
      · subst hx; simp
      · simp [hx]
    | none =>
      refine ⟨rfl, rfl, rfl, rfl, rfl, Nat.le_succ _, fun x => ?_, by simp, by simp, by simp⟩
      by_cases hx : x = e
      · subst hx; simp
      · simp [hx]

/-- What `process_entry` does when it stores. -/
theorem process_some {w w' : World S Str Mat Map K} {wi e : ℕ} {a : EArgs Mat Map}
    (h : w.process lib wi e a = .ok (some w')) :
    ∃ m mp row, lib.corr (w.subs (w.wrs wi).sub) (w.ents e).str m mp = .ok row ∧
      (∀ x, a.mat = some x → m = x) ∧ (∀ x, a.map = some x → mp = x) ∧
      (a.mat = none → lib.findMat (w.subs (w.wrs wi).sub) (w.ents e).str = some m) ∧
      (a.map = none → lib.findMap (w.subs (w.wrs wi).sub) (w.ents e).str m = some mp) ∧
      w' = (((w.setData e ⟨m, mp, row, lib.size m⟩).storeProps e a.props).storeWeights e a.weights) := by
  unfold World.process at h
  dsimp only at h
  split at h
  · cases h
  · split at h
    · split at h <;> cases h
    · rename_i m hm
      split at h
      · split at h <;> cases h
      · rename_i mp hmp
        split at h
        · split at h <;> cases h
        · cases h
        · rename_i row hrow
          simp only [Except.ok.injEq, Option.some.injEq] at h
          refine ⟨m, mp, row, hrow, ?_, ?_, ?_, ?_, h.symm⟩
          · intro x hx; rw [hx] at hm; exact (Option.some.inj hm).symm
          · intro x hx; rw [hx] at hmp; exact (Option.some.inj hmp).symm
          · intro hx; rw [hx] at hm; exact hm
          · intro hx; rw [hx] at hmp; exact hmp

/-- The parts of a world that storing an entry leaves alone. -/
theorem process_facts {w w' : World S Str Mat Map K} {wi e : ℕ} {a : EArgs Mat Map}
    (h : w.process lib wi e a = .ok (some w')) :
    w'.subs = w.subs ∧ w'.wrs = w.wrs ∧ w'.nSubs = w.nSubs ∧ w'.nEnts = w.nEnts ∧ w'.nWrs = w.nWrs ∧
    w.nDicts ≤ w'.nDicts ∧
    (∀ x, (w'.ents x).str = (w.ents x).str ∧
      (x ≠ e → (w'.ents x).data = (w.ents x).data ∧ (w'.ents x).props = (w.ents x).props ∧
        (w'.ents x).weights = (w.ents x).weights)) ∧
    RowRight lib w' (w.subs (w.wrs wi).sub) e := by
  obtain ⟨m, mp, row, hc, -, -, -, -, rfl⟩ := process_some h
  generalize hd : (⟨m, mp, row, lib.size m⟩ : EData Mat Map K) = d
  obtain ⟨a1, a2, a3, a4, a5, a6, a7, -⟩ := storeProps_facts (w.setData e d) e a.props
  obtain ⟨b1, b2, b3, b4, b5, b6, b7, -⟩ := storeWeights_facts ((w.setData e d).storeProps e a.props) e a.weights
  have hs : ∀ x, ((w.setData e d).ents x).str = (w.ents x).str ∧
      (x ≠ e → (w.setData e d).ents x = w.ents x) := by
    intro x
    unfold World.setData
    by_cases hx : x = e
    · subst hx; simp
    · simp [hx]
  refine ⟨b1.trans a1, b2.trans a2, b3.trans a3, b4.trans a4, b5.trans a5, a6.trans b6, fun x => ⟨?_, ?_⟩, ?_⟩
  · rw [(b7 x).1, (a7 x).1, (hs x).1]
  · intro hx
    rw [(b7 x).2.1, (a7 x).2.1, (b7 x).2.2.1, (a7 x).2.2.2 hx, (b7 x).2.2.2 hx, (a7 x).2.2.1, (hs x).2 hx]
    exact ⟨rfl, rfl, rfl⟩
  · refine ⟨d, ?_, ?_⟩
    · rw [(b7 e).2.1, (a7 e).2.1]; simp [World.setData]
    · rw [(b7 e).1, (a7 e).1, (hs e).1]; subst hd; exact hc

/-- The dictionaries that a processed entry has. -/
theorem process_refs {w w' : World S Str Mat Map K} {wi e : ℕ} {a : EArgs Mat Map}
    (h : w.process lib wi e a = .ok (some w')) :
    ∃ rp rw, (w'.ents e).props = some rp ∧ (w'.ents e).weights = some rw ∧
      ((w.ents e).props = some rp ∨ (w.ents e).props = none ∧ a.props = some rp ∨
        (w.ents e).props = none ∧ a.props = none ∧ w.nDicts ≤ rp ∧ rp < w'.nDicts) ∧
      ((w.ents e).weights = some rw ∨ (w.ents e).weights = none ∧ a.weights = some rw ∨
        (w.ents e).weights = none ∧ a.weights = none ∧ w.nDicts ≤ rw ∧ rw < w'.nDicts) ∧
      (w.nDicts ≤ rp → w.nDicts ≤ rw → (w.ents e).props = none → a.props = none →
        (w.ents e).weights = none → a.weights = none → rp ≠ rw) := by
  obtain ⟨m, mp, row, -, -, -, -, -, rfl⟩ := process_some h
  generalize (⟨m, mp, row, lib.size m⟩ : EData Mat Map K) = d
  obtain ⟨-, -, -, -, -, a6, a7, a8, a9, a10⟩ := storeProps_facts (w.setData e d) e a.props
  obtain ⟨-, -, -, -, -, b6, b7, b8, b9, b10⟩ :=
    storeWeights_facts ((w.setData e d).storeProps e a.props) e a.weights
  have hp : ((w.setData e d).ents e).props = (w.ents e).props := by simp [World.setData]
  have hw : (((w.setData e d).storeProps e a.props).ents e).weights = (w.ents e).weights := by
    rw [(a7 e).2.2.1]; simp [World.setData]
  have hn : (w.setData e d).nDicts = w.nDicts := rfl
  rw [hp] at a8 a9 a10
  rw [hw] at b8 b9 b10
  rw [hn] at a6 a10
  rw [(b7 e).2.2.1]
  have P : ∃ rp, (((w.setData e d).storeProps e a.props).ents e).props = some rp ∧
      ((w.ents e).props = some rp ∨ (w.ents e).props = none ∧ a.props = some rp ∨
        (w.ents e).props = none ∧ a.props = none ∧ rp = w.nDicts ∧
          ((w.setData e d).storeProps e a.props).nDicts = w.nDicts + 1) := by
    cases h1 : (w.ents e).props with
    | some r => exact ⟨r, a8 r h1, Or.inl rfl⟩
    | none =>
      cases h2 : a.props with
      | some r => rw [← h2]; exact ⟨r, a9 h1 r h2, Or.inr (Or.inl ⟨rfl, h2⟩)⟩
      | none => rw [h2] at a10; exact ⟨_, (a10 h1 rfl).1, Or.inr (Or.inr ⟨rfl, rfl, rfl, (a10 h1 rfl).2⟩)⟩
  obtain ⟨rp, hrp, hP⟩ := P
  have W : ∃ rw, ((((w.setData e d).storeProps e a.props).storeWeights e a.weights).ents e).weights = some rw ∧
      ((w.ents e).weights = some rw ∨ (w.ents e).weights = none ∧ a.weights = some rw ∨
        (w.ents e).weights = none ∧ a.weights = none ∧ rw = ((w.setData e d).storeProps e a.props).nDicts ∧
          (((w.setData e d).storeProps e a.props).storeWeights e a.weights).nDicts = rw + 1) := by
    cases h1 : (w.ents e).weights with
    | some r => exact ⟨r, b8 r h1, Or.inl rfl⟩
    | none =>
      cases h2 : a.weights with
      | some r => rw [← h2]; exact ⟨r, b9 h1 r h2, Or.inr (Or.inl ⟨rfl, h2⟩)⟩
      | none => rw [h2] at b10; exact ⟨_, (b10 h1 rfl).1, Or.inr (Or.inr ⟨rfl, rfl, rfl, (b10 h1 rfl).2⟩)⟩
  obtain ⟨rw', hrw, hW⟩ := W
  refine ⟨rp, rw', hrp, hrw, ?_, ?_, ?_⟩
  · rcases hP with h | h | ⟨h1, h2, h3, h4⟩
    · exact Or.inl h
    · exact Or.inr (Or.inl h)
    · exact Or.inr (Or.inr ⟨h1, h2, by omega, by omega⟩)
  · rcases hW with h | h | ⟨h1, h2, h3, h4⟩
    · exact Or.inl h
    · exact Or.inr (Or.inl h)
    · exact Or.inr (Or.inr ⟨h1, h2, by omega, by omega⟩)
  · intro _ _ h1 h2 h3 h4
    rcases hP with h | h | ⟨-, -, k3, k4⟩
    · rw [h1] at h; cases h
    · rw [h2] at h; cases h.2
    rcases hW with h | h | ⟨-, -, j3, j4⟩
    · rw [h3] at h; cases h
    · rw [h4] at h; cases h.2
    omega

theorem appendAll_facts (wi : ℕ) (es : List ℕ) (w : World S Str Mat Map K) :
    ∃ l, l <+: es ∧ (∀ e ∈ l, (w.ents e).data.isSome = true) ∧
      (w.appendAll wi es).1 = w.setEnts wi ((w.wrs wi).ents ++ l) ∧
      ((w.appendAll wi es).2 = false → l = es) := by
  induction es generalizing w with
  | nil => exact ⟨[], List.prefix_refl _, by simp, by simp [World.appendAll, World.setEnts], fun _ => rfl⟩
  | cons e es ih =>
    unfold World.appendAll
    split
    · exact ⟨[], List.nil_prefix, by simp, by simp [World.setEnts], by simp⟩
    · rename_i hd
      have hd' : (w.ents e).data.isSome = true := by simpa [Option.isSome_iff_ne_none] using hd
      split
      · dsimp only
        split
        · exact ⟨[e], by simp, by simpa using hd', rfl, by simp⟩
        · obtain ⟨l, h1, h2, h3, h4⟩ := ih (w.setEnts wi ((w.wrs wi).ents ++ [e]))
          refine ⟨e :: l, List.cons_prefix_cons.2 ⟨rfl, h1⟩, ?_, ?_, fun h => by rw [h4 h]⟩
          · intro x hx
            rcases List.mem_cons.1 hx with rfl | hx
            · exact hd'
            · exact h2 x hx
          · rw [h3]
            simp [World.setEnts]
      · exact ⟨[], List.nil_prefix, by simp, by simp [World.setEnts], by simp⟩

theorem putAll_facts (ref : EObj Str Mat Map K → Option ℕ) (k : String) (l : List (ℕ × K))
    (w : World S Str Mat Map K) :
    ∃ d, w.putAll ref k l = { w with dicts := d } ∧
      ∀ r, (∀ p ∈ l, ref (w.ents p.1) ≠ some r) → d r = w.dicts r := by
  induction l generalizing w with
  | nil => exact ⟨w.dicts, rfl, fun _ _ => rfl⟩
  | cons p l ih =>
    obtain ⟨e, x⟩ := p
    unfold World.putAll
    cases hr : ref (w.ents e) with
    | none =>
      obtain ⟨d, h1, h2⟩ := ih w
      exact ⟨d, h1, fun r h => h2 r fun p hp => h p (by simp [hp])⟩
    | some r₀ =>
      obtain ⟨d, h1, h2⟩ := ih { w with dicts := Function.update w.dicts r₀ ((w.dicts r₀).put k x) }
      refine ⟨d, h1, fun r h => ?_⟩
      rw [h2 r fun p hp => h p (by simp [hp])]
      have : r ≠ r₀ := by
        rintro rfl
        exact h (e, x) (by simp) hr
      simp [this]

theorem updateAll_main (w : World S Str Mat Map K) (sub : S) (l : List ℕ) :
    let r := w.updateAll lib sub l
    (r.2 = true ↔ ∃ e ∈ l, ∀ d row, (w.ents e).data = some d →
      lib.corr sub (w.ents e).str d.mat d.map ≠ .ok row) ∧
    (r.2 = false → ∀ e ∈ l, RowRight lib r.1 sub e) ∧
    (r.2 = true → ∃ l₁ e l₂, l = l₁ ++ e :: l₂ ∧ (∀ x ∈ l₁, RowRight lib r.1 sub x) ∧
      ∀ x, x ∉ l₁ → r.1.ents x = w.ents x) ∧
    (r.1.subs = w.subs ∧ r.1.dicts = w.dicts ∧ r.1.wrs = w.wrs ∧ r.1.nSubs = w.nSubs ∧
      r.1.nEnts = w.nEnts ∧ r.1.nDicts = w.nDicts ∧ r.1.nWrs = w.nWrs) ∧
    (∀ e, (r.1.ents e).str = (w.ents e).str ∧ (r.1.ents e).props = (w.ents e).props ∧
      (r.1.ents e).weights = (w.ents e).weights ∧
      (r.1.ents e).data.map (fun d => (d.mat, d.map, d.size)) =
        (w.ents e).data.map fun d => (d.mat, d.map, d.size)) ∧
    ∀ e, e ∉ l → r.1.ents e = w.ents e := by
  intro r
  have hr : r = _ := updateAll_eq sub l w
  have hbad : ∀ e, goodEnt lib sub (w.ents e) = false ↔ ∀ d row, (w.ents e).data = some d →
      lib.corr sub (w.ents e).str d.mat d.map ≠ .ok row := by
    intro e
    rw [← Bool.not_eq_true, goodEnt_iff]
    push Not
    rfl
  have hright : ∀ e, e ∈ l.takeWhile (fun e => goodEnt lib sub (w.ents e)) → RowRight lib r.1 sub e := by
    intro e he
    unfold RowRight
    rw [hr]
    dsimp only
    rw [if_pos he]
    exact newEnt_right sub _ (List.mem_takeWhile_imp (p := fun e => goodEnt lib sub (w.ents e)) he)
  refine ⟨?_, ?_, ?_, ?_, ?_, ?_⟩
  · rw [hr]
    simp only [Bool.not_eq_true', List.all_eq_false, Bool.not_eq_true]
    exact exists_congr fun e => and_congr_right fun _ => hbad e
  · intro h e he
    rw [hr] at h
    have hall : ∀ x ∈ l, goodEnt lib sub (w.ents x) = true := by simpa using h
    refine hright e ?_
    rw [List.takeWhile_eq_self_iff.2 hall]
    exact he
  · intro h
    rw [hr] at h
    have hne : l.dropWhile (fun e => goodEnt lib sub (w.ents e)) ≠ [] := by
      intro h0
      rw [List.dropWhile_eq_nil_iff] at h0
      have : l.all (fun e => goodEnt lib sub (w.ents e)) = true := List.all_eq_true.2 h0
      rw [this] at h
      exact absurd h (by simp)
    obtain ⟨e, l₂, he⟩ := List.exists_cons_of_ne_nil hne
    refine ⟨_, e, l₂, ?_, hright, ?_⟩
    · rw [← he, List.takeWhile_append_dropWhile]
    · intro x hx
      rw [hr]
      dsimp only
      rw [if_neg hx]
  · rw [hr]; exact ⟨rfl, rfl, rfl, rfl, rfl, rfl, rfl⟩
  · intro e
    rw [hr]
    dsimp only
    split
    · exact newEnt_same sub _
    · exact ⟨rfl, rfl, rfl, rfl⟩
  · intro e he
    rw [hr]
    dsimp only
    rw [if_neg fun h => he (List.takeWhile_subset _ h)]

theorem rowRight_congr {w w' : World S Str Mat Map K} {sub : S} {e : ℕ}
    (h1 : (w'.ents e).str = (w.ents e).str) (h2 : (w'.ents e).data = (w.ents e).data) :
    RowRight lib w' sub e ↔ RowRight lib w sub e := by
  unfold RowRight
  rw [h1, h2]

theorem rowsRight_congr {w w' : World S Str Mat Map K} {wi : ℕ} (h0 : w'.wrs wi = w.wrs wi)
    (hs : w'.subs (w.wrs wi).sub = w.subs (w.wrs wi).sub)
    (h : ∀ e ∈ (w.wrs wi).ents, (w'.ents e).str = (w.ents e).str ∧ (w'.ents e).data = (w.ents e).data)
    (hr : RowsRight lib w wi) : RowsRight lib w' wi := by
  intro e he
  rw [h0] at he ⊢
  rw [hs]
  exact (rowRight_congr (h e he).1 (h e he).2).2 (hr e he)

theorem updateAll_keeps (w : World S Str Mat Map K) (wi : ℕ) (l : List ℕ) (sub : S)
    (hag : Agree w wi l sub) (hr : RowsRight lib w wi) :
    RowsRight lib (w.updateAll lib sub l).1 wi := by
  have h4 := (updateAll_main (lib := lib) w sub l).2.2.2.1
  refine rowsRight_congr (by rw [h4.2.2.1]) (by rw [h4.1]) (fun e he => ?_) hr
  have hr' : w.updateAll lib sub l = _ := updateAll_eq sub l w
  rw [hr']
  dsimp only
  split
  · rename_i hm
    have hsub := hag ⟨e, List.takeWhile_subset _ hm, he⟩
    obtain ⟨d, hd, hc⟩ := hr e he
    rw [newEnt_of_right sub (w.ents e) d hd (by rw [hsub]; exact hc)]
    exact ⟨rfl, rfl⟩
  · exact ⟨rfl, rfl⟩

theorem valid_setEnts {w : World S Str Mat Map K} (hv : Valid w) (wi : ℕ) (l : List ℕ)
    (hl : ∀ e ∈ l, e < w.nEnts) : Valid (w.setEnts wi l) := by
  refine ⟨fun wj hj => ?_, fun wj hj e he => ?_, hv.props, hv.weights⟩
  · unfold World.setEnts
    by_cases h : wj = wi
    · subst h; simpa using hv.sub wj hj
    · simpa [h] using hv.sub wj hj
  · unfold World.setEnts at he
    by_cases h : wj = wi
    · subst h; simp only [Function.update_self] at he; exact hl e he
    · simp only [Function.update_of_ne h] at he; exact hv.ents wj hj e he

theorem valid_process {w w' : World S Str Mat Map K} {wi e : ℕ} {a : EArgs Mat Map} (hv : Valid w)
    (hn : (∀ r, a.props = some r → r < w.nDicts) ∧ ∀ r, a.weights = some r → r < w.nDicts)
    (h : w.process lib wi e a = .ok (some w')) : Valid w' := by
  obtain ⟨h1, h2, h3, h4, h5, h6, h7, -⟩ := process_facts h
  obtain ⟨rp, rw', k1, k2, k3, k4, -⟩ := process_refs h
  refine ⟨by rw [h5, h2, h3]; exact hv.sub, by rw [h5, h2, h4]; exact hv.ents, ?_, ?_⟩
  · intro x hx r hr
    rw [h4] at hx
    by_cases hxe : x = e
    · subst hxe
      rw [k1, Option.some.injEq] at hr
      subst hr
      rcases k3 with h | h | h
      · exact (hv.props x hx _ h).trans_le h6
      · exact (hn.1 _ h.2).trans_le h6
      · exact h.2.2.2
    · rw [((h7 x).2 hxe).2.1] at hr
      exact (hv.props x hx r hr).trans_le h6
  · intro x hx r hr
    rw [h4] at hx
    by_cases hxe : x = e
    · subst hxe
      rw [k2, Option.some.injEq] at hr
      subst hr
      rcases k4 with h | h | h
      · exact (hv.weights x hx _ h).trans_le h6
      · exact (hn.2 _ h.2).trans_le h6
      · exact h.2.2.2
    · rw [((h7 x).2 hxe).2.2] at hr
      exact (hv.weights x hx r hr).trans_le h6

theorem valid_updateAll {w : World S Str Mat Map K} (hv : Valid w) (sub : S) (l : List ℕ) :
    Valid (w.updateAll lib sub l).1 := by
  obtain ⟨-, -, -, ⟨h1, h2, h3, h4, h5, h6, h7⟩, h8, -⟩ := updateAll_main (lib := lib) w sub l
  refine ⟨by rw [h7, h3, h4]; exact hv.sub, by rw [h7, h3, h5]; exact hv.ents, ?_, ?_⟩
  · intro e he r hr
    rw [(h8 e).2.1] at hr
    rw [h6]; exact hv.props e (h5 ▸ he) r hr
  · intro e he r hr
    rw [(h8 e).2.2.1] at hr
    rw [h6]; exact hv.weights e (h5 ▸ he) r hr

theorem reload_new (w : World S Str Mat Map K) (wi i e : ℕ) (h : (w.wrs wi).ents[i]? = some e) :
    (w.reload wi).ents (w.nEnts + i) = { w.ents e with
      props := (w.ents e).props.map fun _ => w.nDicts + 2 * i
      weights := (w.ents e).weights.map fun _ => w.nDicts + 2 * i + 1 } ∧
    (w.reload wi).dicts (w.nDicts + 2 * i) = w.dictOf (w.ents e).props ∧
    (w.reload wi).dicts (w.nDicts + 2 * i + 1) = w.dictOf (w.ents e).weights := by
  refine ⟨?_, ?_, ?_⟩
  · simp [World.reload, h]
  · have h1 : (w.nDicts + 2 * i - w.nDicts) / 2 = i := by omega
    have h2 : (w.nDicts + 2 * i - w.nDicts) % 2 = 0 := by omega
    unfold World.reload
    dsimp only
    rw [if_pos (by omega), h1, h]
    dsimp only
    rw [if_pos h2]
  · have h1 : (w.nDicts + 2 * i + 1 - w.nDicts) / 2 = i := by omega
    have h2 : (w.nDicts + 2 * i + 1 - w.nDicts) % 2 ≠ 0 := by omega
    unfold World.reload
    dsimp only
    rw [if_pos (by omega), h1, h]
    dsimp only
    rw [if_neg h2]

theorem reload_old (w : World S Str Mat Map K) (wi : ℕ) :
    (∀ e < w.nEnts, (w.reload wi).ents e = w.ents e) ∧ (∀ r < w.nDicts, (w.reload wi).dicts r = w.dicts r) ∧
    (∀ s < w.nSubs, (w.reload wi).subs s = w.subs s) ∧ (∀ wj < w.nWrs, (w.reload wi).wrs wj = w.wrs wj) := by
  refine ⟨fun e he => ?_, fun r hr => ?_, fun s hs => ?_, fun wj hj => ?_⟩
  · simp [World.reload, Nat.not_le.2 he]
  · simp [World.reload, Nat.not_le.2 hr]
  · simp [World.reload, Nat.ne_of_lt hs]
  · simp [World.reload, Nat.ne_of_lt hj]

/-- An entry after loading is old or the copy of one. -/
theorem reload_cases (w : World S Str Mat Map K) (wi e : ℕ) (he : e < (w.reload wi).nEnts) :
    e < w.nEnts ∨ ∃ i x, e = w.nEnts + i ∧ (w.wrs wi).ents[i]? = some x := by
  have he' : e < w.nEnts + (w.wrs wi).ents.length := he
  by_cases h : e < w.nEnts
  · exact Or.inl h
  · refine Or.inr ⟨e - w.nEnts, (w.wrs wi).ents[e - w.nEnts]'(by omega), by omega, ?_⟩
    exact List.getElem?_eq_getElem _

/-- The dictionaries of an entry after loading. -/
theorem reload_refs (w : World S Str Mat Map K) (wi : ℕ) (hv : Valid w) (e : ℕ)
    (he : e < (w.reload wi).nEnts) (r : ℕ) :
    (((w.reload wi).ents e).props = some r →
      e < w.nEnts ∧ (w.ents e).props = some r ∧ r < w.nDicts ∨
      ∃ i, e = w.nEnts + i ∧ i < (w.wrs wi).ents.length ∧ r = w.nDicts + 2 * i) ∧
    (((w.reload wi).ents e).weights = some r →
      e < w.nEnts ∧ (w.ents e).weights = some r ∧ r < w.nDicts ∨
      ∃ i, e = w.nEnts + i ∧ i < (w.wrs wi).ents.length ∧ r = w.nDicts + 2 * i + 1) := by
  rcases reload_cases w wi e he with h | ⟨i, x, rfl, hx⟩
  · rw [(reload_old w wi).1 e h]
    exact ⟨fun hr => Or.inl ⟨h, hr, hv.props e h r hr⟩, fun hr => Or.inl ⟨h, hr, hv.weights e h r hr⟩⟩
  · rw [(reload_new w wi i x hx).1]
    obtain ⟨hi, -⟩ := List.getElem?_eq_some_iff.1 hx
    dsimp only
    constructor
    · intro hr
      obtain ⟨y, -, hy⟩ := Option.map_eq_some_iff.1 hr
      exact Or.inr ⟨i, rfl, hi, hy.symm⟩
    · intro hr
      obtain ⟨y, -, hy⟩ := Option.map_eq_some_iff.1 hr
      exact Or.inr ⟨i, rfl, hi, hy.symm⟩

theorem valid_step {w : World S Str Mat Map K} (hv : Valid w) (o : WrOp S Mat Map K) (hn : Names w o) :
    Valid (w.apply lib o).1 := by
  cases o with
  | mkDict d =>
    exact ⟨hv.sub, hv.ents, fun e he r hr => Nat.lt_succ_of_lt (hv.props e he r hr),
      fun e he r hr => Nat.lt_succ_of_lt (hv.weights e he r hr)⟩
  | new s =>
    have hs : s < w.nSubs := hn
    refine ⟨fun wj hj => ?_, fun wj hj e he => ?_, hv.props, hv.weights⟩
    · have hj' : wj < w.nWrs + 1 := hj
      show (Function.update w.wrs w.nWrs ⟨s, []⟩ wj).sub < w.nSubs
      by_cases h : wj = w.nWrs
      · subst h; simpa using hs
      · rw [Function.update_of_ne h]; exact hv.sub wj (by omega)
    · have hj' : wj < w.nWrs + 1 := hj
      have he' : e ∈ (Function.update w.wrs w.nWrs ⟨s, []⟩ wj).ents := he
      by_cases h : wj = w.nWrs
      · subst h; simp at he'
      · rw [Function.update_of_ne h] at he'; exact hv.ents wj (by omega) e he'
  | process wi e a =>
    unfold World.apply
    dsimp only
    cases hp : w.process lib wi e a with
    | error _ => exact hv
    | ok o =>
      cases o with
      | none => exact hv
      | some w' => exact valid_process hv hn.2.2 hp
  | add wi e a v =>
    unfold World.apply
    dsimp only
    cases hp : w.process lib wi e a with
    | error _ => exact hv
    | ok o =>
      cases o with
      | none => exact hv
      | some w' =>
        obtain ⟨-, h2, -, h4, h5, -⟩ := process_facts hp
        refine valid_setEnts (valid_process hv hn.2.2 hp) wi _ ?_
        intro x hx
        rw [h2] at hx
        rw [h4]
        rcases List.mem_append.1 hx with hx | hx
        · exact hv.ents wi hn.1 x hx
        · simp only [List.mem_singleton] at hx; subst hx; exact hn.2.1
  | append wi es =>
    obtain ⟨l, h1, -, h3, -⟩ := appendAll_facts wi es w
    show Valid (w.appendAll wi es).1
    rw [h3]
    refine valid_setEnts hv wi _ fun x hx => ?_
    rcases List.mem_append.1 hx with hx | hx
    · exact hv.ents wi hn.1 x hx
    · exact hn.2 x (h1.subset hx)
  | update wi => exact valid_updateAll hv _ _
  | change wi s =>
    refine valid_updateAll ?_ _ _
    refine ⟨fun wj hj => ?_, fun wj hj e he => ?_, hv.props, hv.weights⟩
    · show (Function.update w.wrs wi _ wj).sub < w.nSubs
      by_cases h : wj = wi
      · subst h; simpa using hn.2
      · rw [Function.update_of_ne h]; exact hv.sub wj hj
    · have he' : e ∈ (Function.update w.wrs wi { w.wrs wi with sub := s } wj).ents := he
      by_cases h : wj = wi
      · subst h; simp only [Function.update_self] at he'; exact hv.ents wj hj e he'
      · rw [Function.update_of_ne h] at he'; exact hv.ents wj hj e he'
  | edit s t => exact ⟨hv.sub, hv.ents, hv.props, hv.weights⟩
  | remove wi i =>
    exact valid_setEnts hv wi _ fun x hx => hv.ents wi hn x (List.mem_of_mem_eraseIdx hx)
  | removeAll wi => exact valid_setEnts hv wi _ (by simp)
  | addProps wi k v =>
    unfold World.apply
    dsimp only
    split
    · exact hv
    · obtain ⟨d, h1, -⟩ := putAll_facts EObj.props k ((w.wrs wi).ents.zip v) w
      rw [h1]; exact ⟨hv.sub, hv.ents, hv.props, hv.weights⟩
  | addWeights wi k v =>
    unfold World.apply
    dsimp only
    split
    · exact hv
    · obtain ⟨d, h1, -⟩ := putAll_facts EObj.weights k ((w.wrs wi).ents.zip v) w
      rw [h1]; exact ⟨hv.sub, hv.ents, hv.props, hv.weights⟩
  | reload wi =>
    show Valid (w.reload wi)
    have hD : (w.reload wi).nDicts = w.nDicts + 2 * (w.wrs wi).ents.length := rfl
    refine ⟨fun wj hj => ?_, fun wj hj e he => ?_, fun e he r hr => ?_, fun e he r hr => ?_⟩
    · have hj' : wj < w.nWrs + 1 := hj
      by_cases h : wj = w.nWrs
      · subst h; simp [World.reload]
      · rw [(reload_old w wi).2.2.2 wj (by omega)]
        exact (hv.sub wj (by omega)).trans (Nat.lt_succ_self _)
    · have hj' : wj < w.nWrs + 1 := hj
      show e < w.nEnts + (w.wrs wi).ents.length
      by_cases h : wj = w.nWrs
      · subst h
        simp only [World.reload, Function.update_self, List.mem_map, List.mem_range] at he
        obtain ⟨i, hi, rfl⟩ := he
        omega
      · rw [(reload_old w wi).2.2.2 wj (by omega)] at he
        have := hv.ents wj (by omega) e he
        omega
    · rw [hD]
      rcases (reload_refs w wi hv e he r).1 hr with h | ⟨i, -, hi, rfl⟩ <;> omega
    · rw [hD]
      rcases (reload_refs w wi hv e he r).2 hr with h | ⟨i, -, hi, rfl⟩ <;> omega

theorem nWrs_step (w : World S Str Mat Map K) (o : WrOp S Mat Map K) : w.nWrs ≤ (w.apply lib o).1.nWrs := by
  cases o with
  | mkDict d => exact le_rfl
  | new s => exact Nat.le_succ _
  | process wi e a =>
    unfold World.apply
    dsimp only
    cases hp : w.process lib wi e a with
    | error _ => exact le_rfl
    | ok o =>
      cases o with
      | none => exact le_rfl
      | some w' => exact (process_facts hp).2.2.2.2.1.ge
  | add wi e a v =>
    unfold World.apply
    dsimp only
    cases hp : w.process lib wi e a with
    | error _ => exact le_rfl
    | ok o =>
      cases o with
      | none => exact le_rfl
      | some w' => exact (process_facts hp).2.2.2.2.1.ge
  | append wi es =>
    obtain ⟨l, -, -, h3, -⟩ := appendAll_facts wi es w
    show w.nWrs ≤ (w.appendAll wi es).1.nWrs
    rw [h3]; exact le_rfl
  | update wi => exact (updateAll_main (lib := lib) w _ _).2.2.2.1.2.2.2.2.2.2.ge
  | change wi s =>
    exact (updateAll_main (lib := lib) { w with wrs := Function.update w.wrs wi { w.wrs wi with sub := s } }
      _ _).2.2.2.1.2.2.2.2.2.2.ge
  | edit s t => exact le_rfl
  | remove wi i => exact le_rfl
  | removeAll wi => exact le_rfl
  | addProps wi k v =>
    unfold World.apply
    dsimp only
    split
    · exact le_rfl
    · obtain ⟨d, h1, -⟩ := putAll_facts EObj.props k ((w.wrs wi).ents.zip v) w
      rw [h1]
  | addWeights wi k v =>
    unfold World.apply
    dsimp only
    split
    · exact le_rfl
    · obtain ⟨d, h1, -⟩ := putAll_facts EObj.weights k ((w.wrs wi).ents.zip v) w
      rw [h1]
  | reload wi => exact Nat.le_succ _

theorem apart_setEnts {w : World S Str Mat Map K} (ha : Apart w) (wi : ℕ) (l : List ℕ) (hl : l.Nodup)
    (h : ∀ e ∈ l, (w.ents e).props.isSome = true ∧ (w.ents e).weights.isSome = true) :
    Apart (w.setEnts wi l) := by
  refine ⟨ha.props, ha.weights, ha.cross, fun wj hj => ?_, fun wj hj e he => ?_⟩
  · unfold World.setEnts
    by_cases h : wj = wi
    · subst h; simpa using hl
    · simpa [h] using ha.once wj hj
  · unfold World.setEnts at he
    by_cases hj' : wj = wi
    · subst hj'; simp only [Function.update_self] at he; exact h e he
    · simp only [Function.update_of_ne hj'] at he; exact ha.have_ wj hj e he

theorem apart_process {w w' : World S Str Mat Map K} {wi e : ℕ} {a : EArgs Mat Map} (hv : Valid w)
    (he : e < w.nEnts)
    (hn : (∀ r, a.props = some r → r < w.nDicts) ∧ ∀ r, a.weights = some r → r < w.nDicts)
    (hs : (∀ r, a.props = some r → Unused w r) ∧ (∀ r, a.weights = some r → Unused w r) ∧
      ∀ r, a.props = some r → a.weights ≠ some r)
    (ha : Apart w) (h : w.process lib wi e a = .ok (some w')) :
    Apart w' ∧ (w'.ents e).props.isSome = true ∧ (w'.ents e).weights.isSome = true := by
  obtain ⟨-, h2, -, h4, h5, h6, h7, -⟩ := process_facts h
  obtain ⟨rp, rw', k1, k2, k3, k4, k5⟩ := process_refs h
  -- no other entry has the dictionaries of this one
  have P : ∀ x < w.nEnts, x ≠ e → (w.ents x).props ≠ some rp ∧ (w.ents x).weights ≠ some rp := by
    intro x hx hxe
    rcases k3 with h | h | h
    · exact ⟨fun h' => hxe (ha.props x hx e he rp h' h), ha.cross e he x hx rp h⟩
    · exact hs.1 rp h.2 x hx
    · exact ⟨fun h' => absurd (hv.props x hx rp h') (by omega), fun h' =>
        absurd (hv.weights x hx rp h') (by omega)⟩
  have W : ∀ x < w.nEnts, x ≠ e → (w.ents x).props ≠ some rw' ∧ (w.ents x).weights ≠ some rw' := by
    intro x hx hxe
    rcases k4 with h | h | h
    · exact ⟨fun h' => ha.cross x hx e he rw' h' h, fun h' => hxe (ha.weights x hx e he rw' h' h)⟩
    · exact hs.2.1 rw' h.2 x hx
    · exact ⟨fun h' => absurd (hv.props x hx rw' h') (by omega), fun h' =>
        absurd (hv.weights x hx rw' h') (by omega)⟩
  have X : rp ≠ rw' := by
    rintro rfl
    rcases k3 with h | h | h
    · rcases k4 with g | g | g
      · exact ha.cross e he e he rp h g
      · exact (hs.2.1 rp g.2 e he).1 h
      · exact absurd (hv.props e he rp h) (by omega)
    · rcases k4 with g | g | g
      · exact (hs.1 rp h.2 e he).2 g
      · exact hs.2.2 rp h.2 g.2
      · exact absurd (hn.1 rp h.2) (by omega)
    · rcases k4 with g | g | g
      · exact absurd (hv.weights e he rp g) (by omega)
      · exact absurd (hn.2 rp g.2) (by omega)
      · exact k5 h.2.2.1 g.2.2.1 h.1 h.2.1 g.1 g.2.1 rfl
  have val : ∀ x, x ≠ e → (w'.ents x).props = (w.ents x).props ∧ (w'.ents x).weights = (w.ents x).weights :=
    fun x hx => ((h7 x).2 hx).2
  refine ⟨⟨?_, ?_, ?_, by rw [h5, h2]; exact ha.once, ?_⟩, by rw [k1]; rfl, by rw [k2]; rfl⟩
  · intro x hx y hy r hxr hyr
    rw [h4] at hx hy
    by_cases hxe : x = e
    · by_cases hye : y = e
      · rw [hxe, hye]
      · subst hxe
        rw [k1, Option.some.injEq] at hxr
        rw [(val y hye).1, ← hxr] at hyr
        exact absurd hyr (P y hy hye).1
    · rw [(val x hxe).1] at hxr
      by_cases hye : y = e
      · subst hye
        rw [k1, Option.some.injEq] at hyr
        rw [← hyr] at hxr
        exact absurd hxr (P x hx hxe).1
      · rw [(val y hye).1] at hyr
        exact ha.props x hx y hy r hxr hyr
  · intro x hx y hy r hxr hyr
    rw [h4] at hx hy
    by_cases hxe : x = e
    · by_cases hye : y = e
      · rw [hxe, hye]
      · subst hxe
        rw [k2, Option.some.injEq] at hxr
        rw [(val y hye).2, ← hxr] at hyr
        exact absurd hyr (W y hy hye).2
    · rw [(val x hxe).2] at hxr
      by_cases hye : y = e
      · subst hye
        rw [k2, Option.some.injEq] at hyr
        rw [← hyr] at hxr
        exact absurd hxr (W x hx hxe).2
      · rw [(val y hye).2] at hyr
        exact ha.weights x hx y hy r hxr hyr
  · intro x hx y hy r hxr hyr
    rw [h4] at hx hy
    by_cases hxe : x = e
    · subst hxe
      rw [k1, Option.some.injEq] at hxr
      by_cases hye : y = x
      · subst hye
        rw [k2, Option.some.injEq] at hyr
        exact X (hxr.trans hyr.symm)
      · rw [(val y hye).2, ← hxr] at hyr
        exact (P y hy hye).2 hyr
    · rw [(val x hxe).1] at hxr
      by_cases hye : y = e
      · subst hye
        rw [k2, Option.some.injEq] at hyr
        rw [← hyr] at hxr
        exact (W x hx hxe).1 hxr
      · rw [(val y hye).2] at hyr
        exact ha.cross x hx y hy r hxr hyr
  · intro wj hj x hx
    rw [h5] at hj
    rw [h2] at hx
    by_cases hxe : x = e
    · subst hxe; rw [k1, k2]; exact ⟨rfl, rfl⟩
    · rw [(val x hxe).1, (val x hxe).2]; exact ha.have_ wj hj x hx

theorem apart_updateAll {w : World S Str Mat Map K} (ha : Apart w) (sub : S) (l : List ℕ) :
    Apart (w.updateAll lib sub l).1 := by
  obtain ⟨-, -, -, ⟨h1, h2, h3, h4, h5, h6, h7⟩, h8, -⟩ := updateAll_main (lib := lib) w sub l
  have hp := fun e => (h8 e).2.1
  have hw := fun e => (h8 e).2.2.1
  constructor
  · simp only [h5, hp]; exact ha.props
  · simp only [h5, hw]; exact ha.weights
  · simp only [h5, hp, hw]; exact ha.cross
  · rw [h7, h3]; exact ha.once
  · rw [h7, h3]; simp only [hp, hw]; exact ha.have_

theorem apart_reload {w : World S Str Mat Map K} (hv : Valid w) (ha : Apart w) (wi : ℕ) (hwi : wi < w.nWrs) :
    Apart (w.reload wi) := by
  refine ⟨?_, ?_, ?_, ?_, ?_⟩
  · intro x hx y hy r hxr hyr
    rcases (reload_refs w wi hv x hx r).1 hxr with ⟨a1, a2, a3⟩ | ⟨i, rfl, hi, rfl⟩ <;>
      rcases (reload_refs w wi hv y hy _).1 hyr with ⟨b1, b2, b3⟩ | ⟨j, rfl, hj, hr⟩
    · exact ha.props x a1 y b1 r a2 b2
    all_goals omega
  · intro x hx y hy r hxr hyr
    rcases (reload_refs w wi hv x hx r).2 hxr with ⟨a1, a2, a3⟩ | ⟨i, rfl, hi, rfl⟩ <;>
      rcases (reload_refs w wi hv y hy _).2 hyr with ⟨b1, b2, b3⟩ | ⟨j, rfl, hj, hr⟩
    · exact ha.weights x a1 y b1 r a2 b2
    all_goals omega
  · intro x hx y hy r hxr hyr
    rcases (reload_refs w wi hv x hx r).1 hxr with ⟨a1, a2, a3⟩ | ⟨i, rfl, hi, rfl⟩ <;>
      rcases (reload_refs w wi hv y hy _).2 hyr with ⟨b1, b2, b3⟩ | ⟨j, rfl, hj, hr⟩
    · exact ha.cross x a1 y b1 r a2 b2
    all_goals omega
  · intro wj hj
    have hj' : wj < w.nWrs + 1 := hj
    by_cases h : wj = w.nWrs
    · subst h
      simp only [World.reload, Function.update_self]
      exact List.nodup_range.map fun a b h => by simpa using h
    · rw [(reload_old w wi).2.2.2 wj (by omega)]
      exact ha.once wj (by omega)
  · intro wj hj e he
    have hj' : wj < w.nWrs + 1 := hj
    by_cases h : wj = w.nWrs
    · subst h
      simp only [World.reload, Function.update_self, List.mem_map, List.mem_range] at he
      obtain ⟨i, hi, rfl⟩ := he
      rw [(reload_new w wi i _ (List.getElem?_eq_getElem hi)).1]
      have := ha.have_ wi hwi _ (List.getElem_mem hi)
      simpa using this
    · rw [(reload_old w wi).2.2.2 wj (by omega)] at he
      rw [(reload_old w wi).1 e (hv.ents wj (by omega) e he)]
      exact ha.have_ wj (by omega) e he

theorem apart_step {w : World S Str Mat Map K} (hv : Valid w) (ha : Apart w) (o : WrOp S Mat Map K)
    (hn : Names w o) (hs : Separate w o) : Apart (w.apply lib o).1 := by
  cases o with
  | mkDict d => exact ⟨ha.props, ha.weights, ha.cross, ha.once, ha.have_⟩
  | new s =>
    refine ⟨ha.props, ha.weights, ha.cross, fun wj hj => ?_, fun wj hj e he => ?_⟩
    · have hj' : wj < w.nWrs + 1 := hj
      show (Function.update w.wrs w.nWrs ⟨s, []⟩ wj).ents.Nodup
      by_cases h : wj = w.nWrs
      · subst h; simp
      · rw [Function.update_of_ne h]; exact ha.once wj (by omega)
    · have hj' : wj < w.nWrs + 1 := hj
      have he' : e ∈ (Function.update w.wrs w.nWrs ⟨s, []⟩ wj).ents := he
      by_cases h : wj = w.nWrs
      · subst h; simp at he'
      · rw [Function.update_of_ne h] at he'; exact ha.have_ wj (by omega) e he'
  | process wi e a =>
    unfold World.apply
    dsimp only
    cases hp : w.process lib wi e a with
    | error _ => exact ha
    | ok o =>
      cases o with
      | none => exact ha
      | some w' => exact (apart_process hv hn.2.1 hn.2.2 hs ha hp).1
  | add wi e a v =>
    unfold World.apply
    dsimp only
    cases hp : w.process lib wi e a with
    | error _ => exact ha
    | ok o =>
      cases o with
      | none => exact ha
      | some w' =>
        obtain ⟨g1, g2⟩ := apart_process hv hn.2.1 hn.2.2 ⟨hs.1, hs.2.1, hs.2.2.1⟩ ha hp
        obtain ⟨-, h2, -, h4, h5, -⟩ := process_facts hp
        refine apart_setEnts g1 wi _ ?_ ?_
        · rw [h2]
          exact List.nodup_append.2 ⟨ha.once wi hn.1, by simp, fun x hx y hy => by
            simp only [List.mem_singleton] at hy
            subst hy
            rintro rfl
            exact hs.2.2.2 hx⟩
        · intro x hx
          rcases List.mem_append.1 hx with hx | hx
          · exact g1.have_ wi (h5 ▸ hn.1) x hx
          · simp only [List.mem_singleton] at hx
            subst hx
            exact g2
  | append wi es =>
    obtain ⟨l, h1, -, h3, -⟩ := appendAll_facts wi es w
    show Apart (w.appendAll wi es).1
    rw [h3]
    refine apart_setEnts ha wi _ ?_ fun x hx => ?_
    · exact hs.1.sublist (List.Sublist.append_left h1.sublist _)
    · rcases List.mem_append.1 hx with hx | hx
      · exact ha.have_ wi hn.1 x hx
      · exact hs.2 x (h1.subset hx)
  | update wi => exact apart_updateAll ha _ _
  | change wi s =>
    refine apart_updateAll ?_ _ _
    refine ⟨ha.props, ha.weights, ha.cross, fun wj hj => ?_, fun wj hj e he => ?_⟩
    · show (Function.update w.wrs wi { w.wrs wi with sub := s } wj).ents.Nodup
      by_cases h : wj = wi
      · subst h; simpa using ha.once wj hj
      · rw [Function.update_of_ne h]; exact ha.once wj hj
    · have he' : e ∈ (Function.update w.wrs wi { w.wrs wi with sub := s } wj).ents := he
      by_cases h : wj = wi
      · subst h; simp only [Function.update_self] at he'; exact ha.have_ wj hj e he'
      · rw [Function.update_of_ne h] at he'; exact ha.have_ wj hj e he'
  | edit s t => exact ⟨ha.props, ha.weights, ha.cross, ha.once, ha.have_⟩
  | remove wi i =>
    exact apart_setEnts ha wi _ ((ha.once wi hn).sublist (List.eraseIdx_sublist _ _))
      fun x hx => ha.have_ wi hn x (List.mem_of_mem_eraseIdx hx)
  | removeAll wi => exact apart_setEnts ha wi _ List.nodup_nil (by simp)
  | addProps wi k v =>
    unfold World.apply
    dsimp only
    split
    · exact ha
    · obtain ⟨d, h1, -⟩ := putAll_facts EObj.props k ((w.wrs wi).ents.zip v) w
      rw [h1]; exact ⟨ha.props, ha.weights, ha.cross, ha.once, ha.have_⟩
  | addWeights wi k v =>
    unfold World.apply
    dsimp only
    split
    · exact ha
    · obtain ⟨d, h1, -⟩ := putAll_facts EObj.weights k ((w.wrs wi).ents.zip v) w
      rw [h1]; exact ⟨ha.props, ha.weights, ha.cross, ha.once, ha.have_⟩
  | reload wi => exact apart_reload hv ha wi hn

/-- Assigning values in distinct dictionaries. -/
theorem putAll_look (ref : EObj Str Mat Map K → Option ℕ) (k : String) (l : List ℕ) (v : List K)
    (hlen : l.length = v.length) (w : World S Str Mat Map K)
    (hsome : ∀ e ∈ l, (ref (w.ents e)).isSome = true)
    (hnd : l.Pairwise fun e e' => ref (w.ents e) ≠ ref (w.ents e')) :
    (l.mapM fun e => ((w.putAll ref k (l.zip v)).dictOf (ref (w.ents e))).lookup k) = some v ∧
    ∀ k' e, k' ≠ k → ((w.putAll ref k (l.zip v)).dictOf (ref (w.ents e))).lookup k' =
      (w.dictOf (ref (w.ents e))).lookup k' := by
  induction l generalizing v w with
  | nil =>
    cases v with
    | nil => exact ⟨rfl, fun _ _ _ => rfl⟩
    | cons x v => simp at hlen
  | cons e l ih =>
    cases v with
    | nil => simp at hlen
    | cons x v =>
      obtain ⟨r, hr⟩ := Option.isSome_iff_exists.1 (hsome e (by simp))
      set w₁ : World S Str Mat Map K :=
        { w with dicts := Function.update w.dicts r ((w.dicts r).put k x) } with hw₁
      have hput : w.putAll ref k ((e :: l).zip (x :: v)) = w₁.putAll ref k (l.zip v) := by
        rw [List.zip_cons_cons]
        conv_lhs => unfold World.putAll
        rw [hr]
      rw [List.pairwise_cons] at hnd
      obtain ⟨i1, i2⟩ := ih v (by simpa using hlen) w₁ (fun y hy => hsome y (by simp [hy])) hnd.2
      rw [hput]
      have hd1 : ∀ o k', k' ≠ k → (w₁.dictOf o).lookup k' = (w.dictOf o).lookup k' := by
        intro o k' hk
        unfold World.dictOf
        cases o with
        | none => rfl
        | some s =>
          simp only [Option.map_some, Option.getD_some, hw₁]
          by_cases hs : s = r
          · subst hs; rw [Function.update_self, lookup_put, if_neg hk]
          · rw [Function.update_of_ne hs]
      constructor
      · obtain ⟨d, h1, h2⟩ := putAll_facts ref k (l.zip v) w₁
        have hfirst : ((w₁.putAll ref k (l.zip v)).dictOf (ref (w.ents e))).lookup k = some x := by
          rw [hr]
          unfold World.dictOf
          simp only [Option.map_some, Option.getD_some]
          rw [h1]
          dsimp only
          rw [h2 r fun p hp => ?_]
          · simp [hw₁, lookup_put]
          · have := hnd.1 p.1 (List.of_mem_zip hp).1
            rw [hr] at this
            exact fun h => this h.symm
        rw [List.mapM_cons, hfirst]
        have : (l.mapM fun e => ((w₁.putAll ref k (l.zip v)).dictOf (ref (w.ents e))).lookup k) = some v := i1
        simp [this]
      · intro k' y hk
        have := i2 k' y hk
        rw [show w₁.ents = w.ents from rfl] at this
        rw [this, hd1 _ _ hk]

theorem mapM_via {α β : Type*} (f : α → Option β) (l : List α) : l.mapM f = (l.map f).mapM id := by
  induction l with
  | nil => rfl
  | cons a l ih => rw [List.map_cons, List.mapM_cons, List.mapM_cons, ih]; rfl

theorem apart_pairwise {w : World S Str Mat Map K} (hv : Valid w) (ha : Apart w) {wi : ℕ} (hwi : wi < w.nWrs) :
    ((w.wrs wi).ents.Pairwise fun e e' => (w.ents e).props ≠ (w.ents e').props) ∧
    (w.wrs wi).ents.Pairwise fun e e' => (w.ents e).weights ≠ (w.ents e').weights := by
  constructor
  · refine List.Pairwise.imp_of_mem ?_ (ha.once wi hwi)
    intro a b h1 h2 hab h
    obtain ⟨r, hr⟩ := Option.isSome_iff_exists.1 (ha.have_ wi hwi a h1).1
    exact hab (ha.props a (hv.ents wi hwi a h1) b (hv.ents wi hwi b h2) r hr (h ▸ hr))
  · refine List.Pairwise.imp_of_mem ?_ (ha.once wi hwi)
    intro a b h1 h2 hab h
    obtain ⟨r, hr⟩ := Option.isSome_iff_exists.1 (ha.have_ wi hwi a h1).2
    exact hab (ha.weights a (hv.ents wi hwi a h1) b (hv.ents wi hwi b h2) r hr (h ▸ hr))

theorem mem_keysOf {V : Type*} (d : SDict V) (k : String) : k ∈ d.keysOf ↔ ∃ v, (k, v) ∈ d := by
  simp [SDict.keysOf]

theorem mem_availableO (w : World S Str Mat Map K) (wi : ℕ) (k : String) :
    (k ∈ w.available wi ↔ HasProperty w wi k) ∧ (k ∈ w.availableW wi ↔ HasWeight w wi k) := by
  constructor
  · simp only [World.available, List.mem_flatMap, HasProperty]
    refine exists_congr fun e => and_congr_right fun _ => ?_
    cases h : (w.ents e).props with
    | none => simp [World.dictOf, SDict.keysOf]
    | some r => simp [World.dictOf, mem_keysOf]
  · simp only [World.availableW, List.mem_flatMap, HasWeight]
    refine exists_congr fun e => and_congr_right fun _ => ?_
    cases h : (w.ents e).weights with
    | none => simp [World.dictOf, SDict.keysOf]
    | some r => simp [World.dictOf, mem_keysOf]

theorem accepts_iff (w : World S Str Mat Map K) (wi : ℕ) (a : EArgs Mat Map) :
    w.accepts wi a.props a.weights = true ↔ NamesFit w wi a := by
  unfold World.accepts NamesFit
  have hav : (∃ k, HasProperty w wi k) ↔ w.available wi ≠ [] := by
    refine ⟨fun ⟨k, hk⟩ h0 => ?_, fun h0 => ?_⟩
    · have := (mem_availableO w wi k).1.2 hk
      rw [h0] at this
      simp at this
    · obtain ⟨k, hk⟩ := List.exists_mem_of_ne_nil _ h0
      exact ⟨k, (mem_availableO w wi k).1.1 hk⟩
  by_cases h : (w.wrs wi).ents = [] ∨ w.available wi = []
  · rw [if_pos h]
    have : w.available wi = [] := by
      rcases h with h | h
      · simp [World.available, h]
      · exact h
    simp [hav, this]
  · rw [if_neg h]
    push Not at h
    simp only [Bool.and_eq_true, hav, h.2, ne_eq, not_false_eq_true, forall_const]
    refine and_congr ?_ ?_
    · cases a.props with
      | none => simp
      | some r =>
        simp only [sameKeys_iff, mem_keysOf, (mem_availableO w wi _).1, Option.some.injEq, forall_eq']
    · cases a.weights with
      | none => simp
      | some r =>
        simp only [sameKeys_iff, mem_keysOf, (mem_availableO w wi _).2, Option.some.injEq, forall_eq']

theorem processed_unique {sub : S} {str : Str} {a : EArgs Mat Map} {d d' : EData Mat Map K}
    (h : Processed lib sub str a d) (h' : Processed lib sub str a d') : d = d' := by
  obtain ⟨m, mp, c, z⟩ := d
  obtain ⟨m', mp', c', z'⟩ := d'
  obtain ⟨h1, h2, h3, h4⟩ := h
  obtain ⟨g1, g2, g3, g4⟩ := h'
  dsimp only at *
  have e1 : m = m' := by
    rcases h1 with h1 | ⟨h1, h1'⟩ <;> rcases g1 with g1 | ⟨g1, g1'⟩ <;> simp_all
  subst e1
  have e2 : mp = mp' := by
    rcases h2 with h2 | ⟨h2, h2'⟩ <;> rcases g2 with g2 | ⟨g2, g2'⟩ <;> simp_all
  subst e2
  rw [h3, Except.ok.injEq] at g3
  subst g3
  rw [h4, g4]

theorem process_of {w : World S Str Mat Map K} {wi e : ℕ} {a : EArgs Mat Map} (hf : NamesFit w wi a)
    (d : EData Mat Map K) (hd : Processed lib (w.subs (w.wrs wi).sub) (w.ents e).str a d) :
    w.process lib wi e a =
      .ok (some (((w.setData e d).storeProps e a.props).storeWeights e a.weights)) := by
  obtain ⟨m, mp, c, z⟩ := d
  obtain ⟨h1, h2, h3, h4⟩ := hd
  dsimp only at *
  subst h4
  unfold World.process
  dsimp only
  rw [(accepts_iff w wi a).2 hf]
  have e1 : (a.mat.orElse fun _ => lib.findMat (w.subs (w.wrs wi).sub) (w.ents e).str) = some m := by
    rcases h1 with h1 | ⟨h1, h1'⟩ <;> simp_all
  have e2 : (a.map.orElse fun _ => lib.findMap (w.subs (w.wrs wi).sub) (w.ents e).str m) = some mp := by
    rcases h2 with h2 | ⟨h2, h2'⟩ <;> simp_all
  rw [e1]
  dsimp only
  rw [e2]
  dsimp only
  rw [h3]
  rfl

theorem process_processed {w w' : World S Str Mat Map K} {wi e : ℕ} {a : EArgs Mat Map}
    (h : w.process lib wi e a = .ok (some w')) : NamesFit w wi a ∧
      ∃ d, Processed lib (w.subs (w.wrs wi).sub) (w.ents e).str a d ∧ (w'.ents e).data = some d := by
  constructor
  · rw [← accepts_iff]
    by_contra hn
    rw [Bool.not_eq_true] at hn
    unfold World.process at h
    dsimp only at h
    rw [hn] at h
    simp at h
  · obtain ⟨m, mp, row, h1, h2, h3, h4, h5, rfl⟩ := process_some h
    refine ⟨⟨m, mp, row, lib.size m⟩, ⟨?_, ?_, h1, rfl⟩, ?_⟩
    · cases hm : a.mat with
      | none => exact Or.inr ⟨rfl, h4 hm⟩
      | some x => exact Or.inl (by rw [h2 x hm])
    · cases hm : a.map with
      | none => exact Or.inr ⟨rfl, h5 hm⟩
      | some x => exact Or.inl (by rw [h3 x hm])
    · generalize (⟨m, mp, row, lib.size m⟩ : EData Mat Map K) = d
      rw [((storeWeights_facts _ e a.weights).2.2.2.2.2.2.1 e).2.1,
        ((storeProps_facts _ e a.props).2.2.2.2.2.2.1 e).2.1]
      simp [World.setData]

theorem lookup_updateWith {V : Type*} (other d : SDict V) (hn : (other.map Prod.fst).Nodup) (k : String) :
    (d.updateWith other).lookup k = (other.lookup k).orElse fun _ => d.lookup k := by
  induction other generalizing d with
  | nil => rfl
  | cons p l ih =>
    rw [List.map_cons, List.nodup_cons] at hn
    show (SDict.updateWith (d.put p.1 p.2) l).lookup k = _
    rw [ih _ hn.2, lookup_put, List.lookup_cons]
    by_cases hk : k = p.1
    · subst hk
      have : List.lookup p.1 l = none := by
        rw [List.lookup_eq_none_iff]
        intro q hq
        simp only [bne_iff_ne, ne_eq]
        rintro h
        exact hn.1 (h ▸ List.mem_map_of_mem hq)
      simp [this]
    · have : (k == p.1) = false := by simpa using hk
      simp [hk]
      rw [this]

end Smol
