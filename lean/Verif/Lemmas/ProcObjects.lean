import Verif.Spec.ProcObjects

/-! Lemmas for processors as objects. -/

set_option linter.unusedSectionVars false

namespace Smol
open Smol.Spec

variable {K : Type} [Zero K] [One K] [Neg K] [LT K] [DecidableLT K]

theorem prefix_get {α : Type*} {l l' : List α} (h : l <+: l') {i : ℕ} {a : α} (hi : l[i]? = some a) :
    l'[i]? = some a := by
  obtain ⟨t, rfl⟩ := h
  rw [List.getElem?_append_left (List.getElem?_eq_some_iff.1 hi).1, hi]

theorem Grown.refl (s : SubObj) : Grown s s := ⟨rfl, rfl, List.prefix_refl _⟩

theorem Grown.trans {a b c : SubObj} (h : Grown a b) (h' : Grown b c) : Grown a c :=
  ⟨h'.1.trans h.1, h'.2.1.trans h.2.1, h.2.2.trans h'.2.2⟩

theorem addTerm_some {s s' : SubObj} {t : ExtTerm} (h : s.addTerm t = some s') :
    (∀ u ∈ s.terms, u.cls ≠ t.cls) ∧ s' = { s with terms := s.terms ++ [t] } := by
  unfold SubObj.addTerm at h
  split at h
  · cases h
  · rename_i hn
    cases h
    refine ⟨?_, rfl⟩
    intro u hu he
    exact hn (List.any_eq_true.2 ⟨u, hu, by simp [he]⟩)

theorem addTerm_grown {s s' : SubObj} {t : ExtTerm} (h : s.addTerm t = some s') : Grown s s' := by
  obtain ⟨-, rfl⟩ := addTerm_some h
  exact ⟨rfl, rfl, List.prefix_append _ _⟩

/-- what a processor of a kind needs of its subspace and coefficients, ever after -/
def Fits (kind : PKind K) (s : SubObj) (coefs : List K) : Prop :=
  match kind with
  | .expansion => coefs.length = s.numCorr
  | .ewald _ => ∃ t ∈ s.terms, t.cls = 0
  | .distance target => coefs.length = target.length ∧ coefs.length = s.numCorr ∧
      ∀ c ∈ coefs.head?, ¬ 0 < c

theorem Fits.grown {kind : PKind K} {s s' : SubObj} {coefs : List K} (h : Fits kind s coefs)
    (hg : Grown s s') : Fits kind s' coefs := by
  cases kind with
  | expansion => exact Eq.trans h hg.2.1.symm
  | ewald t =>
    obtain ⟨u, hu, he⟩ := h
    exact ⟨u, hg.2.2.subset hu, he⟩
  | distance target => exact ⟨h.1, h.2.1.trans hg.2.1.symm, h.2.2⟩

theorem construct_some {kind : PKind K} {s s' : SubObj} {coefs : List K}
    (h : kind.construct s coefs = some s') : Grown s s' ∧ Fits kind s' coefs := by
  cases kind with
  | expansion =>
    unfold PKind.construct at h
    simp only at h
    split at h
    · rename_i hl
      cases h
      exact ⟨Grown.refl _, hl⟩
    · cases h
  | ewald t =>
    unfold PKind.construct at h
    simp only at h
    split at h
    · rename_i hl
      cases h
      obtain ⟨u, hu, he⟩ := List.any_eq_true.1 hl
      exact ⟨Grown.refl _, u, hu, by simpa using he⟩
    · refine ⟨addTerm_grown h, ?_⟩
      obtain ⟨-, rfl⟩ := addTerm_some h
      exact ⟨⟨0, 0⟩, by simp, rfl⟩
  | distance target =>
    unfold PKind.construct at h
    simp only at h
    split at h
    · cases h
    · split at h
      · cases h
      · rename_i h0
        split at h
        · cases h
        · rename_i hl
          split at h
          · rename_i hn
            cases h
            refine ⟨Grown.refl _, not_not.1 hl, hn, ?_⟩
            intro c hc h0'
            exact h0 ⟨c, hc, h0'⟩
          · cases h

/-- what holds after any session -/
structure PInv (w : PWorld K) : Prop where
  proc : ∀ p ∈ w.procs, ∃ s, w.subs[p.sub]? = some s ∧ Fits p.kind s p.coefs
  comp : ∀ C ∈ w.comps, ∃ s, w.subs[C.sub]? = some s ∧
    (∀ i ∈ C.parts, ∃ p s', w.procs[i]? = some p ∧ w.subs[p.sub]? = some s' ∧ p.mat = C.mat ∧
      s'.orbits = s.orbits ∧ s'.numCorr = s.numCorr) ∧
    C.coefs = (C.parts.map fun i => ((w.procs[i]?).map PObj.coefs).getD []).flatten

/-- the subspaces there were, possibly grown -/
def SubsGrow (l l' : List SubObj) : Prop :=
  ∀ (i : ℕ) (s : SubObj), l[i]? = some s → ∃ s', l'[i]? = some s' ∧ Grown s s'

theorem SubsGrow.of_prefix {l l' : List SubObj} (h : l <+: l') : SubsGrow l l' :=
  fun _ s hs => ⟨s, prefix_get h hs, Grown.refl s⟩

theorem SubsGrow.set {l : List SubObj} {i : ℕ} {s s' : SubObj} (hs : l[i]? = some s) (h : Grown s s') :
    SubsGrow l (l.set i s') := by
  intro j t ht
  by_cases hij : i = j
  · subst hij
    rw [hs] at ht
    cases ht
    exact ⟨s', by rw [List.getElem?_set_self (List.getElem?_eq_some_iff.1 hs).1], h⟩
  · exact ⟨t, by rw [List.getElem?_set_ne hij, ht], Grown.refl t⟩

theorem coefs_congr {procs procs' : List (PObj K)} (h : procs <+: procs') (parts : List ℕ)
    (hp : ∀ i ∈ parts, ∃ p, procs[i]? = some p) :
    (parts.map fun i => ((procs[i]?).map PObj.coefs).getD []).flatten =
      (parts.map fun i => ((procs'[i]?).map PObj.coefs).getD []).flatten := by
  congr 1
  apply List.map_congr_left
  intro i hi
  obtain ⟨p, hp⟩ := hp i hi
  rw [hp, prefix_get h hp]

/-- composites survive growth -/
theorem comp_grow {w w' : PWorld K} (hs : SubsGrow w.subs w'.subs) (hp : w.procs <+: w'.procs)
    {C : CObj K} (h : ∃ s, w.subs[C.sub]? = some s ∧
    (∀ i ∈ C.parts, ∃ p s', w.procs[i]? = some p ∧ w.subs[p.sub]? = some s' ∧ p.mat = C.mat ∧
      s'.orbits = s.orbits ∧ s'.numCorr = s.numCorr) ∧
    C.coefs = (C.parts.map fun i => ((w.procs[i]?).map PObj.coefs).getD []).flatten) :
    ∃ s, w'.subs[C.sub]? = some s ∧
    (∀ i ∈ C.parts, ∃ p s', w'.procs[i]? = some p ∧ w'.subs[p.sub]? = some s' ∧ p.mat = C.mat ∧
      s'.orbits = s.orbits ∧ s'.numCorr = s.numCorr) ∧
    C.coefs = (C.parts.map fun i => ((w'.procs[i]?).map PObj.coefs).getD []).flatten := by
  obtain ⟨s, h1, h2, h3⟩ := h
  obtain ⟨s', h1', hg⟩ := hs _ _ h1
  refine ⟨s', h1', ?_, ?_⟩
  · intro i hi
    obtain ⟨p, t, hp1, hp2, hp3, hp4, hp5⟩ := h2 i hi
    obtain ⟨t', ht', hgt⟩ := hs _ _ hp2
    exact ⟨p, t', prefix_get hp hp1, ht', hp3, by rw [hgt.1, hg.1, hp4], by rw [hgt.2.1, hg.2.1, hp5]⟩
  · rw [h3]
    exact coefs_congr hp _ fun i hi => by
      obtain ⟨p, _, hp1, _⟩ := h2 i hi
      exact ⟨p, hp1⟩

theorem proc_grow {w w' : PWorld K} (hs : SubsGrow w.subs w'.subs) {p : PObj K}
    (h : ∃ s, w.subs[p.sub]? = some s ∧ Fits p.kind s p.coefs) :
    ∃ s, w'.subs[p.sub]? = some s ∧ Fits p.kind s p.coefs := by
  obtain ⟨s, h1, h2⟩ := h
  obtain ⟨s', h1', hg⟩ := hs _ _ h1
  exact ⟨s', h1', h2.grown hg⟩

theorem make_inv {w w' : PWorld K} (hi : PInv w) {kind : PKind K} {sub : ℕ} {mat : List (List ℤ)}
    {coefs : List K} (h : w.make kind sub mat coefs = some w') : PInv w' := by
  unfold PWorld.make at h
  cases hs : w.subs[sub]? with
  | none => rw [hs] at h; cases h
  | some s =>
    rw [hs] at h
    simp only [Option.bind_eq_bind, Option.bind_some] at h
    cases hc : kind.construct s coefs with
    | none => rw [hc] at h; cases h
    | some s' =>
      rw [hc] at h
      simp only [Option.bind_some, Option.some.injEq] at h
      obtain ⟨hg, hf⟩ := construct_some hc
      subst h
      have hsg : SubsGrow w.subs (w.subs.set sub s') := SubsGrow.set hs hg
      refine ⟨?_, fun C hC => comp_grow (w := w) hsg (List.prefix_append _ _) (hi.comp C hC)⟩
      intro p hp
      rcases List.mem_append.1 hp with hp | hp
      · exact proc_grow (w := w) hsg (hi.proc p hp)
      · rw [List.mem_singleton] at hp
        subst hp
        exact ⟨s', List.getElem?_set_self (List.getElem?_eq_some_iff.1 hs).1, hf⟩

theorem eqv_iff (s s' : SubObj) : s.eqv s' = true ↔ Alike s s' := by
  unfold SubObj.eqv Alike
  have hz : ∀ a b : List ExtTerm, (a.length = b.length ∧
      ((a.zip b).all fun p => p.1.cls == p.2.cls) = true) ↔ a.map ExtTerm.cls = b.map ExtTerm.cls := by
    intro a
    induction a with
    | nil =>
      intro b
      cases b <;> simp
    | cons x a ih =>
      intro b
      cases b with
      | nil => simp
      | cons y b =>
        simp only [List.length_cons, Nat.add_right_cancel_iff, List.zip_cons_cons, List.all_cons,
          Bool.and_eq_true, beq_iff_eq, List.map_cons, List.cons.injEq]
        rw [← ih b]
        tauto
  simp only [Bool.and_eq_true, beq_iff_eq]
  rw [← hz]
  tauto

theorem add_some {w w' : PWorld K} {c i : ℕ} (h : w.add c (.proc i) = some w') :
    ∃ C p s s', w.comps[c]? = some C ∧ w.procs[i]? = some p ∧ w.subs[C.sub]? = some s ∧
      w.subs[p.sub]? = some s' ∧ Alike s s' ∧ C.mat = p.mat ∧
      w' = ⟨w.subs, w.procs, w.comps.set c ⟨C.sub, C.mat, C.parts ++ [i], C.coefs ++ p.coefs⟩⟩ := by
  unfold PWorld.add at h
  cases hC : w.comps[c]? with
  | none => rw [hC] at h; cases h
  | some C =>
    rw [hC] at h
    simp only [Option.bind_eq_bind, Option.bind_some] at h
    cases hp : w.procs[i]? with
    | none => rw [hp] at h; cases h
    | some p =>
      rw [hp] at h
      simp only [Option.bind_some] at h
      cases hs : w.subs[C.sub]? with
      | none => rw [hs] at h; cases h
      | some s =>
        rw [hs] at h
        simp only [Option.bind_some] at h
        cases hs' : w.subs[p.sub]? with
        | none => rw [hs'] at h; cases h
        | some s' =>
          rw [hs'] at h
          simp only [Option.bind_some] at h
          split at h
          · rename_i hok
            unfold addOk at hok
            rw [Bool.and_eq_true, decide_eq_true_iff, eqv_iff] at hok
            exact ⟨C, p, s, s', rfl, rfl, hs, hs', hok.1, hok.2, (Option.some.inj h).symm⟩
          · cases h

theorem add_of {w : PWorld K} {c i : ℕ} {C : CObj K} {p : PObj K} {s s' : SubObj}
    (hC : w.comps[c]? = some C) (hp : w.procs[i]? = some p) (hs : w.subs[C.sub]? = some s)
    (hs' : w.subs[p.sub]? = some s') (ha : Alike s s') (hm : C.mat = p.mat) :
    w.add c (.proc i) =
      some ⟨w.subs, w.procs, w.comps.set c ⟨C.sub, C.mat, C.parts ++ [i], C.coefs ++ p.coefs⟩⟩ := by
  unfold PWorld.add
  simp only [hC, hp, Option.bind_eq_bind, Option.bind_some, hs, hs']
  rw [if_pos]
  unfold addOk
  rw [(eqv_iff s s').2 ha]
  simp [hm]

theorem add_inv {w w' : PWorld K} (hi : PInv w) {c : ℕ} {a : AddArg} (h : w.add c a = some w') :
    PInv w' := by
  cases a with
  | comp i => cases h
  | proc i =>
    obtain ⟨C, p, s, s', hC, hp, hs, hs', ha, hm, rfl⟩ := add_some h
    refine ⟨hi.proc, ?_⟩
    intro D hD
    rcases List.mem_or_eq_of_mem_set hD with hD | rfl
    · exact hi.comp D hD
    · obtain ⟨t, h1, h2, h3⟩ := hi.comp C (List.mem_of_getElem? hC)
      rw [hs] at h1
      cases h1
      refine ⟨s, hs, ?_, ?_⟩
      · intro j hj
        rcases List.mem_append.1 hj with hj | hj
        · exact h2 j hj
        · rw [List.mem_singleton] at hj
          subst hj
          exact ⟨p, s', hp, hs', hm.symm, ha.1.symm, ha.2.1.symm⟩
      · simp only [List.map_append, List.map_cons, List.map_nil, List.flatten_append, h3, hp]
        simp

/-! ### loading -/

theorem given_length {D : PDict K} {s : SubObj} (hd : ∃ t, D.kind = .distance t)
    (hl : D.coefs.length = s.numCorr) (ht : s.terms = []) : (D.given s).length = s.numCorr := by
  obtain ⟨t, ht'⟩ := hd
  unfold PDict.given
  rw [ht']
  simp only [ht, List.length_append, List.length_take, List.length_replicate, List.length_nil, hl]
  omega

/-- loading what fits -/
theorem construct_of_fits {kind : PKind K} {s : SubObj} {coefs : List K} (h : Fits kind s coefs)
    (hd : ∀ t, kind = .distance t → s.terms = []) : kind.construct s coefs = some s := by
  cases kind with
  | expansion =>
    have h' : coefs.length = s.numCorr := h
    unfold PKind.construct
    simp only
    rw [if_pos h']
  | ewald t =>
    unfold PKind.construct
    simp only
    obtain ⟨u, hu, he⟩ := h
    rw [if_pos (List.any_eq_true.2 ⟨u, hu, by simp [he]⟩)]
  | distance target =>
    obtain ⟨h1, h2, h3⟩ := h
    unfold PKind.construct
    simp only
    rw [if_neg (by simpa using hd target rfl), if_neg (by rintro ⟨c, hc, h0⟩; exact h3 c hc h0),
      if_neg (by simpa using h1), if_pos h2]

theorem construct_terms {s : SubObj} {coefs target : List K} (h : s.terms ≠ []) :
    (PKind.distance target).construct s coefs = none := by
  unfold PKind.construct
  simp only
  rw [if_pos h]

theorem head_take_append {l m : List K} (h : m ≠ [] → l ≠ []) : (l.take 1 ++ m).head? = l.head? := by
  cases l with
  | nil =>
    cases m with
    | nil => rfl
    | cons a m => exact absurd rfl (h (by simp))
  | cons a l => rfl

/-- loading a processor of a session -/
theorem load_spec {p : PObj K} {s : SubObj} (hf : Fits p.kind s p.coefs) :
    ((IsDistance p → s.terms = []) → ∃ coefs, PDict.load ⟨p.kind, some s, p.mat, p.coefs⟩ =
        (some (s, coefs), (PDict.load ⟨p.kind, some s, p.mat, p.coefs⟩).2) ∧ LoadedCoefs p s coefs ∧
        Fits p.kind s coefs) ∧
    (¬ (IsDistance p → s.terms = []) →
      (PDict.load ⟨p.kind, some s, p.mat, p.coefs⟩).1 = none) := by
  constructor
  · intro hd
    set D : PDict K := ⟨p.kind, some s, p.mat, p.coefs⟩ with hD
    have key : LoadedCoefs p s (D.given s) ∧ Fits p.kind s (D.given s) := by
      by_cases hdist : IsDistance p
      · obtain ⟨t, ht⟩ := hdist
        have hterms := hd ⟨t, ht⟩
        have hf' := hf
        rw [ht] at hf'
        obtain ⟨h1, h2, h3⟩ := hf'
        have hlen : (D.given s).length = s.numCorr := given_length ⟨t, ht⟩ h2 hterms
        have hg : D.given s = p.coefs.take 1 ++ List.replicate (s.numCorr - 1) 1 := by
          unfold PDict.given
          rw [hD]
          simp only [ht, hterms, List.length_nil, Nat.add_zero]
        have hhead : (D.given s).head? = p.coefs.head? := by
          rw [hg]
          apply head_take_append
          intro hm hl
          rw [hl] at h2
          apply hm
          rw [← h2]
          rfl
        refine ⟨⟨fun hn => absurd ⟨t, ht⟩ hn, fun _ => ⟨hlen, hhead, ?_⟩⟩, ?_⟩
        · intro c hc
          rw [hg] at hc
          cases hpc : p.coefs with
          | nil =>
            rw [hpc] at h2
            rw [hpc, ← h2] at hc
            simp at hc
          | cons a l =>
            rw [hpc] at hc
            simp only [List.take_succ_cons, List.take_zero, List.cons_append, List.nil_append,
              List.tail_cons] at hc
            exact List.eq_of_mem_replicate hc
        · rw [ht]
          exact ⟨by rw [hlen, ← h2, h1], hlen, by rw [hhead]; exact h3⟩
      · have hg : D.given s = p.coefs := by
          unfold PDict.given
          rw [hD]
          simp only
          split
          · rename_i t ht
            exact absurd ⟨t, ht⟩ hdist
          · rfl
        rw [hg]
        exact ⟨⟨fun _ => rfl, fun h => absurd h hdist⟩, hf⟩
    refine ⟨D.given s, ?_, key⟩
    have hc : p.kind.construct s (D.given s) = some s :=
      construct_of_fits key.2 fun t ht => hd ⟨t, ht⟩
    unfold PDict.load
    show (_, _) = (_, _)
    rw [show D.sub = some s from rfl, show D.kind = p.kind from rfl]
    simp only [Option.bind_some, hc, Option.map_some]
  · intro hd
    rw [Classical.not_imp] at hd
    obtain ⟨⟨t, ht⟩, hn⟩ := hd
    unfold PDict.load
    simp only [Option.bind_some, ht]
    rw [construct_terms hn]
    rfl

/-- saving and loading a processor of a session -/
theorem reload_spec {w : PWorld K} {i : ℕ} {p : PObj K} {s : SubObj}
    (hp : w.procs[i]? = some p) (hs : w.subs[p.sub]? = some s) (hf : Fits p.kind s p.coefs) :
    ((IsDistance p → s.terms = []) → ∃ coefs, LoadedCoefs p s coefs ∧ Fits p.kind s coefs ∧
      w.reload i = some ⟨w.subs ++ [s], w.procs ++ [⟨p.kind, w.subs.length, p.mat, coefs⟩], w.comps⟩) ∧
    (¬ (IsDistance p → s.terms = []) → w.reload i = none) := by
  obtain ⟨h1, h2⟩ := load_spec hf
  constructor
  · intro hd
    obtain ⟨coefs, hl, hk, hf'⟩ := h1 hd
    refine ⟨coefs, hk, hf', ?_⟩
    unfold PWorld.reload PWorld.save
    simp only [hp, Option.bind_eq_bind, Option.bind_some, hs, Option.map_some]
    rw [hl]
    rfl
  · intro hd
    unfold PWorld.reload PWorld.save
    simp only [hp, Option.bind_eq_bind, Option.bind_some, hs, Option.map_some]
    rw [h2 hd]
    rfl

theorem reload_inv' {w w' : PWorld K} (hi : PInv w) {i : ℕ} (h : w.reload i = some w') : PInv w' := by
  cases hp : w.procs[i]? with
  | none =>
    unfold PWorld.reload at h
    rw [hp] at h
    cases h
  | some p =>
    obtain ⟨s, hs, hf⟩ := hi.proc p (List.mem_of_getElem? hp)
    obtain ⟨h1, h2⟩ := reload_spec hp hs hf
    by_cases hd : IsDistance p → s.terms = []
    · obtain ⟨coefs, -, hf', he⟩ := h1 hd
      rw [he] at h
      cases h
      have hsg : SubsGrow w.subs (w.subs ++ [s]) := SubsGrow.of_prefix (List.prefix_append _ _)
      refine ⟨?_, fun C hC => comp_grow (w := w) hsg (List.prefix_append _ _) (hi.comp C hC)⟩
      intro q hq
      rcases List.mem_append.1 hq with hq | hq
      · exact proc_grow (w := w) hsg (hi.proc q hq)
      · rw [List.mem_singleton] at hq
        subst hq
        exact ⟨s, by simp, hf'⟩
    · rw [h2 hd] at h
      cases h

theorem reloadPart_inv {w w' : PWorld K} (hi : PInv w) {c i : ℕ} (h : w.reloadPart c i = some w') :
    PInv w' := by
  unfold PWorld.reloadPart at h
  cases hr : w.reload i with
  | none => rw [hr] at h; cases h
  | some w1 =>
    rw [hr] at h
    simp only [Option.bind_eq_bind, Option.bind_some] at h
    exact add_inv (reload_inv' hi hr) h

theorem foldlM_inv {c : ℕ} (parts : List ℕ) {w w' : PWorld K} (hi : PInv w)
    (h : parts.foldlM (fun w' i => PWorld.reloadPart w' c i) w = some w') : PInv w' := by
  induction parts generalizing w with
  | nil => cases h; exact hi
  | cons i parts ih =>
    rw [List.foldlM_cons] at h
    cases hr : w.reloadPart c i with
    | none => rw [hr] at h; cases h
    | some w1 =>
      rw [hr] at h
      exact ih (reloadPart_inv hi hr) h

theorem newComp_inv {w : PWorld K} (hi : PInv w) {sub : ℕ} {s : SubObj} (hs : w.subs[sub]? = some s)
    (mat : List (List ℤ)) : PInv { w with comps := w.comps ++ [⟨sub, mat, [], []⟩] } := by
  refine ⟨hi.proc, ?_⟩
  intro C hC
  rcases List.mem_append.1 hC with hC | hC
  · exact hi.comp C hC
  · rw [List.mem_singleton] at hC
    subst hC
    exact ⟨s, hs, by simp, by simp⟩

theorem newSub_inv {w : PWorld K} (hi : PInv w) (s : SubObj) :
    PInv { w with subs := w.subs ++ [s] } := by
  have hsg : SubsGrow w.subs (w.subs ++ [s]) := SubsGrow.of_prefix (List.prefix_append _ _)
  exact ⟨fun p hp => proc_grow (w := w) hsg (hi.proc p hp),
    fun C hC => comp_grow (w := w) (w' := ⟨w.subs ++ [s], w.procs, w.comps⟩) hsg
      (List.prefix_refl _) (hi.comp C hC)⟩

theorem step_inv' {w w' : PWorld K} (hi : PInv w) {op : POp K} (h : w.step op = some w') : PInv w' := by
  cases op with
  | newSub s => cases h; exact newSub_inv hi s
  | addTerm i t =>
    simp only [PWorld.step] at h
    cases hs : w.subs[i]? with
    | none => rw [hs] at h; cases h
    | some s =>
      rw [hs] at h
      simp only [Option.bind_eq_bind, Option.bind_some] at h
      cases ht : s.addTerm t with
      | none => rw [ht] at h; cases h
      | some s' =>
        rw [ht] at h
        simp only [Option.bind_some, Option.some.injEq] at h
        subst h
        have hsg : SubsGrow w.subs (w.subs.set i s') := SubsGrow.set hs (addTerm_grown ht)
        exact ⟨fun p hp => proc_grow (w := w) hsg (hi.proc p hp),
          fun C hC => comp_grow (w := w) (w' := ⟨w.subs.set i s', w.procs, w.comps⟩) hsg
            (List.prefix_refl _) (hi.comp C hC)⟩
  | make kind sub mat coefs => exact make_inv hi h
  | makeComp sub mat =>
    simp only [PWorld.step] at h
    cases hs : w.subs[sub]? with
    | none => rw [hs] at h; cases h
    | some s =>
      rw [hs] at h
      cases h
      exact newComp_inv hi hs mat
  | add c a => exact add_inv hi h
  | reload i => exact reload_inv' hi h
  | reloadComp c =>
    simp only [PWorld.step, PWorld.reloadComp] at h
    cases hC : w.comps[c]? with
    | none => rw [hC] at h; cases h
    | some C =>
      rw [hC] at h
      simp only [Option.bind_eq_bind, Option.bind_some] at h
      cases hs : w.subs[C.sub]? with
      | none => rw [hs] at h; cases h
      | some s =>
        rw [hs] at h
        simp only [Option.bind_some] at h
        refine foldlM_inv C.parts ?_ h
        exact newComp_inv (w := { w with subs := w.subs ++ [s] }) (newSub_inv hi s) (s := s) (by simp) C.mat

theorem reachable_inv {w : PWorld K} (h : PReachable w) : PInv w := by
  obtain ⟨ops, rfl⟩ := h
  have : ∀ (ops : List (POp K)) (w : PWorld K), PInv w → PInv (w.run ops) := by
    intro ops
    induction ops with
    | nil => intro w hw; exact hw
    | cons op ops ih =>
      intro w hw
      apply ih
      cases hs : w.step op with
      | none => exact hw
      | some w' => exact step_inv' hw hs
  exact this ops _ ⟨by simp, by simp⟩

/-! ### loading a composite -/

theorem Reloaded.mono {w w1 w2 : PWorld K} {i j : ℕ} (h : Reloaded w w1 i j) (hs : w1.subs <+: w2.subs)
    (hp : w1.procs <+: w2.procs) : Reloaded w w2 i j := by
  obtain ⟨p, s, p', h1, h2, h3⟩ := h
  exact ⟨p, s, p', h1, ⟨prefix_get hp h2.1, prefix_get hs h2.2⟩, h3⟩

/-- the condition for a part to be loaded into a composite with the subspace `s` -/
def PartOk (w : PWorld K) (s : SubObj) (i : ℕ) : Prop :=
  ∃ p s', HoldsProc w i p s' ∧ Alike s s' ∧ (IsDistance p → s'.terms = [])

theorem parts_spec {w : PWorld K} {s : SubObj} {mat : List (List ℤ)} (parts : List ℕ)
    (hparts : ∀ i ∈ parts, ∃ p s', HoldsProc w i p s' ∧ p.mat = mat ∧ Fits p.kind s' p.coefs)
    {w1 : PWorld K} {done : List ℕ} {cs : List K} (h1 : w.subs <+: w1.subs) (h2 : w.procs <+: w1.procs)
    (hc : w1.comps = w.comps ++ [⟨w.subs.length, mat, done, cs⟩])
    (hs : w1.subs[w.subs.length]? = some s) :
    ((∀ i ∈ parts, PartOk w s i) → ∃ w2 new,
      parts.foldlM (fun w' i => PWorld.reloadPart w' w.comps.length i) w1 = some w2 ∧
      w1.subs <+: w2.subs ∧ w1.procs <+: w2.procs ∧
      w2.comps = w.comps ++ [⟨w.subs.length, mat, done ++ new,
        cs ++ (new.map fun j => ((w2.procs[j]?).map PObj.coefs).getD []).flatten⟩] ∧
      List.Forall₂ (Reloaded w w2) parts new) ∧
    ((¬ ∀ i ∈ parts, PartOk w s i) →
      parts.foldlM (fun w' i => PWorld.reloadPart w' w.comps.length i) w1 = none) := by
  induction parts generalizing w1 done cs with
  | nil =>
    refine ⟨fun _ => ⟨w1, [], rfl, List.prefix_refl _, List.prefix_refl _, by simpa using hc, .nil⟩, ?_⟩
    intro h
    exact absurd (by simp) h
  | cons i parts ih =>
    obtain ⟨p, s', hh, hm, hf⟩ := hparts i List.mem_cons_self
    have hp1 : w1.procs[i]? = some p := prefix_get h2 hh.1
    have hs1 : w1.subs[p.sub]? = some s' := prefix_get h1 hh.2
    obtain ⟨r1, r2⟩ := reload_spec hp1 hs1 hf
    have hC1 : w1.comps[w.comps.length]? = some ⟨w.subs.length, mat, done, cs⟩ := by rw [hc]; simp
    rw [List.foldlM_cons]
    by_cases hok : PartOk w s i
    · obtain ⟨q, t, hq, ha, hd⟩ := hok
      obtain rfl : q = p := Option.some.inj (hq.1.symm.trans hh.1)
      obtain rfl : t = s' := Option.some.inj (hq.2.symm.trans hh.2)
      obtain ⟨coefs, hk, hf', he⟩ := r1 hd
      set w2 : PWorld K := ⟨w1.subs ++ [t], w1.procs ++ [⟨q.kind, w1.subs.length, q.mat, coefs⟩],
        w.comps ++ [⟨w.subs.length, mat, done ++ [w1.procs.length], cs ++ coefs⟩]⟩ with hw2
      have hstep : w1.reloadPart w.comps.length i = some w2 := by
        unfold PWorld.reloadPart
        rw [he]
        simp only [Option.bind_eq_bind, Option.bind_some]
        have hadd := add_of (w := (⟨w1.subs ++ [t],
            w1.procs ++ [(⟨q.kind, w1.subs.length, q.mat, coefs⟩ : PObj K)], w1.comps⟩ : PWorld K))
          (c := w.comps.length) (i := w1.procs.length)
          (C := (⟨w.subs.length, mat, done, cs⟩ : CObj K))
          (p := (⟨q.kind, w1.subs.length, q.mat, coefs⟩ : PObj K)) (s := s) (s' := t) hC1 (by simp)
          (prefix_get (List.prefix_append _ _) hs) (by simp) ha hm.symm
        rw [hadd]
        rw [hw2]
        simp only [hc, Option.some.injEq, PWorld.mk.injEq, true_and]
        rw [List.set_append_right _ _ (le_refl _)]
        simp
      rw [hstep]
      have e1 : w1.subs <+: w2.subs := List.prefix_append _ _
      have e2 : w1.procs <+: w2.procs := List.prefix_append _ _
      obtain ⟨i1, i2⟩ := ih (fun j hj => hparts j (List.mem_cons_of_mem _ hj)) (w1 := w2)
        (done := done ++ [w1.procs.length]) (cs := cs ++ coefs) (h1.trans e1) (h2.trans e2) rfl
        (prefix_get e1 hs)
      constructor
      · intro hall
        obtain ⟨w3, new, g1, g2, g3, g4, g5⟩ := i1 fun j hj => hall j (List.mem_cons_of_mem _ hj)
        have hnew : w2.procs[w1.procs.length]? = some ⟨q.kind, w1.subs.length, q.mat, coefs⟩ := by
          rw [hw2]; simp
        refine ⟨w3, w1.procs.length :: new, g1, e1.trans g2, e2.trans g3, ?_, ?_⟩
        · rw [g4]
          simp only [List.map_cons, List.flatten_cons, prefix_get g3 hnew, Option.map_some,
            Option.getD_some, List.append_assoc, List.singleton_append]
        · refine .cons ?_ g5
          refine Reloaded.mono (w1 := w2) ?_ g2 g3
          refine ⟨q, t, _, hh, ⟨hnew, ?_⟩, rfl, rfl, ?_, hk⟩
          · rw [hw2]; simp
          · exact h1.length_le
      · intro hn
        apply i2
        intro hall
        apply hn
        intro j hj
        rcases List.mem_cons.1 hj with rfl | hj
        · exact ⟨q, t, hh, ha, hd⟩
        · exact hall j hj
    · have hnone : w1.reloadPart w.comps.length i = none := by
        unfold PWorld.reloadPart
        by_cases hd : IsDistance p → s'.terms = []
        · obtain ⟨coefs, hk, hf', he⟩ := r1 hd
          rw [he]
          simp only [Option.bind_eq_bind, Option.bind_some]
          cases hadd : PWorld.add ⟨w1.subs ++ [s'],
              w1.procs ++ [⟨p.kind, w1.subs.length, p.mat, coefs⟩], w1.comps⟩ w.comps.length
              (.proc w1.procs.length) with
          | none => rfl
          | some w3 =>
            exfalso
            obtain ⟨C, q, t, t', a1, a2, a3, a4, a5, -, -⟩ := add_some hadd
            simp only at a1 a2 a3 a4
            rw [hC1] at a1
            cases a1
            rw [prefix_get (List.prefix_append _ _) hs] at a3
            cases a3
            simp only [List.getElem?_append_right (le_refl _), Nat.sub_self,
              List.getElem?_cons_zero, Option.some.injEq] at a2
            subst a2
            simp only [List.getElem?_append_right (le_refl _), Nat.sub_self,
              List.getElem?_cons_zero, Option.some.injEq] at a4
            subst a4
            exact hok ⟨p, s', hh, a5, hd⟩
        · rw [r2 hd]
          rfl
      rw [hnone]
      constructor
      · intro hall
        exact absurd (hall i List.mem_cons_self) hok
      · intro _
        rfl

/-! ### later worlds -/

theorem SubsGrow.trans {a b c : List SubObj} (h : SubsGrow a b) (h' : SubsGrow b c) : SubsGrow a c := by
  intro i s hs
  obtain ⟨s1, h1, g1⟩ := h i s hs
  obtain ⟨s2, h2, g2⟩ := h' i s1 h1
  exact ⟨s2, h2, Grown.trans g1 g2⟩

theorem Later.refl (w : PWorld K) : Later w w :=
  ⟨fun _ s hs => ⟨s, hs, Grown.refl s⟩, List.prefix_refl _, fun _ C hC =>
    ⟨C, hC, rfl, rfl, List.prefix_refl _, List.prefix_refl _⟩⟩

theorem Later.trans {a b c : PWorld K} (h : Later a b) (h' : Later b c) : Later a c := by
  refine ⟨SubsGrow.trans h.1 h'.1, h.2.1.trans h'.2.1, ?_⟩
  intro i C hC
  obtain ⟨C1, h1, a1, a2, a3, a4⟩ := h.2.2 i C hC
  obtain ⟨C2, h2, b1, b2, b3, b4⟩ := h'.2.2 i C1 h1
  exact ⟨C2, h2, b1.trans a1, b2.trans a2, a3.trans b3, a4.trans b4⟩

theorem later_of_prefix {w w' : PWorld K} (h1 : SubsGrow w.subs w'.subs) (h2 : w.procs <+: w'.procs)
    (h3 : w.comps <+: w'.comps) : Later w w' :=
  ⟨h1, h2, fun _ C hC => ⟨C, prefix_get h3 hC, rfl, rfl, List.prefix_refl _, List.prefix_refl _⟩⟩

theorem add_later {w w' : PWorld K} {c : ℕ} {a : AddArg} (h : w.add c a = some w') : Later w w' := by
  cases a with
  | comp i => cases h
  | proc i =>
    obtain ⟨C, p, s, s', hC, hp, hs, hs', ha, hm, rfl⟩ := add_some h
    refine ⟨fun _ s hs => ⟨s, hs, Grown.refl s⟩, List.prefix_refl _, ?_⟩
    intro j D hD
    by_cases hij : c = j
    · subst hij
      rw [hC] at hD
      cases hD
      exact ⟨_, List.getElem?_set_self (List.getElem?_eq_some_iff.1 hC).1, rfl, rfl,
        List.prefix_append _ _, List.prefix_append _ _⟩
    · exact ⟨D, by rw [List.getElem?_set_ne hij, hD], rfl, rfl, List.prefix_refl _, List.prefix_refl _⟩

theorem reload_later {w w' : PWorld K} {i : ℕ} (h : w.reload i = some w') : Later w w' := by
  unfold PWorld.reload at h
  cases hp : w.procs[i]? with
  | none => rw [hp] at h; cases h
  | some p =>
    rw [hp] at h
    simp only [Option.bind_eq_bind, Option.bind_some] at h
    cases hD : w.save p with
    | none => rw [hD] at h; cases h
    | some D =>
      rw [hD] at h
      simp only [Option.bind_some] at h
      cases hr : D.load.1 with
      | none => rw [hr] at h; cases h
      | some r =>
        rw [hr] at h
        simp only [Option.bind_some, Option.some.injEq] at h
        subst h
        exact later_of_prefix (SubsGrow.of_prefix (List.prefix_append _ _)) (List.prefix_append _ _)
          (List.prefix_refl _)

theorem foldlM_later {c : ℕ} (parts : List ℕ) {w w' : PWorld K}
    (h : parts.foldlM (fun w' i => PWorld.reloadPart w' c i) w = some w') : Later w w' := by
  induction parts generalizing w with
  | nil => cases h; exact Later.refl _
  | cons i parts ih =>
    rw [List.foldlM_cons] at h
    cases hr : w.reloadPart c i with
    | none => rw [hr] at h; cases h
    | some w1 =>
      rw [hr] at h
      refine Later.trans ?_ (ih h)
      unfold PWorld.reloadPart at hr
      cases hq : w.reload i with
      | none => rw [hq] at hr; cases hr
      | some w2 =>
        rw [hq] at hr
        simp only [Option.bind_eq_bind, Option.bind_some] at hr
        exact Later.trans (reload_later hq) (add_later hr)

theorem step_later {w w' : PWorld K} {op : POp K} (h : w.step op = some w') : Later w w' := by
  cases op with
  | newSub s =>
    cases h
    exact later_of_prefix (SubsGrow.of_prefix (List.prefix_append _ _)) (List.prefix_refl _)
      (List.prefix_refl _)
  | addTerm i t =>
    simp only [PWorld.step] at h
    cases hs : w.subs[i]? with
    | none => rw [hs] at h; cases h
    | some s =>
      rw [hs] at h
      simp only [Option.bind_eq_bind, Option.bind_some] at h
      cases ht : s.addTerm t with
      | none => rw [ht] at h; cases h
      | some s' =>
        rw [ht] at h
        simp only [Option.bind_some, Option.some.injEq] at h
        subst h
        exact later_of_prefix (SubsGrow.set hs (addTerm_grown ht)) (List.prefix_refl _)
          (List.prefix_refl _)
  | make kind sub mat coefs =>
    simp only [PWorld.step, PWorld.make] at h
    cases hs : w.subs[sub]? with
    | none => rw [hs] at h; cases h
    | some s =>
      rw [hs] at h
      simp only [Option.bind_eq_bind, Option.bind_some] at h
      cases hc : kind.construct s coefs with
      | none => rw [hc] at h; cases h
      | some s' =>
        rw [hc] at h
        simp only [Option.bind_some, Option.some.injEq] at h
        subst h
        exact later_of_prefix (SubsGrow.set hs (construct_some hc).1) (List.prefix_append _ _)
          (List.prefix_refl _)
  | makeComp sub mat =>
    simp only [PWorld.step] at h
    cases hs : w.subs[sub]? with
    | none => rw [hs] at h; cases h
    | some s =>
      rw [hs] at h
      cases h
      exact later_of_prefix (fun _ s hs => ⟨s, hs, Grown.refl s⟩) (List.prefix_refl _)
        (List.prefix_append _ _)
  | add c a => exact add_later h
  | reload i => exact reload_later h
  | reloadComp c =>
    simp only [PWorld.step, PWorld.reloadComp] at h
    cases hC : w.comps[c]? with
    | none => rw [hC] at h; cases h
    | some C =>
      rw [hC] at h
      simp only [Option.bind_eq_bind, Option.bind_some] at h
      cases hs : w.subs[C.sub]? with
      | none => rw [hs] at h; cases h
      | some s =>
        rw [hs] at h
        simp only [Option.bind_some] at h
        refine Later.trans ?_ (foldlM_later C.parts h)
        exact later_of_prefix (SubsGrow.of_prefix (List.prefix_append _ _)) (List.prefix_refl _)
          (List.prefix_append _ _)

theorem run_later (ops : List (POp K)) (w : PWorld K) : Later w (w.run ops) := by
  induction ops generalizing w with
  | nil => exact Later.refl w
  | cons op ops ih =>
    refine Later.trans ?_ (ih _)
    cases hs : w.step op with
    | none => exact Later.refl w
    | some w' => exact step_later hs

end Smol
