import Verif.Lemmas.ProcObjects
import Mathlib.Algebra.Order.Ring.Rat

/-!
# C97: processors as objects

Processors hold references to subspaces, composites hold references to processors.
-/

set_option linter.unusedSectionVars false

namespace Smol
open Smol.Spec

section
variable {K : Type} [Zero K] [One K] [Neg K] [LT K] [DecidableLT K]

/-- C97. Whatever is done with subspaces, processors and composites, a subspace keeps its orbits and
functions and its external terms, in order; a processor keeps kind, subspace, matrix and coefficients;
a composite keeps subspace, matrix, parts and coefficients and gains only at the end. -/
theorem C97_later (w : PWorld K) (ops : List (POp K)) : Later w (w.run ops) := run_later ops w

/-- C97. At any time an expansion has one coefficient per function, the subspace of an Ewald processor
has an Ewald term, and a distance processor has as many coefficients as its target has entries and its
subspace functions. -/
theorem C97_processors {w : PWorld K} (h : PReachable w) {p : PObj K} (hp : p ∈ w.procs) :
    ∃ s, w.subs[p.sub]? = some s ∧ (p.kind = .expansion → p.coefs.length = s.numCorr) ∧
      (∀ t, p.kind = .ewald t → ∃ u ∈ s.terms, u.cls = 0) ∧
      (∀ t, p.kind = .distance t → p.coefs.length = t.length ∧ p.coefs.length = s.numCorr) := by
  obtain ⟨s, hs, hf⟩ := (reachable_inv h).proc p hp
  refine ⟨s, hs, ?_, ?_, ?_⟩
  · intro hk; rw [hk] at hf; exact hf
  · intro t hk; rw [hk] at hf; exact hf
  · intro t hk; rw [hk] at hf; exact ⟨hf.1, hf.2.1⟩

/-- C97. At any time all parts of a composite have its supercell matrix, and subspaces with the orbits
and functions of its own; its coefficients are those of the parts, one after the other. -/
theorem C97_composites {w : PWorld K} (h : PReachable w) {C : CObj K} (hC : C ∈ w.comps) :
    ∃ s, w.subs[C.sub]? = some s ∧ ∃ ps : List (PObj K), C.parts.map (w.procs[·]?) = ps.map some ∧
      C.coefs = (ps.map PObj.coefs).flatten ∧
      ∀ p ∈ ps, p.mat = C.mat ∧ ∃ s', w.subs[p.sub]? = some s' ∧ s'.orbits = s.orbits ∧
        s'.numCorr = s.numCorr := by
  obtain ⟨s, hs, h1, h2⟩ := (reachable_inv h).comp C hC
  refine ⟨s, hs, ?_⟩
  rw [h2]
  have : ∀ parts : List ℕ, (∀ i ∈ parts, ∃ p s', w.procs[i]? = some p ∧ w.subs[p.sub]? = some s' ∧
      p.mat = C.mat ∧ s'.orbits = s.orbits ∧ s'.numCorr = s.numCorr) →
      ∃ ps : List (PObj K), parts.map (w.procs[·]?) = ps.map some ∧
      (parts.map fun i => ((w.procs[i]?).map PObj.coefs).getD []).flatten = (ps.map PObj.coefs).flatten ∧
      ∀ p ∈ ps, p.mat = C.mat ∧ ∃ s', w.subs[p.sub]? = some s' ∧ s'.orbits = s.orbits ∧
        s'.numCorr = s.numCorr := by
    intro parts
    induction parts with
    | nil => exact fun _ => ⟨[], rfl, rfl, by simp⟩
    | cons i parts ih =>
      intro hall
      obtain ⟨p, s', hp, hs', hm, ho, hn⟩ := hall i List.mem_cons_self
      obtain ⟨ps, g1, g2, g3⟩ := ih fun j hj => hall j (List.mem_cons_of_mem _ hj)
      refine ⟨p :: ps, ?_, ?_, ?_⟩
      · rw [List.map_cons, List.map_cons, g1, hp]
      · rw [List.map_cons, List.map_cons, List.flatten_cons, List.flatten_cons, g2, hp]
        rfl
      · intro q hq
        rcases List.mem_cons.1 hq with rfl | hq
        · exact ⟨hm, s', hs', ho, hn⟩
        · exact g3 q hq
  exact this C.parts h1

/-- C97. `add_processor` raises exactly if the processor is a composite, its matrix is another one or
its subspace differs in orbits, functions or classes of external terms, and then nothing changes.
Otherwise it appends the processor and its coefficients. -/
theorem C97_add (w : PWorld K) {c i : ℕ} {C : CObj K} {p : PObj K} {s s' : SubObj}
    (hC : w.comps[c]? = some C) (hp : HoldsProc w i p s') (hs : w.subs[C.sub]? = some s) :
    (Alike s s' ∧ C.mat = p.mat →
      w.run [.add c (.proc i)] = ⟨w.subs, w.procs,
        w.comps.set c ⟨C.sub, C.mat, C.parts ++ [i], C.coefs ++ p.coefs⟩⟩) ∧
    (¬ (Alike s s' ∧ C.mat = p.mat) → w.step (.add c (.proc i)) = none ∧
      w.run [.add c (.proc i)] = w) ∧
    (∀ j, w.step (.add c (.comp j)) = none) := by
  refine ⟨?_, ?_, fun _ => rfl⟩
  · rintro ⟨ha, hm⟩
    simp only [PWorld.run, PWorld.step, add_of hC hp.1 hs hp.2 ha hm, Option.getD_some]
  · intro hn
    have : w.step (.add c (.proc i)) = none := by
      cases h : w.step (.add c (.proc i)) with
      | none => rfl
      | some w' =>
        obtain ⟨D, q, t, t', a1, a2, a3, a4, a5, a6, -⟩ := add_some h
        rw [hC] at a1; cases a1
        rw [hp.1] at a2; cases a2
        rw [hs] at a3; cases a3
        rw [hp.2] at a4; cases a4
        exact absurd ⟨a5, a6⟩ hn
    exact ⟨this, by simp only [PWorld.run, this, Option.getD_none]⟩

/-- C97. Making an Ewald processor with a subspace never raises.  It leaves a subspace with an Ewald
term as it is and adds a default term to any other; the subspace is shared, so that all processors
and composites that hold it have the term from then on. -/
theorem C97_ewald_shared (w : PWorld K) (t : ℕ) {sub : ℕ} {s : SubObj}
    (hs : w.subs[sub]? = some s) (mat : List (List ℤ)) (coefs : List K) :
    ∃ w', w.step (.make (.ewald t) sub mat coefs) = some w' ∧
      w'.procs = w.procs ++ [⟨.ewald t, sub, mat, coefs⟩] ∧ w'.comps = w.comps ∧
      ((∃ u ∈ s.terms, u.cls = 0) → w'.subs = w.subs) ∧
      ((∀ u ∈ s.terms, u.cls ≠ 0) →
        (∀ j, j ≠ sub → w'.subs[j]? = w.subs[j]?) ∧
        ∀ (i : ℕ) (p : PObj K), w.procs[i]? = some p → p.sub = sub →
          HoldsProc w' i p ⟨s.orbits, s.numCorr, s.terms ++ [⟨0, 0⟩]⟩) := by
  by_cases hu : ∃ u ∈ s.terms, u.cls = 0
  · have hany : (s.terms.any fun u => u.cls == 0) = true := by
      obtain ⟨u, hu, he⟩ := hu
      exact List.any_eq_true.2 ⟨u, hu, by simp [he]⟩
    refine ⟨⟨w.subs.set sub s, w.procs ++ [⟨.ewald t, sub, mat, coefs⟩], w.comps⟩, ?_, rfl, rfl, ?_, ?_⟩
    · simp only [PWorld.step, PWorld.make, hs, Option.bind_eq_bind, Option.bind_some, PKind.construct,
        hany, if_true]
    · intro _
      apply List.ext_getElem?
      intro j
      by_cases hj : sub = j
      · subst hj
        rw [List.getElem?_set_self (List.getElem?_eq_some_iff.1 hs).1, hs]
      · rw [List.getElem?_set_ne hj]
    · intro hn
      obtain ⟨u, hu, he⟩ := hu
      exact absurd he (hn u hu)
  · have hnone : ∀ u ∈ s.terms, u.cls ≠ 0 := fun u h1 h2 => hu ⟨u, h1, h2⟩
    have hany : (s.terms.any fun u => u.cls == 0) = false := by
      rw [List.any_eq_false]
      intro u hu
      simpa using hnone u hu
    have hadd : s.addTerm ⟨0, 0⟩ = some { s with terms := s.terms ++ [⟨0, 0⟩] } := by
      unfold SubObj.addTerm
      rw [if_neg]
      simpa using hnone
    refine ⟨⟨w.subs.set sub { s with terms := s.terms ++ [⟨0, 0⟩] },
      w.procs ++ [⟨.ewald t, sub, mat, coefs⟩], w.comps⟩, ?_, rfl, rfl, fun h => absurd h hu, ?_⟩
    · simp only [PWorld.step, PWorld.make, hs, Option.bind_eq_bind, Option.bind_some, PKind.construct,
        hany, Bool.false_eq_true, if_false, hadd]
    · intro _
      refine ⟨fun j hj => List.getElem?_set_ne (Ne.symm hj), ?_⟩
      intro i p hp hsub
      refine ⟨prefix_get (List.prefix_append _ _) hp, ?_⟩
      rw [hsub]
      exact List.getElem?_set_self (List.getElem?_eq_some_iff.1 hs).1

/-- C97. Saving and loading a processor of any session.  It raises exactly for a distance processor
whose subspace has external terms by then.  Otherwise one processor is added, with the same kind and
matrix, a subspace of its own that is the same, and the same coefficients — of a distance processor
only the first of them, the others being one; all other objects stay as they are. -/
theorem C97_reload {w : PWorld K} (h : PReachable w) {i : ℕ} {p : PObj K} {s : SubObj}
    (hp : HoldsProc w i p s) :
    (w.step (.reload i) = none ↔ IsDistance p ∧ s.terms ≠ []) ∧
    ∀ w', w.step (.reload i) = some w' → Untouched w w' ∧ w'.comps = w.comps ∧
      w'.procs.length = w.procs.length + 1 ∧ Reloaded w w' i w.procs.length := by
  obtain ⟨t, ht, hf⟩ := (reachable_inv h).proc p (List.mem_of_getElem? hp.1)
  obtain rfl : s = t := Option.some.inj (hp.2.symm.trans ht)
  obtain ⟨h1, h2⟩ := reload_spec hp.1 hp.2 hf
  constructor
  · constructor
    · intro hn
      by_contra hc
      have hd : IsDistance p → s.terms = [] := fun hd => by
        by_contra ht
        exact hc ⟨hd, ht⟩
      obtain ⟨coefs, -, -, he⟩ := h1 hd
      rw [PWorld.step, he] at hn
      cases hn
    · rintro ⟨hd, ht⟩
      exact h2 fun h => ht (h hd)
  · intro w' hw
    have hd : IsDistance p → s.terms = [] := by
      by_contra hc
      rw [PWorld.step, h2 hc] at hw
      cases hw
    obtain ⟨coefs, hk, -, he⟩ := h1 hd
    rw [PWorld.step, he] at hw
    cases hw
    refine ⟨⟨List.prefix_append _ _, List.prefix_append _ _, List.prefix_refl _⟩, rfl, by simp, ?_⟩
    exact ⟨p, s, ⟨p.kind, w.subs.length, p.mat, coefs⟩, hp, ⟨by simp, by simp⟩, rfl, rfl, le_refl _, hk⟩

/-- C97. Saving and loading a composite of any session.  It succeeds exactly if the subspace of every
part has the classes of external terms of the composite's subspace, now, and that of a distance
processor has none.  Then one composite is added, with the same matrix, a subspace of its own that is
the same, and as parts the loaded processors in order; all other objects stay as they are. -/
theorem C97_reload_composite {w : PWorld K} (h : PReachable w) {c : ℕ} {C : CObj K} {s : SubObj}
    (hC : w.comps[c]? = some C) (hs : w.subs[C.sub]? = some s) :
    ((w.step (.reloadComp c)).isSome = true ↔ ∀ i ∈ C.parts, ∃ p s', HoldsProc w i p s' ∧
      s'.terms.map ExtTerm.cls = s.terms.map ExtTerm.cls ∧ (IsDistance p → s'.terms = [])) ∧
    ∀ w', w.step (.reloadComp c) = some w' → Untouched w w' ∧
      ∃ C', w'.comps = w.comps ++ [C'] ∧ C'.mat = C.mat ∧ w.subs.length ≤ C'.sub ∧
        w'.subs[C'.sub]? = some s ∧ List.Forall₂ (Reloaded w w') C.parts C'.parts ∧
        C'.coefs = (C'.parts.map fun j => ((w'.procs[j]?).map PObj.coefs).getD []).flatten := by
  have hi := reachable_inv h
  obtain ⟨t, ht, g1, -⟩ := hi.comp C (List.mem_of_getElem? hC)
  obtain rfl : s = t := Option.some.inj (hs.symm.trans ht)
  have hstep : w.step (.reloadComp c) = C.parts.foldlM
      (fun w' i => PWorld.reloadPart w' w.comps.length i)
      ⟨w.subs ++ [s], w.procs, w.comps ++ [⟨w.subs.length, C.mat, [], []⟩]⟩ := by
    simp only [PWorld.step, PWorld.reloadComp, hC, hs, Option.bind_eq_bind, Option.bind_some]
  have hparts : ∀ i ∈ C.parts, ∃ p s', HoldsProc w i p s' ∧ p.mat = C.mat ∧
      Fits p.kind s' p.coefs := by
    intro i hi'
    obtain ⟨p, s', a1, a2, a3, -, -⟩ := g1 i hi'
    obtain ⟨u, hu, hf⟩ := hi.proc p (List.mem_of_getElem? a1)
    obtain rfl : s' = u := Option.some.inj (a2.symm.trans hu)
    exact ⟨p, s', ⟨a1, a2⟩, a3, hf⟩
  obtain ⟨h1, h2⟩ := parts_spec (w := w) (s := s) C.parts hparts
    (w1 := ⟨w.subs ++ [s], w.procs, w.comps ++ [⟨w.subs.length, C.mat, [], []⟩]⟩)
    (done := []) (cs := []) (List.prefix_append _ _) (List.prefix_refl _) rfl (by simp)
  have hok : (∀ i ∈ C.parts, PartOk w s i) ↔ ∀ i ∈ C.parts, ∃ p s', HoldsProc w i p s' ∧
      s'.terms.map ExtTerm.cls = s.terms.map ExtTerm.cls ∧ (IsDistance p → s'.terms = []) := by
    apply forall₂_congr
    intro i hi'
    constructor
    · rintro ⟨p, s', a1, a2, a3⟩
      exact ⟨p, s', a1, a2.2.2.symm, a3⟩
    · rintro ⟨p, s', a1, a2, a3⟩
      obtain ⟨q, t, b1, b2, -, b4, b5⟩ := g1 i hi'
      obtain rfl : p = q := Option.some.inj (a1.1.symm.trans b1)
      obtain rfl : s' = t := Option.some.inj (a1.2.symm.trans b2)
      exact ⟨p, s', a1, ⟨b4.symm, b5.symm, a2.symm⟩, a3⟩
  rw [← hok, hstep]
  constructor
  · constructor
    · intro hsome
      by_contra hn
      rw [h2 hn] at hsome
      cases hsome
    · intro hall
      obtain ⟨w2, new, e, -⟩ := h1 hall
      rw [e]
      rfl
  · intro w' hw
    have hall : ∀ i ∈ C.parts, PartOk w s i := by
      by_contra hn
      rw [h2 hn] at hw
      cases hw
    obtain ⟨w2, new, e, e1, e2, e3, e4⟩ := h1 hall
    rw [e] at hw
    cases hw
    refine ⟨⟨(List.prefix_append _ _).trans e1, e2, ?_⟩, _, e3, rfl, le_refl _, ?_, ?_, ?_⟩
    · rw [e3]; exact List.prefix_append _ _
    · exact prefix_get e1 (by simp)
    · simpa using e4
    · simp

/-- C97. A composite all whose parts were made with its own subspace object, expansions and Ewald
processors, can be loaded at any time. -/
theorem C97_shared_loads {w : PWorld K} (h : PReachable w) {c : ℕ} {C : CObj K}
    (hC : w.comps[c]? = some C)
    (hshare : ∀ i ∈ C.parts, ∀ p, w.procs[i]? = some p → p.sub = C.sub ∧ ¬ IsDistance p) :
    (w.step (.reloadComp c)).isSome = true := by
  obtain ⟨s, hs, g1, -⟩ := (reachable_inv h).comp C (List.mem_of_getElem? hC)
  rw [(C97_reload_composite h hC hs).1]
  intro i hi
  obtain ⟨p, s', a1, a2, -⟩ := g1 i hi
  obtain ⟨b1, b2⟩ := hshare i hi p a1
  obtain rfl : s' = s := by
    rw [b1, hs] at a2
    exact (Option.some.inj a2).symm
  exact ⟨p, s', ⟨a1, a2⟩, rfl, fun hd => absurd hd b2⟩

/-- C97. `DistanceProcessor.from_dict` consumes its dictionary: after loading once, a second load
raises.  The dictionaries of the other processors can be loaded again with the same result. -/
theorem C97_dict_consumed (D : PDict K) :
    ((∃ t, D.kind = .distance t) → D.load.2.load.1 = none) ∧
    ((∀ t, D.kind ≠ .distance t) → D.load.2 = D) := by
  constructor
  · rintro ⟨t, ht⟩
    unfold PDict.load
    simp only [ht, Option.bind_none]
  · intro hn
    obtain ⟨kind, sub, mat, coefs⟩ := D
    cases kind with
    | distance t => exact absurd rfl (hn t)
    | expansion => rfl
    | ewald t => rfl

end

/-! ### Sessions in which composites and distance processors are lost, and in which they are not -/

/-- a subspace with two functions -/
def demoSub : SubObj := ⟨5, 2, []⟩

/-- two equal subspaces; a composite over the first, an expansion over the second is added to it; then
an Ewald processor is made with the first and added -/
def demoOps : List (POp ℚ) :=
  [.newSub demoSub, .newSub demoSub, .make .expansion 1 [[2]] [1, 3], .makeComp 0 [[2]],
    .add 0 (.proc 0)]

/-- the same, then an Ewald processor made with the subspace of the composite -/
def demoOps' : List (POp ℚ) := demoOps ++ [.make (.ewald 4) 0 [[2]] [2]]

/-- C97, violated. A composite accepts an expansion made with an equal subspace; an Ewald processor
made later with the composite's own subspace object, even without being added, makes the composite
impossible to load, although it could be loaded before. -/
theorem C97_unloadable :
    ((PWorld.run ⟨[], [], []⟩ demoOps).step (.reloadComp 0)).isSome = true ∧
    ((PWorld.run ⟨[], [], []⟩ demoOps').step (.reloadComp 0)) = none ∧
    (PWorld.run ⟨[], [], []⟩ demoOps').comps = (PWorld.run ⟨[], [], []⟩ demoOps).comps ∧
    (PWorld.run ⟨[], [], []⟩ demoOps).comps = [⟨0, [[2]], [0], [1, 3]⟩] := by
  decide +kernel

/-- a distance processor, then an Ewald processor made with its subspace -/
def demoDist : List (POp ℚ) :=
  [.newSub demoSub, .make (.distance [0, 1/2]) 0 [[2]] [-1, 3], .make (.ewald 4) 0 [[2]] [2]]

/-- C97, violated. A distance processor cannot be loaded any more once an Ewald processor was made
with its subspace; before, it loses its weights. -/
theorem C97_distance_stale :
    (PWorld.run ⟨[], [], []⟩ demoDist).step (.reload 0) = none ∧
    (PWorld.run ⟨[], [], []⟩ (demoDist.take 2 ++ [.reload 0])).procs =
      [⟨.distance [0, 1/2], 0, [[2]], [-1, 3]⟩, ⟨.distance [0, 1/2], 1, [[2]], [-1, 1]⟩] := by
  decide +kernel

/-- the usual session: expansion, Ewald processor and composite over one subspace -/
def demoUsual : List (POp ℚ) :=
  [.newSub demoSub, .makeComp 0 [[2]], .make .expansion 0 [[2]] [1, 3],
    .make (.ewald 4) 0 [[2]] [2], .add 0 (.proc 0), .add 0 (.proc 1)]

/-- C97_reload_composite, C97_shared_loads, C97_composites: the usual composite -/
example : ∃ w : PWorld ℚ, PReachable w ∧ ∃ C, w.comps[0]? = some C ∧ C.parts = [0, 1] ∧
    C.coefs = [1, 3, 2] ∧ (w.step (.reloadComp 0)).isSome = true := by
  refine ⟨PWorld.run ⟨[], [], []⟩ demoUsual, ⟨_, rfl⟩, ⟨0, [[2]], [0, 1], [1, 3, 2]⟩, by decide +kernel,
    rfl, rfl, ?_⟩
  exact C97_shared_loads (c := 0) ⟨_, rfl⟩
    (C := ⟨0, [[2]], [0, 1], [1, 3, 2]⟩) (by decide +kernel) (by
      have h0 : (PWorld.run ⟨[], [], []⟩ demoUsual).procs =
        [⟨.expansion, 0, [[2]], [1, 3]⟩, ⟨.ewald 4, 0, [[2]], [2]⟩] := by decide +kernel
      intro i hi p hp
      rw [h0] at hp
      simp only [List.mem_cons, List.not_mem_nil, or_false] at hi
      rcases hi with rfl | rfl
      · cases hp
        exact ⟨rfl, fun ⟨t, ht⟩ => (nomatch ht)⟩
      · cases hp
        exact ⟨rfl, fun ⟨t, ht⟩ => (nomatch ht)⟩)

/-- C97_reload: an expansion -/
example : ∃ p s, HoldsProc (PWorld.run ⟨[], [], []⟩ demoUsual : PWorld ℚ) 0 p s ∧
    s.terms = [⟨0, 0⟩] ∧ ¬ (IsDistance p ∧ s.terms ≠ []) := by
  refine ⟨⟨.expansion, 0, [[2]], [1, 3]⟩, ⟨5, 2, [⟨0, 0⟩]⟩, ⟨by decide +kernel, by decide +kernel⟩, rfl, ?_⟩
  rintro ⟨⟨t, ht⟩, -⟩
  exact nomatch ht

/-- C97_add: both cases -/
example : ∃ (w : PWorld ℚ) (C : CObj ℚ) (p q : PObj ℚ) (s s' : SubObj), w.comps[0]? = some C ∧
    HoldsProc w 0 p s ∧ HoldsProc w 1 q s' ∧ w.subs[C.sub]? = some s ∧ Alike s s ∧ ¬ Alike s s' := by
  refine ⟨⟨[demoSub, ⟨5, 3, []⟩], [⟨.expansion, 0, [[2]], [1, 3]⟩, ⟨.expansion, 1, [[2]], [1, 3, 4]⟩],
    [⟨0, [[2]], [], []⟩]⟩, ⟨0, [[2]], [], []⟩, ⟨.expansion, 0, [[2]], [1, 3]⟩,
    ⟨.expansion, 1, [[2]], [1, 3, 4]⟩, demoSub, ⟨5, 3, []⟩, rfl, ⟨rfl, rfl⟩, ⟨rfl, rfl⟩, rfl,
    ⟨rfl, rfl, rfl⟩, ?_⟩
  rintro ⟨-, h, -⟩
  exact absurd h (by decide)

/-- C97_ewald_shared: a subspace without and one with a term -/
example : (∀ u ∈ demoSub.terms, u.cls ≠ 0) ∧
    ∃ u ∈ (⟨5, 2, [⟨0, 0⟩]⟩ : SubObj).terms, u.cls = 0 := by
  simp [demoSub]

/-- C97_dict_consumed: a dictionary that can be loaded once -/
example : ((⟨.distance [0, 1/2], some demoSub, [[2]], [-1, 3]⟩ : PDict ℚ).load.1).isSome = true := by
  decide +kernel

end Smol
