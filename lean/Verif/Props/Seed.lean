import Verif.Model.Seed
import Verif.Props.Balance

/-!
# C29 A seed reproduces a run
-/

namespace Smol
open Prog

theorem SharedOnly.bind {α β : Type} (p : Prog α) (f : α → Prog β) (hp : p.SharedOnly)
    (hf : ∀ a, (f a).SharedOnly) : (p.bind f).SharedOnly := by
  induction p with
  | ret a => exact hf a
  | pick g n w k ih => exact ⟨hp.1, fun i => ih i (hp.2 i)⟩

theorem sharedOnly_choose {β : Type} (l : List β) : (choose .shared l).SharedOnly :=
  ⟨rfl, fun _ => trivial⟩

theorem sharedOnly_chooseW {β : Type} (l : List β) (w : List ℚ) :
    (chooseW .shared l w).SharedOnly := ⟨rfl, fun _ => trivial⟩

theorem sharedOnly_multiLoop (inner : Occ → Prog Step) (h : ∀ o, (inner o).SharedOnly) (k : ℕ)
    (occ : Occ) (acc : Step) : (multiLoop inner k occ acc).SharedOnly := by
  induction k generalizing occ acc with
  | zero => trivial
  | succ k ih =>
    rw [multiLoop]
    refine SharedOnly.bind _ _ (h occ) fun st => ?_
    split
    · exact ih _ _
    · exact ih _ _

/-- Ushers all of whose parts were handed the kernel's generator, without TableFlip. -/
def Usher.AllShared : Usher → Prop
  | .flip g _ _ => g = .shared
  | .swap g _ _ => g = .shared
  | .multi g _ _ inner => g = .shared ∧ inner.AllShared
  | .composite g _ us _ => g = .shared ∧ ∀ i, (us i).AllShared
  | .table _ _ => False

theorem sharedOnly_propose (u : Usher) (h : u.AllShared) (occ : Occ) :
    (u.propose occ).SharedOnly := by
  induction u generalizing occ with
  | flip g act probs =>
    obtain rfl : g = .shared := h
    exact SharedOnly.bind _ _ (sharedOnly_chooseW _ _) fun sl =>
      SharedOnly.bind _ _ (sharedOnly_choose _) fun site =>
        SharedOnly.bind _ _ (sharedOnly_choose _) fun c => trivial
  | swap g act probs =>
    obtain rfl : g = .shared := h
    refine SharedOnly.bind _ _ (sharedOnly_chooseW _ _) fun sl =>
      SharedOnly.bind _ _ (sharedOnly_choose _) fun site => ?_
    simp only
    split
    · exact SharedOnly.bind _ _ (sharedOnly_choose _) fun c => trivial
    · trivial
  | multi g lens p inner ih =>
    obtain ⟨rfl, hi⟩ := h
    exact SharedOnly.bind _ _ (sharedOnly_chooseW _ _) fun len =>
      SharedOnly.bind _ _ (ih hi occ) fun st => sharedOnly_multiLoop _ (ih hi) _ _ _
  | composite g n us weights ih =>
    obtain ⟨rfl, hi⟩ := h
    refine ⟨rfl, fun i => ?_⟩
    simp only [Prog.bind]
    change ((List.ofFn fun i => (us i).propose)[i.1] occ).SharedOnly
    rw [List.getElem_ofFn]
    exact ih _ (hi _) occ
  | table t n => exact absurd h id

theorem runWith_shared {α G : Type} (gen : Gen G) (p : Prog α) (h : p.SharedOnly) (g o o' : G) :
    (p.runWith gen (g, o)).map (fun r => (r.1, r.2.1)) =
      (p.runWith gen (g, o')).map (fun r => (r.1, r.2.1)) := by
  induction p generalizing g with
  | ret a => rfl
  | pick r n w k ih =>
    obtain ⟨rfl, hk⟩ := h
    simp only [runWith]
    cases gen.draw g n w with
    | none => rfl
    | some q => exact ih q.1 (hk q.1) q.2

theorem step_shared {G : Type} (gen : KGen G) (k : RKernel) (h : k.usher.AllShared) (occ : Occ)
    (g o o' : G) :
    (k.step gen occ (g, o)).map (fun r => (r.1, r.2.1)) =
      (k.step gen occ (g, o')).map (fun r => (r.1, r.2.1)) := by
  have hr := runWith_shared gen.toGen _ (sharedOnly_propose k.usher h occ) g o o'
  unfold RKernel.step
  cases h1 : (k.usher.propose occ).runWith gen.toGen (g, o) with
  | none =>
    cases h2 : (k.usher.propose occ).runWith gen.toGen (g, o') with
    | none => rfl
    | some q => rw [h1, h2] at hr; cases hr
  | some q =>
    cases h2 : (k.usher.propose occ).runWith gen.toGen (g, o') with
    | none => rw [h1, h2] at hr; cases hr
    | some q' =>
      rw [h1, h2] at hr
      simp only [Option.map_some, Option.some.injEq, Prod.mk.injEq] at hr
      obtain ⟨st, g1, o1⟩ := q
      obtain ⟨st', g1', o1'⟩ := q'
      simp only at hr
      obtain ⟨rfl, rfl⟩ := hr
      simp only
      split_ifs <;> rfl

theorem steps_shared {G : Type} (gen : KGen G) (k : RKernel) (h : k.usher.AllShared) (n : ℕ)
    (occ : Occ) (g o o' : G) :
    (k.steps gen n occ (g, o)).map Prod.fst = (k.steps gen n occ (g, o')).map Prod.fst := by
  induction n generalizing occ g o o' with
  | zero => rfl
  | succ n ih =>
    have hs := step_shared gen k h occ g o o'
    rw [RKernel.steps, RKernel.steps]
    cases h1 : k.step gen occ (g, o) with
    | none =>
      cases h2 : k.step gen occ (g, o') with
      | none => rfl
      | some q => rw [h1, h2] at hs; cases hs
    | some q =>
      cases h2 : k.step gen occ (g, o') with
      | none => rw [h1, h2] at hs; cases hs
      | some q' =>
        rw [h1, h2] at hs
        obtain ⟨r, g1, o1⟩ := q
        obtain ⟨r', g1', o1'⟩ := q'
        simp only [Option.map_some, Option.some.injEq, Prod.mk.injEq] at hs
        obtain ⟨rfl, rfl⟩ := hs
        simp only [Option.map_map]
        have := ih r.1 g1 o1 o1'
        cases h3 : k.steps gen n r.1 (g1, o1) with
        | none =>
          cases h4 : k.steps gen n r.1 (g1, o1') with
          | none => rfl
          | some _ => rw [h3, h4] at this; cases this
        | some a =>
          cases h4 : k.steps gen n r.1 (g1, o1') with
          | none => rw [h3, h4] at this; cases this
          | some b =>
            rw [h3, h4] at this
            simp only [Option.map_some, Option.some.injEq] at this
            simp [this]

theorem run_shared {G : Type} (gen : KGen G) (k : RKernel) (h : k.usher.AllShared) (n : ℕ)
    (occ : Occ) (g o o' : G) : k.run gen n occ (g, o) = k.run gen n occ (g, o') := by
  have hs := step_shared gen k h (fun _ => 0) g o o'
  unfold RKernel.run
  cases h1 : k.step gen (fun _ => 0) (g, o) with
  | none =>
    cases h2 : k.step gen (fun _ => 0) (g, o') with
    | none => rfl
    | some q => rw [h1, h2] at hs; cases hs
  | some q =>
    cases h2 : k.step gen (fun _ => 0) (g, o') with
    | none => rw [h1, h2] at hs; cases hs
    | some q' =>
      rw [h1, h2] at hs
      obtain ⟨r, g1, o1⟩ := q
      obtain ⟨r', g1', o1'⟩ := q'
      simp only [Option.map_some, Option.some.injEq, Prod.mk.injEq] at hs
      obtain ⟨rfl, rfl⟩ := hs
      exact steps_shared gen k h n occ g1 o1 o1'

/-- C29. For ushers built from Flip, Swap, MultiStep and Composite that all draw from the kernel's
generator, a run of any length with any number of walkers is a function of the seeds: generators
seeded by the operating system cannot influence it.
`_partial`: the claim is false for TableFlip and for named inner ushers, see below. -/
theorem C29_seed_determines_run_partial {G : Type} (gen : KGen G) (seedState : ℕ → G) (n : ℕ)
    (walkers : List (RKernel × ℕ × Occ)) (h : ∀ w ∈ walkers, w.1.usher.AllShared)
    (hidden hidden' : ℕ → G) :
    seededRun gen seedState n walkers hidden = seededRun gen seedState n walkers hidden' := by
  unfold seededRun
  have key : ∀ (l : List ((RKernel × ℕ × Occ) × ℕ)), (∀ p ∈ l, p.1.1.usher.AllShared) →
      l.mapM (fun p => p.1.1.run gen n p.1.2.2 (seedState p.1.2.1, hidden p.2)) =
      l.mapM (fun p => p.1.1.run gen n p.1.2.2 (seedState p.1.2.1, hidden' p.2)) := by
    intro l
    induction l with
    | nil => intro _; rfl
    | cons p l ih =>
      intro hl
      rw [List.mapM_cons, List.mapM_cons, ih fun q hq => hl q (List.mem_cons_of_mem _ hq),
        run_shared gen p.1.1 (hl p (by simp)) n p.1.2.2 _ (hidden p.2) (hidden' p.2)]
  apply key
  intro p hp
  exact h p.1 (List.mem_of_getElem? (i := p.2) (List.mem_zipIdx_iff_getElem?.1 hp))

theorem runWith_hidden {α G : Type} (gen : Gen G) (p : Prog α) (h : p.SharedOnly) (g o : G) (a : α)
    (s : G × G) (hs : p.runWith gen (g, o) = some (a, s)) : s.2 = o := by
  induction p generalizing g with
  | ret b =>
    obtain ⟨-, rfl⟩ := Prod.mk.inj (Option.some.inj hs)
    rfl
  | pick r n w k ih =>
    obtain ⟨rfl, hk⟩ := h
    simp only [runWith] at hs
    cases hd : gen.draw g n w with
    | none => rw [hd] at hs; simp at hs
    | some q => rw [hd] at hs; exact ih q.1 (hk q.1) q.2 hs

theorem step_hidden {G : Type} (gen : KGen G) (k : RKernel) (h : k.usher.AllShared) (occ : Occ)
    (g o : G) (r : Occ × Bool) (s : G × G) (hs : k.step gen occ (g, o) = some (r, s)) :
    s.2 = o := by
  unfold RKernel.step at hs
  cases h1 : (k.usher.propose occ).runWith gen.toGen (g, o) with
  | none => rw [h1] at hs; simp at hs
  | some q =>
    have := runWith_hidden gen.toGen _ (sharedOnly_propose k.usher h occ) g o q.1 q.2 h1
    rw [h1] at hs
    simp only at hs
    split_ifs at hs <;> (obtain ⟨-, rfl⟩ := Prod.mk.inj (Option.some.inj hs); exact this)

/-- C29. Such a run draws nothing from any other generator: after any number of steps the
generators seeded by the operating system are where they were, all numbers came from the kernel's
own one. -/
theorem C29_only_seeded_generator {G : Type} (gen : KGen G) (k : RKernel) (h : k.usher.AllShared)
    (n : ℕ) (occ : Occ) (g o : G) (l : List (Occ × Bool)) (s : G × G)
    (hs : k.steps gen n occ (g, o) = some (l, s)) : s.2 = o := by
  induction n generalizing occ g o l s with
  | zero =>
    obtain ⟨-, rfl⟩ := Prod.mk.inj (Option.some.inj hs)
    rfl
  | succ n ih =>
    rw [RKernel.steps] at hs
    cases h1 : k.step gen occ (g, o) with
    | none => rw [h1] at hs; simp at hs
    | some q =>
      rw [h1] at hs
      obtain ⟨r, g1, o1⟩ := q
      have e := step_hidden gen k h occ g o r (g1, o1) h1
      simp only at e hs
      subst e
      obtain ⟨p, hp, he⟩ := Option.map_eq_some_iff.1 hs
      obtain ⟨-, rfl⟩ := Prod.mk.inj he
      exact ih r.1 g1 o1 p.1 p.2 hp

/-- A generator for the counterexamples: its state is a number, draws are remainders. -/
def clockGen : KGen ℕ where
  draw g n _ := if h : 0 < n then some (⟨g % n, Nat.mod_lt _ h⟩, g) else none
  random g := (0, g)

/-- The TableFlip of the counterexample, as its constructor builds it. -/
def seedTable : TableFlipper :=
  (TableFlipper.new [tripleSublattice] [[-1, 1]] none (1 / 10) [] []).getD tripleTable

/-- One walker, one step: the run when the proposals on the zero occupancy and on `occ` are known. -/
theorem seededRun_one (u : Usher) (occ : Occ) (hidden : ℕ → ℕ) (st0 st : Step)
    (h0 : (u.propose fun _ => 0).runWith clockGen.toGen (0, hidden 0) = some (st0, (0, hidden 0)))
    (h1 : (u.propose occ).runWith clockGen.toGen (0, hidden 0) = some (st, (0, hidden 0))) :
    seededRun clockGen (fun _ => 0) 1 [(⟨u, fun _ _ => 0⟩, 0, occ)] hidden =
      some [[(applyStep occ st, true)]] := by
  have hs : ∀ (occ : Occ) (st : Step),
      (u.propose occ).runWith clockGen.toGen (0, hidden 0) = some (st, (0, hidden 0)) →
      RKernel.step clockGen ⟨u, fun _ _ => 0⟩ occ (0, hidden 0) =
        some ((applyStep occ st, true), (0, hidden 0)) := by
    intro occ st h
    unfold RKernel.step
    simp only [h, le_refl, if_true]
  simp [seededRun, RKernel.run, RKernel.steps, hs _ _ h0, hs _ _ h1]

/-- C29, the claim is false for TableFlip: same seed, same start, different samples, because its
inner Swap draws from a generator without seed (smol/moca/kernel/mcusher.py:540). -/
theorem C29_table_flip_fails :
    ∃ (t : TableFlipper) (occ : Occ) (hidden hidden' : ℕ → ℕ),
      TableFlipper.new [tripleSublattice] [[-1, 1]] none (1 / 10) [] [] = some t ∧
      seededRun clockGen (fun _ => 0) 1 [(⟨.table t 3, fun _ _ => 0⟩, 0, occ)] hidden ≠
        seededRun clockGen (fun _ => 0) 1 [(⟨.table t 3, fun _ _ => 0⟩, 0, occ)] hidden' := by
  refine ⟨seedTable, fun s => if s = 0 then 1 else 0, fun _ => 0, fun _ => 2, rfl, ?_⟩
  rw [seededRun_one _ _ (fun _ => 0) [] [(0, 0), (1, 1)] (by decide +kernel) (by decide +kernel),
    seededRun_one _ _ (fun _ => 2) [] [(2, 1), (0, 0)] (by decide +kernel) (by decide +kernel)]
  intro h
  simp only [Option.some.injEq, List.cons.injEq, Prod.mk.injEq, and_true] at h
  exact absurd (congrFun h 1) (by decide +kernel)

/-- C29, the claim is false for compound ushers whose inner ushers are named: same seed, same start,
different samples, both for MultiStep and for Composite. -/
theorem C29_named_inner_ushers_fail :
    (∃ (u : Usher) (occ : Occ) (hidden hidden' : ℕ → ℕ),
      buildMulti [tripleSublattice] [1] .flipName = some u ∧
      seededRun clockGen (fun _ => 0) 1 [(⟨u, fun _ _ => 0⟩, 0, occ)] hidden ≠
        seededRun clockGen (fun _ => 0) 1 [(⟨u, fun _ _ => 0⟩, 0, occ)] hidden') ∧
    (∃ (u : Usher) (occ : Occ) (hidden hidden' : ℕ → ℕ),
      buildComposite [tripleSublattice] [.flipName, .swapName] [1 / 2, 1 / 2] = some u ∧
      seededRun clockGen (fun _ => 0) 1 [(⟨u, fun _ _ => 0⟩, 0, occ)] hidden ≠
        seededRun clockGen (fun _ => 0) 1 [(⟨u, fun _ _ => 0⟩, 0, occ)] hidden') := by
  constructor
  · refine ⟨_, fun _ => 0, fun _ => 0, fun _ => 1, rfl, ?_⟩
    rw [seededRun_one _ _ (fun _ => 0) [(0, 1)] [(0, 1)] (by decide +kernel) (by decide +kernel),
      seededRun_one _ _ (fun _ => 1) [(1, 1)] [(1, 1)] (by decide +kernel) (by decide +kernel)]
    intro h
    simp only [Option.some.injEq, List.cons.injEq, Prod.mk.injEq, and_true] at h
    exact absurd (congrFun h 1) (by decide +kernel)
  · refine ⟨_, fun _ => 0, fun _ => 0, fun _ => 1, rfl, ?_⟩
    rw [seededRun_one _ _ (fun _ => 0) [(0, 1)] [(0, 1)] (by decide +kernel) (by decide +kernel),
      seededRun_one _ _ (fun _ => 1) [(1, 1)] [(1, 1)] (by decide +kernel) (by decide +kernel)]
    intro h
    simp only [Option.some.injEq, List.cons.injEq, Prod.mk.injEq, and_true] at h
    exact absurd (congrFun h 1) (by decide +kernel)

/-- The hypothesis is met by a MultiStep of a Composite of Flip and Swap, and the run is a real one:
with the clock generator at 0 the Flip puts species 1 on site 0. -/
example :
    let u : Usher := .multi .shared [1, 2] [1 / 2, 1 / 2] (.composite .shared 2
      (fun i => if i = 0 then .flip .shared [tripleSublattice] [1]
        else .swap .shared [tripleSublattice] [1]) [1 / 2, 1 / 2])
    (∀ w ∈ ([(⟨u, fun _ _ => 0⟩, 0, fun _ => 0)] : List (RKernel × ℕ × Occ)), w.1.usher.AllShared) ∧
    (u.propose fun _ => 0).runWith clockGen.toGen (0, 5) = some ([(0, 1)], (0, 5)) := by
  refine ⟨?_, by decide +kernel⟩
  intro w hw
  obtain rfl := List.mem_singleton.1 hw
  refine ⟨rfl, rfl, fun i => ?_⟩
  dsimp only
  split <;> exact rfl

end Smol
