import Verif.Model.Basic

/-!
# Programs that draw random choices

The ushers of `smol/moca/kernel/mcusher.py` call `rng.choice` and `rng.random`.  A function that
draws is modelled by the tree of its choices.  The tree is read in three ways: the set of results
that can occur, the probability distribution of the result, and the result obtained from a given
pair of generators.
-/

namespace Smol

/-- Which generator object a draw uses: the one shared with the kernel, or one created by
`np.random.default_rng(None)` inside an usher that was not handed the shared one. -/
inductive Rng
  | shared
  | own
  deriving DecidableEq

/-- `ret a`: return `a`.  `pick g n w k`: draw an index `i < n` with probability `w i` from the
generator `g` and continue with `k i`.  A draw from zero alternatives has no continuation: this is
numpy's `ValueError` for an empty `choice`. -/
inductive Prog (α : Type)
  | ret (a : α)
  | pick (g : Rng) (n : ℕ) (w : Fin n → ℚ) (k : Fin n → Prog α)

namespace Prog

/-- Sequencing. -/
def bind {α β : Type} : Prog α → (α → Prog β) → Prog β
  | ret a, f => f a
  | pick g n w k, f => pick g n w fun i => (k i).bind f

/-- `rng.choice(l)`: uniform. -/
def choose {β : Type} (g : Rng) (l : List β) : Prog β :=
  pick g l.length (fun _ => 1 / (l.length : ℚ)) fun i => ret l[i]

/-- `rng.choice(l, p=w)`. -/
def chooseW {β : Type} (g : Rng) (l : List β) (w : List ℚ) : Prog β :=
  pick g l.length (fun i => w.getD i 0) fun i => ret l[i]

/-- `rng.choice(l, size=k, replace=False)`.  Simplification: which `k` entries are drawn is
modelled (every choice of `k` positions equally likely), the order in which they are returned is
not; callers use the entries as a set.  Fewer than `k` entries: `ValueError`. -/
def chooseSub {β : Type} (g : Rng) (k : ℕ) (l : List β) : Prog (List β) :=
  choose g (l.sublistsLen k)

/-- `rng.random() < p`. -/
def coin (g : Rng) (p : ℚ) : Prog Bool :=
  pick g 2 (fun i => if i.1 = 0 then p else 1 - p) fun i => ret (decide (i.1 = 0))

/-- Results that can occur. -/
def Outcome {α : Type} : Prog α → α → Prop
  | ret a, b => b = a
  | pick _ _ w k, b => ∃ i, w i ≠ 0 ∧ Outcome (k i) b

/-- Expectation of `f` of the result. -/
def expect {α : Type} {R : Type*} [Field R] : Prog α → (α → R) → R
  | ret a, f => f a
  | pick _ _ w k, f => ∑ i, (w i : R) * (k i).expect f

/-- A pseudo random generator: a deterministic state machine. -/
structure Gen (G : Type) where
  draw : G → (n : ℕ) → (Fin n → ℚ) → Option (Fin n × G)

/-- The result obtained from states of the shared and the own generator; `none` is an exception. -/
def runWith {α G : Type} (gen : Gen G) : Prog α → G × G → Option (α × (G × G))
  | ret a, s => some (a, s)
  | pick .shared n w k, s =>
    match gen.draw s.1 n w with
    | none => none
    | some (i, g') => (k i).runWith gen (g', s.2)
  | pick .own n w k, s =>
    match gen.draw s.2 n w with
    | none => none
    | some (i, g') => (k i).runWith gen (s.1, g')

/-- Draws only from the shared generator. -/
def SharedOnly {α : Type} : Prog α → Prop
  | ret _ => True
  | pick g _ _ k => g = .shared ∧ ∀ i, (k i).SharedOnly

end Prog
end Smol
