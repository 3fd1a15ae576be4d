import Verif.Model.Kernel

/-!
# Runs driven by seeded generators

Models how `smol/moca/kernel/base.py`, `smol/moca/kernel/metropolis.py` and
`smol/moca/kernel/mcusher.py` use their generators.
-/

namespace Smol
open Prog

/-- How a named usher inside a compound usher is built: `mcusher_factory(name, self.sublattices)`
without `rng`, so `np.random.default_rng(None)` (smol/moca/kernel/mcusher.py:265-269, 350-355, 80).
Only names that need no further arguments can be given. -/
inductive UsherArg
  | flipName
  | swapName
  | given (u : Usher)

/-- The usher an argument stands for. -/
def UsherArg.build (sls : List Sublattice) : UsherArg → Option Usher
  | .flipName => (usherProbs (activeSublattices sls).length none).map fun p =>
      .flip .own (activeSublattices sls) p
  | .swapName => (usherProbs (activeSublattices sls).length none).map fun p =>
      .swap .own (activeSublattices sls) p
  | .given u => some u

/-- `MultiStep` built by a kernel, smol/moca/kernel/mcusher.py:213-275, without step probabilities
(with them the constructor raises). -/
def buildMulti (sls : List Sublattice) (lens : List ℕ) (arg : UsherArg) : Option Usher :=
  (arg.build sls).map fun u =>
    .multi .shared lens (List.replicate lens.length (1 / (lens.length : ℚ))) u

/-- `Composite` built by a kernel, smol/moca/kernel/mcusher.py:314-360. -/
def buildComposite (sls : List Sublattice) (args : List UsherArg) (weights : List ℚ) :
    Option Usher :=
  (args.mapM (UsherArg.build sls)).map fun us =>
    .composite .shared us.length (fun i => us[i]) weights

/-- What a bit generator offers: discrete draws and `random()`. -/
structure KGen (G : Type) extends Gen G where
  random : G → ℝ × G

/-- A kernel as far as randomness is concerned: its usher and the exponent of the acceptance rule
(smol/moca/kernel/metropolis.py:40-44). -/
structure RKernel where
  usher : Usher
  exponent : Occ → Step → ℝ

/-- `single_step`, smol/moca/kernel/base.py:145-166 with `_accept_step`,
smol/moca/kernel/metropolis.py:31-49: the new occupancy, the acceptance and the generators
afterwards (the kernel's own one, shared with its usher, and the one created inside). -/
noncomputable def RKernel.step {G : Type} (gen : KGen G) (k : RKernel) (occ : Occ) (s : G × G) :
    Option ((Occ × Bool) × (G × G)) :=
  match (k.usher.propose occ).runWith gen.toGen s with
  | none => none
  | some (st, s) =>
    if 0 ≤ k.exponent occ st then some ((applyStep occ st, true), s)
    else
      let r := gen.random s.1
      if Real.log r.1 < k.exponent occ st then some ((applyStep occ st, true), (r.2, s.2))
      else some ((occ, false), (r.2, s.2))

/-- `n` steps; every state is listed. -/
noncomputable def RKernel.steps {G : Type} (gen : KGen G) (k : RKernel) :
    ℕ → Occ → G × G → Option (List (Occ × Bool) × (G × G))
  | 0, _, s => some ([], s)
  | n + 1, occ, s =>
    match k.step gen occ s with
    | none => none
    | some (r, s) => (k.steps gen n r.1 s).map fun p => (r :: p.1, p.2)

/-- Construction of the kernel (one step on the zero occupancy, smol/moca/kernel/base.py:237-238)
followed by a run of `n` steps from `occ`. -/
noncomputable def RKernel.run {G : Type} (gen : KGen G) (k : RKernel) (n : ℕ) (occ : Occ)
    (s : G × G) : Option (List (Occ × Bool)) :=
  match k.step gen (fun _ => 0) s with
  | none => none
  | some (_, s) => (k.steps gen n occ s).map Prod.fst

/-- A sampler with several walkers, each with its own kernel, seed and initial occupancy;
`hidden i` is the state of the generator that the usher of walker `i` creates without a seed. -/
noncomputable def seededRun {G : Type} (gen : KGen G) (seedState : ℕ → G) (n : ℕ)
    (walkers : List (RKernel × ℕ × Occ)) (hidden : ℕ → G) :
    Option (List (List (Occ × Bool))) :=
  (walkers.zipIdx).mapM fun p => p.1.1.run gen n p.1.2.2 (seedState p.1.2.1, hidden p.2)

end Smol
