import Verif.Model.Kernel

/-!
# The distribution of a Metropolis run

Models `single_step` of `smol/moca/kernel/base.py` with `_accept_step` of
`smol/moca/kernel/metropolis.py`, and the loop of `smol/moca/sampler/sampler.py`, as random
processes: functions are averaged over the draws of the usher and of the acceptance test.
-/

namespace Smol
open Prog

/-- Average of `f` of the occupancy after `single_step`, smol/moca/kernel/base.py:145-166: a step is
proposed; it is carried out when accepted, which happens with probability `acc` (C07), and otherwise
the occupancy stays as it is. -/
noncomputable def stepMean (usher : Occ → Prog Step) (acc : Occ → Step → ℝ) (f : Occ → ℝ)
    (x : Occ) : ℝ :=
  (usher x).expect fun st => acc x st * f (applyStep x st) + (1 - acc x st) * f x

/-- Average of `f` of the occupancy after the inner loop of `thin_by` steps,
smol/moca/sampler/sampler.py:194-206. -/
noncomputable def thinMean (usher : Occ → Prog Step) (acc : Occ → Step → ℝ) :
    ℕ → (Occ → ℝ) → Occ → ℝ
  | 0, f, x => f x
  | k + 1, f, x => stepMean usher acc (thinMean usher acc k f) x

/-- Average of `F` of the list of occupancies yielded by `sample`,
smol/moca/sampler/sampler.py:193-209: `n = nsteps // thin_by` samples, `k = thin_by` steps before
each.  One walker. -/
noncomputable def sampleMean (usher : Occ → Prog Step) (acc : Occ → Step → ℝ) (k : ℕ) :
    ℕ → Occ → (List Occ → ℝ) → ℝ
  | 0, _, F => F []
  | n + 1, x, F =>
    thinMean usher acc k (fun y => sampleMean usher acc k n y fun l => F (y :: l)) x

end Smol
