import Verif.Model.Kernel
import Verif.Model.Container

/-! `Sampler.run` in memory as a whole, `smol/moca/sampler/sampler.py`. -/

namespace Smol
variable {K : Type*} [CommRing K]

/-- `Sampler.run` without streaming, smol/moca/sampler/sampler.py:253-290: initial occupancies (given
or from the last sample), allocation, sampling, saving.  `drawn` is the number of rounds for which
random numbers were drawn before this run. -/
def runInMemory (ks : List (Kern K)) (dec : Decisions) (drawn nsteps thin : ℕ)
    (init : Option (List Occ)) (c : Container (List (Row K))) :
    Option (Container (List (Row K))) :=
  (runStart (fun rows => rows.map Row.occ) init c).bind fun occs =>
    (sample ks (fun r => dec (drawn + r)) nsteps thin occs).bind fun ys => runMemory thin ys c

end Smol
