import Verif.Model.WangLandau
import Verif.Model.Chain
import Mathlib.MeasureTheory.Measure.Lebesgue.Basic

/-!
# The distribution of Wang-Landau steps, and what the kernel reports

Models the acceptance test of `smol/moca/kernel/wanglandau.py` as a random event, and the
properties `levels`, `entropy`, `histogram` and `dos`.
-/

namespace Smol

/-- Probability, over the number drawn uniformly from (0, 1), that `_accept_step`
(smol/moca/kernel/wanglandau.py:186-202) accepts the step `st` at occupancy `x` while the entropies
are those of `s`.  `factor` is the exponential of the usher's log a-priori factor; when it is 0 the
exponent is `-inf` and no number is below it. -/
noncomputable def wlAcc (c : WLConf ℝ) (k : Kern ℝ) (s : WL ℝ) (factor : Occ → Step → ℝ) (x : Occ)
    (st : Step) : ℝ :=
  if factor x st = 0 then 0
  else (MeasureTheory.volume {v ∈ Set.Ioo (0 : ℝ) 1 |
    (s.setAux k x).accept c (dot k.params (k.change x st)) (Real.log (factor x st)) (Real.log v) =
      some true}).toReal

section
variable {K : Type*} [Field K] [LinearOrder K] [IsStrictOrderedRing K] [FloorRing K]

/-- Bins in which the mask `self._entropy > 0` holds, smol/moca/kernel/wanglandau.py:155, 160, 170. -/
def WL.seen (c : WLConf K) (s : WL K) : List ℕ :=
  (List.range c.nbins).filter fun b => decide (0 < s.entropy b)

/-- `levels`, smol/moca/kernel/wanglandau.py:109, 152-155: `np.arange` starts at the lower end of the
window and advances by the bin size. -/
def WL.levelsSeen (c : WLConf K) (s : WL K) : List K := (s.seen c).map fun (b : ℕ) => c.lo + (b : K) * c.size

/-- `entropy`, smol/moca/kernel/wanglandau.py:157-160. -/
def WL.entropySeen (c : WLConf K) (s : WL K) : List K := (s.seen c).map s.entropy

/-- `histogram`, smol/moca/kernel/wanglandau.py:167-170. -/
def WL.histogramSeen (c : WLConf K) (s : WL K) : List ℕ := (s.seen c).map s.hist

end

/-- `dos`, smol/moca/kernel/wanglandau.py:162-165; the minimum of no entries is a `ValueError`. -/
noncomputable def WL.dos (c : WLConf ℝ) (s : WL ℝ) : Option (List ℝ) :=
  match s.entropySeen c with
  | [] => none
  | e :: es => some ((e :: es).map fun a => Real.exp (a - es.foldl min e))

end Smol
