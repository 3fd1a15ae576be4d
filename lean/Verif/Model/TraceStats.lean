import Verif.Model.Run
import Verif.Model.SampleStats

/-!
# Sampling efficiency and orbit factors

Models `sampling_efficiency` and `get_orbit_factors` of `smol/moca/sampler/container.py`.
-/

namespace Smol
variable {K : Type*}

/-- `sampling_efficiency(discard, flat=False)`, smol/moca/sampler/container.py:131-142, for `w`
walkers.  The outer `none`: rows that were allocated but not written are summed as well, so the
result is arbitrary; an inner `none` is the `nan` of a division by zero. -/
def efficiencyWalkers (c : Container (List (Row K))) (w discard : ℕ) : Option (List (Option ℚ)) :=
  ((c.rows.drop discard).mapM id).map fun rows =>
    (List.range w).map fun j =>
      let total := (rows.filter fun ws => (ws[j]?.map Row.accepted).getD false).length
      let divisor : ℤ := (c.nsamples : ℤ) - discard
      if divisor = 0 then none else some ((total : ℚ) / divisor)

/-- `sampling_efficiency(discard, flat=True)`: the mean over walkers, `nan` if one of them is. -/
def efficiencyFlat (c : Container (List (Row K))) (w discard : ℕ) : Option (Option ℚ) :=
  (efficiencyWalkers c w discard).map fun l => (l.mapM id).bind meanQ

/-- `natural_parameters * features` for features as `_flatten` returns them,
smol/moca/sampler/container.py:267-269 (numpy broadcasting); `none`: shapes that do not fit. -/
def timesParams [Mul K] (params : List K) : Arr K → Option (Arr K)
  | .scalar x => some (.vec (params.map (· * x)))
  | .vec l =>
    if l.length = params.length then some (.vec (List.zipWith (· * ·) params l))
    else match params with
      | [p] => some (.vec (l.map (p * ·)))
      | _ => none
  | .mat rows =>
    if ∀ r ∈ rows, r.length = params.length then
      some (.mat (rows.map fun r => List.zipWith (· * ·) params r))
    else none

/-- `np.sum(vals[function_orbit_ids == i])`, smol/moca/sampler/container.py:272, for an array of
ids: the mask acts on the first axis, whose length must be that of the mask. -/
def maskedSum [AddCommMonoid K] (ids : List ℕ) (i : ℕ) : Arr K → Option K
  | .scalar _ => none
  | .vec l =>
    if l.length = ids.length then
      some (((ids.zip l).filter fun p => decide (p.1 = i)).map Prod.snd).sum
    else none
  | .mat rows =>
    if rows.length = ids.length then
      some (((ids.zip rows).filter fun p => decide (p.1 = i)).map fun p => p.2.sum).sum
    else none

/-- `get_orbit_factors(function_orbit_ids, flat=True)`, smol/moca/sampler/container.py:265-276, from
the selected feature vectors (by sample and walker); `none` is an `IndexError`. -/
def orbitFactors [CommRing K] (params : List K) (ids : List ℕ)
    (features : List (List (List K))) : Option (List K) :=
  letI : Inhabited K := ⟨0⟩
  (timesParams params (squeeze params.length features.flatten)).bind fun vals =>
    (List.range params.length).mapM fun i => maskedSum ids i vals

end Smol
