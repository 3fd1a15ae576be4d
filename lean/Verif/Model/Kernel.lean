import Verif.Model.Ensemble
import Verif.Model.Usher
import Mathlib.Analysis.SpecialFunctions.Log.Basic

/-!
# Kernels and the sampling loop

Models `smol/moca/kernel/base.py` (single-cell kernels), `smol/moca/kernel/metropolis.py`,
`smol/moca/kernel/random.py` and the loop of `smol/moca/sampler/sampler.py`.
-/

namespace Smol

section Loop
variable {K : Type*} [CommRing K]

/-- What a kernel evaluates, smol/moca/kernel/base.py:181-238: features and their changes from the
ensemble, the natural parameters copied at construction, and possibly a bias. -/
structure Kern (K : Type*) where
  params : List K
  feature : Occ → List K
  change : Occ → Step → List K
  bias : Option (Occ → K)
  biasChange : Occ → Step → K

/-- The kernel of an ensemble, smol/moca/kernel/base.py:197-215: `natural_params` is read once. -/
def Kern.ofEnsemble (e : Ens K) (proc : PartProc K) (numSites : ℕ) (bias : Option (Occ → K))
    (biasChange : Occ → Step → K) : Kern K :=
  ⟨e.params, e.feature proc numSites, e.change proc, bias, biasChange⟩

/-- One walker's row of the sampler's trace (`val[i]` in smol/moca/sampler/sampler.py:196-206). -/
structure Row (K : Type*) where
  occ : Occ
  features : List K
  enthalpy : K
  bias : Option K
  accepted : Bool

/-- The kernel's StepTrace after a step: values and `delta_trace`. -/
structure StepTr (K : Type*) where
  occ : Occ
  accepted : Bool
  dFeatures : List K
  dEnthalpy : K
  dBias : Option K

/-- `compute_initial_trace`, smol/moca/kernel/base.py:344-364. -/
def Kern.initialRow (k : Kern K) (occ : Occ) : Row K where
  occ := occ
  features := k.feature occ
  enthalpy := dot k.params (k.feature occ)
  bias := k.bias.map fun b => b occ
  accepted := true

/-- `single_step`, smol/moca/kernel/base.py:145-166, with `_compute_step_trace` (290-312) and
`_do_accept_step` (326-342); `step` is the proposed step and `accept` what `_accept_step`
returned. -/
def Kern.singleStep (k : Kern K) (occ : Occ) (step : Step) (accept : Bool) : StepTr K where
  occ := if accept then applyStep occ step else occ
  accepted := accept
  dFeatures := k.change occ step
  dEnthalpy := dot k.params (k.change occ step)
  dBias := k.bias.map fun _ => k.biasChange occ step

/-- Update of the sampler's trace from the step trace, smol/moca/sampler/sampler.py:196-206. -/
def Row.update (r : Row K) (t : StepTr K) : Row K :=
  let r : Row K := { r with occ := t.occ, accepted := t.accepted }
  if t.accepted then
    { r with
      features := List.zipWith (· + ·) r.features t.dFeatures
      enthalpy := r.enthalpy + t.dEnthalpy
      bias := r.bias.bind fun b => t.dBias.map fun d => b + d }
  else r

/-- A walker: its row of the array of current occupancies and its row of the trace. -/
abbrev Walker (K : Type*) := Occ × Row K

/-- The random part of a run: `dec r i occ` is the step proposed to walker `i` in round `r` when
its occupancy is `occ`, and whether it was accepted.  Every run with any generator is described by
some such function. -/
abbrev Decisions := ℕ → ℕ → Occ → Step × Bool

/-- One walker, one step. -/
def Walker.advance (k : Kern K) (w : Walker K) (d : Step × Bool) : Walker K :=
  let t := k.singleStep w.1 d.1 d.2
  (t.occ, w.2.update t)

/-- One pass of `_single_step` and the trace update over all walkers,
smol/moca/sampler/sampler.py:196-206 and 432-435. -/
def roundAll (ks : List (Kern K)) (dec : Decisions) (r : ℕ) (ws : List (Walker K)) :
    List (Walker K) :=
  (ks.zip ws).mapIdx fun i p => p.2.advance p.1 (dec r i p.2.1)

/-- `thin_by` passes. -/
def rounds (ks : List (Kern K)) (dec : Decisions) : ℕ → ℕ → List (Walker K) → List (Walker K)
  | _, 0, ws => ws
  | r, m + 1, ws => rounds ks dec (r + 1) m (roundAll ks dec r ws)

/-- States at the successive `yield`s of `Sampler.sample`, smol/moca/sampler/sampler.py:194-209. -/
def sampleYields (ks : List (Kern K)) (dec : Decisions) (thin : ℕ) :
    ℕ → ℕ → List (Walker K) → List (List (Walker K))
  | _, 0, _ => []
  | r, m + 1, ws =>
    let ws' := rounds ks dec r thin ws
    ws' :: sampleYields ks dec thin (r + thin) m ws'

/-- `Sampler.sample`, smol/moca/sampler/sampler.py:163-209: the trace at each yield, as
`save_sampled_trace` copies it.  `thin = 0` is a `ZeroDivisionError`. -/
def sample (ks : List (Kern K)) (dec : Decisions) (nsteps thin : ℕ) (init : List Occ) :
    Option (List (List (Row K))) :=
  if thin = 0 then none
  else
    let ws := List.zipWith (fun k o => (o, k.initialRow o)) ks init
    some ((sampleYields ks dec thin 0 (nsteps / thin) ws).map fun ws => ws.map Prod.snd)

/-- What a caller holds after `list(sampler.sample(...))`: the generator yields one and the same
Trace object each time (line 209, in spite of the comment), so every entry shows its final
content. -/
def sampleKept (ks : List (Kern K)) (dec : Decisions) (nsteps thin : ℕ) (init : List Occ) :
    Option (List (List (Row K))) :=
  (sample ks dec nsteps thin init).map fun l => l.map fun _ => l.getLastD []

end Loop

/-- Metropolis `_accept_step`, smol/moca/kernel/metropolis.py:31-49 and, with the enthalpy term
left out, smol/moca/kernel/random.py:28-36: accepted?, number of draws.  `u` is the value
`rng.random()` would return. -/
noncomputable def acceptDraw (exponent u : ℝ) : Bool × ℕ :=
  if 0 ≤ exponent then (true, 0) else (decide (Real.log u < exponent), 1)

/-- The exponent, smol/moca/kernel/metropolis.py:40-44. -/
noncomputable def metropolisExponent (beta dH logFactor : ℝ) (dBias : Option ℝ) : ℝ :=
  -beta * dH + logFactor + dBias.getD 0

/-- Probability of a transition `x → y` for a Metropolis kernel: a step is proposed by `usher` and
accepted with probability `acc`. -/
noncomputable def transition (usher : Occ → Prog Step) (acc : Occ → Step → ℝ) (x y : Occ) : ℝ :=
  open Classical in (usher x).expect fun st => if applyStep x st = y then acc x st else 0

/-- Acceptance probability as a function of the proposal: `min(1, exp(-β dH + dB) · factor)` where
`factor` is the exponential of the usher's log a-priori factor (C07 shows that `acceptDraw` accepts
with this probability). -/
noncomputable def metropolisAcc (beta : ℝ) (dH dB : Occ → Step → ℝ) (factor : Occ → Step → ℝ)
    (x : Occ) (st : Step) : ℝ :=
  min 1 (Real.exp (-beta * dH x st + dB x st) * factor x st)

end Smol
