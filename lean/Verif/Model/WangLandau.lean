import Verif.Model.Kernel
import Mathlib.Algebra.Order.Floor.Ring
import Mathlib.Data.Rat.Floor

/-!
# The Wang-Landau kernel

Models `smol/moca/kernel/wanglandau.py`.
-/

namespace Smol
variable {K : Type*} [Field K] [LinearOrder K] [IsStrictOrderedRing K] [FloorRing K]

/-- Settings, smol/moca/kernel/wanglandau.py:94-107. -/
structure WLConf (K : Type*) where
  lo : K
  hi : K
  size : K
  flat : K
  check : ℕ
  update : ℕ
  modUpdate : K → K

/-- The checks of the constructor, smol/moca/kernel/wanglandau.py:85-92; a zero bin size is a
`ZeroDivisionError`. -/
def WLConf.valid (c : WLConf K) (m0 : K) : Bool :=
  !decide (c.hi < c.lo) && !decide (c.size = 0) && !decide ((c.hi - c.lo) / c.size ≤ 1) &&
    !decide (m0 ≤ 0)

/-- `len(np.arange(min_enthalpy, max_enthalpy, bin_size))`, smol/moca/kernel/wanglandau.py:109.
Simplification: exact arithmetic. -/
def WLConf.nbins (c : WLConf K) : ℕ := ⌈(c.hi - c.lo) / c.size⌉.toNat

/-- `_get_bin_id` of a finite enthalpy, smol/moca/kernel/wanglandau.py:175-180. -/
def WLConf.binId (c : WLConf K) (e : K) : ℤ := ⌊(e - c.lo) / c.size⌋

/-- The kernel's state, smol/moca/kernel/wanglandau.py:98, 111-125; `enth = none` is `np.inf`.
`occ` is the walker's occupancy, which the sampler passes in. -/
structure WL (K : Type*) where
  occ : Occ
  feats : List K
  enth : Option K
  entropy : ℕ → K
  hist : ℕ → ℕ
  occurrences : ℕ → ℕ
  mean : ℕ → List K
  counter : ℕ
  m : K

/-- The state after construction, smol/moca/kernel/wanglandau.py:111-147. -/
def WL.init (m0 : K) (nfeat : ℕ) : WL K :=
  ⟨fun _ => 0, List.replicate nfeat 0, none, fun _ => 0, fun _ => 0, fun _ => 0,
    fun _ => List.replicate nfeat 0, 0, m0⟩

/-- `set_aux_state`, smol/moca/kernel/wanglandau.py:290-300, called with the initial occupancy of a
run (smol/moca/sampler/sampler.py:406). -/
def WL.setAux (k : Kern K) (s : WL K) (occ : Occ) : WL K :=
  { s with occ := occ, feats := k.feature occ, enth := some (dot k.params (k.feature occ)) }

/-- Python indexing of the entropy array: negative indices count from the end. -/
def pyAt (n : ℕ) (a : ℕ → K) (b : ℤ) : Option K :=
  if 0 ≤ b then if b < n then some (a b.toNat) else none
  else if -(n : ℤ) ≤ b then some (a (b + n).toNat) else none

/-- `_accept_step`, smol/moca/kernel/wanglandau.py:186-202; `logU` is the logarithm of the random
number that is drawn if the exponent is negative.  `none` is an `IndexError`. -/
def WL.accept (c : WLConf K) (s : WL K) (dH logPriori logU : K) : Option Bool :=
  match s.enth with
  | none => some false
  | some e =>
    let new := e + dH
    if new < c.lo ∨ c.hi ≤ new then some false
    else
      (pyAt c.nbins s.entropy (c.binId e)).bind fun old =>
        (pyAt c.nbins s.entropy (c.binId new)).map fun newS =>
          let exponent := old - newS + logPriori
          if 0 ≤ exponent then true else decide (logU < exponent)

/-- `_do_accept_step`, smol/moca/kernel/wanglandau.py:204-220. -/
def WL.doAccept (k : Kern K) (s : WL K) (st : Step) : WL K :=
  { s with
    occ := applyStep s.occ st
    feats := List.zipWith (· + ·) s.feats (k.change s.occ st)
    enth := s.enth.map fun e => e + dot k.params (k.change s.occ st) }

/-- The bin that is updated, if the index is valid (smol/moca/kernel/wanglandau.py:227-230). -/
def WL.validBin (c : WLConf K) (s : WL K) : Option ℕ :=
  s.enth.bind fun e =>
    if 0 ≤ c.binId e ∧ c.binId e < c.nbins then some (c.binId e).toNat else none

/-- Cumulative statistics, smol/moca/kernel/wanglandau.py:231-245. -/
def WL.tally (c : WLConf K) (s : WL K) (b : ℕ) : WL K :=
  let s : WL K := { s with
    counter := s.counter + 1
    mean := Function.update s.mean b (List.zipWith
      (fun f m => 1 / ((s.occurrences b : K) + 1) * (f + (s.occurrences b : K) * m))
      s.feats (s.mean b)) }
  if s.counter % c.update = 0 then
    { s with
      entropy := Function.update s.entropy b (s.entropy b + s.m)
      hist := Function.update s.hist b (s.hist b + 1)
      occurrences := Function.update s.occurrences b (s.occurrences b + 1) }
  else s

/-- The flatness test, smol/moca/kernel/wanglandau.py:257-262. -/
def WL.isFlat (c : WLConf K) (s : WL K) : Bool :=
  let h := ((List.range c.nbins).filter fun b => decide (0 < s.entropy b)).map s.hist
  let mean : K := (h.sum : K) / (h.length : K)
  decide (2 ≤ h.length) && h.all fun x => decide (c.flat * mean < x)

/-- `_do_post_step`, smol/moca/kernel/wanglandau.py:222-266; `none` is a division by a zero
period. -/
def WL.post (c : WLConf K) (s : WL K) : Option (WL K) :=
  (match s.validBin c with
    | none => some s
    | some b => if c.update = 0 then none else some (s.tally c b)).bind fun s =>
  if c.check = 0 then none
  else if s.counter % c.check = 0 ∧ s.isFlat c then
    some { s with hist := fun _ => 0, m := c.modUpdate s.m }
  else some s

/-- `single_step`, smol/moca/kernel/base.py:145-166, for this kernel, with the proposed step, its log
a-priori factor and the logarithm of the random number. -/
def WL.step (c : WLConf K) (k : Kern K) (s : WL K) (d : Step × K × K) : Option (WL K) :=
  (s.accept c (dot k.params (k.change s.occ d.1)) d.2.1 d.2.2).bind fun a =>
    (if a then s.doAccept k d.1 else s).post c

/-- `n` steps of a run from `s0`; `ch n occ` are the proposal and the numbers drawn in step `n`. -/
def wlRun (c : WLConf K) (k : Kern K) (ch : ℕ → Occ → Step × K × K) (s0 : WL K) : ℕ → Option (WL K)
  | 0 => some s0
  | n + 1 => (wlRun c k ch s0 n).bind fun s => s.step c k (ch n s.occ)

end Smol
