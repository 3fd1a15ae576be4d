import Verif.Model.Kernel

/-!
# Multicell kernels

Models `MulticellKernel` of `smol/moca/kernel/base.py` for one walker, with the arrays it shares with
the sampler and with the single-cell kernels.  Kernels with a bias are not modelled.
-/

namespace Smol
variable {K : Type*} [CommRing K]

/-- The state of a multicell kernel, smol/moca/kernel/base.py:526-550.  Arrays live in `heap`;
address 0 is the walker's row of the sampler's array of occupancies; `ref k` is the array that
`kernel.trace.occupancy` of cell `k` refers to. -/
structure Multi (K : Type*) where
  heap : ℕ → Occ
  ref : ℕ → ℕ
  feats : ℕ → List K
  cur : ℕ
  counter : ℕ
  period : ℕ

/-- What the sampler reads from the returned trace. -/
structure MStepTr (K : Type*) where
  occ : Occ
  cell : ℕ
  accepted : Bool
  dFeatures : List K
  dEnthalpy : K

/-- Random choices of one call: proposal and acceptance in the current cell, the cell a hop goes to,
proposal and acceptance there, and the next hop period. -/
structure MChoice where
  localStep : Occ → Step × Bool
  target : ℕ
  hopStep : Occ → Step × Bool
  nextPeriod : ℕ

/-- A step within the current cell, smol/moca/kernel/base.py:678-686: the single-cell kernel works on
the sampler's row in place and its trace then refers to that row (line 164). -/
def Multi.localMove (cells : ℕ → Kern K) (s : Multi K) (d : Step × Bool) : Multi K × MStepTr K :=
  let occ := s.heap 0
  let t := (cells s.cur).singleStep occ d.1 d.2
  ({ s with
      heap := Function.update s.heap 0 t.occ
      ref := Function.update s.ref s.cur 0
      feats := if t.accepted then
          Function.update s.feats s.cur (List.zipWith (· + ·) (s.feats s.cur) t.dFeatures)
        else s.feats
      counter := s.counter + 1 },
    ⟨t.occ, s.cur, t.accepted, t.dFeatures, t.dEnthalpy⟩)

/-- An attempt to hop, smol/moca/kernel/base.py:656-676 with `_compute_step_trace` (599-622),
`_do_accept_step` (624-641) and `StandardSingleStepMixin.single_step` (145-166). -/
def Multi.hop (cells : ℕ → Kern K) (s : Multi K) (j : ℕ) (d : Step × Bool) (period : ℕ) :
    Multi K × MStepTr K :=
  let arr := s.heap (s.ref j)
  let new := applyStep arr d.1
  let dF := List.zipWith (· - ·) ((cells j).feature new) (s.feats s.cur)
  let dH := dot dF (cells j).params
  if d.2 then
    -- the array of cell `j` is changed in place, then copied into the sampler's row
    let heap := Function.update s.heap (s.ref j) new
    let heap := Function.update heap 0 (heap (s.ref j))
    ({ s with
        heap := heap
        feats := Function.update s.feats j ((cells j).feature new)
        cur := j
        counter := 1
        period := period },
      ⟨heap (s.ref j), j, true, dF, dH⟩)
  else
    ({ s with
        ref := Function.update s.ref s.cur 0
        counter := 1
        period := period },
      ⟨s.heap 0, s.cur, false, dF, dH⟩)

/-- Whether this call attempts a hop, smol/moca/kernel/base.py:656; the remainder by a zero period
is 0 in numpy. -/
def Multi.hopDue (s : Multi K) : Bool := s.period = 0 || s.counter % s.period = 0

/-- `single_step`, smol/moca/kernel/base.py:643-690. -/
def Multi.step (cells : ℕ → Kern K) (s : Multi K) (c : MChoice) : Multi K × MStepTr K :=
  if s.hopDue then s.hop cells c.target (c.hopStep (s.heap (s.ref c.target))) c.nextPeriod
  else s.localMove cells (c.localStep (s.heap 0))

/-- The walker's row of the sampler's trace. -/
structure MRow (K : Type*) where
  occ : Occ
  cell : ℕ
  features : List K
  enthalpy : K
  accepted : Bool

/-- `compute_initial_trace`, smol/moca/kernel/base.py:713-717. -/
def Multi.initialRow (cells : ℕ → Kern K) (s : Multi K) : MRow K :=
  let r := (cells s.cur).initialRow (s.heap 0)
  ⟨r.occ, s.cur, r.features, r.enthalpy, r.accepted⟩

/-- Update of the row, smol/moca/sampler/sampler.py:196-206. -/
def MRow.update (r : MRow K) (t : MStepTr K) : MRow K :=
  let r : MRow K := { r with occ := t.occ, cell := t.cell, accepted := t.accepted }
  if t.accepted then
    { r with
      features := List.zipWith (· + ·) r.features t.dFeatures
      enthalpy := r.enthalpy + t.dEnthalpy }
  else r

/-- A run of the sampler with one walker: kernel state and trace row after each step. -/
def multiRun (cells : ℕ → Kern K) : List MChoice → Multi K × MRow K → List (Multi K × MRow K)
  | [], _ => []
  | c :: cs, (s, r) =>
    let p := s.step cells c
    let r := r.update p.2
    (p.1, r) :: multiRun cells cs (p.1, r)

/-- `set_aux_state` with one occupancy per cell followed by the selection of the current one,
smol/moca/kernel/base.py:700-707 and smol/moca/sampler/sampler.py:406-415: the cells refer to rows of
the copied array, the sampler's row is a further copy (`np.vstack`). -/
def Multi.setAux (cells : ℕ → Kern K) (s : Multi K) (occs : ℕ → Occ) : Multi K :=
  { s with
    heap := fun a => if a = 0 then occs s.cur else occs (a - 1)
    ref := fun k => k + 1
    feats := fun k => (cells k).feature (occs k) }

/-- `set_aux_state` with the current occupancy only, smol/moca/kernel/base.py:708-712: a new run gets
a new row.  The old row keeps its content: it moves to the address `fresh`. -/
def Multi.setAuxOne (cells : ℕ → Kern K) (s : Multi K) (occ : Occ) (fresh : ℕ) : Multi K :=
  { s with
    heap := Function.update (Function.update s.heap fresh (s.heap 0)) 0 occ
    ref := fun k => if s.ref k = 0 then fresh else s.ref k
    feats := Function.update s.feats s.cur ((cells s.cur).feature occ) }

end Smol
