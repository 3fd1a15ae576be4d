import Mathlib.Data.List.Basic

/-!
# The states walkers start from

Models `setup_sample`, `_reshape_occu`, `_single_step` and the loop of `sample` in
`smol/moca/sampler/sampler.py` for arrays of any number of dimensions, with `set_aux_state` of
kernels, and `save_sampled_trace` of `smol/moca/sampler/container.py`, as far as occupancies are
concerned.

A step of a kernel is any function of its own state and its row.  Rows have one entry per site;
arrays with rows of other lengths are left out.
-/

namespace Smol

/-- An occupancy. -/
abbrev ORow := List ℕ

/-- Arrays of occupancies with one to four dimensions.  `n` and `c` are the lengths of the last
dimensions. -/
inductive OArr
  | d1 (x : ORow)
  | d2 (n : ℕ) (rows : List ORow)
  | d3 (c n : ℕ) (blocks : List (List ORow))
  | d4 (b c n : ℕ) (deep : List (List (List ORow)))
  deriving DecidableEq, Repr

/-- `shape` -/
def OArr.shape : OArr → List ℕ
  | .d1 x => [x.length]
  | .d2 n rows => [rows.length, n]
  | .d3 c n blocks => [blocks.length, c, n]
  | .d4 b c n deep => [deep.length, b, c, n]

/-- Iteration over the first dimension; an array with one dimension has no arrays in it. -/
def OArr.slices : OArr → List OArr
  | .d1 _ => []
  | .d2 _ rows => rows.map .d1
  | .d3 _ n blocks => blocks.map (.d2 n)
  | .d4 _ c n deep => deep.map (.d3 c n)

/-- A kernel: a single one, or a `MulticellKernel` with its number of cells and
`trace.kernel_index`. -/
abbrev WKernel := Option (ℕ × ℕ)

/-- `Sampler._reshape_occu`, smol/moca/sampler/sampler.py:437-450, for a container of `w` walkers;
`multi`: one of the kernels is a `MulticellKernel`; `none` is an `AttributeError`. -/
def reshapeOccu (w : ℕ) (multi : Bool) : OArr → Option OArr
  | .d1 x => if w = 1 then some (.d2 x.length [x]) else if multi then some (.d2 x.length [x]) else none
  | .d2 n rows => if multi then some (.d3 rows.length n [rows]) else none
  | .d3 c n blocks => if multi then some (.d4 blocks.length c n [blocks]) else none
  | .d4 _ _ _ _ => none  -- five dimensions: no kernel can be started from such an array

/-- `set_aux_state`, smol/moca/kernel/base.py:286-288 and 692-712: the occupancies given to the cells
of the kernel (none for a single occupancy).  Features of anything but a single occupancy cannot be
computed (`none`). -/
def setAuxRows : WKernel → OArr → Option (List ORow)
  | _, .d1 _ => some []
  | some (c, _), .d2 _ rows => if rows.length = c then some rows else none
  | _, _ => none

/-- The occupancy of the current cell, smol/moca/sampler/sampler.py:409-413. -/
def selectRow : WKernel → OArr → Option ORow
  | some (c, cur), .d2 _ rows => if rows.length = c then rows[cur]? else none
  | _, _ => none

/-- A single occupancy; `compute_initial_trace` raises for anything else. -/
def OArr.row? : OArr → Option ORow
  | .d1 x => some x
  | _ => none

/-- The array of occupancies, smol/moca/sampler/sampler.py:400-402, for a container of `w` walkers and
`n` sites. -/
def initialOcc (w n : ℕ) (kernels : List WKernel) (init : OArr) : Option OArr :=
  if init.shape = [w, n] then some init else reshapeOccu w (kernels.any Option.isSome) init

/-- The occupancies that the walkers start from, smol/moca/sampler/sampler.py:405-424: those selected
from cells, or those of the array. -/
def startRows (kernels : List WKernel) (occ : OArr) : Option (List ORow) :=
  match (kernels.zip occ.slices).filterMap fun p => selectRow p.1 p.2 with
  | [] => (occ.slices.take kernels.length).mapM OArr.row?
  | r :: rs => some ((r :: rs).take kernels.length)

/-- `Sampler.setup_sample`, smol/moca/sampler/sampler.py:384-430: the occupancies given to the cells of
each kernel that is reached, and the occupancies the walkers start from.  `none`: raises (also
`traces[0]` without any trace). -/
def setupSample (w n : ℕ) (kernels : List WKernel) (init : OArr) : Option (List (List ORow) × List ORow) :=
  (initialOcc w n kernels init).bind fun occ =>
  ((kernels.zip occ.slices).mapM fun p => setAuxRows p.1 p.2).bind fun aux =>
  (startRows kernels occ).bind fun rows =>
  if rows = [] then none else some (aux, rows)

variable {σ : Type*}

/-- One step of all kernels, smol/moca/sampler/sampler.py:197-206 and 432-435: `zip` stops at the
shorter of kernels and rows. -/
def walkersStep (step : σ → ORow → σ × ORow) : List σ → List ORow → List σ × List ORow
  | s :: ss, r :: rs =>
    ((step s r).1 :: (walkersStep step ss rs).1, (step s r).2 :: (walkersStep step ss rs).2)
  | ss, rs => (ss, rs)

/-- `thin_by` steps, smol/moca/sampler/sampler.py:195-206. -/
def walkersSteps (step : σ → ORow → σ × ORow) : ℕ → List σ × List ORow → List σ × List ORow
  | 0, x => x
  | t + 1, x => walkersSteps step t (walkersStep step x.1 x.2)

/-- `self._trace.occupancy[nsamples] = rows` of `save_sampled_trace`,
smol/moca/sampler/container.py:390-391: numpy repeats a single row; `none`: `ValueError`. -/
def recordRows (w : ℕ) (rows : List ORow) : Option (List ORow) :=
  if rows.length = w then some rows
  else match rows with
    | [r] => some (List.replicate w r)
    | _ => none

/-- The loops of `sample` and `run`, smol/moca/sampler/sampler.py:194-209 and 287-290: states of the
kernels at the end, and the saved samples. -/
def recordRun (step : σ → ORow → σ × ORow) (w thin : ℕ) :
    ℕ → List σ × List ORow → Option (List σ × List (List ORow))
  | 0, x => some (x.1, [])
  | k + 1, x =>
    match recordRows w (walkersSteps step thin x).2, recordRun step w thin k (walkersSteps step thin x) with
    | some r, some (ss, rest) => some (ss, r :: rest)
    | _, _ => none

/-- `Sampler.run` in memory with initial occupancies given, smol/moca/sampler/sampler.py:211-290. -/
def walkersRun (step : σ → ORow → σ × ORow) (w n thin nsamples : ℕ) (kernels : List WKernel)
    (states : List σ) (init : OArr) : Option (List σ × List (List ORow)) :=
  match setupSample w n kernels init with
  | some (_, rows) => recordRun step w thin nsamples (states, rows)
  | none => none

end Smol
