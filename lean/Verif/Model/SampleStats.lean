import Verif.Model.Container
import Verif.Model.OccuUtils

/-!
# Statistics of samples

Models the composition statistics, the orbit factors and the sampling efficiency of
`smol/moca/sampler/container.py`.

The selected samples (`get_occupancies(discard, thin_by, flat=False)`, `Container.getTrace`) are
lists by sample and walker.  Counts, float arrays in the code, are natural numbers; quotients are
rational.
-/

namespace Smol

/-- `Sublattice.__eq__`, smol/moca/sublattice.py:184-195: restricted sites are not compared. -/
def Sublattice.pyEq (a b : Sublattice) : Bool :=
  decide (a.species = b.species) && decide (a.encoding = b.encoding) && decide (a.sites = b.sites)

/-- The loop body of `get_sublattice_species_counts`, smol/moca/sampler/container.py:363-375, for
one occupancy.  `ord` is the order in which the python set of missing codes is listed (line 369).
`none`: a site outside of the occupancy, or a code of the encoding that is not found (line 374). -/
def countRow (ord : List ℕ → List ℕ) (sl : Sublattice) (occ : List ℕ) : Option (List ℕ) :=
  (sl.sites.mapM fun s => occ[s]?).bind fun vals =>
    let codes := npUnique vals
    let count := codes.map fun c => vals.count c
    let missed :=
      if codes.length ≠ sl.species.length then
        ord (sl.encoding.dedup.filter fun c => decide (c ∉ codes))
      else []
    let codes' := codes ++ missed
    let count' := count ++ missed.map fun _ => 0
    sl.encoding.mapM fun c => if c ∈ codes' then count'[codes'.idxOf c]? else none

/-- `get_sublattice_species_counts(..., flat=False)`, smol/moca/sampler/container.py:345-376:
by sample, walker and code.  `none` also when the sublattice is not one of the container's. -/
def subCounts (ord : List ℕ → List ℕ) (sls : List Sublattice) (sl : Sublattice)
    (occus : List (List (List ℕ))) : Option (List (List (List ℕ))) :=
  if sls.any fun x => x.pyEq sl then occus.mapM fun ws => ws.mapM (countRow ord sl) else none

/-- Iteration over `a.T`, for the array `a` of counts for `n` codes that `_flatten` returns: numbers
or columns.  A zero dimensional array can not be iterated over. -/
def Arr.iterT (n : ℕ) : Arr ℕ → Option (List (ℕ ⊕ List ℕ))
  | .scalar _ => none
  | .vec l => some (l.map .inl)
  | .mat rows => some ((List.range n).map fun k => .inr (rows.map fun r => r.getD k 0))

/-- `a += x` for a number or a row of the same shape. -/
def addItem (a : List ℕ) : ℕ ⊕ List ℕ → Option (List ℕ)
  | .inl x => some (a.map (· + x))
  | .inr l => if l.length = a.length then some (List.zipWith (· + ·) a l) else none

/-- The `defaultdict` of `get_species_counts`, smol/moca/sampler/container.py:336: its keys and the
value of every key, the default for those not present. -/
structure SpeciesDict (β : Type*) where
  keys : List ℕ
  val : ℕ → β

/-- `counts[species] = v` -/
def SpeciesDict.set {β : Type*} (d : SpeciesDict β) (sp : ℕ) (v : β) : SpeciesDict β :=
  ⟨if sp ∈ d.keys then d.keys else d.keys ++ [sp], Function.update d.val sp v⟩

/-- `get_species_counts(..., flat=True)`, smol/moca/sampler/container.py:332-343: `size` is
`self.shape[0] * samples`. -/
def speciesCountsFlat (ord : List ℕ → List ℕ) (sls : List Sublattice) (size : ℕ)
    (occus : List (List (List ℕ))) : Option (SpeciesDict (List ℕ)) :=
  sls.foldlM (fun d sl =>
    (subCounts ord sls sl occus).bind fun c =>
      ((squeeze sl.species.length c.flatten).iterT sl.species.length).bind fun items =>
        (sl.species.zip items).foldlM (fun (d : SpeciesDict (List ℕ)) p =>
          (addItem (d.val p.1) p.2).map fun v => d.set p.1 v) d)
    ⟨[], fun _ => List.replicate size 0⟩

/-- `get_species_counts(..., flat=False)`, smol/moca/sampler/container.py:332-343, for `w` walkers
and `samples` samples: the transposed array has the axes species, walker, sample.
`none` also when the shapes differ. -/
def speciesCountsWalkers (ord : List ℕ → List ℕ) (sls : List Sublattice) (w samples : ℕ)
    (occus : List (List (List ℕ))) : Option (SpeciesDict (List (List ℕ))) :=
  sls.foldlM (fun d sl =>
    (subCounts ord sls sl occus).bind fun c =>
      if c.length = samples ∧ ∀ ws ∈ c, ws.length = w then
        let items := (List.range sl.species.length).map fun k =>
          (List.range w).map fun j => c.map fun ws => (ws.getD j []).getD k 0
        some ((sl.species.zip items).foldl (fun (d : SpeciesDict (List (List ℕ))) p =>
          d.set p.1 (List.zipWith (List.zipWith (· + ·)) (d.val p.1) p.2)) d)
      else none)
    ⟨[], fun _ => List.replicate w (List.replicate samples 0)⟩

/-- `mean` of numbers; `none` is the `nan` of an empty array. -/
def meanQ (l : List ℚ) : Option ℚ := if l = [] then none else some (l.sum / l.length)

/-- `var` of numbers. -/
def varQ (l : List ℚ) : Option ℚ :=
  (meanQ l).bind fun m => meanQ (l.map fun x => (x - m) ^ 2)

/-- `mean_composition` / `composition_variance` (with `stat` the mean or the variance),
`flat=True`, smol/moca/sampler/container.py:236-239 and 278-286; `n` is `self.shape[1]`, the number
of sites. -/
def compositionStatFlat (stat : List ℚ → Option ℚ) (ord : List ℕ → List ℕ) (sls : List Sublattice)
    (n size : ℕ) (occus : List (List (List ℕ))) : Option (SpeciesDict (Option ℚ)) :=
  (speciesCountsFlat ord sls size occus).map fun d =>
    ⟨d.keys, fun sp => stat ((d.val sp).map fun x : ℕ => (x : ℚ) / n)⟩

/-- The same for `flat=False`: `axis=0` of the arrays with axes walker and sample. -/
def compositionStatWalkers (stat : List ℚ → Option ℚ) (ord : List ℕ → List ℕ)
    (sls : List Sublattice) (n w samples : ℕ) (occus : List (List (List ℕ))) :
    Option (SpeciesDict (List (Option ℚ))) :=
  (speciesCountsWalkers ord sls w samples occus).map fun d =>
    ⟨d.keys, fun sp => (List.range samples).map fun t =>
      stat ((d.val sp).map fun row => ((row.getD t 0 : ℕ) : ℚ) / n)⟩

/-- Result of a reduction along the first axis of a squeezed array. -/
inductive Reduced
  | number (x : Option ℚ)
  | row (l : List (Option ℚ))
  deriving DecidableEq

/-- `mean_sublattice_composition` / `sublattice_composition_variance` with `flat=True`,
smol/moca/sampler/container.py:231-234 and 288-301; `none` also for the error of a zero dimensional
array. -/
def subCompositionStatFlat (stat : List ℚ → Option ℚ) (ord : List ℕ → List ℕ)
    (sls : List Sublattice) (sl : Sublattice) (occus : List (List (List ℕ))) : Option Reduced :=
  (subCounts ord sls sl occus).bind fun c =>
    match squeeze sl.species.length c.flatten with
    | .scalar _ => none
    | .vec l => some (.number (stat (l.map fun x : ℕ => (x : ℚ) / sl.sites.length)))
    | .mat rows => some (.row ((List.range sl.species.length).map fun i =>
        stat (rows.map fun r => ((r.getD i 0 : ℕ) : ℚ) / sl.sites.length)))

/-- The same for `flat=False`, for `w` walkers: by walker and code. -/
def subCompositionStatWalkers (stat : List ℚ → Option ℚ) (ord : List ℕ → List ℕ)
    (sls : List Sublattice) (sl : Sublattice) (w : ℕ) (occus : List (List (List ℕ))) :
    Option (List (List (Option ℚ))) :=
  (subCounts ord sls sl occus).map fun c =>
    (List.range w).map fun j => (List.range sl.species.length).map fun i =>
      stat (c.map fun ws => (((ws.getD j []).getD i 0 : ℕ) : ℚ) / sl.sites.length)

end Smol
