import Verif.Model.OrbitSpace
import Mathlib.Order.Lattice

/-!
# Selecting orbits and correlation functions by size and diameter

Models the accessors of `smol/cofe/space/clusterspace.py` that select orbits and functions, and
`ClusterSubspace.__eq__`.  The diameter of the base cluster of an orbit (`cluster.py:79-84`, a
cached value that never changes) is a function of the orbit object.
-/

namespace Smol

variable {K : Type*} [LinearOrder K]

/-- `max` of a non-empty list; `none` is `ValueError`. -/
def maxOf : List K → Option K
  | [] => none
  | a :: l => some (l.foldl max a)

/-- `cutoffs`, smol/cofe/space/clusterspace.py:344-355. -/
def OrbitSpace.cutoffs (diam : ℕ → K) (S : OrbitSpace) : Option (List (ℕ × K)) :=
  (S.dict.filter fun p => decide (p.1 ≠ 1)).mapM fun p =>
    (maxOf (p.2.map fun o => diam o.tag)).map fun m => (p.1, m)

/-- `function_inds_by_size`, smol/cofe/space/clusterspace.py:413-419; `none` is the `IndexError` of
a size without orbits. -/
def OrbitSpace.indsBySize (S : OrbitSpace) : Option (List (ℕ × List ℕ)) :=
  S.dict.mapM fun p =>
    match p.2.head?, p.2.getLast? with
    | some a, some b => some (p.1, List.range' a.bitId (b.bitId + b.combos.length - a.bitId))
    | _, _ => none

/-- A bound given as a number or as a dictionary from sizes, and how it becomes a dictionary,
smol/cofe/space/clusterspace.py:586-595. -/
inductive Bound (K : Type*)
  | all (x : K)
  | bySize (l : List (ℕ × K))

/-- The dictionary. -/
def Bound.dict (S : OrbitSpace) : Bound K → List (ℕ × K)
  | .all x => S.dict.map fun p => (p.1, x)
  | .bySize l => l

/-- The orbits of one size `orbits_from_cutoffs` selects, smol/cofe/space/clusterspace.py:596-601;
`none` is `KeyError`: of `self._orbits[size]`, or of `lower[size]`, looked up once for each orbit of
the size. -/
def OrbitSpace.pick (diam : ℕ → K) (S : OrbitSpace) (low : List (ℕ × K)) (q : ℕ × K) :
    Option (List Orb) :=
  match S.dict.lookup q.1 with
  | none => none
  | some os =>
    if os = [] then some [] else
    match low.lookup q.1 with
    | none => none
    | some l => some (os.filter fun o => decide (l ≤ diam o.tag ∧ diam o.tag ≤ q.2))

/-- `orbits_from_cutoffs`, smol/cofe/space/clusterspace.py:564-601. -/
def OrbitSpace.fromCutoffs (diam : ℕ → K) (S : OrbitSpace) (upper lower : Bound K) :
    Option (List Orb) :=
  ((upper.dict S).mapM (S.pick diam (lower.dict S))).map List.flatten

/-- `function_inds_from_cutoffs`, smol/cofe/space/clusterspace.py:603-625. -/
def OrbitSpace.indsFromCutoffs (diam : ℕ → K) (S : OrbitSpace) (upper lower : Bound K) :
    Option (List ℕ) :=
  (S.fromCutoffs diam upper lower).map fun os =>
    os.foldl (fun inds o => inds ++ List.range' o.bitId o.combos.length) []

/-- `itertools.groupby` on a list of keyed values: runs of equal keys. -/
def runsByKey {α : Type*} (key : α → K) : List α → List (K × List α)
  | [] => []
  | a :: l =>
    match runsByKey key l with
    | [] => [(key a, [a])]
    | (k, g) :: rest => if key a = k then (k, a :: g) :: rest else (key a, [a]) :: (k, g) :: rest

/-- Order by key. -/
def keyBelow {α : Type*} (key : α → K) (a b : α) : Prop := key a ≤ key b

instance {α : Type*} (key : α → K) : DecidableRel (keyBelow key) :=
  fun a b => inferInstanceAs (Decidable (key a ≤ key b))

/-- What `orbits_by_diameter` computes, smol/cofe/space/clusterspace.py:373-381; `rdiam` is the
diameter rounded to six decimals.  Orbits are given by their objects (`tag`), which stay the same
when ids are assigned. -/
def OrbitSpace.computeByDiameter (rdiam : ℕ → K) (S : OrbitSpace) : List (K × List ℕ) :=
  runsByKey rdiam ((S.orbits.map Orb.tag).insertionSort (keyBelow rdiam))

/-- A subspace with the cache of `orbits_by_diameter`. -/
structure SelState (K : Type*) where
  space : OrbitSpace
  cache : Option (List (K × List ℕ))

/-- What a user does. -/
inductive SelOp
  | orbits (ids : List ℤ)
  | functions (ids : List ℤ)
  | read
  deriving Repr

/-- Reading `orbits_by_diameter` (`cached_property`). -/
def SelState.read (rdiam : ℕ → K) (s : SelState K) : List (K × List ℕ) × SelState K :=
  match s.cache with
  | some c => (c, s)
  | none =>
    let c := s.space.computeByDiameter rdiam
    (c, { s with cache := some c })

/-- `remove_orbits` drops the cache at its end (lines 1026-1028; the `hasattr` before computes it),
`remove_corr_functions` only if it calls `remove_orbits` (lines 1069-1076). -/
def SelState.step (rdiam : ℕ → K) (s : SelState K) : SelOp → SelState K
  | .orbits ids =>
    match s.space.removeOrbits ids with
    | none => s
    | some S => ⟨S, none⟩
  | .functions ids =>
    let empty := (s.space.orbits.filter fun o =>
      decide (¬ (o.toRemove ids).isEmpty ∧ (o.removeCorr ids).combos = []))
    match s.space.removeCorr ids with
    | none => s
    | some S => ⟨S, if empty.isEmpty then s.cache else none⟩
  | .read => (s.read rdiam).2

/-- A history. -/
def SelState.run (rdiam : ℕ → K) (s : SelState K) (ops : List SelOp) : SelState K :=
  ops.foldl (SelState.step rdiam) s

/-- `__eq__`, smol/cofe/space/clusterspace.py:1479-1493; `same` is `Orbit.__eq__`
(smol/cofe/space/orbit.py:496-500), `ext` the types of the external terms. -/
def spaceEq (same : ℕ → ℕ → Bool) (S T : OrbitSpace) (extS extT : List ℕ) : Bool :=
  if T.numCorr ≠ S.numCorr then false
  else if extS.length ≠ extT.length then false
  else if !((extT.zip extS).all fun q => decide (q.1 = q.2)) then false
  else (T.orbits.zip S.orbits).all fun q => same q.1.tag q.2.tag

end Smol
