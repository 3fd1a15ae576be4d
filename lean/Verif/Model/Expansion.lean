import Verif.Model.OrbitSpace
import Mathlib.Algebra.Order.Ring.Abs

/-!
# Coefficients of a cluster expansion

Models `smol/cofe/expansion.py`: effective cluster interactions, prediction and pruning.
Floats are elements of an ordered field `K`; arrays are lists.
-/

namespace Smol

variable {K : Type*} [Field K] [LinearOrder K]

/-- `orbit_multiplicities`, smol/cofe/space/clusterspace.py:382-386. -/
def OrbitSpace.orbitMults (S : OrbitSpace) : List ℕ := 1 :: S.orbits.map Orb.mult

/-- `function_ordering_multiplicities`, smol/cofe/space/clusterspace.py:421-434. -/
def OrbitSpace.orderingMults (S : OrbitSpace) : List ℕ :=
  1 :: S.orbits.flatMap fun o => o.combos.map Prod.snd

/-- `function_total_multiplicities`, smol/cofe/space/clusterspace.py:436-450. -/
def OrbitSpace.totalMults (S : OrbitSpace) : List ℕ :=
  List.zipWith (· * ·) (S.functionOrbitIds.map fun i => S.orbitMults.getD i 0) S.orderingMults

/-- Division of one-dimensional numpy arrays with broadcasting; `none` is `ValueError`. -/
def arrDiv (a b : List K) : Option (List K) :=
  if a.length = b.length then some (List.zipWith (· / ·) a b)
  else if a.length = 1 then some (b.map fun y => a.headD 0 / y)
  else if b.length = 1 then some (a.map fun x => x / b.headD 0)
  else none

/-- `ClusterExpansion`, smol/cofe/expansion.py:96-169: the subspace, the number of its external
terms, and the coefficients.  Regression data is not modelled. -/
structure Expansion (K : Type*) where
  space : OrbitSpace
  nExt : ℕ
  coefs : List K

/-- `len(cluster_subspace)`: functions (with the constant) and external terms. -/
def Expansion.numTerms (E : Expansion K) : ℕ := E.space.numCorr + E.nExt

/-- Array slice `coefs[:-n]` (the whole array when `n = 0`), smol/cofe/expansion.py:179-180. -/
def dropExt (n : ℕ) (coefs : List K) : List K := coefs.take (coefs.length - n)

/-- `eci`, smol/cofe/expansion.py:171-183. -/
def Expansion.eci (E : Expansion K) : Option (List K) :=
  arrDiv (dropExt E.nExt E.coefs) (E.space.totalMults.map fun m : ℕ => (m : K))

/-- The correlation vector of a structure as a function of the values of the correlation functions
and of the external terms, smol/cofe/space/clusterspace.py:690-706. -/
def Expansion.corr (E : Expansion K) (val : ℕ × (ℕ × ℕ) → K) (ext : List K) : List K :=
  1 :: ((E.space.orbits.flatMap fun o => o.combos.map fun c => val (o.tag, c)) ++ ext)

/-- `np.dot` of one-dimensional arrays; `none` is `ValueError`. -/
def npDot (a b : List K) : Option K :=
  if a.length = b.length then some (List.zipWith (· * ·) a b).sum else none

/-- `predict`, smol/cofe/expansion.py:259-288. -/
def Expansion.predict (E : Expansion K) (val : ℕ × (ℕ × ℕ) → K) (ext : List K) : Option K :=
  npDot E.coefs (E.corr val ext)

/-- Positions of the entries below the threshold, smol/cofe/expansion.py:357. -/
def smallIds (coefs : List K) (threshold : K) : List ℤ :=
  (coefs.zipIdx.filter fun p => decide (|p.1| < threshold)).map fun p => (p.2 : ℤ)

/-- Entries whose positions are not listed, smol/cofe/expansion.py:361-363. -/
def complementOf (ids : List ℤ) (l : List K) : List K :=
  (l.zipIdx.filter fun p => decide ((p.2 : ℤ) ∉ ids)).map Prod.fst

/-- The expansion after `prune` and whether an exception was raised on the way. -/
structure Pruned (K : Type*) where
  exp : Expansion K
  raised : Bool

/-- `prune`, smol/cofe/expansion.py:335-375.  `hasattr(self, "eci")` in line 368 computes the new
`eci`; its `ValueError` is not caught by `hasattr`, and by then subspace and coefficients have been
changed.  `none`: the `eci` used for the selection (line 356) raises.
The cached `eci` is taken to be up to date, as it is after construction and after `prune`. -/
def Expansion.prune (E : Expansion K) (threshold : K) (withMult : Bool) : Option (Pruned K) :=
  (if withMult then E.eci else some E.coefs).bind fun base =>
    (E.space.removeCorr (smallIds base threshold)).map fun space =>
      let exp : Expansion K := ⟨space, E.nExt, complementOf (smallIds base threshold) E.coefs⟩
      ⟨exp, exp.eci.isNone⟩

end Smol
