import Verif.Model.Decomposition

/-!
# Cluster weights and the variance that is printed for an expansion

Models `effective_cluster_weights` and the numbers in the `ECI-based Property` line of `__str__`,
`smol/cofe/expansion.py`.
-/

namespace Smol

variable {K : Type*} [Field K]

/-- Boolean mask `arr[ids == i]` -/
def maskEq (ids : List ℕ) (i : ℕ) (arr : List K) : List K :=
  ((ids.zip arr).filter fun p => decide (p.1 = i)).map Prod.snd

/-- `effective_cluster_weights`, smol/cofe/expansion.py:231-249.  `none`: `eci` raises. -/
def Expansion.clusterWeights (E : Expansion K) : Option (List K) :=
  E.eci.map fun eci =>
    (List.range (E.space.orbits.length + 1)).map fun i =>
      (List.zipWith (fun m e => m * e ^ 2)
        (maskEq E.space.functionOrbitIds i (E.space.orderingMults.map fun m : ℕ => (m : K)))
        (maskEq E.space.functionOrbitIds i eci)).sum

/-- `fit_var` of `__str__`, smol/cofe/expansion.py:414-416. -/
def Expansion.fitVar (E : Expansion K) : Option K :=
  E.eci.map fun eci =>
    (List.zipWith (fun m e => m * e ^ 2)
      ((E.space.totalMults.drop 1).map fun m : ℕ => (m : K)) (eci.drop 1)).sum

/-- The mean that `__str__` prints, smol/cofe/expansion.py:418. -/
def Expansion.fitMean (E : Expansion K) : Option K := E.eci.map fun eci => eci.getD 0 0

end Smol
