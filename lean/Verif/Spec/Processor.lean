import Verif.Spec.Occupancy

/-!
Specification of cluster averages.
-/

namespace Smol.Spec

/-- Average of a cluster function over the clusters (rows of site indices). -/
def clusterAverage {K : Type*} [Field K] (value : List ℕ → K) (clusters : List (List ℕ)) : K :=
  (clusters.map value).sum / (clusters.length : K)

/-- Value of a flattened table at the codes held by a cluster: the offset is
the scalar product of strides and codes. -/
def tableAt {K : Type*} (table : ℕ → K) (strides : List ℕ) (codes : List ℕ) : K :=
  table ((strides.zip codes).map fun p => p.1 * p.2).sum

end Smol.Spec
