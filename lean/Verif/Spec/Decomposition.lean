import Verif.Spec.Orbit

/-!
Specification: the energy of a cluster expansion.
-/

namespace Smol.Spec

/-- Constant plus, over the orbits and their functions, coefficient times average of the function
over the orbit's clusters; per prim cell, times the number of prim cells.
An orbit is given by its site functions, clusters and pairs (coefficient, class). -/
def expansionEnergy {K : Type*} [Field K] (size : ℕ) (const : K)
    (orbits : List ((ℕ → ℕ → ℕ → K) × List (List ℕ) × List (K × List (List ℕ))))
    (occ : ℕ → ℕ) : K :=
  (const + (orbits.map fun o => (o.2.2.map fun f =>
    f.1 * clusterAverage (fun row => correlation o.1 f.2 (row.map occ)) o.2.1).sum).sum) * size

end Smol.Spec
