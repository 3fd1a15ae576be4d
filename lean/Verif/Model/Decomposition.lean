import Verif.Model.Expansion
import Verif.Model.Orbit

/-!
# Processors of a cluster expansion

Models `cluster_interaction_tensors` in `smol/cofe/expansion.py` and the construction of both
processors in `smol/moca/processor/expansion.py` from an expansion.
-/

namespace Smol

variable {K : Type*} [Field K]

/-- What an orbit object holds besides its ids: site function arrays (`basis_arrays`), numbers of
species, all classes of equivalent choices, and its cluster indices in the supercell
(`get_orbit_indices`).  The label of a class in `Orb.combos` is its index in `classes`. -/
structure OrbitGeom (K : Type*) where
  phi : ℕ → ℕ → ℕ → K
  shape : List ℕ
  classes : List (List (List ℕ))
  rows : ClusterRows

/-- The classes the orbit still has, `bit_combos`. -/
def Orb.kept (o : Orb) (g : OrbitGeom K) : List (List (List ℕ)) :=
  o.combos.map fun c => g.classes.getD c.1 []

/-- Evaluator data of an orbit, smol/utils/cluster/__init__.py:4-15. -/
def Orb.data (o : Orb) (g : OrbitGeom K) : OrbitData K :=
  orbitData o.id o.bitId g.phi g.shape (o.kept g)

/-- `ClusterExpansionProcessor.__init__`, smol/moca/processor/expansion.py:62-116. -/
def ceProcessor (S : OrbitSpace) (geom : ℕ → OrbitGeom K) (size : ℕ) : CEProcessor K where
  size := size
  numCorr := S.numCorr
  orbits := S.orbits.map fun o => (o.data (geom o.tag), (geom o.tag).rows)

/-- Entry of an interaction tensor, smol/cofe/expansion.py:192-199; the multiplicity of a class is
its number of rows (`bit_combo_multiplicities`, smol/cofe/space/orbit.py:156-159). -/
def interactionAt (eci : List K) (o : Orb) (g : OrbitGeom K) (codes : List ℕ) : K :=
  ((o.kept g).zipIdx.map fun p =>
    (p.1.length : K) * eci.getD (o.bitId + p.2) 0 * corrTensor g.phi p.1 codes).sum

/-- `np.ravel(tensor, order="C")`, smol/moca/processor/expansion.py:300-302. -/
def flatInteraction (eci : List K) (o : Orb) (g : OrbitGeom K) : ℕ → K :=
  fun n => ((cOrder g.shape).map fun codes => interactionAt eci o g codes).getD n 0

/-- `ClusterDecompositionProcessor.__init__` with `cluster_interaction_tensors`,
smol/cofe/expansion.py:185-201, smol/moca/processor/expansion.py:252-340. -/
def cdProcessor (E : Expansion K) (geom : ℕ → OrbitGeom K) (size : ℕ) : Option (CDProcessor K) :=
  E.eci.map fun eci =>
    { size := size
      numOrbits := E.space.numOrbits
      offset := E.coefs.getD 0 0
      orbits := E.space.orbits.map fun o =>
        ((o.data (geom o.tag), flatInteraction eci o (geom o.tag)), (geom o.tag).rows) }

/-- `compute_property`, smol/moca/processor/base.py:150-159: features of length `n`. -/
def propertyOf (coefs : List K) (n : ℕ) (features : ℕ → K) : Option K :=
  npDot coefs ((List.range n).map features)

/-- `compute_property` of the expansion processor, with the coefficients of the functions
(smol/moca/ensemble.py:172-177, 199-203). -/
def CEProcessor.property (P : CEProcessor K) (coefs : List K) (occ : Occ) : Option K :=
  propertyOf coefs P.numCorr (P.featureVector occ)

/-- `compute_property` of the decomposition processor; the default coefficients are the orbit
multiplicities, smol/moca/processor/expansion.py:290-295. -/
def CDProcessor.property (P : CDProcessor K) (S : OrbitSpace) (occ : Occ) : Option K :=
  propertyOf (S.orbitMults.map fun m : ℕ => (m : K)) P.numOrbits (P.featureVector occ)

/-- `compute_property_change`, smol/moca/processor/base.py:161-172. -/
def CEProcessor.propertyChange (P : CEProcessor K) (coefs : List K) (occ : Occ) (flips : Step) :
    Option K :=
  (P.featureVectorChange occ flips).bind fun d => propertyOf coefs P.numCorr d

def CDProcessor.propertyChange (P : CDProcessor K) (S : OrbitSpace) (occ : Occ) (flips : Step) :
    Option K :=
  (P.featureVectorChange occ flips).bind fun d =>
    propertyOf (S.orbitMults.map fun m : ℕ => (m : K)) P.numOrbits d

end Smol
