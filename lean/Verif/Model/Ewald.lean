import Verif.Model.Basic

/-!
# Ewald processor

Models `smol/cofe/extern/ewald.py`, `smol/moca/processor/ewald.py` and
`smol/utils/cluster/ewald.pyx`.  The Ewald matrix itself (pymatgen
`EwaldSummation`) is an input.
-/

namespace Smol

variable {K : Type*} [CommRing K]

/-- One site of `get_ewald_structure`: indices for the species of a site space, `-1` for
vacancies (`true` in the list of flags), starting at `next`; smol/cofe/extern/ewald.py:88-95. -/
def ewaldSiteInds (next : ℕ) : List Bool → List ℤ × ℕ
  | [] => ([], next)
  | isVac :: rest =>
    if isVac then
      let r := ewaldSiteInds next rest
      (-1 :: r.1, r.2)
    else
      let r := ewaldSiteInds (next + 1) rest
      ((next : ℤ) :: r.1, r.2)

/-- `get_ewald_structure`, smol/cofe/extern/ewald.py:84-99: index rows of all sites and the number
of Ewald sites.  The padding of short rows with `-1` (line 90) is done by `ewaldIndex`. -/
def ewaldStructureInds (next : ℕ) : List (List Bool) → List (List ℤ) × ℕ
  | [] => ([], next)
  | space :: spaces =>
    let r := ewaldSiteInds next space
    let rs := ewaldStructureInds r.2 spaces
    (r.1 :: rs.1, rs.2)

/-- Entry `[site, code]` of the padded index array. -/
def ewaldIndex (rows : List (List ℤ)) (site code : ℕ) : ℤ :=
  ((rows.getD site []).getD code (-1))

/-- `EwaldProcessor` data: number of sites, size of the Ewald matrix, matrix, index array. -/
structure EwaldData (K : Type*) where
  numSites : ℕ
  numEwald : ℕ
  matrix : ℕ → ℕ → K
  inds : ℕ → ℕ → ℤ

/-- `b_inds[i] = True` with python's negative index `-1` meaning the last entry,
smol/cofe/extern/ewald.py:127-128. -/
def setTrue (b : List Bool) (i : ℤ) : List Bool :=
  if i = -1 then b.set (b.length - 1) true else b.set i.toNat true

/-- `get_ewald_occu`, smol/cofe/extern/ewald.py:122-129. -/
def EwaldData.ewaldOccu (E : EwaldData K) (occ : Occ) : List Bool :=
  let iInds := (List.range E.numSites).map fun k => E.inds k (occ k)
  (iInds.foldl setTrue (List.replicate (E.numEwald + 1) false)).dropLast

/-- `np.sum(self.ewald_matrix[ew_occu, :][:, ew_occu])`, smol/moca/processor/ewald.py:122-138. -/
def EwaldData.featureVector (E : EwaldData K) (occ : Occ) : K :=
  let mask := E.ewaldOccu occ
  let chosen := (List.range E.numEwald).filter fun j => mask.getD j false
  (chosen.map fun i => (chosen.map fun j => E.matrix i j).sum).sum

/-- Loop body of `delta_ewald_single_flip`, smol/utils/cluster/ewald.pyx:40-54. -/
def EwaldData.deltaTerm (E : EwaldData K) (occF occI : Occ) (add sub : ℤ) (k : ℕ) : K :=
  let i := E.inds k (occF k)
  let j := E.inds k (occI k)
  (if i ≠ -1 ∧ add ≠ -1 then
    if i ≠ add then 2 * E.matrix i.toNat add.toNat else E.matrix i.toNat add.toNat
   else 0)
  - (if j ≠ -1 ∧ sub ≠ -1 then
      if j ≠ sub then 2 * E.matrix j.toNat sub.toNat else E.matrix j.toNat sub.toNat
     else 0)

/-- `delta_ewald_single_flip`, smol/utils/cluster/ewald.pyx:6-55. -/
def EwaldData.deltaSingleFlip (E : EwaldData K) (occF occI : Occ) (site : ℕ) : K :=
  let add := E.inds site (occF site)
  let sub := E.inds site (occI site)
  ((List.range E.numSites).map (E.deltaTerm occF occI add sub)).sum

/-- `compute_feature_vector_change`, smol/moca/processor/ewald.py:140-165. -/
def EwaldData.featureVectorChange (E : EwaldData K) (occI : Occ) : Step → K
  | [] => 0
  | f :: fs =>
    let occF := Function.update occI f.1 f.2
    E.deltaSingleFlip occF occI f.1 + E.featureVectorChange occF fs

end Smol
