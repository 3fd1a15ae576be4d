import Verif.Model.Sublattice

/-!
# Occupancy to species counts

Models `smol/moca/occu_utils.py`.
-/

namespace Smol

/-- A table `dim_ids_table`: a `nRow × nCol` integer array. -/
structure DimTable where
  nRow : ℕ
  nCol : ℕ
  entry : ℕ → ℕ → ℤ

/-- `table[s, c]`; `none` is numpy's `IndexError`. -/
def DimTable.get? (t : DimTable) (s c : ℕ) : Option ℤ :=
  if s < t.nRow ∧ c < t.nCol then some (t.entry s c) else none

/-- The sites a sublattice contributes, smol/moca/occu_utils.py:51-55. -/
def Sublattice.tableSites (sl : Sublattice) (activeOnly : Bool) : List ℕ :=
  if activeOnly then sl.active else sl.sites

/-- The double loop of `get_dim_ids_table`, smol/moca/occu_utils.py:48-57: state is the table and
the running `dim_id`. -/
def dimTableLoop (activeOnly : Bool) (sls : List Sublattice) (st : (ℕ → ℕ → ℤ) × ℕ) :
    (ℕ → ℕ → ℤ) × ℕ :=
  sls.foldl (fun st sl =>
    sl.encoding.foldl (fun st code =>
      (fun s c => if s ∈ sl.tableSites activeOnly ∧ c = code then (st.2 : ℤ) else st.1 s c,
        st.2 + 1)) st) st

/-- `get_dim_ids_table`, smol/moca/occu_utils.py:27-58.
`none`: `max` of an empty sequence (line 45), or a site outside the table (line 56). -/
def getDimIdsTable (activeOnly : Bool) (sls : List Sublattice) : Option DimTable :=
  let nRow := (sls.map fun sl => sl.sites.length).sum
  if sls = [] ∨ (∃ sl ∈ sls, sl.encoding = []) ∨
      (∃ sl ∈ sls, ∃ s ∈ sl.tableSites activeOnly, nRow ≤ s) then none
  else
    let nCol := (sls.flatMap Sublattice.encoding).foldl max 0 + 1
    some ⟨nRow, nCol, (dimTableLoop activeOnly sls (fun _ _ => -1, 0)).1⟩

/-- `get_dim_ids_by_sublattice`, smol/moca/occu_utils.py:8-23. -/
def getDimIdsBySublattice : List (List ℕ) → ℕ → List (List ℕ)
  | [], _ => []
  | b :: bs, d => (List.range b.length).map (· + d) :: getDimIdsBySublattice bs (d + b.length)

/-- `dim_ids_table[np.arange(len(occu)), occu]`, smol/moca/occu_utils.py:85-91 and 118-124.
`n` is the length of the occupancy; `none` is the `ValueError` or the `IndexError`. -/
def dimIdsOf (t : DimTable) (n : ℕ) (occ : Occ) : Option (List ℤ) :=
  if n ≠ t.nRow then none else (List.range n).mapM fun s => t.get? s (occ s)

/-- `occu_to_species_list`, smol/moca/occu_utils.py:62-93. -/
def occuToSpeciesList (t : DimTable) (nDims n : ℕ) (occ : Occ) : Option (List (List ℕ)) :=
  (dimIdsOf t n occ).map fun ids =>
    (List.range nDims).map fun d : ℕ => (List.range n).filter fun s => ids.getD s (-1) == (d : ℤ)

/-- `occu_to_counts`, smol/moca/occu_utils.py:96-128; `none` also when a dimension found exceeds
`nDims` (line 127). -/
def occuToCounts (t : DimTable) (nDims n : ℕ) (occ : Occ) : Option (List ℕ) :=
  (dimIdsOf t n occ).bind fun ids =>
    if ∃ i ∈ ids, (nDims : ℤ) ≤ i then none
    else some ((List.range nDims).map fun d : ℕ => ids.count (d : ℤ))

/-- The loop of `delta_counts_from_step`, smol/moca/occu_utils.py:157-167. -/
def deltaLoop (t : DimTable) (nDims : ℕ) : Occ → Step → (ℕ → ℤ) → Option (ℕ → ℤ)
  | _, [], δ => some δ
  | occ, f :: fs, δ =>
    match t.get? f.1 (occ f.1), t.get? f.1 f.2 with
    | some o, some x =>
      if o < 0 ∨ x < 0 ∨ (nDims : ℤ) ≤ o ∨ (nDims : ℤ) ≤ x then none
      else
        let δ₁ := Function.update δ o.toNat (δ o.toNat - 1)
        let δ₂ := Function.update δ₁ x.toNat (δ₁ x.toNat + 1)
        deltaLoop t nDims (Function.update occ f.1 f.2) fs δ₂
    | _, _ => none

/-- `delta_counts_from_step`, smol/moca/occu_utils.py:131-169. -/
def deltaCounts (t : DimTable) (nDims : ℕ) (occ : Occ) (step : Step) : Option (List ℤ) :=
  (deltaLoop t nDims occ step fun _ => 0).map fun δ => (List.range nDims).map δ

end Smol
