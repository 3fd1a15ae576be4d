import Verif.Model.Sublattice

/-!
# Site spaces, occupancy encoding and sublattices of a processor

Models `smol/cofe/space/domain.py`, the encoding part of `smol/moca/processor/base.py` and the
conversion between structures and occupancies in `smol/cofe/space/clusterspace.py`.

Species are numbers, ordered as pymatgen orders species.  `isVac` tells which of them are
instances of `Vacancy`; `vac` is the default `Vacancy()`.  Amounts are exact rationals.
-/

namespace Smol

/-- What a `Vacancy` is, smol/cofe/space/domain.py:237-286: `isinstance(sp, Vacancy)` and the
default `Vacancy()`. -/
structure VacKind where
  isVac : ℕ → Bool
  vac : ℕ
  isVac_vac : isVac vac = true

/-- A pymatgen `Composition` as the list of its items; keys are distinct and amounts positive
(see `CompOk`). -/
abbrev SiteComp := List (ℕ × ℚ)

/-- What pymatgen guarantees for a `Composition`: a dictionary with positive amounts. -/
def CompOk (c : SiteComp) : Prop := (c.map Prod.fst).Nodup ∧ ∀ p ∈ c, 0 < p.2

/-- `Composition.num_atoms`. -/
def SiteComp.numAtoms (c : SiteComp) : ℚ := (c.map Prod.snd).sum

/-- `SiteSpace`: the composition it was made from and the ordered dictionary `_data`,
smol/cofe/space/domain.py:111-161. -/
structure SiteSpace where
  comp : SiteComp
  data : List (ℕ × ℚ)
  deriving DecidableEq, Repr

/-- Order of dictionary items when sorted: by species (keys are distinct, so the amounts never
decide). -/
def itemLe (a b : ℕ × ℚ) : Prop := a.1 ≤ b.1

instance : DecidableRel itemLe := fun a b => inferInstanceAs (Decidable (a.1 ≤ b.1))

/-- `SiteSpace.__init__`, smol/cofe/space/domain.py:129-161; `none` is the `ValueError` of lines
137, 143 or 149. -/
def SiteSpace.make (k : VacKind) (c : SiteComp) : Option SiteSpace :=
  if c.numAtoms < 0 ∨ 1 < c.numAtoms then none
  else if (∃ p ∈ c, k.isVac p.1 = true) ∧
      (c.numAtoms ≠ 1 ∨ 1 < c.countP fun p => k.isVac p.1) then none
  else
    let data := c.insertionSort itemLe
    some ⟨c, if c.numAtoms < 99 / 100 then data ++ [(k.vac, 1 - c.numAtoms)] else data⟩

/-- `list(site_space.keys())`, smol/cofe/space/domain.py:188-190. -/
def SiteSpace.keys (s : SiteSpace) : List ℕ := s.data.map Prod.fst

/-- `SiteSpace.__eq__`, smol/cofe/space/domain.py:192-199.  `zip` stops at the end of the shorter
dictionary. -/
def SiteSpace.pyEq (a b : SiteSpace) : Bool := (a.data.zip b.data).all fun p => p.1 == p.2

/-- `SiteSpace.__hash__`, smol/cofe/space/domain.py:205-207: the hash of the composition, which in
pymatgen depends on the set of species only.  Idealised as free of collisions: two hashes are
equal iff the sorted species are. -/
def SiteSpace.hashKey (s : SiteSpace) : List ℕ := (s.comp.map Prod.fst).insertionSort (· ≤ ·)

/-- Membership test of a Python `set`: equal hash and `==`. -/
def SiteSpace.same (a b : SiteSpace) : Bool := a.hashKey == b.hashKey && a.pyEq b

/-- Elements of `set(spaces)`.  Of several spaces made from equal compositions Python keeps the
first, this function the last; they differ in nothing that is used. -/
def pySet : List SiteSpace → List SiteSpace
  | [] => []
  | a :: l => if (pySet l).any fun b => a.same b then pySet l else a :: pySet l

/-- Order of site spaces, smol/cofe/space/domain.py:201-203. -/
def spaceLe (a b : SiteSpace) : Prop := a.keys ≤ b.keys

instance : DecidableRel spaceLe := fun a b => inferInstanceAs (Decidable (a.keys ≤ b.keys))

/-- The composition with equal amounts used by `get_site_spaces` without measure,
smol/cofe/space/domain.py:72-79. -/
def uniformComp (c : SiteComp) : SiteComp :=
  let n : ℚ := (c.length : ℚ) + if c.numAtoms < 99 / 100 then 1 else 0
  c.map fun p => (p.1, 1 / n)

/-- The part of `Processor` fixed by `__init__`, smol/moca/processor/base.py:54-71. -/
structure Coding where
  spaces : List SiteSpace
  allowed : List (List ℕ)
  deriving DecidableEq, Repr

/-- `Processor.__init__`, smol/moca/processor/base.py:63-71: one composition per site of the
supercell.  `none`: one of the compositions is refused.
Python's `sorted` orders spaces with the same species arbitrarily (the `set` has no order). -/
def Coding.make (k : VacKind) (sites : List SiteComp) : Option Coding := do
  let measured ← sites.mapM (SiteSpace.make k)
  let uniform ← sites.mapM fun c => SiteSpace.make k (uniformComp c)
  pure ⟨(pySet measured).insertionSort spaceLe, uniform.map SiteSpace.keys⟩

/-- `list.index`: `none` is `ValueError`. -/
def indexOf? (l : List ℕ) (x : ℕ) : Option ℕ := if x ∈ l then some (l.idxOf x) else none

/-- `encode_occupancy`, smol/moca/processor/base.py:216-224. -/
def encodeOccupancy (allowed : List (List ℕ)) (occ : List ℕ) : Option (List ℕ) :=
  (allowed.zip occ).mapM fun p => indexOf? p.1 p.2

/-- `decode_occupancy`, smol/moca/processor/base.py:226-230; `none` is `IndexError`.
Codes are non-negative (numpy's negative indices are not modelled). -/
def decodeOccupancy (allowed : List (List ℕ)) (codes : List ℕ) : Option (List ℕ) :=
  (codes.zip allowed).mapM fun p => p.2[p.1]?

/-- `get_sublattices`, smol/moca/processor/base.py:232-255. -/
def Coding.sublattices (c : Coding) : List Sublattice :=
  c.spaces.map fun s =>
    Sublattice.new s.keys
      ((List.range c.allowed.length).filter fun i => c.allowed.getD i [] == s.keys)

/-- A structure as the list of its sites: the species and the index of the supercell site at the
same position. -/
abbrev Struc := List (ℕ × ℕ)

/-- `Processor.structure_from_occupancy`, smol/moca/processor/base.py:199-214: a site is left out
when its species *equals* `Vacancy()`. -/
def structureFromOccupancy (k : VacKind) (allowed : List (List ℕ)) (codes : List ℕ) :
    Option Struc := do
  let occ ← decodeOccupancy allowed codes
  pure (occ.zipIdx.filter fun p => decide (p.1 ≠ k.vac))

/-- The structure made by the loop at the end of `ClusterSubspace.refine_structure`,
smol/cofe/space/clusterspace.py:737-747: a site is left out when its species *is a* `Vacancy`. -/
def subspaceStructure (k : VacKind) (occ : List ℕ) : Struc :=
  occ.zipIdx.filter fun p => !k.isVac p.1

/-- The species at supercell site `i`, smol/cofe/space/clusterspace.py:803-806. -/
def specAt (k : VacKind) (st : Struc) (i : ℕ) : ℕ :=
  let mapping := st.map Prod.snd
  if i ∈ mapping then (st.getD (mapping.idxOf i) (0, 0)).1 else k.vac

/-- `ClusterSubspace.occupancy_from_structure` with `encode=False`,
smol/cofe/space/clusterspace.py:749-819.  The site mapping found by the structure matcher is the
list of second components of the structure; `none` is `StructureMatchError` (line 807). -/
def occupancyFromStructure (k : VacKind) (allowed : List (List ℕ)) (st : Struc) :
    Option (List ℕ) :=
  allowed.zipIdx.mapM fun p =>
    if specAt k st p.2 ∈ p.1 then some (specAt k st p.2) else none

/-- `Processor.occupancy_from_structure`, smol/moca/processor/base.py:181-197. -/
def processorOccupancy (k : VacKind) (allowed : List (List ℕ)) (st : Struc) : Option (List ℕ) := do
  let occ ← occupancyFromStructure k allowed st
  encodeOccupancy allowed occ

end Smol
