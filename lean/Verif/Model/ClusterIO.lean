import Verif.Model.OrbitGen
import Verif.Model.SiteSpace
import Mathlib.LinearAlgebra.Matrix.NonsingularInverse
import Mathlib.Data.List.Infix

/-!
# Clusters as objects: copying, saving and loading

Models `Cluster` of `smol/cofe/space/cluster.py` apart from its symmetry (see `Model/OrbitGen.lean`)
and printing.

Species are numbers as in `Model/SiteSpace.lean`.  Coordinates are exact.  The formats JSON and YAML
are contracts: what is written in a format is read back in that format, and a JSON text is also a
YAML text.  A file name is a directory and a base name, the working directory being `[]`; the
compression of monty's `zopen` is left out.
-/

namespace Smol

variable {d : ℕ} {K : Type*} [Field K] [LinearOrder K] [IsStrictOrderedRing K] [FloorRing K]

/-- Species as pymatgen saves them.  `Site.as_dict` writes symbol and oxidation state and
`Site.from_dict` makes a plain species of them, for a `Vacancy` a `DummySpecies` (`plain`);
`Vacancy(spec.symbol, spec.oxidation_state, spec.spin)` is `vacOf`. -/
structure SpecKind extends VacKind where
  symbol : ℕ → ℕ
  plain : ℕ → ℕ
  vacOf : ℕ → ℕ
  plain_of_not : ∀ s, isVac s = false → plain s = s
  isVac_plain : ∀ s, isVac (plain s) = false
  symbol_plain : ∀ s, symbol (plain s) = symbol s
  vacOf_plain : ∀ s, isVac s = true → vacOf (plain s) = s

/-- A pymatgen `Lattice`: the lattice vectors as rows, and the inverse. -/
structure CLattice (d : ℕ) (K : Type*) where
  mat : Matrix (Fin d) (Fin d) K
  inv : Matrix (Fin d) (Fin d) K

/-- What pymatgen guarantees for `inv_matrix`. -/
def CLattice.Ok (L : CLattice d K) : Prop := L.mat * L.inv = 1

/-- `Lattice.get_cartesian_coords`. -/
def CLattice.toCart (L : CLattice d K) (x : Fin d → K) : Fin d → K := fun k => ∑ j, x j * L.mat j k

/-- `Lattice.get_fractional_coords`. -/
def CLattice.toFrac (L : CLattice d K) (x : Fin d → K) : Fin d → K := fun k => ∑ j, x j * L.inv j k

/-- A pymatgen `Site`. -/
abbrev CSite (d : ℕ) (K : Type*) := SiteComp × (Fin d → K)

/-- A `Cluster`, smol/cofe/space/cluster.py:29-68. -/
structure Clu (d : ℕ) (K : Type*) where
  sites : List (CSite d K)
  frac : List (Fin d → K)
  centroid : Fin d → K
  lattice : CLattice d K
  id : Option ℕ

/-- `Cluster.__init__`, smol/cofe/space/cluster.py:44-67.  Of a site space the composition is used.
The sites keep the coordinates as given, the fractional coordinates are shifted. -/
def Clu.make (spaces : List SiteSpace) (fracs : List (Fin d → K)) (L : CLattice d K) : Clu d K where
  sites := (spaces.map SiteSpace.comp).zip (fracs.map L.toCart)
  frac := mkCluster fracs
  centroid := fun i => Smol.centroid fracs i - (⌊Smol.centroid fracs i⌋ : ℤ)
  lattice := L
  id := none

/-- `get_site_spaces(sites)`, smol/cofe/space/domain.py:68-80; `none` is a `ValueError`. -/
def siteSpacesOf (k : VacKind) (sites : List (CSite d K)) : Option (List SiteSpace) :=
  sites.mapM fun s => SiteSpace.make k (uniformComp s.1)

/-- `Cluster.from_sites`, smol/cofe/space/cluster.py:207-212. -/
def Clu.fromSites (k : VacKind) (sites : List (CSite d K)) (L : CLattice d K) : Option (Clu d K) :=
  (siteSpacesOf k sites).map fun spaces => Clu.make spaces (sites.map fun s => L.toFrac s.2) L

/-- `Cluster.copy`, smol/cofe/space/cluster.py:112-116. -/
def Clu.copy (k : VacKind) (c : Clu d K) : Option (Clu d K) := Clu.fromSites k c.sites c.lattice

/-- `Cluster.assign_ids`, smol/cofe/space/cluster.py:118-121. -/
def Clu.assignIds (c : Clu d K) (n : ℕ) : Clu d K × ℕ := ({ c with id := some n }, n + 1)

/-- `==`, smol/cofe/space/cluster.py:214-219. -/
def Clu.eqv (a b : Clu d K) : Bool := clusterEq a.frac b.frac

/-- Square of `get_distance`, smol/cofe/space/cluster.py:101-110. -/
def Clu.dist2 (c : Clu d K) (i j : ℕ) : Option K := do
  let a ← c.sites[i]?
  let b ← c.sites[j]?
  pure (∑ k, (a.2 k - b.2 k) ^ 2)

/-- Square of `diameter`, smol/cofe/space/cluster.py:79-84. -/
def Clu.diam2 (c : Clu d K) : K := Smol.diam2 c.lattice.mat c.frac

/-- The dictionary of a cluster, smol/cofe/space/cluster.py:306-315. -/
structure CluDict (d : ℕ) (K : Type*) where
  lattice : CLattice d K
  sites : List (CSite d K)
  vacSymbols : List (List ℕ)

/-- `Cluster.as_dict`, smol/cofe/space/cluster.py:300-316, with `Site.as_dict`. -/
def Clu.asDict (k : SpecKind) (c : Clu d K) : CluDict d K where
  lattice := c.lattice
  sites := c.sites.map fun s => (s.1.map fun p => (k.plain p.1, p.2), s.2)
  vacSymbols := c.sites.map fun s => (s.1.filter fun p => k.isVac p.1).map fun p => k.symbol p.1

/-- The composition of a site when loaded, smol/cofe/space/cluster.py:285-296: the comprehension
chooses between the species and a `Vacancy`, after its `if` has left out the latter. -/
def loadComp (k : SpecKind) (symbols : List ℕ) (c : SiteComp) : SiteComp :=
  (c.filter fun p => decide (k.symbol p.1 ∉ symbols)).map fun p =>
    (if k.symbol p.1 ∉ symbols then p.1 else k.vacOf p.1, p.2)

/-- `Cluster.from_dict`, smol/cofe/space/cluster.py:280-298.  Sites beyond the list of symbols are
left as they are (`zip`). -/
def Clu.fromDict (k : SpecKind) (D : CluDict d K) : Option (Clu d K) :=
  let loaded := (D.vacSymbols.zip D.sites).map fun p => (loadComp k p.1 p.2.1, p.2.2)
  Clu.fromSites k.toVacKind (loaded ++ D.sites.drop D.vacSymbols.length) D.lattice

/-- The formats of files. -/
inductive CFmt
  | json
  | yaml
  deriving DecidableEq, Repr

/-- The text of a file or string: a dictionary written in a format. -/
abbrev CText (d : ℕ) (K : Type*) := CFmt × CluDict d K

/-- A file name: directory and base name (`os.path.basename`). -/
structure CPath where
  dir : List (List Char)
  base : List Char
  deriving DecidableEq, Repr

/-- The files, by name. -/
abbrev CFiles (d : ℕ) (K : Type*) := CPath → Option (CText d K)

/-- Writing a file. -/
def CFiles.write (fs : CFiles d K) (p : CPath) (t : CText d K) : CFiles d K :=
  fun q => if q = p then some t else fs q

/-- `fnmatch(fname, "*.ext*")` -/
def nameHas (ext base : List Char) : Bool := decide (ext <:+: base)

def dotJson : List Char := ['.', 'j', 's', 'o', 'n']
def dotMson : List Char := ['.', 'm', 's', 'o', 'n']
def dotYaml : List Char := ['.', 'y', 'a', 'm', 'l']
def nameJson : List Char := ['j', 's', 'o', 'n']
def nameYaml : List Char := ['y', 'a', 'm', 'l']

/-- What `to` returns: a string, `None`, or it raises. -/
inductive ToOut (d : ℕ) (K : Type*)
  | text (t : CText d K)
  | none
  | invalid   -- `ValueError`: Invalid format

/-- `Cluster.to`, smol/cofe/space/cluster.py:123-159: what it returns and the files after it.
`filename = some ""` is the same as none and left out. -/
def Clu.to (k : SpecKind) (c : Clu d K) (fmt : Option (List Char)) (filename : Option CPath)
    (fs : CFiles d K) : ToOut d K × CFiles d K :=
  let f := (fmt.getD []).map Char.toLower
  let fname := (filename.map CPath.base).getD []
  if f = nameJson || nameHas dotJson fname || nameHas dotMson fname then
    match filename with
    | some p => (.none, fs.write p (.json, c.asDict k))
    | none => (.text (.json, c.asDict k), fs)
  else if f = nameYaml || nameHas dotYaml fname then
    match filename with
    | some _ => (.none, fs.write ⟨[], fname⟩ (.yaml, c.asDict k))
    | none => (.text (.yaml, c.asDict k), fs)
  else (.invalid, fs)

/-- Parsing a text in a format: `json.loads` and `yaml.load`; a JSON text is a YAML text. -/
def parseAs (f : CFmt) (t : CText d K) : Option (CluDict d K) :=
  match f, t.1 with
  | .json, .yaml => none
  | _, _ => some t.2

/-- `Cluster.from_str`, smol/cofe/space/cluster.py:161-182; `none`: raises. -/
def Clu.fromStr (k : SpecKind) (t : CText d K) (fmt : List Char) : Option (Clu d K) :=
  if fmt = nameJson then (parseAs .json t).bind (Clu.fromDict k)
  else if fmt = nameYaml then (parseAs .yaml t).bind (Clu.fromDict k)
  else none

/-- `Cluster.from_file`, smol/cofe/space/cluster.py:184-205; `none`: raises. -/
def Clu.fromFile (k : SpecKind) (p : CPath) (fs : CFiles d K) : Option (Clu d K) := do
  let contents ← fs p
  if nameHas dotJson p.base || nameHas dotMson p.base then Clu.fromStr k contents nameJson
  else if nameHas dotYaml p.base then Clu.fromStr k contents nameYaml
  else none

end Smol
