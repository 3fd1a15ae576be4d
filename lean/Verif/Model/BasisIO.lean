import Verif.Model.SiteBasis

/-!
# Saving and loading site bases

Models `as_dict` and `from_dict` of the site bases (`smol/cofe/space/basis.py`), the choice of a basis by
its name, and sessions that orthonormalise, rotate, save and load a basis.

`tolist` and `np.array` keep numbers.  Species and their order are kept by the site space; its
composition is taken to survive `Composition.as_dict` and `Composition.from_dict`.  Names are lists of
ASCII characters.
-/

namespace Smol

/-- Names of the classes of iterators without `Iterator`, in lower case: the non-abstract subclasses of
`BasisIterator`, smol/cofe/space/basis.py:435-545; also `flavor` of the classes. -/
def Flavor.name : Flavor → List Char
  | .indicator => ['i', 'n', 'd', 'i', 'c', 'a', 't', 'o', 'r']
  | .sinusoid => ['s', 'i', 'n', 'u', 's', 'o', 'i', 'd']
  | .polynomial => ['p', 'o', 'l', 'y', 'n', 'o', 'm', 'i', 'a', 'l']
  | .chebyshev => ['c', 'h', 'e', 'b', 'y', 's', 'h', 'e', 'v']
  | .legendre => ['l', 'e', 'g', 'e', 'n', 'd', 'r', 'e']

def allFlavors : List Flavor := [.indicator, .sinusoid, .polynomial, .chebyshev, .legendre]

/-- `str.capitalize` of python for ASCII. -/
def capitalizeName : List Char → List Char
  | [] => []
  | c :: cs => c.toUpper :: cs.map Char.toLower

/-- Names of the classes as they are written. -/
def Flavor.className (fl : Flavor) : List Char :=
  capitalizeName fl.name ++ ['I', 't', 'e', 'r', 'a', 't', 'o', 'r']

/-- The lookup of `basis_factory`, smol/cofe/space/basis.py:610-611 with `derived_class_factory`,
smol/utils/class_utils.py:51-56; `none` is the `NotImplementedError`. -/
def flavorOf (name : List Char) : Option Flavor :=
  allFlavors.find? fun fl =>
    fl.className = capitalizeName name ++ ['I', 't', 'e', 'r', 'a', 't', 'o', 'r']

/-- A standard basis: its flavor, its arrays, whether `_r_array` is `np.array(None)` in case it is not an
array of numbers, and whether the domain is a `SiteSpace` (or an `OrderedDict`). -/
structure LiveBasis (m : ℕ) where
  flavor : Flavor
  core : SiteBasis m
  nullR : Bool
  isSpace : Bool

/-- Values of `orthonormalization_array`. -/
inductive RValue (m : ℕ)
  | none
  | nullArray
  | array (r : Matrix (Fin m) (Fin m) ℝ)

/-- `orthonormalization_array`, smol/cofe/space/basis.py:221-224. -/
def LiveBasis.orthonormalizationArray {m : ℕ} (B : LiveBasis m) : RValue m :=
  match B.core.r with
  | some r => .array r
  | none => if B.nullR then .nullArray else .none

/-- `basis_factory`, smol/cofe/space/basis.py:594-612; `none`: raises. -/
noncomputable def basisFactory {m : ℕ} (name : List Char) (measure : Fin m → ℝ) (isSpace : Bool) :
    Option (LiveBasis m) :=
  (flavorOf name).bind fun fl => (SiteBasis.init fl measure).map fun b => ⟨fl, b, false, isSpace⟩

/-- The dictionary of a basis.  `rot` can be missing in dictionaries of older versions. -/
structure BasisDict (m : ℕ) where
  className : String
  flavor : List Char
  measure : Fin m → ℝ
  func : Matrix (Fin m) (Fin m) ℝ
  orthonorm : Option (Matrix (Fin m) (Fin m) ℝ)
  rot : Option (Matrix (Fin m) (Fin m) ℝ)

/-- `StandardBasis.as_dict`, smol/cofe/space/basis.py:128-136, 333-341; `np.array(None).tolist()` is
`None`.  `none`: an `OrderedDict` has no `as_dict`. -/
def LiveBasis.toDict {m : ℕ} (B : LiveBasis m) : Option (BasisDict m) :=
  if B.isSpace then
    some ⟨"StandardBasis", B.flavor.name, B.core.measure, B.core.f, B.core.r, some B.core.rot⟩
  else none

/-- `StandardBasis.from_dict`, smol/cofe/space/basis.py:343-361. -/
noncomputable def BasisDict.load {m : ℕ} (d : BasisDict m) : Option (LiveBasis m) :=
  (basisFactory d.flavor d.measure true).map fun B =>
    { B with
      core := { B.core with f := d.func, r := d.orthonorm, rot := d.rot.getD B.core.rot }
      nullR := d.orthonorm.isNone }

/-- What `DiscreteBasis.from_dict` returns. -/
inductive AnyBasis (m : ℕ)
  | standard (B : LiveBasis m)
  | indicator (measure : Fin m → ℝ) (f : Matrix (Fin m) (Fin m) ℝ)

/-- `IndicatorBasis.__init__`, smol/cofe/space/basis.py:377-391: all functions of the iterator. -/
noncomputable def fullIndicator {m : ℕ} (measure : Fin m → ℝ) : AnyBasis m :=
  .indicator measure fun k s => siteFn .indicator m k s

/-- `DiscreteBasis.from_dict`, smol/cofe/space/basis.py:138-165, and `IndicatorBasis.from_dict`, lines
393-403. -/
noncomputable def BasisDict.loadAny {m : ℕ} (d : BasisDict m) : Option (AnyBasis m) :=
  if d.className = "StandardBasis" then d.load.map .standard
  else if d.className = "IndicatorBasis" then some (fullIndicator d.measure)
  else if d.className = "SiteBasis" then d.load.map .standard
  else none

/-- What a session does with a basis. -/
inductive BasisOp
  | orthonormalize
  | rotate (θ : ℝ) (i j : ℤ)
  | reload

/-- One operation, and whether it raised; `qr` is the function of numpy.
`orthonormalize`: smol/cofe/space/basis.py:231-251; `rotate`: lines 253-331; `reload` saves and loads. -/
noncomputable def LiveBasis.step {m : ℕ} [NeZero m]
    (qr : Matrix (Fin m) (Fin m) ℝ → Matrix (Fin m) (Fin m) ℝ × Matrix (Fin m) (Fin m) ℝ)
    (B : LiveBasis m) : BasisOp → LiveBasis m × Bool
  | .orthonormalize =>
    ({ B with core := B.core.orthonormalize 0 (qr B.core.toFactor).1 (qr B.core.toFactor).2 }, false)
  | .rotate θ i j => match B.core.rotate θ i j with
    | some c => ({ B with core := c }, false)
    | none => (B, true)
  | .reload => match B.toDict.bind BasisDict.load with
    | some B' => (B', false)
    | none => (B, true)

/-- A session; exceptions are caught. -/
noncomputable def LiveBasis.session {m : ℕ} [NeZero m]
    (qr : Matrix (Fin m) (Fin m) ℝ → Matrix (Fin m) (Fin m) ℝ × Matrix (Fin m) (Fin m) ℝ)
    (B : LiveBasis m) : List BasisOp → LiveBasis m
  | [] => B
  | o :: os => (LiveBasis.step qr B o).1.session qr os

end Smol
