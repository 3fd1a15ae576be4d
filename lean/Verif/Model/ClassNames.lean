import Verif.Model.ConstraintString
import Mathlib.Data.List.Infix

/-!
# Classes selected by name

smol/utils/class_utils.py and the factories that use it.  Names are lists of characters; upper and
lower case are those of ASCII.
-/

namespace Smol

/-- `[A-Z]`. -/
def isCapital (c : Char) : Bool := 'A' ≤ c && c ≤ 'Z'

/-- `class_str.split("-")`; `cur` is the current part, reversed. -/
def splitDashGo (cur : List Char) : List Char → List (List Char)
  | [] => [cur.reverse]
  | c :: cs => if c = '-' then cur.reverse :: splitDashGo [] cs else splitDashGo (c :: cur) cs

def splitDash (s : List Char) : List (List Char) := splitDashGo [] s

/-- `re.findall("[a-zA-Z][^A-Z]*", sub)`; with another class of first characters also
`re.findall("[A-Z][^A-Z]*", name)`.  `cur` is the current match, reversed; a match ends before a
capital, with which the next one starts. -/
def findWordsGo (first : Char → Bool) : Option (List Char) → List Char → List (List Char)
  | none, [] => []
  | none, c :: cs => if first c then findWordsGo first (some [c]) cs else findWordsGo first none cs
  | some w, [] => [w.reverse]
  | some w, c :: cs =>
    if isCapital c then
      if first c then w.reverse :: findWordsGo first (some [c]) cs
      else w.reverse :: findWordsGo first none cs
    else findWordsGo first (some (c :: w)) cs

def findWords (first : Char → Bool) (s : List Char) : List (List Char) := findWordsGo first none s

/-- `str.capitalize`. -/
def capitalize : List Char → List Char
  | [] => []
  | c :: cs => c.toUpper :: cs.map Char.toLower

/-- `class_name_from_str`, smol/utils/class_utils.py:10-34. -/
def classNameFromStr (s : List Char) : List Char :=
  (((splitDash s).flatMap (findWords isLetter)).map capitalize).flatten

/-- A class: its name, whether it is abstract, an identity, and the classes derived from it in the
order of `__subclasses__()`. -/
inductive PyClass
  | mk (name : List Char) (abstract : Bool) (id : ℕ) (subs : List PyClass)

/-- `d[key] = value`. -/
def nameDictSet (d : List (List Char × ℕ)) (key : List Char) (value : ℕ) : List (List Char × ℕ) :=
  if d.any (fun p => p.1 == key) then d.map fun p => if p.1 = key then (key, value) else p
  else d ++ [(key, value)]

/-- `d.update(e)`. -/
def dictUpdate (d e : List (List Char × ℕ)) : List (List Char × ℕ) :=
  e.foldl (fun d p => nameDictSet d p.1 p.2) d

mutual
/-- The loop of `get_subclasses`, smol/utils/class_utils.py:63-76, for one derived class. -/
def subclassEntry (d : List (List Char × ℕ)) : PyClass → List (List Char × ℕ)
  | .mk name abstract id subs =>
    let d := dictUpdate d (subclassesGo [] subs)
    if abstract then d else nameDictSet d name id
/-- The loop over `__subclasses__()`. -/
def subclassesGo (d : List (List Char × ℕ)) : List PyClass → List (List Char × ℕ)
  | [] => d
  | c :: cs => subclassesGo (subclassEntry d c) cs
end

/-- `get_subclasses`, smol/utils/class_utils.py:63-76. -/
def getSubclasses : PyClass → List (List Char × ℕ)
  | .mk _ _ _ subs => subclassesGo [] subs

/-- `"-".join(...)`. -/
def joinDash : List (List Char) → List Char
  | [] => []
  | [w] => w
  | w :: v :: ws => w ++ '-' :: joinDash (v :: ws)

/-- `get_subclasses_str` with `lower` and `split`, smol/utils/class_utils.py:79-98. -/
def getSubclassesStr (c : PyClass) : List (List Char) :=
  (getSubclasses c).map fun p => (joinDash (findWords isCapital p.1)).map Char.toLower

/-- Exceptions that are told apart. -/
inductive FactoryErr
  | keyError
  | notImplemented
  | other
  deriving DecidableEq

/-- `derived_class_factory`, smol/utils/class_utils.py:37-60; `ctor` calls the constructor of a class
with the arguments. -/
def derivedFactory {α : Type*} (base : PyClass) (ctor : ℕ → Except FactoryErr α) (name : List Char) :
    Except FactoryErr α :=
  match (getSubclasses base).lookup name with
  | none => .error .notImplemented
  | some cls =>
    match ctor cls with
    | .error .keyError => .error .notImplemented
    | r => r

/-- `mckernel_factory` (smol/moca/kernel/__init__.py:35-56) and `mcusher_factory`
(smol/moca/kernel/mcusher.py:714-731). -/
def namedFactory {α : Type*} (base : PyClass) (ctor : ℕ → Except FactoryErr α) (name : List Char) :
    Except FactoryErr α := derivedFactory base ctor (classNameFromStr name)

/-- The name of the bias class, smol/moca/kernel/bias.py:369-371. -/
def biasName (t : List Char) : List Char :=
  classNameFromStr (if ¬ "bias".toList <:+: t ∧ ¬ "Bias".toList <:+: t then t ++ "-bias".toList else t)

/-- `mcbias_factory`, smol/moca/kernel/bias.py:355-372. -/
def biasFactory {α : Type*} (base : PyClass) (ctor : ℕ → Except FactoryErr α) (name : List Char) :
    Except FactoryErr α := derivedFactory base ctor (biasName name)

/-- The name of the step type as used by a kernel, smol/moca/kernel/base.py:220-223: the name is
normalised before it is handed to the factory. -/
def kernelUsherName (t : List Char) : List Char := classNameFromStr (classNameFromStr t)

/-- The name of the bias as used by a kernel, smol/moca/kernel/base.py:229-234. -/
def kernelBiasName (t : List Char) : List Char := biasName (classNameFromStr t)

/-- `s.split(pat)[0]`. -/
def beforeFirst (pat : List Char) : List Char → List Char
  | [] => []
  | c :: cs => if pat <+: c :: cs then [] else c :: beforeFirst pat cs

/-- `available_bias_types`, smol/moca/kernel/bias.py:375-381. -/
def availableBiasTypes (base : PyClass) : List (List Char) :=
  (getSubclassesStr base).map (beforeFirst "bias".toList)

end Smol
