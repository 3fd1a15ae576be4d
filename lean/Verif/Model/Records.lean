import Mathlib.Data.List.Basic
import Mathlib.Data.Int.Notation

/-!
# Records of what was run, and saved work

Models `smol/moca/metadata.py`, `smol/io.py`, and where specifications of kernels and ushers are put
into records.

A value is a number (or a boolean, or `None`), a text, a list or tuple (or array), a dictionary, a
`Metadata`, or another object, given by its text.  monty's `jsanitize(v)` with its defaults and
`MontyDecoder.process_decoded` are modelled as far as they treat these: `jsanitize` replaces objects
other than lists, tuples, arrays, dictionaries, numbers and texts by `str(obj)`, also MSONable ones.
JSON gives back what was written.  The order of attributes is not observable in Python; new ones are
put at the end.  `@version` is left out.
-/

namespace Smol

/-- Texts and names. -/
abbrev Txt := List Char

mutual
/-- Values. -/
inductive MVal
  | num (n : Option ℤ)
  | text (s : Txt)
  | seq (tuple : Bool) (l : MVals)
  | dict (f : MFields)
  | md (f : MFields)
  | other (s : Txt)
/-- Entries of lists and tuples. -/
inductive MVals
  | nil
  | cons (v : MVal) (l : MVals)
/-- Entries of dictionaries, attributes of `Metadata`. -/
inductive MFields
  | nil
  | cons (k : Txt) (v : MVal) (f : MFields)
end

/-- `d.get(k)` -/
def MFields.get (k : Txt) : MFields → Option MVal
  | .nil => none
  | .cons k' v f => if k' = k then some v else f.get k

/-- `d[k] = v` -/
def MFields.put (k : Txt) (v : MVal) : MFields → MFields
  | .nil => .cons k v .nil
  | .cons k' w f => if k' = k then .cons k' v f else .cons k' w (f.put k v)

def MFields.keys : MFields → List Txt
  | .nil => []
  | .cons k _ f => k :: f.keys

/-- `k.startswith("@")` -/
def isAt (k : Txt) : Bool := decide (k.head? = some '@')

def kClass : Txt := ['@', 'c', 'l', 'a', 's', 's']
def kModule : Txt := ['@', 'm', 'o', 'd', 'u', 'l', 'e']
def kName : Txt := ['c', 'l', 's', '_', 'n', 'a', 'm', 'e']
def tMetadata : Txt := ['M', 'e', 't', 'a', 'd', 'a', 't', 'a']
def tModule : Txt := ['s', 'm', 'o', 'l', '.', 'm', 'o', 'c', 'a', '.', 'm', 'e', 't', 'a', 'd', 'a', 't', 'a']

/-- `Metadata.__init__`, smol/moca/metadata.py:24-37: the name is `None` if not given. -/
def mkMeta (f : MFields) : MFields := if kName ∈ f.keys then f else f.put kName (.num none)

/-- `{k: v for k, v in d.items() if not k.startswith("@")}`, smol/moca/metadata.py:56-60, also in
monty. -/
def MFields.dropAt : MFields → MFields
  | .nil => .nil
  | .cons k v f => if isAt k then f.dropAt else .cons k v f.dropAt

section
variable (shw : MFields → Txt)   -- `str(metadata)`

mutual
/-- `jsanitize(v)`. -/
def MVal.clean : MVal → MVal
  | .num n => .num n
  | .text s => .text s
  | .seq _ l => .seq false l.clean
  | .dict f => .dict f.clean
  | .md f => .text (shw f)
  | .other s => .text s
def MVals.clean : MVals → MVals
  | .nil => .nil
  | .cons v l => .cons v.clean l.clean
def MFields.clean : MFields → MFields
  | .nil => .nil
  | .cons k v f => .cons k v.clean f.clean
end

mutual
/-- What is saved of a value: `as_dict` of a `Metadata` as attribute of another or by itself,
`jsanitize` of anything else; smol/moca/metadata.py:39-50. -/
def MVal.save : MVal → MVal
  | .md f => .dict ((f.save.put kClass (.text tMetadata)).put kModule (.text tModule))
  | .num n => (MVal.num n).clean shw
  | .text s => (MVal.text s).clean shw
  | .seq t l => (MVal.seq t l).clean shw
  | .dict f => (MVal.dict f).clean shw
  | .other s => (MVal.other s).clean shw
def MFields.save : MFields → MFields
  | .nil => .nil
  | .cons k v f => .cons k v.save f.save
end
end

/-- Whether monty takes a dictionary for a saved `Metadata`. -/
def MFields.tagged (f : MFields) : Bool :=
  match f.get kClass, f.get kModule with
  | some (.text c), some (.text m) => decide (c = tMetadata ∧ m = tModule)
  | _, _ => false

mutual
/-- `MontyDecoder().process_decoded`, with `Metadata.from_dict`, smol/moca/metadata.py:52-61. -/
def MVal.load : MVal → MVal
  | .dict f => if f.tagged then .md (mkMeta f.load.dropAt) else .dict f.load
  | .seq t l => .seq t l.load
  | .num n => .num n
  | .text s => .text s
  | .md f => .md f
  | .other s => .other s
def MVals.load : MVals → MVals
  | .nil => .nil
  | .cons v l => .cons v.load l.load
def MFields.load : MFields → MFields
  | .nil => .nil
  | .cons k v f => .cons k v.load f.load
end

/-- A list of values. -/
def MVals.ofList : List MVal → MVals
  | [] => .nil
  | v :: l => .cons v (MVals.ofList l)

/-- The record of a sampler: `Sampler.__init__` sets `kernels` to the list of the specifications of
its kernels, smol/moca/sampler/sampler.py:50. -/
def samplerRecord (f : MFields) (specs : List MFields) : MFields :=
  f.put ['k', 'e', 'r', 'n', 'e', 'l', 's'] (.seq false (MVals.ofList (specs.map .md)))

/-! ### smol/io.py -/

/-- An object: the name of its class, whether it is MSONable, and itself. -/
structure WorkObj (Ω : Type*) where
  cls : Txt
  mson : Bool
  val : Ω

/-- What a file holds: JSON text of named objects, or the beginning of one. -/
inductive WorkFile (J : Type*)
  | work (entries : List (Txt × J))
  | broken

/-- `work_d[name] = obj`: the place of the first, the value of the last. -/
def putWork {Ω : Type*} (k : Txt) (v : Ω) : List (Txt × Ω) → List (Txt × Ω)
  | [] => [(k, v)]
  | (k', w) :: l => if k' = k then (k', v) :: l else (k', w) :: putWork k v l

/-- The loop of `save_work`, smol/io.py:29-36; `none` is an `AttributeError`. -/
def collectWork {Ω : Type*} : List (WorkObj Ω) → List (Txt × Ω) → Option (List (Txt × Ω))
  | [], d => some d
  | o :: os, d => if o.mson then collectWork os (putWork o.cls o.val d) else none

/-- Encoding all objects, `none` if one cannot be encoded. -/
def encodeWork {Ω J : Type*} (enc : Ω → Option J) : List (Txt × Ω) → Option (List (Txt × J))
  | [] => some []
  | (k, v) :: l => match enc v, encodeWork enc l with
    | some j, some r => some ((k, j) :: r)
    | _, _ => none

/-- `save_work`, smol/io.py:17-40: the file afterwards and whether it raises.  The file is opened, and
so emptied, before anything is encoded. -/
def saveWork {Ω J : Type*} (enc : Ω → Option J) (file : Option (WorkFile J)) (objs : List (WorkObj Ω)) :
    Option (WorkFile J) × Bool :=
  match collectWork objs [] with
  | none => (file, true)
  | some d => match encodeWork enc d with
    | none => (some .broken, true)
    | some r => (some (.work r), false)

/-- `load_work`, smol/io.py:43-55; `none`: raises. -/
def loadWork {Ω J : Type*} (dec : J → Ω) : Option (WorkFile J) → Option (List (Txt × Ω))
  | some (.work r) => some (r.map fun e => (e.1, dec e.2))
  | _ => none

end Smol
