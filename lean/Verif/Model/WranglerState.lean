import Verif.Common

/-!
# The contents of a StructureWrangler

Models how the entries, their properties and weights and the data index sets of
`smol/cofe/wrangling/wrangler.py` change.  Matching a structure to the primitive cell is the
argument `matched`; entries are separate objects (the same entry added twice would share its
dictionaries).
-/

namespace Smol

/-- A dictionary with string keys. -/
abbrev SDict (V : Type*) := List (String × V)

/-- Its keys. -/
def SDict.keysOf {V : Type*} (d : SDict V) : List String := d.map Prod.fst

/-- `d[k] = v` -/
def SDict.put {V : Type*} (d : SDict V) (k : String) (v : V) : SDict V :=
  if k ∈ d.keysOf then d.map fun p => if p.1 = k then (k, v) else p else d ++ [(k, v)]

/-- `d.update(other)` -/
def SDict.updateWith {V : Type*} (d other : SDict V) : SDict V := other.foldl (fun d p => d.put p.1 p.2) d

/-- `del d[k]`; `none`: `KeyError` -/
def SDict.del? {V : Type*} (d : SDict V) (k : String) : Option (SDict V) :=
  if k ∈ d.keysOf then some (d.filter fun p => decide (p.1 ≠ k)) else none

/-- `set(a) == set(b)` -/
def sameKeys (a b : List String) : Bool := decide ((∀ k ∈ a, k ∈ b) ∧ ∀ k ∈ b, k ∈ a)

/-- An entry: which one it is, its size in primitive cells and its two dictionaries. -/
structure WEntry (K : Type*) where
  tag : ℕ
  size : ℕ
  props : SDict K
  weights : SDict K
  deriving DecidableEq

/-- Entries and index sets, smol/cofe/wrangling/wrangler.py:60-61. -/
structure WState (K : Type*) where
  entries : List (WEntry K)
  inds : String → Option (List ℕ)

variable {K : Type*}

/-- A new wrangler. -/
def WState.new : WState K := ⟨[], fun _ => none⟩

/-- `available_properties` (with repetitions), smol/cofe/wrangling/wrangler.py:80-84. -/
def WState.available (s : WState K) : List String := s.entries.flatMap fun e => e.props.keysOf

/-- `available_weights`, smol/cofe/wrangling/wrangler.py:92-96. -/
def WState.availableW (s : WState K) : List String := s.entries.flatMap fun e => e.weights.keysOf

/-- The checks of `process_entry`, smol/cofe/wrangling/wrangler.py:722-741. -/
def WState.accepts (s : WState K) (props weights : Option (SDict K)) : Bool :=
  if s.entries = [] ∨ s.available = [] then true
  else (match props with | some p => sameKeys p.keysOf s.available | none => true) &&
    (match weights with | some w => sameKeys w.keysOf s.availableW | none => true)

/-- The entry with the given properties and weights, smol/cofe/wrangling/wrangler.py:781-797. -/
def WEntry.processed (e : WEntry K) (props weights : SDict K) : WEntry K :=
  ⟨e.tag, e.size, e.props.updateWith props, e.weights.updateWith weights⟩

/-- Operations on a wrangler. -/
inductive WOp (K : Type*) where
  /-- `add_entry(entry, properties, weights)`; `matched`: the structure could be matched -/
  | add (e : WEntry K) (props weights : Option (SDict K)) (matched : Bool)
  /-- `append_entries` -/
  | append (es : List (WEntry K))
  | addWeights (k : String) (v : List K)
  | addProps (k : String) (v : List K)
  | removeProps (ks : List String)
  /-- `remove_entry`; `same`: which entries compare equal to the given one -/
  | remove (same : WEntry K → Bool)
  | removeAll
  /-- `add_data_indices` -/
  | addInds (k : String) (l : List ℕ)

/-- Appending entries one by one; the flag tells that an entry was refused,
smol/cofe/wrangling/wrangler.py:540-566. -/
def WState.appendAll (s : WState K) : List (WEntry K) → WState K × Bool
  | [] => (s, false)
  | e :: es =>
    if s.entries = [] ∨ (sameKeys e.props.keysOf s.available = true ∧
        sameKeys e.weights.keysOf s.availableW = true)
    then WState.appendAll { s with entries := s.entries ++ [e] } es
    else (s, true)

/-- Deleting one property: the loop over entries stops at the first without it,
smol/cofe/wrangling/wrangler.py:618-623. -/
def removeProp (k : String) : List (WEntry K) → List (WEntry K)
  | [] => []
  | e :: es =>
    match e.props.del? k with
    | some p => { e with props := p } :: removeProp k es
    | none => e :: es

/-- One operation; the flag tells whether an exception was raised.
`add_entry` 455-520 and `process_entry` 722-797, `append_entries` 522-566, `add_weights` 569-587,
`add_properties` 589-609, `remove_properties` 611-623, `remove_entry` 625-634, `remove_all_data`
666-668, `add_data_indices` 433-444. -/
def WState.apply (s : WState K) : WOp K → WState K × Bool
  | .add e props weights matched =>
    if !s.accepts props weights then (s, true)
    else if !matched then (s, false)
    else ({ s with entries := s.entries ++ [e.processed (props.getD []) (weights.getD [])] }, false)
  | .append es => s.appendAll es
  | .addWeights k v =>
    if s.entries.length ≠ v.length then (s, true)
    else (⟨List.zipWith (fun e x => { e with weights := e.weights.put k x }) s.entries v, s.inds⟩, false)
  | .addProps k v =>
    if s.entries.length ≠ v.length then (s, true)
    else (⟨List.zipWith (fun e x => { e with props := e.props.put k x }) s.entries v, s.inds⟩, false)
  | .removeProps ks => ({ s with entries := ks.foldl (fun es k => removeProp k es) s.entries }, false)
  | .remove same => ({ s with entries := s.entries.eraseIdx (s.entries.findIdx same) }, false)
  | .removeAll => ({ s with entries := [] }, false)
  | .addInds k l =>
    if l.all fun i => decide (i < s.entries.length) then
      ({ s with inds := Function.update s.inds k (some l) }, false)
    else (s, true)

/-- A sequence of operations, whether they raise or not. -/
def WState.run (s : WState K) : List (WOp K) → WState K
  | [] => s
  | o :: os => (s.apply o).1.run os

/-- `get_property_vector` for an added property, smol/cofe/wrangling/wrangler.py:414-431; `none`: not
available (or an attribute of the entries) or `KeyError`. -/
def WState.propertyVector [Field K] (s : WState K) (k : String) (normalize : Bool) : Option (List K) :=
  if k ∈ s.available then
    s.entries.mapM fun e => (e.props.lookup k).map fun x => if normalize then x / (e.size : K) else x
  else none

/-- `get_weights`, smol/cofe/wrangling/wrangler.py:453. -/
def WState.weightVector (s : WState K) (k : String) : Option (List K) :=
  s.entries.mapM fun e => e.weights.lookup k

end Smol
