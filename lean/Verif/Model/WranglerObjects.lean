import Verif.Model.WranglerState

/-!
# Wranglers, entries, dictionaries and subspaces as objects

`StructureWrangler` stores what it computes in the `data` dictionary of the entry objects it is given,
and keeps the dictionaries of properties and weights passed by the caller.  Here all of these are
numbered objects, so that several wranglers can hold the same entries.  Matching structures and
computing correlations are the functions of `WrLib`.  Refined structures are left out; metadata and
index sets are those of `WState` (C56).
-/

namespace Smol

/-- What the cluster subspace computes: `scmatrix_from_structure`, `structure_site_mapping` (with the
supercell of the matrix), `num_prims_from_matrix` and `corr_from_structure` with both given,
smol/cofe/space/clusterspace.py:659-706.  `none` and `.error true` are `StructureMatchError`,
`.error false` any other exception. -/
structure WrLib (S Str Mat Map K : Type*) where
  findMat : S → Str → Option Mat
  findMap : S → Str → Mat → Option Map
  size : Mat → ℕ
  corr : S → Str → Mat → Map → Except Bool (List K)

/-- What `process_entry` stores in `entry.data`, smol/cofe/wrangling/wrangler.py:776-780. -/
structure EData (Mat Map K : Type*) where
  mat : Mat
  map : Map
  corr : List K
  size : ℕ
  deriving DecidableEq

/-- An entry; `props` and `weights` are the dictionary objects in `entry.data`. -/
structure EObj (Str Mat Map K : Type*) where
  str : Str
  data : Option (EData Mat Map K)
  props : Option ℕ
  weights : Option ℕ

/-- A wrangler: `_subspace` and `_entries`, smol/cofe/wrangling/wrangler.py:58-59. -/
structure WrObj where
  sub : ℕ
  ents : List ℕ

/-- All objects, with the numbers that were given out. -/
structure World (S Str Mat Map K : Type*) where
  subs : ℕ → S
  ents : ℕ → EObj Str Mat Map K
  dicts : ℕ → SDict K
  wrs : ℕ → WrObj
  nSubs : ℕ
  nEnts : ℕ
  nDicts : ℕ
  nWrs : ℕ

variable {S Str Mat Map K : Type*}

/-- The dictionary an entry has. -/
def World.dictOf (w : World S Str Mat Map K) (r : Option ℕ) : SDict K := (r.map w.dicts).getD []

/-- `available_properties` (with repetitions), smol/cofe/wrangling/wrangler.py:80-84. -/
def World.available (w : World S Str Mat Map K) (wi : ℕ) : List String :=
  (w.wrs wi).ents.flatMap fun e => (w.dictOf (w.ents e).props).keysOf

/-- `available_weights`, smol/cofe/wrangling/wrangler.py:92-96. -/
def World.availableW (w : World S Str Mat Map K) (wi : ℕ) : List String :=
  (w.wrs wi).ents.flatMap fun e => (w.dictOf (w.ents e).weights).keysOf

/-- The checks of `process_entry`, smol/cofe/wrangling/wrangler.py:722-741. -/
def World.accepts (w : World S Str Mat Map K) (wi : ℕ) (pr wt : Option ℕ) : Bool :=
  if (w.wrs wi).ents = [] ∨ w.available wi = [] then true
  else (match pr with | some r => sameKeys (w.dicts r).keysOf (w.available wi) | none => true) &&
    (match wt with | some r => sameKeys (w.dicts r).keysOf (w.availableW wi) | none => true)

/-- Storing the given properties: the entry's own dictionary is updated, otherwise it gets the
caller's dictionary object, or a new one; smol/cofe/wrangling/wrangler.py:743, 781-785. -/
def World.storeProps (w : World S Str Mat Map K) (e : ℕ) (pr : Option ℕ) : World S Str Mat Map K :=
  match (w.ents e).props with
  | some r => { w with dicts := Function.update w.dicts r ((w.dicts r).updateWith (w.dictOf pr)) }
  | none =>
    match pr with
    | some r => { w with ents := Function.update w.ents e { w.ents e with props := some r } }
    | none =>
      { w with
        ents := Function.update w.ents e { w.ents e with props := some w.nDicts }
        dicts := Function.update w.dicts w.nDicts []
        nDicts := w.nDicts + 1 }

/-- The same for weights, smol/cofe/wrangling/wrangler.py:744, 787-791. -/
def World.storeWeights (w : World S Str Mat Map K) (e : ℕ) (wt : Option ℕ) : World S Str Mat Map K :=
  match (w.ents e).weights with
  | some r => { w with dicts := Function.update w.dicts r ((w.dicts r).updateWith (w.dictOf wt)) }
  | none =>
    match wt with
    | some r => { w with ents := Function.update w.ents e { w.ents e with weights := some r } }
    | none =>
      { w with
        ents := Function.update w.ents e { w.ents e with weights := some w.nDicts }
        dicts := Function.update w.dicts w.nDicts []
        nDicts := w.nDicts + 1 }

/-- Replacing the `data` of an entry. -/
def World.setData (w : World S Str Mat Map K) (e : ℕ) (d : EData Mat Map K) : World S Str Mat Map K :=
  { w with ents := Function.update w.ents e { w.ents e with data := some d } }

/-- What the caller passes to `process_entry`. -/
structure EArgs (Mat Map : Type*) where
  props : Option ℕ
  weights : Option ℕ
  mat : Option Mat
  map : Option Map
  raiseFailed : Bool

/-- `process_entry`, smol/cofe/wrangling/wrangler.py:722-793.  `.error`: an exception; `none`: the
structure could not be matched and `None` is returned. -/
def World.process (lib : WrLib S Str Mat Map K) (w : World S Str Mat Map K) (wi e : ℕ)
    (a : EArgs Mat Map) : Except Unit (Option (World S Str Mat Map K)) :=
  let sub := w.subs (w.wrs wi).sub
  let str := (w.ents e).str
  let failed : Except Unit (Option (World S Str Mat Map K)) :=
    if a.raiseFailed then .error () else .ok none
  if !w.accepts wi a.props a.weights then .error ()
  else
    match a.mat.orElse fun _ => lib.findMat sub str with
    | none => failed
    | some m =>
      match a.map.orElse fun _ => lib.findMap sub str m with
      | none => failed
      | some mp =>
        match lib.corr sub str m mp with
        | .error true => failed
        | .error false => .error ()
        | .ok row => .ok (some (((w.setData e ⟨m, mp, row, lib.size m⟩).storeProps e a.props).storeWeights e
            a.weights))

/-- The rows of `feature_matrix`, smol/cofe/wrangling/wrangler.py:108-114. -/
def World.rows (w : World S Str Mat Map K) (wi : ℕ) : List (Option (List K)) :=
  (w.wrs wi).ents.map fun e => (w.ents e).data.map EData.corr

/-- `np.array` of rows of different lengths raises a `ValueError` (numpy >= 1.24). -/
def World.ragged (w : World S Str Mat Map K) (wi : ℕ) : Bool :=
  decide (∃ r ∈ w.rows wi, ∃ r' ∈ w.rows wi, (r.getD []).length ≠ (r'.getD []).length)

/-- Changing the list of entries of a wrangler. -/
def World.setEnts (w : World S Str Mat Map K) (wi : ℕ) (l : List ℕ) : World S Str Mat Map K :=
  { w with wrs := Function.update w.wrs wi { w.wrs wi with ents := l } }

/-- `append_entries`, smol/cofe/wrangling/wrangler.py:532-566; the flag tells that an exception was
raised.  Entries that were not processed lack required keys. -/
def World.appendAll (w : World S Str Mat Map K) (wi : ℕ) : List ℕ → World S Str Mat Map K × Bool
  | [] => (w, false)
  | e :: es =>
    if (w.ents e).data.isNone then (w, true)
    else if (w.wrs wi).ents = [] ∨
        (sameKeys (w.dictOf (w.ents e).props).keysOf (w.available wi) = true ∧
          sameKeys (w.dictOf (w.ents e).weights).keysOf (w.availableW wi) = true) then
      let w' := w.setEnts wi ((w.wrs wi).ents ++ [e])
      if w'.ragged wi then (w', true) else w'.appendAll wi es
    else (w, true)

/-- The loop of `update_features`, smol/cofe/wrangling/wrangler.py:657-663; the flag tells that an
exception was raised. -/
def World.updateAll (lib : WrLib S Str Mat Map K) (w : World S Str Mat Map K) (sub : S) :
    List ℕ → World S Str Mat Map K × Bool
  | [] => (w, false)
  | e :: es =>
    match (w.ents e).data with
    | none => (w, true)
    | some d =>
      match lib.corr sub (w.ents e).str d.mat d.map with
      | .error _ => (w, true)
      | .ok row => (w.setData e { d with corr := row }).updateAll lib sub es

/-- Assigning a value in the dictionaries of the entries, smol/cofe/wrangling/wrangler.py:586-587,
608-609. -/
def World.putAll (w : World S Str Mat Map K) (ref : EObj Str Mat Map K → Option ℕ) (k : String) :
    List (ℕ × K) → World S Str Mat Map K
  | [] => w
  | (e, x) :: l =>
    World.putAll (match ref (w.ents e) with
      | some r => { w with dicts := Function.update w.dicts r ((w.dicts r).put k x) }
      | none => w) ref k l

/-- `from_dict(as_dict())`, smol/cofe/wrangling/wrangler.py:816-885: new objects for the subspace, the
entries and their dictionaries, numbered consecutively.  Assumed: the values survive JSON. -/
def World.reload (w : World S Str Mat Map K) (wi : ℕ) : World S Str Mat Map K :=
  let l := (w.wrs wi).ents
  { subs := Function.update w.subs w.nSubs (w.subs (w.wrs wi).sub)
    ents := fun i =>
      if w.nEnts ≤ i then
        match l[i - w.nEnts]? with
        | some e => { w.ents e with
            props := (w.ents e).props.map fun _ => w.nDicts + 2 * (i - w.nEnts)
            weights := (w.ents e).weights.map fun _ => w.nDicts + 2 * (i - w.nEnts) + 1 }
        | none => w.ents i
      else w.ents i
    dicts := fun i =>
      if w.nDicts ≤ i then
        match l[(i - w.nDicts) / 2]? with
        | some e => w.dictOf (if (i - w.nDicts) % 2 = 0 then (w.ents e).props else (w.ents e).weights)
        | none => w.dicts i
      else w.dicts i
    wrs := Function.update w.wrs w.nWrs ⟨w.nSubs, (List.range l.length).map fun i => w.nEnts + i⟩
    nSubs := w.nSubs + 1
    nEnts := w.nEnts + l.length
    nDicts := w.nDicts + 2 * l.length
    nWrs := w.nWrs + 1 }

/-- What can be done.  `remove wi i`: `remove_entry` of an entry that compares equal to the `i`-th
first; `edit`: the user changes a subspace object (`add_external_term`, `remove_orbits`, ...);
`mkDict`: the user makes a dictionary. -/
inductive WrOp (S Mat Map K : Type*) where
  | mkDict (d : SDict K)
  | new (sub : ℕ)
  | process (wi e : ℕ) (a : EArgs Mat Map)
  | add (wi e : ℕ) (a : EArgs Mat Map) (verbose : Bool)
  | append (wi : ℕ) (es : List ℕ)
  | update (wi : ℕ)
  | change (wi sub : ℕ)
  | edit (sub : ℕ) (s : S)
  | remove (wi i : ℕ)
  | removeAll (wi : ℕ)
  | addProps (wi : ℕ) (k : String) (v : List K)
  | addWeights (wi : ℕ) (k : String) (v : List K)
  | reload (wi : ℕ)

/-- One operation; the flag tells whether an exception was raised.  `add_entry` 508-520,
`append_entries` 532-566, `add_weights` 580-587, `add_properties` 602-609, `remove_entry` 625-634,
`change_subspace` 647-648, `update_features` 657-663, `remove_all_data` 666-668 of
smol/cofe/wrangling/wrangler.py. -/
def World.apply (lib : WrLib S Str Mat Map K) (w : World S Str Mat Map K) :
    WrOp S Mat Map K → World S Str Mat Map K × Bool
  | .mkDict d => ({ w with dicts := Function.update w.dicts w.nDicts d, nDicts := w.nDicts + 1 }, false)
  | .new sub => ({ w with wrs := Function.update w.wrs w.nWrs ⟨sub, []⟩, nWrs := w.nWrs + 1 }, false)
  | .process wi e a =>
    match w.process lib wi e a with
    | .error _ => (w, true)
    | .ok none => (w, false)
    | .ok (some w') => (w', false)
  | .add wi e a verbose =>
    match w.process lib wi e a with
    | .error _ => (w, true)
    | .ok none => (w, verbose && w.ragged wi)
    | .ok (some w') =>
      let w'' := w'.setEnts wi ((w'.wrs wi).ents ++ [e])
      (w'', verbose && w''.ragged wi)
  | .append wi es => w.appendAll wi es
  | .update wi => w.updateAll lib (w.subs (w.wrs wi).sub) (w.wrs wi).ents
  | .change wi sub =>
    let w' := { w with wrs := Function.update w.wrs wi { w.wrs wi with sub := sub } }
    w'.updateAll lib (w'.subs (w'.wrs wi).sub) (w'.wrs wi).ents
  | .edit sub s => ({ w with subs := Function.update w.subs sub s }, false)
  | .remove wi i => (w.setEnts wi ((w.wrs wi).ents.eraseIdx i), false)
  | .removeAll wi => (w.setEnts wi [], false)
  | .addProps wi k v =>
    if (w.wrs wi).ents.length ≠ v.length then (w, true)
    else (w.putAll EObj.props k ((w.wrs wi).ents.zip v), false)
  | .addWeights wi k v =>
    if (w.wrs wi).ents.length ≠ v.length then (w, true)
    else (w.putAll EObj.weights k ((w.wrs wi).ents.zip v), false)
  | .reload wi => (w.reload wi, false)

/-- A history, whether operations raise or not. -/
def World.run (lib : WrLib S Str Mat Map K) (w : World S Str Mat Map K) (ops : List (WrOp S Mat Map K)) :
    World S Str Mat Map K := ops.foldl (fun w o => (w.apply lib o).1) w

/-- `get_property_vector(k, normalize=False)` of an added property,
smol/cofe/wrangling/wrangler.py:414-418. -/
def World.propertyVector (w : World S Str Mat Map K) (wi : ℕ) (k : String) : Option (List K) :=
  (w.wrs wi).ents.mapM fun e => (w.dictOf (w.ents e).props).lookup k

/-- `get_weights`, smol/cofe/wrangling/wrangler.py:453. -/
def World.weightVector (w : World S Str Mat Map K) (wi : ℕ) (k : String) : Option (List K) :=
  (w.wrs wi).ents.mapM fun e => (w.dictOf (w.ents e).weights).lookup k

end Smol
