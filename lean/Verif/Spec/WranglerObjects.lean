import Verif.Model.WranglerObjects

/-!
# What the data of a wrangler should be
-/

namespace Smol.Spec
open Smol
variable {S Str Mat Map K : Type*}

/-- The row stored with an entry is its correlation vector in a subspace. -/
def RowRight (lib : WrLib S Str Mat Map K) (w : World S Str Mat Map K) (sub : S) (e : ℕ) : Prop :=
  ∃ d, (w.ents e).data = some d ∧ lib.corr sub (w.ents e).str d.mat d.map = .ok d.corr

/-- All rows of a wrangler are correlation vectors in its own subspace. -/
def RowsRight (lib : WrLib S Str Mat Map K) (w : World S Str Mat Map K) (wi : ℕ) : Prop :=
  ∀ e ∈ (w.wrs wi).ents, RowRight lib w (w.subs (w.wrs wi).sub) e

/-- The names of properties of the entries of a wrangler. -/
def HasProperty (w : World S Str Mat Map K) (wi : ℕ) (k : String) : Prop :=
  ∃ e ∈ (w.wrs wi).ents, ∃ r, (w.ents e).props = some r ∧ ∃ v, (k, v) ∈ w.dicts r

/-- The names of weights. -/
def HasWeight (w : World S Str Mat Map K) (wi : ℕ) (k : String) : Prop :=
  ∃ e ∈ (w.wrs wi).ents, ∃ r, (w.ents e).weights = some r ∧ ∃ v, (k, v) ∈ w.dicts r

/-- Given properties and weights have the names already there, if there are any properties. -/
def NamesFit (w : World S Str Mat Map K) (wi : ℕ) (a : EArgs Mat Map) : Prop :=
  (∃ k, HasProperty w wi k) →
    (∀ r, a.props = some r → ∀ k, (∃ v, (k, v) ∈ w.dicts r) ↔ HasProperty w wi k) ∧
    ∀ r, a.weights = some r → ∀ k, (∃ v, (k, v) ∈ w.dicts r) ↔ HasWeight w wi k

/-- What processing an entry finds: matrix, mapping (given or matched) and row. -/
def Processed (lib : WrLib S Str Mat Map K) (sub : S) (str : Str) (a : EArgs Mat Map) (d : EData Mat Map K) :
    Prop :=
  (a.mat = some d.mat ∨ a.mat = none ∧ lib.findMat sub str = some d.mat) ∧
  (a.map = some d.map ∨ a.map = none ∧ lib.findMap sub str d.mat = some d.map) ∧
  lib.corr sub str d.mat d.map = .ok d.corr ∧ d.size = lib.size d.mat

/-- Two wranglers that share an entry have equal subspaces. -/
def Agree (w : World S Str Mat Map K) (wi : ℕ) (l : List ℕ) (sub : S) : Prop :=
  (∃ e ∈ l, e ∈ (w.wrs wi).ents) → sub = w.subs (w.wrs wi).sub

/-- Operations after which the rows of a wrangler stay right: its subspace is not edited, entries
appended have right rows, its entries are not processed or updated with another subspace. -/
def Harmless (lib : WrLib S Str Mat Map K) (wi : ℕ) (w : World S Str Mat Map K) :
    WrOp S Mat Map K → Prop
  | .edit sub s => sub = (w.wrs wi).sub → s = w.subs sub
  | .process wj e _ => Agree w wi [e] (w.subs (w.wrs wj).sub)
  | .add wj e _ _ => Agree w wi [e] (w.subs (w.wrs wj).sub)
  | .append wj es => wj = wi → ∀ e ∈ es, RowRight lib w (w.subs (w.wrs wi).sub) e
  | .update wj => Agree w wi (w.wrs wj).ents (w.subs (w.wrs wj).sub)
  | .change wj sub =>
    if wj = wi then (w.apply lib (.change wi sub)).2 = false
    else Agree w wi (w.wrs wj).ents (w.subs sub)
  | _ => True

/-- All numbers in use were given out. -/
structure Valid (w : World S Str Mat Map K) : Prop where
  sub : ∀ wi < w.nWrs, (w.wrs wi).sub < w.nSubs
  ents : ∀ wi < w.nWrs, ∀ e ∈ (w.wrs wi).ents, e < w.nEnts
  props : ∀ e < w.nEnts, ∀ r, (w.ents e).props = some r → r < w.nDicts
  weights : ∀ e < w.nEnts, ∀ r, (w.ents e).weights = some r → r < w.nDicts

/-- The operation names objects that exist. -/
def Names (w : World S Str Mat Map K) : WrOp S Mat Map K → Prop
  | .mkDict _ => True
  | .new sub => sub < w.nSubs
  | .process wi e a | .add wi e a _ => wi < w.nWrs ∧ e < w.nEnts ∧
      (∀ r, a.props = some r → r < w.nDicts) ∧ ∀ r, a.weights = some r → r < w.nDicts
  | .append wi es => wi < w.nWrs ∧ ∀ e ∈ es, e < w.nEnts
  | .change wi sub => wi < w.nWrs ∧ sub < w.nSubs
  | .edit sub _ => sub < w.nSubs
  | .update wi | .remove wi _ | .removeAll wi | .addProps wi _ _ | .addWeights wi _ _ | .reload wi =>
    wi < w.nWrs

/-- A history all of whose operations have a property when they are reached. -/
def Along (lib : WrLib S Str Mat Map K) (P : World S Str Mat Map K → WrOp S Mat Map K → Prop) :
    World S Str Mat Map K → List (WrOp S Mat Map K) → Prop
  | _, [] => True
  | w, o :: os => P w o ∧ Along lib P (w.apply lib o).1 os

/-- No two entries share a dictionary and no wrangler has an entry twice. -/
structure Apart (w : World S Str Mat Map K) : Prop where
  props : ∀ e < w.nEnts, ∀ e' < w.nEnts, ∀ r, (w.ents e).props = some r → (w.ents e').props = some r → e = e'
  weights : ∀ e < w.nEnts, ∀ e' < w.nEnts, ∀ r,
    (w.ents e).weights = some r → (w.ents e').weights = some r → e = e'
  cross : ∀ e < w.nEnts, ∀ e' < w.nEnts, ∀ r, (w.ents e).props = some r → (w.ents e').weights ≠ some r
  once : ∀ wi < w.nWrs, (w.wrs wi).ents.Nodup
  have_ : ∀ wi < w.nWrs, ∀ e ∈ (w.wrs wi).ents,
    (w.ents e).props.isSome = true ∧ (w.ents e).weights.isSome = true

/-- A dictionary object that no entry has. -/
def Unused (w : World S Str Mat Map K) (r : ℕ) : Prop :=
  ∀ e < w.nEnts, (w.ents e).props ≠ some r ∧ (w.ents e).weights ≠ some r

/-- Operations that give each entry its own dictionaries and add no entry twice; appended entries were
processed. -/
def Separate (w : World S Str Mat Map K) : WrOp S Mat Map K → Prop
  | .process _ _ a => (∀ r, a.props = some r → Unused w r) ∧ (∀ r, a.weights = some r → Unused w r) ∧
      ∀ r, a.props = some r → a.weights ≠ some r
  | .add wi e a _ => (∀ r, a.props = some r → Unused w r) ∧ (∀ r, a.weights = some r → Unused w r) ∧
      (∀ r, a.props = some r → a.weights ≠ some r) ∧ e ∉ (w.wrs wi).ents
  | .append wi es => ((w.wrs wi).ents ++ es).Nodup ∧
      ∀ e ∈ es, (w.ents e).props.isSome = true ∧ (w.ents e).weights.isSome = true
  | _ => True

end Smol.Spec
