import Verif.Model.Records

/-!
# Specification: what records can be saved, and what is in a saved work
-/

namespace Smol.Spec

mutual
/-- Numbers, texts, and lists and dictionaries of such; no name begins with `@`. -/
def PlainVal : MVal → Prop
  | .num _ => True
  | .text _ => True
  | .seq t l => t = false ∧ PlainAll l
  | .dict f => PlainFields f
  | .md _ => False
  | .other _ => False
def PlainAll : MVals → Prop
  | .nil => True
  | .cons v l => PlainVal v ∧ PlainAll l
def PlainFields : MFields → Prop
  | .nil => True
  | .cons k v f => k.head? ≠ some '@' ∧ PlainVal v ∧ PlainFields f
end

mutual
/-- Plain values, and `Metadata` all whose attributes are such again. -/
def Storable : MVal → Prop
  | .md f => kName ∈ f.keys ∧ StorableFields f
  | .num _ => True
  | .text _ => True
  | .seq t l => PlainVal (.seq t l)
  | .dict f => PlainVal (.dict f)
  | .other _ => False
def StorableFields : MFields → Prop
  | .nil => True
  | .cons k v f => k.head? ≠ some '@' ∧ Storable v ∧ StorableFields f
end

mutual
/-- No name in the value begins with `@`; `Metadata` have a name of a class (possibly `None`). -/
def Named : MVal → Prop
  | .md f => kName ∈ f.keys ∧ NamedFields f
  | .num _ => True
  | .text _ => True
  | .other _ => True
  | .seq _ l => NamedAll l
  | .dict f => NamedFields f
def NamedAll : MVals → Prop
  | .nil => True
  | .cons v l => Named v ∧ NamedAll l
def NamedFields : MFields → Prop
  | .nil => True
  | .cons k v f => k.head? ≠ some '@' ∧ Named v ∧ NamedFields f
end

/-- `v` is the last object of the class named `k` among those given. -/
def LastOf {Ω : Type*} (objs : List (WorkObj Ω)) (k : Txt) (v : Ω) : Prop :=
  ∃ a b m, objs = a ++ ⟨k, m, v⟩ :: b ∧ ∀ o ∈ b, o.cls ≠ k

end Smol.Spec
