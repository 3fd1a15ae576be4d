import Verif.Model.Wrangle
import Mathlib.Logic.Relation

/-!
# Equal rows and linked structures
-/

namespace Smol.Spec

/-- Two structures have equal (rounded) entries in all columns considered. -/
def SameRow {K : Type*} [Zero K] (rnd : K → K) (cols : List ℕ) (rows : List (List K)) (i j : ℕ) :
    Prop :=
  ∀ c ∈ cols, rnd ((rows.getD i []).getD c 0) = rnd ((rows.getD j []).getD c 0)

/-- Two structures of a group are linked when a chain of matches leads from one to the other. -/
def Linked (fit : ℕ → ℕ → Bool) (g : List ℕ) : ℕ → ℕ → Prop :=
  Relation.ReflTransGen fun a b => a ∈ g ∧ b ∈ g ∧ (a < b ∧ fit a b = true ∨ b < a ∧ fit b a = true)

end Smol.Spec
