import Verif.Common

/-!
# How the name of a class may be spelled
-/

namespace Smol.Spec

/-- A word of a class name: a capital, then lower case letters or digits. -/
def CamelWord (w : List Char) : Prop :=
  ∃ c r, w = c :: r ∧ c ∈ "ABCDEFGHIJKLMNOPQRSTUVWXYZ".toList ∧
    ∀ x ∈ r, x ∈ "abcdefghijklmnopqrstuvwxyz0123456789".toList

/-- The word with a small initial. -/
def smallInitial : List Char → List Char
  | [] => []
  | c :: r => c.toLower :: r

/-- Spellings of a sequence of words: each with its capital or a small initial, hyphens anywhere
between words, needed only in front of a small initial that is not the first character.  The first
argument says whether a small initial is allowed here. -/
inductive SpelledFrom : Bool → List (List Char) → List Char → Prop
  | done (b : Bool) : SpelledFrom b [] []
  | hyphen (b : Bool) (ws : List (List Char)) (s : List Char) (h : SpelledFrom true ws s) :
      SpelledFrom b ws ('-' :: s)
  | capital (b : Bool) (w : List Char) (ws : List (List Char)) (s : List Char)
      (h : SpelledFrom false ws s) : SpelledFrom b (w :: ws) (w ++ s)
  | small (w : List Char) (ws : List (List Char)) (s : List Char) (h : SpelledFrom false ws s) :
      SpelledFrom true (w :: ws) (smallInitial w ++ s)

def Spelled : List (List Char) → List Char → Prop := SpelledFrom true

end Smol.Spec
