import Mathlib.Data.List.Basic
import Mathlib.Data.Int.Notation

/-!
# Flips written as reactions

Models `flip_vec_to_reaction` and `flip_reactions` of `smol/moca/composition/space.py`.

Species are numbers with a printed form `name` (`str(specie)`).  Texts are lists of characters, numbers
are printed in decimals.
-/

namespace Smol

/-- Sublattice, species and component of the flip vector, in the order of the loops of
`flip_vec_to_reaction`, smol/moca/composition/space.py:61-62, with `get_dim_ids_by_sublattice`,
smol/moca/occu_utils.py:8-23. -/
def slotsFrom (sl start : ℕ) : List (List ℕ) → List (ℕ × ℕ × ℕ)
  | [] => []
  | species :: bits =>
    ((species.zip (List.range' start species.length)).map fun p => (sl, p.1, p.2)) ++
      slotsFrom (sl + 1) (start + species.length) bits

/-- One side of a reaction: amount, species and sublattice of the components with the given sign;
`none` is an `IndexError`.  smol/moca/composition/space.py:58-66. -/
def reactionSide (sgn : ℤ) (u : List ℤ) : List (ℕ × ℕ × ℕ) → Option (List (ℕ × ℕ × ℕ))
  | [] => some []
  | (sl, sp, d) :: slots => match u[d]?, reactionSide sgn u slots with
    | some x, some r => some (if 0 < sgn * x then (x.natAbs, sp, sl) :: r else r)
    | _, _ => none

/-- `f"{n} {str(specie)}({sl_id})"`, smol/moca/composition/space.py:64 and 66. -/
def termText (name : ℕ → List Char) (t : ℕ × ℕ × ℕ) : List Char :=
  Nat.toDigits 10 t.1 ++ [' '] ++ name t.2.1 ++ ['('] ++ Nat.toDigits 10 t.2.2 ++ [')']

/-- `" + ".join(...)`, smol/moca/composition/space.py:68-69. -/
def joinPlus : List (List Char) → List Char
  | [] => []
  | [t] => t
  | t :: ts => t ++ [' ', '+', ' '] ++ joinPlus ts

/-- `flip_vec_to_reaction`, smol/moca/composition/space.py:43-70. -/
def flipToReaction (name : ℕ → List Char) (u : List ℤ) (bits : List (List ℕ)) : Option (List Char) :=
  match reactionSide (-1) u (slotsFrom 0 0 bits), reactionSide 1 u (slotsFrom 0 0 bits) with
  | some l, some r => some (joinPlus (l.map (termText name)) ++ [' ', '-', '>', ' '] ++
      joinPlus (r.map (termText name)))
  | _, _ => none

/-- `flip_reactions`, smol/moca/composition/space.py:432-439. -/
def flipReactions (name : ℕ → List Char) (table : List (List ℤ)) (bits : List (List ℕ)) :
    Option (List (List Char)) :=
  table.mapM fun u => flipToReaction name u bits

end Smol
