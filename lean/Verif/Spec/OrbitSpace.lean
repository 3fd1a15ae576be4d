import Verif.Common
import Mathlib.Data.Int.Basic

/-!
Specification vocabulary for numbering of orbits and functions, written without the model's
functions.
-/

namespace Smol.Spec

/-- The entries of a list, numbered from one, whose numbers are not listed; in the same order. -/
def without {α : Type*} (ids : List ℤ) (l : List α) : List α :=
  ((l.zipIdx 1).filter fun p => decide ((p.2 : ℤ) ∉ ids)).map Prod.fst

/-- Numbered blocks: block `j` (from zero) of size `n_j` has number `j + 1` and its members have
the numbers following those of the blocks before it, starting from one.  Blocks are given as
`(number, first member's number, size)`. -/
def Numbered (blocks : List (ℕ × ℕ × ℕ)) : Prop :=
  ∀ j b, blocks[j]? = some b →
    b.1 = j + 1 ∧ b.2.1 = 1 + ((blocks.take j).map fun c => c.2.2).sum ∧ 0 < b.2.2

end Smol.Spec
