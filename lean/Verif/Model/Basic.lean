import Verif.Common

/-!
# Occupancies and steps

Common vocabulary of the model.
-/

namespace Smol

/-- An encoded occupancy: species code held by each site index.
Models the integer `ndarray` occupancies used all over `smol/moca`
(e.g. smol/moca/processor/base.py:216-230).
Simplification: the array length is not part of the type; functions that loop
over the array take the number of sites as an argument. -/
abbrev Occ := ℕ → ℕ

/-- A step: list of `(site, new code)` flips, smol/moca/kernel/mcusher.py:116-131. -/
abbrev Step := List (ℕ × ℕ)

/-- Apply the flips one after the other.
Models the loop `for f in step: occupancy[f[0]] = f[1]`
in smol/moca/kernel/base.py:338-339 (`_do_accept_step`). -/
def applyStep (occ : Occ) : Step → Occ
  | [] => occ
  | f :: fs => applyStep (Function.update occ f.1 f.2) fs

end Smol
