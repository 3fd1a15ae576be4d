import Verif.Model.Kernel

/-!
Specification of a walk: the occupancies a walker goes through when it is told what to do in each
round (`Decisions`: the proposed step and whether it is accepted).
-/

namespace Smol.Spec

/-- The occupancy after `r` rounds. -/
def walk (dec : Decisions) (i : ℕ) (start : Occ) : ℕ → Occ
  | 0 => start
  | r + 1 =>
    let x := walk dec i start r
    if (dec r i x).2 then applyStep x (dec r i x).1 else x

/-- Whether the step of round `r` was accepted. -/
def accepts (dec : Decisions) (i : ℕ) (start : Occ) (r : ℕ) : Bool :=
  (dec r i (walk dec i start r)).2

/-- Fraction of accepted steps among those of the given rounds. -/
def acceptedFraction (dec : Decisions) (i : ℕ) (start : Occ) (rounds : List ℕ) : ℚ :=
  ((rounds.filter fun r => accepts dec i start r).length : ℚ) / rounds.length

/-- The share of an orbit in the property of one occupancy: over its functions, the sum of parameter
times feature. -/
def orbitShare {K : Type*} [CommRing K] (params : List K) (ids : List ℕ) (features : List K)
    (i : ℕ) : K :=
  ((List.range params.length).map fun f =>
    if ids[f]? = some i then params.getD f 0 * features.getD f 0 else 0).sum

end Smol.Spec
