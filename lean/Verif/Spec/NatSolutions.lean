import Verif.Common
import Mathlib.Order.Bounds.Defs

/-!
# What enumerating the natural solutions of `n0 + Σ xₖ vₖ ≥ 0` means

Independent of the code.
-/

namespace Smol.Spec

/-- Coordinate `i` of `n0 + Σ xₖ vₖ`. -/
def pointAt {K : Type*} [CommRing K] (n0 : List ℤ) (vs : List (List ℤ)) (x : List K) (i : ℕ) : K :=
  ((n0.getD i 0 : ℤ) : K) +
    (List.zipWith (fun (v : List ℤ) (a : K) => a * ((v.getD i 0 : ℤ) : K)) vs x).sum

/-- `x` has one entry per vector and all coordinates are nonnegative. -/
def Feasible {K : Type*} [CommRing K] [LE K] (n0 : List ℤ) (vs : List (List ℤ)) (x : List K) : Prop :=
  x.length = vs.length ∧ ∀ i < n0.length, 0 ≤ pointAt n0 vs x i

/-- The polytope is bounded. -/
def Bounded (n0 : List ℤ) (vs : List (List ℤ)) : Prop :=
  ∃ B : ℚ, ∀ x : List ℚ, Feasible n0 vs x → ∀ a ∈ x, |a| ≤ B

/-- First coordinates of the points of the polytope. -/
def FirstCoords (n0 : List ℤ) (vs : List (List ℤ)) : Set ℚ :=
  fun q => ∃ x : List ℚ, Feasible n0 vs (q :: x)

/-- Integers among them. -/
def FirstInts (n0 : List ℤ) (vs : List (List ℤ)) : Set ℤ := fun m => FirstCoords n0 vs (m : ℚ)

/-- The grid with a step: in each dimension every `step`-th integer is taken, starting from the
least integer at which the polytope, cut at the coordinates chosen so far, has a (rational)
point. -/
def OnGrid (step : ℕ) : List (List ℤ) → List ℤ → List ℤ → Prop
  | [], _, x => x = []
  | _ :: _, _, [] => False
  | v :: vs, n0, a :: x =>
    (∃ m, IsLeast (FirstInts n0 (v :: vs)) m ∧ (step : ℤ) ∣ a - m) ∧
      OnGrid step vs (List.zipWith (fun c n => a * c + n) v n0) x

/-- An integer, or not close to one. -/
def Separated (ε q : ℚ) : Prop := (∃ m : ℤ, q = m) ∨ ∀ m : ℤ, ε < |q - m|

/-- The values returned for one polytope are its extremes up to an error `δ`, and the true extremes
are integers or separated from them. -/
def AccurateAt (tol δ : ℚ) (n0 : List ℤ) (vs : List (List ℤ)) (r : Option (ℚ × ℚ)) : Prop :=
  ∃ lo hi lo' hi', r = some (lo', hi') ∧ IsLeast (FirstCoords n0 vs) lo ∧
    IsGreatest (FirstCoords n0 vs) hi ∧ |lo' - lo| ≤ δ ∧ |hi' - hi| ≤ δ ∧
    Separated (tol + δ) lo ∧ Separated (tol + δ) hi

/-- The linear programming solver `lp` is accurate on the polytope and on all its nonempty integer
slices with at least two free coordinates. -/
def AccurateLp (lp : List ℤ → List (List ℤ) → Option (ℚ × ℚ)) (tol δ : ℚ) :
    List (List ℤ) → List ℤ → Prop
  | v :: w :: rest, n0 => AccurateAt tol δ n0 (v :: w :: rest) (lp n0 (v :: w :: rest)) ∧
      ∀ m ∈ FirstInts n0 (v :: w :: rest),
        AccurateLp lp tol δ (w :: rest) (List.zipWith (fun c n => m * c + n) v n0)
  | _, _ => True

end Smol.Spec
