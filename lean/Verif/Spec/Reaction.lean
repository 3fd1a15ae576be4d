import Verif.Model.Reaction

/-!
# Specification: reactions
-/

namespace Smol.Spec

/-- Number of components: one for each species on each sublattice. -/
def components (bits : List (List ℕ)) : ℕ := (bits.map List.length).sum

/-- The species `sp` on sublattice `k` is component `d` of a flip. -/
def IsComponent (bits : List (List ℕ)) (k sp d : ℕ) : Prop :=
  ∃ l j, bits[k]? = some l ∧ l[j]? = some sp ∧ d = components (bits.take k) + j

/-- Printed forms that can be told apart: no blanks, and different ones for the species of a
sublattice. -/
def Readable (name : ℕ → List Char) (bits : List (List ℕ)) : Prop :=
  (∀ l ∈ bits, ∀ sp ∈ l, ' ' ∉ name sp) ∧ ∀ l ∈ bits, (l.map name).Nodup

/-- A side of a reaction lists the components of a flip that change by some amount in the given
direction. -/
def Lists (bits : List (List ℕ)) (u : List ℤ) (sgn : ℤ) (side : List (ℕ × ℕ × ℕ)) : Prop :=
  ∀ n sp k, (n, sp, k) ∈ side ↔ 0 < n ∧ ∃ d, IsComponent bits k sp d ∧ u[d]? = some (sgn * n)

/-- A side as it is written: amount, species and sublattice in brackets, joined by plus signs. -/
def sideText (name : ℕ → List Char) (side : List (ℕ × ℕ × ℕ)) : List Char :=
  List.intercalate " + ".toList (side.map fun t =>
    (toString t.1).toList ++ " ".toList ++ name t.2.1 ++ "(".toList ++ (toString t.2.2).toList ++ ")".toList)

/-- The change of a quantity that is `w k sp` for each site of sublattice `k` with species `sp`. -/
def changeOf (w : ℕ → ℕ → ℤ) : ℕ → List (List ℕ) → List ℤ → ℤ
  | _, [], _ => 0
  | k, species :: bits, u =>
    (List.zipWith (fun sp x => w k sp * x) species u).sum + changeOf w (k + 1) bits (u.drop species.length)

/-- A quantity summed over a side of a reaction. -/
def sideTotal (w : ℕ → ℕ → ℤ) (side : List (ℕ × ℕ × ℕ)) : ℤ :=
  (side.map fun t => (t.1 : ℤ) * w t.2.2 t.2.1).sum

end Smol.Spec
