import Verif.Model.BasisIO

/-!
# Specification: saved site bases
-/

namespace Smol.Spec

/-- Two bases with the same functions, measure and history of changes of basis. -/
structure SameBasis {m : ℕ} (B B' : LiveBasis m) : Prop where
  flavor : B'.flavor = B.flavor
  measure : B'.core.measure = B.core.measure
  functions : B'.core.f = B.core.f
  rotation : B'.core.rot = B.core.rot
  orthonormalization : B'.core.r = B.core.r

/-- Names that differ only in the case of letters. -/
def SameUpToCase (a b : List Char) : Prop := a.map Char.toLower = b.map Char.toLower

/-- The names of the bases. -/
def basisNames : List String := ["indicator", "sinusoid", "polynomial", "chebyshev", "legendre"]

/-- Operations that change the basis. -/
def IsChange : BasisOp → Prop
  | .reload => False
  | _ => True

/-- `Interspersed changes ops`: a session that does the changes in their order, and saves and loads
anywhere in between. -/
inductive Interspersed : List BasisOp → List BasisOp → Prop
  | nil : Interspersed [] []
  | reload {cs os : List BasisOp} : Interspersed cs os → Interspersed cs (.reload :: os)
  | change {cs os : List BasisOp} (o : BasisOp) : IsChange o → Interspersed cs os →
      Interspersed (o :: cs) (o :: os)

end Smol.Spec
