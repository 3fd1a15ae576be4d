import Verif.Model.LegacyContainer

/-!
# Specification: containers saved by older versions
-/

namespace Smol.Spec

/-- What is compared of a sublattice: species, codes and sites. -/
def compared (sl : Sublattice) : List ℕ × List ℕ × List ℕ := (sl.species, sl.encoding, sl.sites)

/-- The same sublattices in any order. -/
def SameSublattices (a b : List Sublattice) : Prop := (a.map compared).Perm (b.map compared)

/-- Energy of a feature vector: the first `n` features with their parameters. -/
def energyOf {K : Type*} [Field K] (n : ℕ) (ps fs : List K) : K :=
  (List.zipWith (· * ·) (fs.take n) (ps.take n)).sum

end Smol.Spec
