import Verif.Common

namespace Smol.Spec

/-- A history of requests on a set of sites: `some xs` freezes the sites `xs`, `none` unfreezes
everything.  A site is frozen at the end iff some request froze it and nothing after that unfroze
everything. -/
def Frozen (history : List (Option (List ℕ))) (s : ℕ) : Prop :=
  ∃ before xs after, history = before ++ some xs :: after ∧ s ∈ xs ∧ none ∉ after

end Smol.Spec
