import Verif.Model.Basic

/-!
# Processor properties and the composite processor

Models `smol/moca/processor/base.py:155-178` and
`smol/moca/processor/composite.py`.
-/

namespace Smol

variable {K : Type*} [CommRing K]

/-- `np.dot` of two vectors of equal length. -/
def dot (xs ys : List K) : K := (List.zipWith (· * ·) xs ys).sum

/-- What a composite uses of a processor.  `scalar` tells whether the feature "vector" is a 0-d
number (EwaldProcessor, smol/moca/processor/ewald.py:138) or a 1-d array (all others). -/
structure PartProc (K : Type*) where
  scalar : Bool
  coefs : List K
  feature : Occ → List K
  change : Occ → Step → List K

/-- `compute_property`, smol/moca/processor/base.py:155-164; for the Ewald processor
`coefs * feature` (ewald.py:106), the same number. -/
def PartProc.property (p : PartProc K) (occ : Occ) : K := dot p.coefs (p.feature occ)

/-- `compute_property_change`, smol/moca/processor/base.py:166-178. -/
def PartProc.propertyChange (p : PartProc K) (occ : Occ) (flips : Step) : K :=
  dot p.coefs (p.change occ flips)

/-- `np.append(arrays[0], arrays[1:])`, smol/moca/processor/composite.py:129 and 152.
`np.append` first makes one array of `arrays[1:]`, which numpy refuses unless all have the same
shape; an empty list is an `IndexError`. `none` stands for these exceptions. -/
def npAppendAll : List (Bool × List K) → Option (List K)
  | [] => none
  | [f] => some f.2
  | f :: g :: rest =>
    if rest.all fun h => h.1 == g.1 && h.2.length == g.2.length then
      some (f.2 ++ (g :: rest).flatMap Prod.snd)
    else none

/-- `add_processor` appends the coefficients, smol/moca/processor/composite.py:83-84. -/
def compositeCoefs (ps : List (PartProc K)) : List K :=
  ps.foldl (fun cs p => cs ++ p.coefs) []

/-- `CompositeProcessor.compute_property`, composite.py:86-95. -/
def compositeProperty (ps : List (PartProc K)) (occ : Occ) : K :=
  (ps.map fun p => p.property occ).sum

/-- `CompositeProcessor.compute_property_change`, composite.py:97-111. -/
def compositePropertyChange (ps : List (PartProc K)) (occ : Occ) (flips : Step) : K :=
  (ps.map fun p => p.propertyChange occ flips).sum

/-- `CompositeProcessor.compute_feature_vector`, composite.py:113-129. -/
def compositeFeature (ps : List (PartProc K)) (occ : Occ) : Option (List K) :=
  npAppendAll (ps.map fun p => (p.scalar, p.feature occ))

/-- `CompositeProcessor.compute_feature_vector_change`, composite.py:131-152. -/
def compositeChange (ps : List (PartProc K)) (occ : Occ) (flips : Step) : Option (List K) :=
  npAppendAll (ps.map fun p => (p.scalar, p.change occ flips))

end Smol
