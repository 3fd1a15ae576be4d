import Verif.Model.Orbit

/-!
# Potts subspaces

Models `PottsSubspace` (`smol/cofe/space/clusterspace.py`) with `IndicatorBasis`
(`smol/cofe/space/basis.py`).  Orbits are listed by size (the dictionary is sorted when ids are
assigned, line 1216); their search by cutoffs is modelled in `Model/OrbitGen`.  An orbit's site
spaces are the lists of species of its sites in the order of the codes, its permutations are an
input as in `Model/Orbit`.
-/

namespace Smol

variable {σ : Type*}

/-- The function array of `IndicatorBasis`: `function(sp)` for every function and species,
smol/cofe/space/basis.py:387-391; the functions are `indicator(·, sp)` for the species in order,
lines 386, 444-446. -/
def indicatorArray (K : Type*) [Field K] [DecidableEq σ] (species : List σ) : List (List K) :=
  species.map fun f => species.map fun s => if s = f then 1 else 0

/-- The site functions of a cluster: `basis_arrays[i][b, c]`. -/
def indicatorPhi (K : Type*) [Field K] [DecidableEq σ] (spaces : List (List σ)) (i b c : ℕ) : K :=
  (((indicatorArray K (spaces.getD i [])).getD b []).getD c 0)

/-- An orbit of a Potts subspace: `site_spaces`, `bit_combos`, `id`, `bit_id`. -/
structure PottsOrbit (σ : Type*) where
  spaces : List (List σ)
  classes : List (List (List ℕ))
  id : ℕ
  bitId : ℕ
  deriving DecidableEq, Repr

/-- A new orbit: the bits of a site are all its species, smol/cofe/space/clusterspace.py:1930-1932
with lines 1372-1378 and 1446-1452 (ids are not yet assigned). -/
def PottsOrbit.new (spaces : List (List σ)) (perms : List (List ℕ)) : PottsOrbit σ :=
  ⟨spaces, bitCombos (spaces.map fun s => List.range s.length) perms, 0, 0⟩

/-- `remove_bit_combos_by_inds([len(bit_combos) - 1])`, smol/cofe/space/orbit.py:317-334.
`none`: the `RuntimeError` for an orbit that lost all its functions. -/
def PottsOrbit.removeLast (o : PottsOrbit σ) : Option (PottsOrbit σ) :=
  let rest := (o.classes.zipIdx.filter fun p => decide (p.2 ∉ [o.classes.length - 1])).map Prod.fst
  if rest = [] then none else some { o with classes := rest }

/-- The loop over all orbits, smol/cofe/space/clusterspace.py:1959-1962. -/
def removeLastAll : List (PottsOrbit σ) → Option (List (PottsOrbit σ))
  | [] => some []
  | o :: l =>
    match o.removeLast, removeLastAll l with
    | some o', some l' => some (o' :: l')
    | _, _ => none

/-- `_gen_orbits_from_cutoffs`, smol/cofe/space/clusterspace.py:1907-1964, after the entry for
points was taken out of the cutoffs: `points` are the orbits of points, `multi` those of larger
clusters, `none` when no cutoff is left. -/
def pottsOrbits (points : List (PottsOrbit σ)) (multi : Option (List (PottsOrbit σ)))
    (removeLast : Bool) : Option (List (PottsOrbit σ)) :=
  match multi with
  | none => some points
  | some m => if removeLast then removeLastAll (points ++ m) else some (points ++ m)

/-- `_assign_orbit_ids`, smol/cofe/space/clusterspace.py:1210-1223. -/
def assignPotts : List (PottsOrbit σ) → ℕ → ℕ → List (PottsOrbit σ)
  | [], _, _ => []
  | o :: l, id, bit => { o with id := id, bitId := bit } :: assignPotts l (id + 1) (bit + o.classes.length)

/-- `PottsSubspace.from_cutoffs`, smol/cofe/space/clusterspace.py:1789-1866: the orbits of the
subspace, with ids. -/
def pottsFromCutoffs (points : List (PottsOrbit σ)) (multi : Option (List (PottsOrbit σ)))
    (removeLast : Bool) : Option (List (PottsOrbit σ)) :=
  (pottsOrbits points multi removeLast).map fun os => assignPotts os 1 1

/-- `function_orbit_ids`, smol/cofe/space/clusterspace.py:400-411. -/
def pottsOrbitIds (S : List (PottsOrbit σ)) : List ℕ :=
  0 :: S.flatMap fun o => List.replicate o.classes.length o.id

/-- Indexing of a list in python: negative positions count from the end, `none` is `IndexError`. -/
def pyGet {α : Type*} (l : List α) (i : ℤ) : Option α :=
  if 0 ≤ i then l[i.toNat]? else if 0 ≤ i + l.length then l[(i + l.length).toNat]? else none

/-- `tuple(list(site_spaces[i])[b] for i, b in enumerate(bits))`,
smol/cofe/space/clusterspace.py:1883-1884. -/
def decorate : List (List σ) → List ℕ → Option (List σ)
  | _, [] => some []
  | [], _ :: _ => none
  | s :: ss, b :: bs =>
    match s[b]?, decorate ss bs with
    | some x, some xs => some (x :: xs)
    | _, _ => none

/-- The list of decorations of a class, smol/cofe/space/clusterspace.py:1882-1886. -/
def decorateAll (spaces : List (List σ)) : List (List ℕ) → Option (List (List σ))
  | [] => some []
  | b :: bs =>
    match decorate spaces b, decorateAll spaces bs with
    | some d, some ds => some (d :: ds)
    | _, _ => none

/-- `get_function_decoration`, smol/cofe/space/clusterspace.py:1868-1887. -/
def functionDecoration (S : List (PottsOrbit σ)) (index : ℤ) : Option (List (List σ)) :=
  match pyGet (pottsOrbitIds S) index with
  | none => none
  | some oid =>
    match pyGet S ((oid : ℤ) - 1) with
    | none => none
    | some o =>
      match pyGet o.classes (index - (o.bitId : ℤ)) with
      | none => none
      | some cl => decorateAll o.spaces cl

/-- The comprehension of `get_orbit_decorations`, smol/cofe/space/clusterspace.py:1902-1905. -/
def decorationsFrom (S : List (PottsOrbit σ)) : ℕ → ℕ → Option (List (List (List σ)))
  | _, 0 => some []
  | bid, n + 1 =>
    match functionDecoration S bid, decorationsFrom S (bid + 1) n with
    | some d, some ds => some (d :: ds)
    | _, _ => none

/-- `get_orbit_decorations`, smol/cofe/space/clusterspace.py:1889-1905. -/
def orbitDecorations (S : List (PottsOrbit σ)) (orbitId : ℤ) : Option (List (List (List σ))) :=
  match pyGet S (orbitId - 1) with
  | none => none
  | some o => decorationsFrom S o.bitId o.classes.length

end Smol
