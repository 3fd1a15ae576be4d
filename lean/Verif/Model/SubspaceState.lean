import Verif.Model.Orbit

/-!
# A cluster subspace with everything it stores

`ClusterSubspace` (smol/cofe/space/clusterspace.py) keeps correlation functions in several places:
site basis objects shared by orbits, arrays and tensors stored in the orbits when first read, a copy of
the flat tensors in the evaluator, and index arrays per supercell matrix.  Orbits are kept in one list,
in the order of `orbits` (sorted by size; the dictionary by size is that of C43).  A supercell matrix
is its key in the dictionary of index arrays (C59).  External terms are left out.
-/

namespace Smol

/-- What site bases do: their site space, the number of species of a site space, the values of the
non-constant functions (function, then code), `rotate` (`none`: it raises before changing anything) and
`basis_factory` with optional `orthonormalize`; smol/cofe/space/basis.py:204-332, 594-612 and
smol/cofe/space/orbit.py:345-348. -/
structure BasisLib (B Sp Rot Nm K : Type*) where
  space : B → Sp
  dim : Sp → ℕ
  val : B → ℕ → ℕ → K
  rotate : Rot → B → Option B
  make : Nm → Bool → Sp → Option B

/-- `correlation_tensors`: entries in C order, number of functions, dimensions of the sites. -/
structure Tens (K : Type*) where
  data : List K
  rows : ℕ
  shape : List ℕ
  deriving DecidableEq

/-- `Orbit`, smol/cofe/space/orbit.py:82-101.  `geo` names the clusters, `gen` is what `bit_combos`
generates when first read, `bases` are basis objects by number.  `arrs` is `_basis_arrs`: its arrays are
views of the function arrays of basis objects, given by their numbers. -/
structure SOrb (K : Type*) where
  geo : ℕ
  gen : List (List (List ℕ))
  combos : Option (List (List (List ℕ)))
  bases : List ℕ
  arrs : Option (List ℕ)
  tens : Option (Tens K)
  flat : Option (Tens K)
  id : ℕ
  bitId : ℕ

variable {B Sp Rot Nm K Key : Type*}

/-- `bit_combos`, smol/cofe/space/orbit.py:132-149: the value and the orbit afterwards. -/
def SOrb.readCombos (o : SOrb K) : List (List (List ℕ)) × SOrb K :=
  (o.combos.getD o.gen, { o with combos := some (o.combos.getD o.gen) })

/-- `basis_arrays`, smol/cofe/space/orbit.py:204-209. -/
def SOrb.readArrs (o : SOrb K) : List ℕ × SOrb K :=
  match o.arrs with
  | some a => (a, o)
  | none => (o.bases, { o with arrs := some o.bases })

/-- The tensors for given classes and function arrays, smol/cofe/space/orbit.py:228-238. -/
def tensorOf [Field K] (L : BasisLib B Sp Rot Nm K) (store : ℕ → B) (arrs : List ℕ)
    (classes : List (List (List ℕ))) : Tens K :=
  let shape := arrs.map fun b => L.dim (L.space (store b))
  ⟨flatCorrTensors (fun i f c => L.val (store (arrs.getD i 0)) f c) shape classes, classes.length, shape⟩

/-- `correlation_tensors`, smol/cofe/space/orbit.py:211-241. -/
def SOrb.readTens [Field K] (L : BasisLib B Sp Rot Nm K) (store : ℕ → B) (o : SOrb K) :
    Tens K × SOrb K :=
  match o.tens with
  | some t => (t, o)
  | none =>
    let c := o.readCombos
    let a := c.2.readArrs
    let t := tensorOf L store a.1 c.1
    (t, { a.2 with tens := some t, flat := none })

/-- `flat_correlation_tensors`, smol/cofe/space/orbit.py:243-257. -/
def SOrb.readFlat [Field K] (L : BasisLib B Sp Rot Nm K) (store : ℕ → B) (o : SOrb K) :
    Tens K × SOrb K :=
  match o.flat with
  | some t => (t, o)
  | none =>
    let t := o.readTens L store
    (t.1, { t.2 with flat := some t.1 })

/-- One entry of `get_orbit_data`, smol/utils/cluster/__init__.py:4-15, as stored by the evaluator. -/
def SOrb.evalRow [Field K] (L : BasisLib B Sp Rot Nm K) (store : ℕ → B) (o : SOrb K) :
    OrbitData K × SOrb K :=
  let f := o.readFlat L store
  let t := f.2.readTens L store
  ({ id := o.id
     bitId := o.bitId
     corrData := fun n => f.1.data.getD n 0
     numCombos := f.1.rows
     tensorSize := f.1.shape.prod
     tensorIndices := flatTensorIndices t.1.shape }, t.2)

/-- `reset_bases`, smol/cofe/space/orbit.py:462-466. -/
def SOrb.reset (o : SOrb K) : SOrb K := { o with arrs := none, tens := none, flat := none }

/-- `_assign_orbit_ids`, smol/cofe/space/clusterspace.py:1216-1219. -/
def assignIds : List (SOrb K) → ℕ → ℕ → List (SOrb K)
  | [], _, _ => []
  | o :: l, i, b =>
    { o.readCombos.2 with id := i, bitId := b } :: assignIds l (i + 1) (b + o.readCombos.1.length)

/-- The subspace: basis objects, orbits, counts, what the evaluator holds and the dictionary of index
arrays. -/
structure SubState (B Key K : Type*) where
  store : ℕ → B
  nStore : ℕ
  orbits : List (SOrb K)
  numOrbits : ℕ
  numCorr : ℕ
  eval : List (OrbitData K)
  evalCorr : ℕ
  cache : List (Key × List ClusterRows)

/-- `_assign_orbit_ids`, smol/cofe/space/clusterspace.py:1210-1223. -/
def SubState.assign (S : SubState B Key K) : SubState B Key K :=
  { S with
    orbits := assignIds S.orbits 1 1
    numOrbits := 1 + S.orbits.length
    numCorr := 1 + (S.orbits.map fun o => o.readCombos.1.length).sum }

/-- `reset_data` of the evaluator with the data of the orbits,
smol/cofe/space/clusterspace.py:926-928 (and 211-213, 968-970, 1023-1025, 1074-1076) and
smol/utils/cluster/evaluator.pyx:80-100. -/
def SubState.resetEval [Field K] (L : BasisLib B Sp Rot Nm K) (S : SubState B Key K) : SubState B Key K :=
  { S with
    orbits := S.orbits.map fun o => (o.evalRow L S.store).2
    eval := S.orbits.map fun o => (o.evalRow L S.store).1
    evalCorr := S.numCorr }

/-- `__init__`, smol/cofe/space/clusterspace.py:204-220. -/
def SubState.init [Field K] (L : BasisLib B Sp Rot Nm K) (store : ℕ → B) (n : ℕ) (orbits : List (SOrb K)) :
    SubState B Key K :=
  SubState.resetEval L (SubState.assign ⟨store, n, orbits, 0, 0, [], 0, []⟩)

/-- `transform_site_bases`, smol/cofe/space/orbit.py:335-352: new basis objects for the sites. -/
def SOrb.transform (mk : B → Option B) (store : ℕ → B) (n : ℕ) (o : SOrb K) :
    Option ((ℕ → B) × ℕ × SOrb K) :=
  (o.bases.mapM fun b => mk (store b)).map fun new =>
    (fun i => if n ≤ i then (new[i - n]?).getD (store i) else store i, n + new.length,
      SOrb.reset { o with bases := (List.range new.length).map fun i => n + i })

/-- The loop over orbits of `change_site_bases`, smol/cofe/space/clusterspace.py:923-924; the flag tells
that an exception was raised. -/
def transformAll (mk : B → Option B) : (ℕ → B) → ℕ → List (SOrb K) → ((ℕ → B) × ℕ × List (SOrb K)) × Bool
  | store, n, [] => ((store, n, []), false)
  | store, n, o :: l =>
    match o.transform mk store n with
    | none => ((store, n, o :: l), true)
    | some r =>
      let s := transformAll mk r.1 r.2.1 l
      ((s.1.1, s.1.2.1, r.2.2 :: s.1.2.2), s.2)

/-- The inner loop of `rotate_site_basis`, smol/cofe/space/clusterspace.py:959-965: objects, those
already rotated, and whether an exception was raised. -/
def rotateSites [DecidableEq Sp] (L : BasisLib B Sp Rot Nm K) (ρ : Rot) (first : ℕ) :
    (ℕ → B) → List ℕ → List ℕ → ((ℕ → B) × List ℕ) × Bool
  | store, rotated, [] => ((store, rotated), false)
  | store, rotated, b :: bs =>
    if L.space (store b) = L.space (store first) ∧ b ∉ rotated then
      match L.rotate ρ (store b) with
      | none => ((store, rotated), true)
      | some v => rotateSites L ρ first (Function.update store b v) (rotated ++ [b]) bs
    else rotateSites L ρ first store rotated bs

/-- The loop over orbits, smol/cofe/space/clusterspace.py:958-966. -/
def rotateAll [DecidableEq Sp] (L : BasisLib B Sp Rot Nm K) (ρ : Rot) (first : ℕ) :
    (ℕ → B) → List ℕ → List (SOrb K) → ((ℕ → B) × List (SOrb K)) × Bool
  | store, _, [] => ((store, []), false)
  | store, rotated, o :: l =>
    let r := rotateSites L ρ first store rotated o.bases
    if r.2 then ((r.1.1, o :: l), true)
    else
      let s := rotateAll L ρ first r.1.1 r.1.2 l
      ((s.1.1, o.reset :: s.1.2), s.2)

/-- `remove_orbits`, smol/cofe/space/clusterspace.py:972-1028. -/
def SubState.removeOrbits [Field K] (L : BasisLib B Sp Rot Nm K) (S : SubState B Key K) (ids : List ℤ) :
    SubState B Key K × Bool :=
  if ids = [] ∨ (∃ i ∈ ids, i < 0) ∨ (0 : ℤ) ∈ ids ∨ (∃ i ∈ ids, (S.numOrbits : ℤ) - 1 < i) then (S, true)
  else
    let S := { S with orbits := S.orbits.filter fun o => decide ((o.id : ℤ) ∉ ids) }
    (SubState.resetEval L { S.assign with cache := [] }, false)

/-- The loop body of `remove_corr_functions`, smol/cofe/space/clusterspace.py:1055-1068, and
`remove_bit_combos_by_inds`, smol/cofe/space/orbit.py:317-333; the flag tells that all functions of the
orbit were removed (then the stored arrays are not reset). -/
def SOrb.removeFuns (o : SOrb K) (ids : List ℤ) : SOrb K × Bool :=
  let c := o.readCombos
  let inds : List ℤ := ((ids.filter fun i => decide ((o.bitId : ℤ) ≤ i)).filter fun i =>
    decide (i < (o.bitId : ℤ) + c.1.length)).map fun i => i - (o.bitId : ℤ)
  if inds = [] then (c.2, false)
  else
    let left := (c.1.zipIdx.filter fun p => decide ((p.2 : ℤ) ∉ inds)).map Prod.fst
    if left = [] then ({ c.2 with combos := some left }, true)
    else (SOrb.reset { c.2 with combos := some left }, false)

/-- `remove_corr_functions`, smol/cofe/space/clusterspace.py:1030-1076. -/
def SubState.removeFuns [Field K] (L : BasisLib B Sp Rot Nm K) (S : SubState B Key K) (ids : List ℤ) :
    SubState B Key K × Bool :=
  let S' := { S with orbits := S.orbits.map fun o => (SOrb.removeFuns o ids).1 }
  let empty : List ℤ := (S.orbits.filter fun o => (SOrb.removeFuns o ids).2).map fun o => (o.id : ℤ)
  if empty = [] then (SubState.resetEval L S'.assign, false) else S'.removeOrbits L empty

/-- `rotate_site_basis`, smol/cofe/space/clusterspace.py:929-970. -/
def SubState.rotate [Field K] [DecidableEq Sp] (L : BasisLib B Sp Rot Nm K) (S : SubState B Key K)
    (id : ℤ) (ρ : Rot) : SubState B Key K × Bool :=
  if id < 1 ∨ ((S.orbits.filter fun o => decide (o.bases.length = 1)).length : ℤ) < id then (S, true)
  else
    match (S.orbits[(id - 1).toNat]?).bind fun o => o.bases.head? with
    | none => (S, true)
    | some first =>
      match L.rotate ρ (S.store first) with
      | none => (S, true)
      | some v =>
        let r := rotateAll L ρ first (Function.update S.store first v) [first] S.orbits
        let S := { S with store := r.1.1, orbits := r.1.2 }
        if r.2 then (S, true) else (S.resetEval L, false)

/-- `change_site_bases`, smol/cofe/space/clusterspace.py:914-928. -/
def SubState.change [Field K] (L : BasisLib B Sp Rot Nm K) (S : SubState B Key K) (name : Nm)
    (orthonormal : Bool) : SubState B Key K × Bool :=
  let r := transformAll (fun b => L.make name orthonormal (L.space b)) S.store S.nStore S.orbits
  let S := { S with store := r.1.1, nStore := r.1.2.1, orbits := r.1.2.2 }
  if r.2 then (S, true) else (S.resetEval L, false)

/-- `get_orbit_indices`, smol/cofe/space/clusterspace.py:1225-1240; `rows` gives the index array of an
orbit in a supercell (`none`: a site is not found). -/
def SubState.indices [DecidableEq Key] (rows : Key → ℕ → Option ClusterRows) (S : SubState B Key K)
    (M : Key) : Option (List ClusterRows) × SubState B Key K :=
  match S.cache.lookup M with
  | some r => (some r, S)
  | none =>
    match S.orbits.mapM fun o => rows M o.geo with
    | some r => (some r, { S with cache := (M, r) :: S.cache })
    | none => (none, S)

/-- `corr_from_structure` for an occupancy, smol/cofe/space/clusterspace.py:690-691. -/
def SubState.corr [Field K] [DecidableEq Key] (rows : Key → ℕ → Option ClusterRows) (S : SubState B Key K)
    (occ : Occ) (M : Key) : Option (List K) × SubState B Key K :=
  let r := S.indices rows M
  (r.1.map fun rs => (List.range S.evalCorr).map (correlationsFromOccupancy (S.eval.zip rs) occ), r.2)

/-- `from_dict(as_dict())`, smol/cofe/space/clusterspace.py:1545-1632 and smol/cofe/space/orbit.py:531-571:
every orbit gets basis objects of its own and its present classes; tensors are computed again. -/
def SubState.reload [Field K] (L : BasisLib B Sp Rot Nm K) (S : SubState B Key K) : SubState B Key K :=
  let r := transformAll some S.store S.nStore (S.orbits.map fun o => o.readCombos.2)
  { SubState.resetEval L (SubState.assign { S with store := r.1.1, nStore := r.1.2.1, orbits := r.1.2.2 })
    with cache := S.cache }

/-- What can be done with a subspace.  `look j`: reading the tensors of the `j`-th orbit. -/
inductive SubspaceOp (Rot Nm Key : Type*) where
  | change (name : Nm) (orthonormal : Bool)
  | rotate (id : ℤ) (ρ : Rot)
  | removeOrbits (ids : List ℤ)
  | removeFuns (ids : List ℤ)
  | corr (occ : Occ) (M : Key)
  | look (j : ℕ)
  | reload

/-- One operation; the flag tells whether an exception was raised. -/
def SubState.apply [Field K] [DecidableEq Sp] [DecidableEq Key] (L : BasisLib B Sp Rot Nm K)
    (rows : Key → ℕ → Option ClusterRows) (S : SubState B Key K) :
    SubspaceOp Rot Nm Key → SubState B Key K × Bool
  | .change name ort => S.change L name ort
  | .rotate id ρ => S.rotate L id ρ
  | .removeOrbits ids => S.removeOrbits L ids
  | .removeFuns ids => S.removeFuns L ids
  | .corr occ M => ((S.corr rows occ M).2, (S.corr rows occ M).1.isNone)
  | .look j => ({ S with orbits := S.orbits.mapIdx fun i o => if i = j then (o.readFlat L S.store).2 else o },
      false)
  | .reload => (S.reload L, false)

/-- A history, whether operations raise or not. -/
def SubState.run [Field K] [DecidableEq Sp] [DecidableEq Key] (L : BasisLib B Sp Rot Nm K)
    (rows : Key → ℕ → Option ClusterRows) (S : SubState B Key K) (ops : List (SubspaceOp Rot Nm Key)) :
    SubState B Key K := ops.foldl (fun S o => (S.apply L rows o).1) S

end Smol
