import Verif.Model.Expansion
import Verif.Model.SubspaceState

/-!
# A cluster expansion with everything it stores

`ClusterExpansion` (smol/cofe/expansion.py) keeps its coefficients, a copy of the subspace, the
cached properties `eci` and `cluster_interaction_tensors`, and flat interaction tensors in the evaluator
of its subspace.  The subspace is that of `Model/SubspaceState`.  `mult` is the multiplicity of an
orbit, `size` the number of prims of a supercell.  External terms are given by their values per prim.
Regression data and the feature matrix are those of C44 and C57.
-/

namespace Smol

variable {B Sp Rot Nm K Key : Type*} [Field K]

/-- The expansion object.  `eciC` and `tensC` are what the cached properties hold; `inter` and `offset`
are held by the evaluator. -/
structure ExpState (B Key K : Type*) where
  sub : SubState B Key K
  coefs : List K
  nExt : ℕ
  eciC : Option (List K)
  tensC : Option (K × List (List K))
  inter : List (List K)
  offset : K

/-- `function_orbit_ids`, smol/cofe/space/clusterspace.py:398-410. -/
def SubState.orbitIds (S : SubState B Key K) : List ℕ :=
  0 :: S.orbits.flatMap fun o => List.replicate o.readCombos.1.length o.id

/-- `function_total_multiplicities`, smol/cofe/space/clusterspace.py:382-386, 421-450. -/
def SubState.totalMults (mult : ℕ → ℕ) (S : SubState B Key K) : List ℕ :=
  List.zipWith (· * ·) (S.orbitIds.map fun i => (1 :: S.orbits.map fun o => mult o.geo).getD i 0)
    (1 :: S.orbits.flatMap fun o => o.readCombos.1.map List.length)

/-- `eci`, smol/cofe/expansion.py:171-183; `none` is `ValueError`. -/
def ExpState.readEci (mult : ℕ → ℕ) (E : ExpState B Key K) : Option (List K) × ExpState B Key K :=
  match E.eciC with
  | some e => (some e, E)
  | none =>
    match arrDiv (dropExt E.nExt E.coefs) ((E.sub.totalMults mult).map fun m : ℕ => (m : K)) with
    | none => (none, E)
    | some e => (some e, { E with eciC := some e })

/-- The interaction tensor of an orbit, flattened, smol/cofe/expansion.py:192-199 and 389-391; `none` is
`IndexError`. -/
def SOrb.interaction (L : BasisLib B Sp Rot Nm K) (store : ℕ → B) (eci : List K) (o : SOrb K) :
    Option (List K) × SOrb K :=
  let c := o.readCombos
  let t := c.2.readTens L store
  let z := c.1.take t.1.rows
  (if o.bitId + z.length ≤ eci.length then
    some ((List.range t.1.shape.prod).map fun n => (z.zipIdx.map fun p =>
      (p.1.length : K) * eci.getD (o.bitId + p.2) 0 * t.1.data.getD (p.2 * t.1.shape.prod + n) 0).sum)
    else none, t.2)

/-- `cluster_interaction_tensors`, smol/cofe/expansion.py:185-201; `eci` is read only if there are
orbits.  `none` is an exception (what orbits stored before it is left out). -/
def ExpState.readTensors (L : BasisLib B Sp Rot Nm K) (mult : ℕ → ℕ) (E : ExpState B Key K) :
    Option (K × List (List K)) × ExpState B Key K :=
  match E.tensC with
  | some t => (some t, E)
  | none =>
    match E.coefs.head? with
    | none => (none, E)
    | some c =>
      if E.sub.orbits = [] then (some (c, []), { E with tensC := some (c, []) })
      else
        let r := E.readEci mult
        match r.1.bind fun e => E.sub.orbits.mapM fun o => (o.interaction L E.sub.store e).1 with
        | none => (none, r.2)
        | some l =>
          (some (c, l), { r.2 with
            tensC := some (c, l)
            sub := { E.sub with orbits := E.sub.orbits.map fun o => (o.interaction L E.sub.store []).2 } })

/-- `_set_evaluator_data`, smol/cofe/expansion.py:380-395, and `set_cluster_interactions`,
smol/utils/cluster/evaluator.pyx:103-119.  The flag tells whether an exception was raised. -/
def ExpState.setEval (L : BasisLib B Sp Rot Nm K) (mult : ℕ → ℕ) (setOrbits : Bool)
    (E : ExpState B Key K) : ExpState B Key K × Bool :=
  let E := if setOrbits then { E with sub := E.sub.resetEval L } else E
  let r := E.readTensors L mult
  match r.1 with
  | none => (r.2, true)
  | some t =>
    if t.2.length ≠ r.2.sub.eval.length then (r.2, true)
    else ({ r.2 with inter := t.2, offset := t.1 }, false)

/-- `__init__`, smol/cofe/expansion.py:123-169; `none` is an exception. -/
def ExpState.new (L : BasisLib B Sp Rot Nm K) (mult : ℕ → ℕ) (S : SubState B Key K) (coefs : List K)
    (nExt : ℕ) : Option (ExpState B Key K) :=
  if coefs.length ≠ S.numCorr + nExt then none
  else
    let r := ExpState.setEval L mult false ⟨S.reload L, coefs, nExt, none, none, [], 0⟩
    if r.2 then none else some r.1

/-- `predict` of an occupancy, smol/cofe/expansion.py:259-288 and
smol/cofe/space/clusterspace.py:684-706. -/
def ExpState.predict [DecidableEq Key] (rows : Key → ℕ → Option ClusterRows) (size : Key → ℕ)
    (E : ExpState B Key K) (occ : Occ) (M : Key) (ext : List K) (normalized : Bool) :
    Option K × ExpState B Key K :=
  let c := E.sub.corr rows occ M
  (c.1.bind fun v => npDot E.coefs
    (if normalized then v ++ ext else (v ++ ext).map fun x => x * (size M : K)), { E with sub := c.2 })

/-- `cluster_interactions_from_structure`, smol/cofe/expansion.py:290-333 and
`interactions_from_occupancy`, smol/utils/cluster/evaluator.pyx:170-209. -/
def ExpState.interactions [DecidableEq Key] (rows : Key → ℕ → Option ClusterRows) (size : Key → ℕ)
    (E : ExpState B Key K) (occ : Occ) (M : Key) (normalized : Bool) :
    Option (List K) × ExpState B Key K :=
  let r := E.sub.indices rows M
  (r.1.map fun rs =>
    let v := (List.range E.sub.numOrbits).map (interactionsFromOccupancy E.offset
      ((E.sub.eval.zipIdx.map fun p => (p.1, fun n => (E.inter.getD p.2 []).getD n 0)).zip rs) occ)
    if normalized then v else v.map fun x => x * (size M : K), { E with sub := r.2 })

/-- `hasattr(self, "eci")` and `del self.eci`, smol/cofe/expansion.py:366-367: `hasattr` computes the
property if it is not stored. -/
def ExpState.dropEci (mult : ℕ → ℕ) (E : ExpState B Key K) : ExpState B Key K × Bool :=
  let r := E.readEci mult
  if r.1.isNone then (r.2, true) else ({ r.2 with eciC := none }, false)

/-- The same for `cluster_interaction_tensors`, smol/cofe/expansion.py:369-370. -/
def ExpState.dropTensors (L : BasisLib B Sp Rot Nm K) (mult : ℕ → ℕ) (E : ExpState B Key K) :
    ExpState B Key K × Bool :=
  let r := E.readTensors L mult
  if r.1.isNone then (r.2, true) else ({ r.2 with tensC := none }, false)

/-- `prune`, smol/cofe/expansion.py:335-373. -/
def ExpState.prune [LinearOrder K] (L : BasisLib B Sp Rot Nm K) (mult : ℕ → ℕ) (E : ExpState B Key K)
    (threshold : K) (withMult : Bool) : ExpState B Key K × Bool :=
  let b := if withMult then E.readEci mult else (some E.coefs, E)
  match b.1 with
  | none => (b.2, true)
  | some base =>
    let ids := smallIds base threshold
    let s := b.2.sub.removeFuns L ids
    if s.2 then ({ b.2 with sub := s.1 }, true)
    else
      let E := { b.2 with sub := s.1, coefs := complementOf ids E.coefs }
      let e := E.dropEci mult
      if e.2 then (e.1, true)
      else
        let t := e.1.dropTensors L mult
        if t.2 then (t.1, true) else t.1.setEval L mult true

/-- What can be done with an expansion.  `copy` goes on with the copy; `edit` works on the subspace in
the attribute `cluster_subspace`; `setCoefs` assigns the attribute `coefs`. -/
inductive ExpOp (Rot Nm Key K : Type*) where
  | predict (occ : Occ) (M : Key) (ext : List K) (normalized : Bool)
  | interactions (occ : Occ) (M : Key) (normalized : Bool)
  | eci
  | tensors
  | prune (threshold : K) (withMult : Bool)
  | copy
  | edit (op : SubspaceOp Rot Nm Key)
  | setCoefs (coefs : List K)

/-- One operation; the flag tells whether an exception was raised. -/
def ExpState.apply [LinearOrder K] [DecidableEq Sp] [DecidableEq Key] (L : BasisLib B Sp Rot Nm K)
    (rows : Key → ℕ → Option ClusterRows) (mult : ℕ → ℕ) (size : Key → ℕ) (E : ExpState B Key K) :
    ExpOp Rot Nm Key K → ExpState B Key K × Bool
  | .predict occ M ext nrm => ((E.predict rows size occ M ext nrm).2, (E.predict rows size occ M ext nrm).1.isNone)
  | .interactions occ M nrm =>
    ((E.interactions rows size occ M nrm).2, (E.interactions rows size occ M nrm).1.isNone)
  | .eci => ((E.readEci mult).2, (E.readEci mult).1.isNone)
  | .tensors => ((E.readTensors L mult).2, (E.readTensors L mult).1.isNone)
  | .prune t w => E.prune L mult t w
  | .copy =>
    match ExpState.new L mult (E.sub.reload L) E.coefs E.nExt with
    | none => (E, true)
    | some E' => (E', false)
  | .edit op => ({ E with sub := (E.sub.apply L rows op).1 }, (E.sub.apply L rows op).2)
  | .setCoefs c => ({ E with coefs := c }, false)

/-- A history, whether operations raise or not. -/
def ExpState.run [LinearOrder K] [DecidableEq Sp] [DecidableEq Key] (L : BasisLib B Sp Rot Nm K)
    (rows : Key → ℕ → Option ClusterRows) (mult : ℕ → ℕ) (size : Key → ℕ) (E : ExpState B Key K)
    (ops : List (ExpOp Rot Nm Key K)) : ExpState B Key K :=
  ops.foldl (fun E o => (E.apply L rows mult size o).1) E

end Smol
