import Verif.Spec.Orbit
import Verif.Model.SubspaceState

/-!
Specification vocabulary for subspaces: a subspace that stores nothing but its orbits, functions and
site bases.
-/

namespace Smol.Spec

/-- An orbit: its clusters (by name), the classes of equivalent function choices, the site bases. -/
structure PlainOrb (B : Type*) where
  geo : ℕ
  classes : List (List (List ℕ))
  bases : List B
  deriving DecidableEq

variable {B Sp K : Type*}

/-- Correlation functions are numbered from one through the orbits in order. -/
def functionCount (C : List (PlainOrb B)) : ℕ := (C.map fun o => o.classes.length).sum

/-- All bases replaced. -/
def withBases (f : B → B) (C : List (PlainOrb B)) : List (PlainOrb B) :=
  C.map fun o => { o with bases := o.bases.map f }

/-- Keep the entries whose number is not listed; numbers start at `n`. -/
def unlisted {α : Type*} (ids : List ℤ) (n : ℕ) (l : List α) : List α :=
  ((l.zipIdx n).filter fun p => decide ((p.2 : ℤ) ∉ ids)).map Prod.fst

/-- Orbits (numbered from one) without those listed. -/
def dropOrbits (ids : List ℤ) (C : List (PlainOrb B)) : List (PlainOrb B) := unlisted ids 1 C

/-- Functions (numbered from `n`) without those listed; orbits without functions go. -/
def dropFunctions (ids : List ℤ) : ℕ → List (PlainOrb B) → List (PlainOrb B)
  | _, [] => []
  | n, o :: C =>
    let left := unlisted ids n o.classes
    (if left = [] then [] else [{ o with classes := left }]) ++ dropFunctions ids (n + o.classes.length) C

/-- Average of a correlation function over the clusters of the orbit in a supercell.
`val b f c` is the value of function `f` of basis `b` for code `c`. -/
def functionValue [Field K] (val : B → ℕ → ℕ → K) (occ : ℕ → ℕ)
    (bases : List B) (cl : List (List ℕ)) (clusters : List (List ℕ)) : K :=
  clusterAverage (fun row => correlation (fun i f c => ((bases[i]?).map fun b => val b f c).getD 0) cl
    (row.map occ)) clusters

/-- The correlation vector, `none` when the clusters of an orbit are not found in the supercell. -/
def correlationVector [Field K] (val : B → ℕ → ℕ → K)
    (clusters : ℕ → Option (List (List ℕ))) (C : List (PlainOrb B)) (occ : ℕ → ℕ) : Option (List K) :=
  (C.mapM fun o => (clusters o.geo).map fun r => o.classes.map fun cl =>
    functionValue val occ o.bases cl r).map fun v => 1 :: v.flatten

/-- The occupancy has codes of the site spaces on the clusters of all orbits; `size b` is the number of
codes of the site space of `b`. -/
def Fits (size : B → ℕ) (clusters : ℕ → Option (List (List ℕ))) (C : List (PlainOrb B)) (occ : ℕ → ℕ) :
    Prop :=
  ∀ o ∈ C, ∀ r, clusters o.geo = some r → ∀ row ∈ r,
    List.Forall₂ (fun site d => occ site < d) row (o.bases.map size)

/-- A basis after the rotation of all bases over `s`. -/
def rotatedBasis {Rot : Type*} [DecidableEq Sp] (space : B → Sp) (rotate : Rot → B → Option B) (ρ : Rot)
    (s : Sp) (b : B) : B :=
  if space b = s then (rotate ρ b).getD b else b

/-- The first site basis of the one-site orbit numbered `id`, if there is such an orbit. -/
def singletBasis (C : List (PlainOrb B)) (id : ℤ) : Option B :=
  if 1 ≤ id ∧ id ≤ ((C.filter fun o => decide (o.bases.length = 1)).length : ℤ) then
    (C[(id - 1).toNat]?).bind fun o => o.bases.head?
  else none

/-- Numbers of the orbits of the entries of the correlation vector. -/
def orbitNumbers (C : List (PlainOrb B)) : List ℕ :=
  0 :: (C.zipIdx 1).flatMap fun p => List.replicate p.1.classes.length p.2

/-- What an operation makes of a subspace, and whether it raises. -/
def after {Rot Nm Key : Type*} [DecidableEq Sp] (L : BasisLib B Sp Rot Nm K)
    (clusters : Key → ℕ → Option (List (List ℕ))) (C : List (PlainOrb B)) :
    SubspaceOp Rot Nm Key → List (PlainOrb B) × Bool
  | .change name ort =>
    if ∀ o ∈ C, ∀ b ∈ o.bases, (L.make name ort (L.space b)).isSome then
      (withBases (fun b => (L.make name ort (L.space b)).getD b) C, false)
    else (C, true)
  | .rotate id ρ =>
    match (singletBasis C id).filter fun b => (L.rotate ρ b).isSome with
    | none => (C, true)
    | some b => (withBases (rotatedBasis L.space L.rotate ρ (L.space b)) C, false)
  | .removeOrbits ids =>
    if ids = [] ∨ ∃ i ∈ ids, i < 1 ∨ (C.length : ℤ) < i then (C, true) else (dropOrbits ids C, false)
  | .removeFuns ids => (dropFunctions ids 1 C, false)
  | .corr _ M => (C, decide (∃ o ∈ C, clusters M o.geo = none))
  | .look _ => (C, false)
  | .reload => (C, false)

/-- A history. -/
def afterAll {Rot Nm Key : Type*} [DecidableEq Sp] (L : BasisLib B Sp Rot Nm K)
    (clusters : Key → ℕ → Option (List (List ℕ))) (C : List (PlainOrb B))
    (ops : List (SubspaceOp Rot Nm Key)) : List (PlainOrb B) :=
  ops.foldl (fun C op => (after L clusters C op).1) C

/-- What is assumed of site bases: rotations and new bases keep the site space; a basis name is known for
all site spaces or for none. -/
structure LibOk {Rot Nm : Type*} (L : BasisLib B Sp Rot Nm K) : Prop where
  rotate_space : ∀ ρ b b', L.rotate ρ b = some b' → L.space b' = L.space b
  make_space : ∀ nm ort s b, L.make nm ort s = some b → L.space b = s
  make_known : ∀ nm ort s s', (L.make nm ort s).isSome → (L.make nm ort s').isSome

/-- An orbit as constructed: nothing is stored yet, there are sites and functions, and functions are
choices of one site function per site. -/
structure NewOrbit (n : ℕ) (o : SOrb K) : Prop where
  lt : ∀ b ∈ o.bases, b < n
  sites : o.bases ≠ []
  functions : o.readCombos.1 ≠ []
  len : ∀ cl ∈ o.readCombos.1, ∀ bits ∈ cl, bits.length = o.bases.length
  arrs : o.arrs = none
  tens : o.tens = none
  flat : o.flat = none

/-- Sites with the same site space have the same basis (`from_cutoffs` uses one kind of basis). -/
def OneKind {Rot Nm : Type*} (L : BasisLib B Sp Rot Nm K) (C : List (PlainOrb B)) : Prop :=
  ∀ o ∈ C, ∀ b ∈ o.bases, ∀ o' ∈ C, ∀ b' ∈ o'.bases, L.space b = L.space b' → b = b'

end Smol.Spec
