import Verif.Model.Prog
import Verif.Model.SiteSpace
import Mathlib.Algebra.Order.Round
import Mathlib.Data.Rat.Floor

/-!
# Random occupancies

Models `smol/capp/generate/random.py`.  Exceptions are programs without outcome.
-/

namespace Smol

/-- An exception. -/
def Prog.raise {α : Type} : Prog α := .pick .shared 0 (fun _ => 0) fun i => i.elim0

/-- Python's `round` to an integer: halves go to the even neighbour. -/
def pyRound (x : ℚ) : ℤ :=
  if x - ⌊x⌋ < 1 / 2 then ⌊x⌋
  else if 1 / 2 < x - ⌊x⌋ then ⌊x⌋ + 1
  else if ⌊x⌋ % 2 = 0 then ⌊x⌋ else ⌊x⌋ + 1

/-- `rand_occu[sites] = rng.choice(encoding, size=len(sites), replace=True)`,
smol/capp/generate/random.py:81-83. -/
def fillSites (g : Rng) (encoding : List ℕ) : List ℕ → Occ → Prog Occ
  | [], occ => .ret occ
  | s :: l, occ => (Prog.choose g encoding).bind fun c =>
      fillSites g encoding l (Function.update occ s c)

/-- The loop over sublattices, smol/capp/generate/random.py:80-83. -/
def fillSublattices (g : Rng) : List Sublattice → Occ → Prog Occ
  | [], occ => .ret occ
  | sl :: l, occ => (fillSites g sl.encoding sl.sites occ).bind (fillSublattices g l)

/-- `_gen_unconstrained_ordered_occu`, smol/capp/generate/random.py:65-84. -/
def genUnconstrained (g : Rng) (subls : List Sublattice) : Prog Occ :=
  fillSublattices g subls fun _ => 0

/-- What `get_charge` reads, smol/capp/generate/random.py:107-111: whether a species is an `Element`
or a `Vacancy`, and the oxidation state of the others. -/
structure ChargeData where
  plain : ℕ → Bool
  oxi : ℕ → ℚ

/-- `get_charge`, smol/capp/generate/random.py:107-111. -/
def ChargeData.charge (d : ChargeData) (sp : ℕ) : ℚ := if d.plain sp then 0 else d.oxi sp

/-- `charge`, smol/capp/generate/random.py:113-119.  Codes outside the encoding would raise; they
never occur (`C53_unconstrained`, `C53_neutral`). -/
def totalCharge (d : ChargeData) (subls : List Sublattice) (occ : Occ) : ℚ :=
  (subls.map fun sl => (sl.sites.map fun s =>
    d.charge (sl.species.getD (sl.encoding.idxOf (occ s)) 0)).sum).sum

/-- `flip`, smol/capp/generate/random.py:121-133.  `accept` is the probability of acceptance as a
function of the change of the squared charge (the code: `exp(-lam * change)` cut at 1). -/
def neutralFlip (d : ChargeData) (accept : ℚ → ℚ) (subls : List Sublattice) (occ : Occ) :
    Prog (Occ × ℚ) :=
  (Prog.choose .shared (subls.filter Sublattice.isActive)).bind fun sl =>
  (Prog.choose .shared sl.sites).bind fun site =>
  (Prog.choose .shared (sl.encoding.filter fun c => c ≠ occ site)).bind fun code =>
  (Prog.coin .shared (accept (totalCharge d subls (Function.update occ site code) ^ 2 -
      totalCharge d subls occ ^ 2))).bind fun acc =>
  .ret (if acc = true ∧ totalCharge d subls occ ≠ 0 then
      (Function.update occ site code, totalCharge d subls (Function.update occ site code))
    else (occ, totalCharge d subls occ))

/-- The attempts, smol/capp/generate/random.py:136-143; running out of them is the
`TimeoutError`. -/
def neutralLoop (d : ChargeData) (accept : ℚ → ℚ) (subls : List Sublattice) : ℕ → Occ → Prog Occ
  | 0, _ => .raise
  | n + 1, occ => (neutralFlip d accept subls occ).bind fun r =>
      if r.2 = 0 then .ret r.1 else neutralLoop d accept subls n r.1

/-- `_gen_neutral_occu`, smol/capp/generate/random.py:87-143.  The first occupancy is drawn without
handing over the generator (line 135). -/
def genNeutral (d : ChargeData) (accept : ℚ → ℚ) (attempts : ℕ) (subls : List Sublattice) :
    Prog Occ :=
  (genUnconstrained .own subls).bind (neutralLoop d accept subls attempts)

/-- `fractional_composition` of pymatgen. -/
def SiteComp.fractional (c : SiteComp) : SiteComp := c.map fun p => (p.1, p.2 / c.numAtoms)

/-- Normalisation of a given composition, smol/capp/generate/random.py:213-218. -/
def SiteComp.normalised (c : SiteComp) : SiteComp := if 1 < c.numAtoms then c.fractional else c

/-- `_composition_compatiblity`, smol/capp/generate/random.py:180-231, with the compositions as a
list (a single `Composition` is the list of length one).  `zip` ignores what has no partner.
`none` is a `ValueError`. -/
def compositionCompat (subls : List Sublattice) (comps : List SiteComp) (tol : ℚ) :
    Option (List (SiteComp × Sublattice)) :=
  if ∃ q ∈ comps.zip subls, ∃ p ∈ q.1, p.1 ∉ q.2.species then none
  else
    let pairs := (comps.zip subls).map fun q => (q.1.normalised, q.2)
    if ∃ q ∈ pairs, (∃ p ∈ q.1, tol < |(pyRound (q.2.sites.length * p.2) : ℚ) -
          q.2.sites.length * p.2|) ∨
        (q.2.sites.length : ℚ) + tol < ((q.1.map fun p => pyRound (q.2.sites.length * p.2)).sum : ℤ)
    then none else some pairs

/-- `occu[sites] = code`. -/
def writeCode (occ : Occ) (sites : List ℕ) (code : ℕ) : Occ :=
  fun s => if s ∈ sites then code else occ s

/-- Sites for one species after the other, smol/capp/generate/random.py:171-175.  A species the
composition does not have is a `KeyError`. -/
def placeSpecies (space : SiteSpace) (n : ℕ) : List (ℕ × ℕ) → List ℕ → Occ → Prog Occ
  | [], _, occ => .ret occ
  | p :: l, avail, occ =>
    match space.data.lookup p.1 with
    | none => .raise
    | some x => (Prog.chooseSub .shared (pyRound (x * n)).toNat avail).bind fun sites =>
        placeSpecies space n l (avail.filter fun i => i ∉ sites) (writeCode occ sites p.2)

/-- The loop over sublattices, smol/capp/generate/random.py:167-175. -/
def placeSublattices (k : VacKind) : List (SiteComp × Sublattice) → Occ → Prog Occ
  | [], occ => .ret occ
  | q :: l, occ =>
    match SiteSpace.make k q.1 with
    | none => .raise
    | some space => (placeSpecies space q.2.sites.length (q.2.species.zip q.2.encoding) q.2.sites
        occ).bind (placeSublattices k l)

/-- `_gen_composition_ordered_occu`, smol/capp/generate/random.py:145-177. -/
def genComposition (k : VacKind) (subls : List Sublattice) (comps : List SiteComp) (tol : ℚ) :
    Prog Occ :=
  match compositionCompat subls comps tol with
  | none => .raise
  | some pairs => placeSublattices k pairs fun _ => 0

/-- `generate_random_ordered_occupancy` with `encoded=True`,
smol/capp/generate/random.py:14-62. -/
def generateRandom (k : VacKind) (d : ChargeData) (accept : ℚ → ℚ) (attempts : ℕ)
    (subls : List Sublattice) (composition : Option (List SiteComp)) (neutral : Bool) (tol : ℚ) :
    Prog Occ :=
  match composition with
  | some comps => genComposition k subls comps tol
  | none => if neutral then genNeutral d accept attempts subls else genUnconstrained .shared subls

end Smol
