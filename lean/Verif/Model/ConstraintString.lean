import Verif.Model.Rounding

/-!
# Composition constraints given as strings

smol/moca/composition/constraints.py.  Strings are lists of characters.  `get_species` is a
parameter `get` (pymatgen's parser of species names is not modelled); species are natural numbers.
-/

namespace Smol

/-! ### Lexing -/

/-- Whitespace, as skipped by `str.split()` and `str.strip()`: the characters for which python's
`str.isspace` holds. -/
def isWs (c : Char) : Bool :=
  (9 ≤ c.toNat && c.toNat ≤ 13) || (28 ≤ c.toNat && c.toNat ≤ 32) ||
  (0x2000 ≤ c.toNat && c.toNat ≤ 0x200a) ||
  [0x85, 0xa0, 0x1680, 0x2028, 0x2029, 0x202f, 0x205f, 0x3000].contains c.toNat

/-- `\d` (ASCII). -/
def isNumeral (c : Char) : Bool := '0' ≤ c && c ≤ '9'

/-- `[A-Za-z]`. -/
def isLetter (c : Char) : Bool := ('a' ≤ c && c ≤ 'z') || ('A' ≤ c && c ≤ 'Z')

/-- The loop of `str.split()`; `cur` is the current word, reversed. -/
def splitWsGo (cur : List Char) : List Char → List (List Char)
  | [] => if cur = [] then [] else [cur.reverse]
  | c :: cs =>
    if isWs c then (if cur = [] then splitWsGo [] cs else cur.reverse :: splitWsGo [] cs)
    else splitWsGo (c :: cur) cs

/-- `side.split()`, smol/moca/composition/constraints.py:67. -/
def splitWs (s : List Char) : List (List Char) := splitWsGo [] s

/-- `entry.strip()`, smol/moca/composition/constraints.py:160. -/
def strip (s : List Char) : List Char :=
  ((s.dropWhile isWs).reverse.dropWhile isWs).reverse

/-- A literal: `+`, `-`, a number, or a species with an optional sublattice index. -/
inductive Lit
  | plus
  | minus
  | num (q : ℚ)
  | sp (s : ℕ) (sub : Option ℕ)
  deriving DecidableEq

/-- Value of digits read left to right. -/
def digitsVal (ds : List Char) : ℕ := ds.foldl (fun a c => 10 * a + (c.toNat - '0'.toNat)) 0

/-- `np.isclose(num, round(num))` then `round`, smol/moca/composition/constraints.py:82-83. -/
def roundIfClose (q : ℚ) : ℚ :=
  if |q - npRound q| ≤ 1 / 100000000 + 1 / 100000 * |(npRound q : ℚ)| then (npRound q : ℚ) else q

/-- The number after the optional sign: `\d+\.?\d*` on the whole word. -/
def lexUnsigned (w : List Char) : Option ℚ :=
  let whole := w.takeWhile isNumeral
  if whole = [] then none
  else
    match w.dropWhile isNumeral with
    | [] => some (digitsVal whole)
    | c :: frac =>
      if c = '.' ∧ frac.all isNumeral = true then
        some ((digitsVal whole : ℚ) + (digitsVal frac : ℚ) / 10 ^ frac.length)
      else none

/-- `numerical_reg` and the conversion to a number, smol/moca/composition/constraints.py:70, 75-84. -/
def lexNum (w : List Char) : Option ℚ :=
  match w with
  | '+' :: r => (lexUnsigned r).map roundIfClose
  | '-' :: r => (lexUnsigned r).map fun q => roundIfClose (-q)
  | r => (lexUnsigned r).map roundIfClose

/-- `sublattice_reg`, smol/moca/composition/constraints.py:71, 86: a name starting with a letter,
then digits in brackets at the end. -/
def lexSub (w : List Char) : Option (List Char × ℕ) :=
  match w.reverse with
  | ')' :: r =>
    let ds := r.takeWhile isNumeral
    match r.dropWhile isNumeral with
    | '(' :: pre =>
      match pre.reverse with
      | c :: name => if ds ≠ [] ∧ isLetter c = true then some (c :: name, digitsVal ds.reverse) else none
      | [] => none
    | _ => none
  | _ => none

/-- One literal, smol/moca/composition/constraints.py:72-95. -/
def lexLit (get : List Char → Option ℕ) (w : List Char) : Option Lit :=
  if w = ['+'] then some .plus
  else if w = ['-'] then some .minus
  else
    match lexNum w with
    | some q => some (.num q)
    | none =>
      match lexSub w with
      | some (name, k) => (get name).map fun s => .sp s (some k)
      | none => (get w).map fun s => .sp s none

/-! ### One side of the relation -/

/-- A packed term: coefficient, species, sublattice. -/
abbrev PackedTerm := ℚ × ℕ × Option ℕ

/-- `_extract_symbols_before_number`, smol/moca/composition/constraints.py:15-29: sign and number of
the symbols that precede; the argument is the list before the position, reversed. -/
def symsBack : List Lit → ℚ × ℕ
  | .plus :: r => ((symsBack r).1, (symsBack r).2 + 1)
  | .minus :: r => (-(symsBack r).1, (symsBack r).2 + 1)
  | _ => (1, 0)

/-- The numbers directly before, smol/moca/composition/constraints.py:34-40. -/
def numsBack : List Lit → List ℚ
  | .num q :: r => q :: numsBack r
  | _ => []

/-- The loop over species literals, smol/moca/composition/constraints.py:113-121, with
`_extract_number_before_species` (32-52); `pre` is the part already passed, reversed. -/
def packGo (pre : List Lit) : List Lit → Option (List PackedTerm)
  | [] => some []
  | lit :: rest =>
    match lit with
    | .sp s k =>
      match numsBack pre with
      | [] => (packGo (lit :: pre) rest).map fun ts => ((symsBack pre).1 * 1, s, k) :: ts
      | [q] => (packGo (lit :: pre) rest).map fun ts => ((symsBack (pre.drop 1)).1 * q, s, k) :: ts
      | _ => none
    | _ => packGo (lit :: pre) rest

/-- The intercept and what is left, smol/moca/composition/constraints.py:98-111. -/
def takeIntercept (l : List Lit) : Option (ℚ × List Lit) :=
  match l.reverse with
  | [] => none
  | .num q :: r => some ((symsBack r).1 * q, (r.drop (symsBack r).2).reverse)
  | .plus :: r => some (1, r.reverse)
  | .minus :: r => some (-1, r.reverse)
  | .sp s k :: r => some (0, (.sp s k :: r).reverse)

/-- `handle_side_string` on literals. -/
def handleLits (l : List Lit) : Option (List PackedTerm × ℚ) :=
  (takeIntercept l).bind fun p => (packGo [] p.2).map fun ts => (ts, p.1)

/-- `handle_side_string`, smol/moca/composition/constraints.py:55-123. -/
def handleSide (get : List Char → Option ℕ) (s : List Char) : Option (List PackedTerm × ℚ) :=
  ((splitWs s).mapM (lexLit get)).bind handleLits

/-! ### The whole constraint -/

/-- The relations of `separator_reg`, smol/moca/composition/constraints.py:161. -/
inductive Rel | eq | leq | geq
  deriving DecidableEq

/-- A relation symbol with a space on both sides at the start of the list. -/
def relAt : List Char → Option (Rel × List Char)
  | ' ' :: '=' :: ' ' :: r => some (.eq, r)
  | ' ' :: '=' :: '=' :: ' ' :: r => some (.eq, r)
  | ' ' :: '<' :: '=' :: ' ' :: r => some (.leq, r)
  | ' ' :: '>' :: '=' :: ' ' :: r => some (.geq, r)
  | _ => none

/-- `separator_reg.match`, smol/moca/composition/constraints.py:161-167: the first group is greedy,
so the last relation symbol separates. -/
def splitRel : List Char → Option (List Char × Rel × List Char)
  | [] => none
  | c :: cs =>
    match splitRel cs with
    | some (l, rel, r) => some (c :: l, rel, r)
    | none => (relAt (c :: cs)).map fun p => ([], p.1, p.2)

/-- `get_dim_ids_by_sublattice`, smol/moca/occu_utils.py:8-23. -/
def dimIdsFrom (start : ℕ) : List (List ℕ) → List (List ℕ)
  | [] => []
  | species :: bits => List.range' start species.length :: dimIdsFrom (start + species.length) bits

def dimIds (bits : List (List ℕ)) : List (List ℕ) := dimIdsFrom 0 bits

/-- `left_vec[dim_id] += coef`. -/
def bump (vec : ℕ → ℚ) (d : ℕ) (x : ℚ) : ℕ → ℚ := Function.update vec d (vec d + x)

/-- One term, smol/moca/composition/constraints.py:179-200 (`sgn = 1`) and 203-225 (`sgn = -1`). -/
def addTerm (bits : List (List ℕ)) (sgn : ℚ) (vec : ℕ → ℚ) (t : PackedTerm) : Option (ℕ → ℚ) :=
  match t.2.2 with
  | some k =>
    match bits[k]?, (dimIds bits)[k]? with
    | some species, some dims =>
      if t.2.1 ∈ species then some (bump vec (dims.getD (species.idxOf t.2.1) 0) (sgn * t.1)) else none
    | _, _ => none
  | none =>
    if t.2.1 ∈ bits.flatten then
      some ((bits.zip (dimIds bits)).foldl (fun v p =>
        if t.2.1 ∈ p.1 then bump v (p.2.getD (p.1.idxOf t.2.1) 0) (sgn * t.1) else v) vec)
    else none

/-- All terms of a side. -/
def addTerms (bits : List (List ℕ)) (sgn : ℚ) (vec : ℕ → ℚ) (ts : List PackedTerm) :
    Option (ℕ → ℚ) := ts.foldlM (addTerm bits sgn) vec

/-- From the two packed sides, smol/moca/composition/constraints.py:173-229. -/
def convertSides (bits : List (List ℕ)) (l r : List PackedTerm × ℚ) : Option ((ℕ → ℚ) × ℚ) :=
  (addTerms bits 1 (fun _ => 0) l.1).bind fun v =>
    (addTerms bits (-1) v r.1).map fun v => (v, r.2 - l.2)

/-- `convert_constraint_string`, smol/moca/composition/constraints.py:126-231.  A dot of the regular
expression does not match a line break (line 161). -/
def convertString (get : List Char → Option ℕ) (bits : List (List ℕ)) (entry : List Char) :
    Option ((ℕ → ℚ) × ℚ × Rel) :=
  (if '\n' ∈ strip entry then none else splitRel (strip entry)).bind fun p =>
    (handleSide get p.1).bind fun l =>
      (handleSide get p.2.2).bind fun r =>
        (convertSides bits l r).map fun q => (q.1, q.2, p.2.1)

/-! ### The manager -/

/-- An entry of the list given by the user; `other` is a relation the code does not know
(a tuple such as `(a, b, "<")`). -/
inductive ConEntry
  | tuple (vec : ℕ → ℚ) (rhs : ℚ) (rel : Rel)
  | other (vec : ℕ → ℚ) (rhs : ℚ)
  | str (s : List Char)
  | unreadable

/-- Stored constraints: equalities and `≤`. -/
structure Stored where
  eqs : List ((ℕ → ℚ) × ℚ) := []
  leqs : List ((ℕ → ℚ) × ℚ) := []

/-- Filing one constraint, smol/moca/composition/constraints.py:276-281. -/
def Stored.file (st : Stored) (vec : ℕ → ℚ) (rhs : ℚ) : Rel → Stored
  | .leq => { st with leqs := st.leqs ++ [(vec, rhs)] }
  | .geq => { st with leqs := st.leqs ++ [(fun i => -1 * vec i, -1 * rhs)] }
  | .eq => { st with eqs := st.eqs ++ [(vec, rhs)] }

/-- One entry, smol/moca/composition/constraints.py:263-281. -/
def Stored.add (get : List Char → Option ℕ) (bits : List (List ℕ)) (st : Stored) :
    ConEntry → Option Stored
  | .tuple v r rel => some (st.file v r rel)
  | .other _ _ => some st
  | .str s => (convertString get bits s).map fun q => st.file q.1 q.2.1 q.2.2
  | .unreadable => none

/-- The constraints computed from a list of entries. -/
def storeOf (get : List Char → Option ℕ) (bits : List (List ℕ)) (es : List ConEntry) : Option Stored :=
  es.foldlM (Stored.add get bits) {}

/-- Operations on the attribute. -/
inductive ConOp
  | set (es : List ConEntry)
  | delete

/-- `__set__` and `__delete__`, smol/moca/composition/constraints.py:251-299: the value is stored
only when the attribute does not exist. -/
def conStep (get : List Char → Option ℕ) (bits : List (List ℕ)) (st : Option Stored) :
    ConOp → Option Stored
  | .set es =>
    match storeOf get bits es with
    | none => st          -- raised
    | some v => if st.isNone then some v else st
  | .delete => none

/-- A history of assignments. -/
def conRun (get : List Char → Option ℕ) (bits : List (List ℕ)) (ops : List ConOp) : Option Stored :=
  ops.foldl (conStep get bits) none

end Smol
