import Verif.Spec.ConstraintString
import Mathlib.Data.Nat.Digits.Defs
import Mathlib.Data.Int.Order.Basic
import Mathlib.Algebra.Order.Ring.Abs
import Mathlib.Algebra.Order.Field.Rat

/-!
# How a constraint is written
-/

namespace Smol.Spec

/-- Digits as typed. -/
def digitsText (ds : List (Fin 10)) : List Char :=
  ds.map fun d : Fin 10 => "0123456789".toList.getD d.val '?'

/-- The number decimal digits stand for, the first being the most significant. -/
def digitsNum (ds : List (Fin 10)) : ℕ := Nat.ofDigits 10 (ds.reverse.map fun d : Fin 10 => d.val)

/-- A number as typed: optional sign (`-` is `false`), digits, optional point with digits. -/
structure Numeral where
  sign : Option Bool
  whole : List (Fin 10)
  frac : Option (List (Fin 10))

def signText : Option Bool → List Char
  | none => []
  | some true => ['+']
  | some false => ['-']

def fracText : Option (List (Fin 10)) → List Char
  | none => []
  | some f => '.' :: digitsText f

def fracNum : Option (List (Fin 10)) → ℚ
  | none => 0
  | some f => (digitsNum f : ℚ) / 10 ^ f.length

def Numeral.text (n : Numeral) : List Char :=
  signText n.sign ++ (digitsText n.whole ++ fracText n.frac)

def Numeral.value (n : Numeral) : ℚ :=
  (if n.sign = some false then -1 else 1) * ((digitsNum n.whole : ℚ) + fracNum n.frac)

/-- The nearest integer, the even one of two. -/
def NearestEven (v : ℚ) (k : ℤ) : Prop := |v - k| ≤ 1 / 2 ∧ (|v - k| = 1 / 2 → Even k)

/-- Within the default tolerances of `numpy.isclose` of an integer. -/
def CloseTo (v : ℚ) (k : ℤ) : Prop := |v - k| ≤ 1 / 10 ^ 8 + 1 / 10 ^ 5 * |(k : ℚ)|

/-- An integer, or not close to any. -/
def Plain (v : ℚ) : Prop := (∃ k : ℤ, v = k) ∨ ∀ k : ℤ, ¬ CloseTo v k

/-- Whitespace characters. -/
def Blank (c : Char) : Prop := c.toNat ∈
  [9, 10, 11, 12, 13, 28, 29, 30, 31, 32, 133, 160, 5760, 8192, 8193, 8194, 8195, 8196, 8197, 8198,
    8199, 8200, 8201, 8202, 8232, 8233, 8239, 8287, 12288]

def Letter (c : Char) : Prop :=
  c ∈ "abcdefghijklmnopqrstuvwxyzABCDEFGHIJKLMNOPQRSTUVWXYZ".toList

/-- A term as typed: signs, coefficient, species name, sublattice. -/
structure WTerm where
  signs : List Bool
  coef : Option Numeral
  name : List Char
  sub : Option (List (Fin 10))

def signWord (b : Bool) : List Char := if b then ['+'] else ['-']

def subText : Option (List (Fin 10)) → List Char
  | none => []
  | some ds => '(' :: (digitsText ds ++ [')'])

def WTerm.words (t : WTerm) : List (List Char) :=
  t.signs.map signWord ++ (t.coef.map Numeral.text).toList ++
    [t.name ++ subText t.sub]

/-- One side as typed. -/
structure WSide where
  terms : List WTerm
  intercept : Option (List Bool × Numeral)

def interceptWords : Option (List Bool × Numeral) → List (List Char)
  | none => []
  | some (signs, n) => signs.map signWord ++ [n.text]

def WSide.words (s : WSide) : List (List Char) :=
  s.terms.flatMap WTerm.words ++ interceptWords s.intercept

/-- What can be typed: numbers have digits and are plain, names start with a letter, contain no
whitespace and do not look as if they carried a sublattice index; a side is not empty. -/
structure Numeral.Ok (n : Numeral) : Prop where
  digits : n.whole ≠ []
  plain : Plain n.value

structure WTerm.Ok (t : WTerm) : Prop where
  coef : ∀ n ∈ t.coef, n.Ok
  letter : ∃ c rest, t.name = c :: rest ∧ Letter c
  noBlank : ∀ c ∈ t.name, ¬ Blank c
  bracket : t.sub = none → ∀ c ∈ t.name.getLast?, c ≠ ')'
  digits : ∀ ds ∈ t.sub, ds ≠ []

structure WSide.Ok (s : WSide) : Prop where
  terms : ∀ t ∈ s.terms, t.Ok
  intercept : ∀ p ∈ s.intercept, p.2.Ok
  nonempty : s.terms ≠ [] ∨ s.intercept ≠ none

/-- What is meant, when `species` says which species a name denotes. -/
def WTerm.meaning (species : List Char → ℕ) (t : WTerm) : Term :=
  ⟨t.signs, t.coef.map Numeral.value, species t.name, t.sub.map digitsNum⟩

def WSide.meaning (species : List Char → ℕ) (s : WSide) : Side :=
  ⟨s.terms.map (WTerm.meaning species), s.intercept.map fun p => (p.1, p.2.value)⟩

/-- Words with whitespace between them. -/
inductive Spaced : List (List Char) → List Char → Prop
  | one (w : List Char) : Spaced [w] w
  | cons (w gap : List Char) (ws : List (List Char)) (s : List Char) (h0 : gap ≠ [])
      (hgap : ∀ c ∈ gap, Blank c) (h : Spaced ws s) : Spaced (w :: ws) (w ++ (gap ++ s))

end Smol.Spec
