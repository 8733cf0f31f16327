import Mathlib.Data.Nat.Digits.Defs
import Mathlib.Data.Rat.Defs
import Mathlib.Algebra.Order.Field.Basic
import Mathlib.Data.Rat.Cast.Order

/-! # Specification: decimal numerals

The decimal floating constants of the C standard (as accepted by `strtod`, 7.24.1.5), with their
value: sign, digits, point and digits, exponent. -/

namespace Engabra

/-- A decimal numeral: sign (`some true` is a minus sign), digits before the point, point and digits
after it, exponent (letter, sign, digits). -/
structure Numeral where
  sign : Option Bool
  ip : List Char
  fp : Option (List Char)
  ex : Option (Char × Option Bool × List Char)

namespace Numeral

def signText : Option Bool → List Char
  | none => []
  | some true => ['-']
  | some false => ['+']

/-- The characters of the numeral. -/
def text (n : Numeral) : List Char :=
  signText n.sign ++ n.ip ++ (match n.fp with | none => [] | some f => '.' :: f) ++
    (match n.ex with | none => [] | some (c, s, ds) => c :: (signText s ++ ds))

/-- Digits after the point. -/
def frac (n : Numeral) : List Char := n.fp.getD []

/-- The natural number of a sequence of digits, the most significant first. -/
def natVal (ds : List Char) : ℕ := Nat.ofDigits 10 (ds.reverse.map fun c => c.toNat - '0'.toNat)

/-- The exponent. -/
def expo (n : Numeral) : ℤ :=
  match n.ex with
  | none => 0
  | some (_, s, ds) => if s = some true then -(natVal ds : ℤ) else natVal ds

/-- All digits of the significand, as a natural number. -/
def mant (n : Numeral) : ℕ := natVal (n.ip ++ n.frac)

/-- The absolute value of the number the numeral denotes. -/
def value (n : Numeral) : ℚ := n.mant * (10 : ℚ) ^ (n.expo - n.frac.length)

/-- Whether it has a minus sign. -/
def minus (n : Numeral) : Bool := n.sign == some true

/-- The number with its sign. -/
def signed (n : Numeral) : ℚ := if n.minus then -n.value else n.value

/-- Digits are digits, there is one before or after the point, and the exponent has one. -/
def Ok (n : Numeral) : Prop :=
  (∀ c ∈ n.ip, c.isDigit = true) ∧ (∀ c ∈ n.frac, c.isDigit = true) ∧ n.ip ++ n.frac ≠ [] ∧
  ∀ c s ds, n.ex = some (c, s, ds) → (c = 'e' ∨ c = 'E') ∧ ds ≠ [] ∧ ∀ d ∈ ds, d.isDigit = true

end Numeral

/-- White space in the "C" locale: space, tab, line feed, vertical tab, form feed, carriage return. -/
def Blank (c : Char) : Prop := c ∈ [' ', '\t', '\n', '\x0b', '\x0c', '\r']

end Engabra
