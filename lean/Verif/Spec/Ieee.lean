import Verif.Lemmas.F64
import Mathlib.Data.EReal.Basic

/-! # Specification: IEEE 754-2019 binary64

The interchange format (3.4) as 64-bit words, and rounding to nearest, ties to even (4.3.1), stated by
distances and by the words, not by the rounding function of the model. -/

namespace Engabra
namespace Ieee

/-- Bit 63: the sign. -/
def signOf (w : BitVec 64) : Bool := decide (2 ^ 63 ≤ w.toNat)

/-- Bits 62 to 52: the biased exponent. -/
def expOf (w : BitVec 64) : ℕ := w.toNat / 2 ^ 52 % 2 ^ 11

/-- Bits 51 to 0: the trailing significand. -/
def fracOf (w : BitVec 64) : ℕ := w.toNat % 2 ^ 52

/-- `(-1)^sign` -/
def unit (w : BitVec 64) : ℚ := if signOf w then -1 else 1

/-- The word `w` represents the datum (IEEE 754, 3.4, table of the binary interchange format).  All
words of a NaN represent the one NaN of the model. -/
def Encodes (w : BitVec 64) : F64 → Prop
  | .nan => expOf w = 2047 ∧ fracOf w ≠ 0
  | .inf s => expOf w = 2047 ∧ fracOf w = 0 ∧ signOf w = s
  | .zero s => expOf w = 0 ∧ fracOf w = 0 ∧ signOf w = s
  | .fin v _ =>
    (expOf w = 0 ∧ fracOf w ≠ 0 ∧ v = unit w * (0 + fracOf w / 2 ^ 52) * 2 ^ (-1022 : ℤ)) ∨
    (1 ≤ expOf w ∧ expOf w ≤ 2046 ∧ v = unit w * (1 + fracOf w / 2 ^ 52) * 2 ^ ((expOf w : ℤ) - 1023))

/-- The result of rounding the number `x ≠ 0` to nearest, ties to even: from
`2^1024 - 2^970` (half a unit in the last place above the largest finite number) an infinity with the
sign of `x`; below it a finite datum with the sign of `x` such that no other is nearer, and if another
one is as near, the last bit of the result is zero. -/
def RoundsTo (x : ℝ) (y : F64) : Prop :=
  (2 ^ 1024 - 2 ^ 970 ≤ |x| ∧ y = .inf (decide (x < 0))) ∨
  (|x| < 2 ^ 1024 - 2 ^ 970 ∧ y.Finite ∧ y.signbit = decide (x < 0) ∧
    (∀ z : F64, z.Finite → |(y.value : ℝ) - x| ≤ |(z.value : ℝ) - x|) ∧
    (∀ z : F64, z.Finite → z.value ≠ y.value → |(z.value : ℝ) - x| = |(y.value : ℝ) - x| →
      ∃ w, Encodes w y ∧ Even (fracOf w)))

/-- The position of a datum other than NaN on the extended real line. -/
noncomputable def place : F64 → EReal
  | .inf true => ⊥
  | .inf false => ⊤
  | x => ((x.value : ℝ) : EReal)

end Ieee
end Engabra
