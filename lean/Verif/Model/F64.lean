import Verif.Model.Round
import Verif.Model.Func
import Mathlib.Analysis.Real.Sqrt

/-! # IEEE-754 binary64

`double` with the operations of the C++ abstract machine on an IEEE-754 implementation,
round-to-nearest-even, no contraction to fused operations, no excess precision.
Simplifications: one NaN (sign and payload are not observable through the operations the
library uses); exception flags and signalling NaNs are not modelled. -/

namespace Engabra

/-- The binary64 data: NaN, `±∞`, `±0` and the finite non-zero values. -/
inductive F64 where
  | nan
  | inf (neg : Bool)
  | zero (neg : Bool)
  | fin (v : ℚ) (h : F64.IsFin v)

namespace F64

/-- Round a non-zero number; overflow gives an infinity, underflow to zero keeps the sign.
(For `x = 0`, not used by the operations, the result is `+0`.) -/
def roundTo {K : Type} [Field K] [LinearOrder K] [IsStrictOrderedRing K] [FloorRing K] (x : K) :
    F64 :=
  if hx : x = 0 then zero false
  else if h0 : rnVal x = 0 then zero (decide (x < 0))
  else if h1 : |rnVal x| < 2 ^ 1024 then fin (rnVal x) (rnVal_isFin x hx h0 h1)
  else inf (decide (x < 0))

/-- sign bit -/
def signbit : F64 → Bool
  | nan => false
  | inf s => s
  | zero s => s
  | fin v _ => decide (v < 0)

/-- numerical value of a finite datum -/
def value : F64 → ℚ
  | fin v _ => v
  | _ => 0

/-- `-x`: the sign bit is flipped. -/
def neg : F64 → F64
  | nan => nan
  | inf s => inf !s
  | zero s => zero !s
  | fin v h => fin (-v) (by
      obtain ⟨h0, m, e, hm, h1, h2, hv⟩ := h
      refine ⟨neg_ne_zero.2 h0, -m, e, by rwa [abs_neg], h1, h2, by rw [hv]; push_cast; ring⟩)

/-- `|x|` -/
def abs (x : F64) : F64 := if x.signbit then neg x else x

/-- Sum of two finite data.  An exact zero is `-0` only when both operands have a sign bit. -/
def addFin (x y : F64) : F64 :=
  if x.value + y.value = 0 then zero (x.signbit && y.signbit) else roundTo (x.value + y.value)

/-- `x + y` -/
def add : F64 → F64 → F64
  | nan, _ => nan
  | _, nan => nan
  | inf s, inf t => if s = t then inf s else nan
  | inf s, _ => inf s
  | _, inf t => inf t
  | x, y => addFin x y

/-- Product of two finite data. -/
def mulFin (x y : F64) : F64 :=
  if x.value * y.value = 0 then zero (xor x.signbit y.signbit) else roundTo (x.value * y.value)

/-- `x * y` -/
def mul : F64 → F64 → F64
  | nan, _ => nan
  | _, nan => nan
  | inf _, zero _ => nan
  | zero _, inf _ => nan
  | inf s, y => inf (xor s y.signbit)
  | x, inf t => inf (xor x.signbit t)
  | x, y => mulFin x y

/-- `x / y` -/
def div : F64 → F64 → F64
  | nan, _ => nan
  | _, nan => nan
  | inf _, inf _ => nan
  | inf s, y => inf (xor s y.signbit)
  | x, inf t => zero (xor x.signbit t)
  | zero _, zero _ => nan
  | x, zero t => inf (xor x.signbit t)
  | zero s, y => zero (xor s y.signbit)
  | fin v _, fin w _ => roundTo (v / w)

/-- `std::sqrt(x)`, correctly rounded. -/
noncomputable def sqrt : F64 → F64
  | nan => nan
  | inf true => nan
  | inf false => inf false
  | zero s => zero s
  | fin v _ => if v < 0 then nan else roundTo (√(v : ℝ))

/-- `x < y` -/
def lt : F64 → F64 → Bool
  | nan, _ => false
  | _, nan => false
  | inf s, inf t => s && !t
  | inf s, _ => s
  | _, inf t => !t
  | x, y => decide (x.value < y.value)

/-- `x == y` -/
def feq : F64 → F64 → Bool
  | nan, _ => false
  | _, nan => false
  | inf s, inf t => s == t
  | inf _, _ => false
  | _, inf _ => false
  | x, y => decide (x.value = y.value)

/-- `std::isnormal(x)` -/
def isnormal : F64 → Bool
  | fin v _ => decide ((1 : ℚ) / 2 ^ 1022 ≤ |v|)
  | _ => false

/-- The IEEE instance of the number class.  Literals are rounded. -/
noncomputable instance : Dbl F64 where
  add := add
  sub := fun x y => add x (neg y)
  mul := mul
  neg := neg
  zero := zero false
  one := roundTo (1 : ℚ)
  div := div
  nan := nan
  lit q := roundTo q
  lt := lt
  feq := feq
  isnormal := isnormal
  sqrt := sqrt
  abs := abs

end F64

end Engabra
