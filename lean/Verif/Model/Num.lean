import Mathlib.Data.Rat.Defs

/-! # The number type

Everything the C++ uses of `double`, `<cmath>`, `<limits>` and `<complex>`, as two classes.
The rest of the model is polymorphic over them, so that one and the same model is
instantiated at reals with an absorbing NaN (`Verif/Model/XR.lean`, ideal arithmetic) and at
IEEE-754 binary64 (`Verif/Model/F64.lean`). -/

namespace Engabra

/-- Operations of `double` that IEEE-754 fixes completely.  `lit q` is the value of a
literal (or of an exactly known constant) whose mathematical value is `q`. -/
class Dbl (α : Type) extends Add α, Sub α, Mul α, Neg α, Zero α, One α, Div α where
  /-- `std::numeric_limits<double>::quiet_NaN()` -/
  nan : α
  /-- literals -/
  lit : ℚ → α
  /-- `operator<` -/
  lt : α → α → Bool
  /-- `operator==` -/
  feq : α → α → Bool
  /-- `std::isnormal` -/
  isnormal : α → Bool
  /-- `std::sqrt(double)` -/
  sqrt : α → α
  /-- `std::abs(double)` -/
  abs : α → α

/-- Library functions that the C++ and C standards do not fix to the last bit: `std::sin`,
`cos`, `exp`, `log`, `atan2` and the `std::complex<double>` functions used by the library
(complex numbers as pairs). -/
class LibM (α : Type) where
  sin : α → α
  cos : α → α
  exp : α → α
  log : α → α
  /-- `std::atan2(y, x)` -/
  atan2 : α → α → α
  /-- `std::sqrt(std::complex<double>)` -/
  csqrt : α × α → α × α
  /-- `std::abs(std::complex<double>)` -/
  cabs : α × α → α
  /-- `operator*(complex, complex)` -/
  cmul : α × α → α × α → α × α
  /-- `operator/(double, complex)` -/
  cdiv : α → α × α → α × α

namespace Dbl
variable (α : Type) [Dbl α]

/-- `std::numeric_limits<double>::denorm_min()` = 2^-1074 -/
def denormMin : α := lit ((1 : ℚ) / 2 ^ 1074)
/-- `std::numeric_limits<double>::min()` = 2^-1022 -/
def minDub : α := lit ((1 : ℚ) / 2 ^ 1022)
/-- `std::numeric_limits<double>::epsilon()` = 2^-52 -/
def epsilon : α := lit ((1 : ℚ) / 2 ^ 52)
/-- `g3::pi`, `g3const.hpp:99`; also `turnHalf`, `g3const.hpp:108`. -/
def pi : α := lit (3141592653589793 / 1000000000000000)

/-- The literal `2.` -/
instance : OfNat α 2 := ⟨lit 2⟩
end Dbl

end Engabra
