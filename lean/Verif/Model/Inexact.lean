import Verif.Model.Fused
import Verif.Model.Template

/-! # The flags inexact and underflow

`Model/Flags.lean` has the flags invalid, divide-by-zero and overflow.  Here `double` is a binary64 datum
together with the two other flags (IEEE 754-2019, 7.5 and 7.6) raised while it was computed, so that the
operators of the model apply as they are.

Simplifications: only `+ - *` and negation (what the operators of `g3opsAdd*.hpp`, `g3opsSub*.hpp`,
`g3opsMul*.hpp`, `g3opsUni.hpp` use), division and `std::sqrt` (for `inverse` of blades, `magnitude` and
`direction`).  Underflow is raised for inexact results that are tiny before rounding;
the standard leaves to the implementation to raise it only for those that are tiny after rounding, which are
fewer. -/

namespace Engabra

namespace F64

/-- The exact result `q` of an operation on finite numbers is not what it returns. -/
def rounded (q : ℚ) (y : F64) : Bool := !(y.isFin && decide (y.value = q))

/-- Less than the smallest normal number. -/
def tiny (q : ℚ) : Bool := decide (|q| < (2 : ℚ) ^ (-1022 : ℤ))

end F64

/-- A `double` with `FE_INEXACT` and `FE_UNDERFLOW` as raised while it was computed. -/
structure EV where
  val : F64
  inexact : Bool
  underflow : Bool

namespace EV

/-- A given number. -/
def clean (x : F64) : EV := ⟨x, false, false⟩

/-- An operation on `a` and `b` with exact result `q` (for finite operands) that returns `y`: flags are sticky. -/
def op (a b : EV) (q : ℚ) (y : F64) : EV :=
  let ix := a.val.isFin && b.val.isFin && F64.rounded q y
  ⟨y, a.inexact || b.inexact || ix, a.underflow || b.underflow || (ix && F64.tiny q)⟩

noncomputable instance : Add EV := ⟨fun a b => op a b (a.val.value + b.val.value) (a.val + b.val)⟩
noncomputable instance : Sub EV := ⟨fun a b => op a b (a.val.value - b.val.value) (a.val - b.val)⟩
noncomputable instance : Mul EV := ⟨fun a b => op a b (a.val.value * b.val.value) (a.val * b.val)⟩
noncomputable instance : Neg EV := ⟨fun a => ⟨-a.val, a.inexact, a.underflow⟩⟩
noncomputable instance : Zero EV := ⟨clean 0⟩
noncomputable instance : One EV := ⟨clean 1⟩
/-- A quotient by zero is infinite or NaN without being inexact. -/
noncomputable instance : Div EV := ⟨fun a b =>
  if b.val.value = 0 then ⟨a.val / b.val, a.inexact || b.inexact, a.underflow || b.underflow⟩
  else op a b (a.val.value / b.val.value) (a.val / b.val)⟩

/-- `std::sqrt`: inexact if the square of the result is not the operand; the root of a number less than zero
is NaN without being inexact; a root is never tiny. -/
noncomputable def sqrt (a : EV) : EV :=
  ⟨Dbl.sqrt a.val, a.inexact || (a.val.isFin && decide (0 ≤ a.val.value) &&
    decide ((Dbl.sqrt a.val).value * (Dbl.sqrt a.val).value ≠ a.val.value)), a.underflow⟩

end EV

/-- `inverse(x)` of a blade: `g3func.hpp:451-464`. -/
noncomputable def inverseE (t : Ty) (x : t.D EV) : t.D EV :=
  let mag2 := magSqTy t x
  smulTy t (1 / mag2) (reverseTy t x)

/-- `pairMagDirFrom<T>`: `g3func.hpp:234-256`. -/
noncomputable def pairMagDirE (t : Ty) (x : t.D EV) : EV × t.D EV :=
  let mag := EV.sqrt (magSqTy t x)
  if Dbl.lt (Dbl.denormMin F64) mag.val then (mag, smulTy t (1 / mag) x)
  else (mag, gnullTy (.clean Dbl.nan) t)

end Engabra
