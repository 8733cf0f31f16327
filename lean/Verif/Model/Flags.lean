import Verif.Model.Fused
import Verif.Model.Template
import Verif.Props.C09_Access

/-! # Exception flags

IEEE-754 operations raise flags besides returning a value; a program may test them
(`std::fetestexcept`) or be stopped by them (`feenableexcept`).  Here `double` is a binary64 datum
together with the flags raised while it was computed, so that the operators, `magSq` and `reverse` of
the model apply as they are: everything they compute goes into some component of the result.  The
functions with comparisons are repeated, because a comparison raises flags too.

Simplifications: of the five flags invalid, divide-by-zero and overflow are modelled, inexact and
underflow are not; the functions of `<cmath>` other than `std::sqrt` and the `std::complex` functions
are not modelled here. -/

namespace Engabra

/-- `FE_INVALID`, `FE_DIVBYZERO`, `FE_OVERFLOW` -/
structure Flags where
  invalid : Bool
  divByZero : Bool
  overflow : Bool
deriving DecidableEq

namespace Flags

/-- No flag raised. -/
def none : Flags := ⟨false, false, false⟩

/-- Flags are sticky. -/
def or (a b : Flags) : Flags :=
  ⟨a.invalid || b.invalid, a.divByZero || b.divByZero, a.overflow || b.overflow⟩

end Flags

namespace F64

/-- An infinity. -/
def inf? : F64 → Bool
  | inf _ => true
  | _ => false

/-- `x + y`: the sum of opposite infinities is invalid; a finite sum out of range overflows. -/
def addFlags (x y : F64) : Flags :=
  ⟨x.inf? && y.inf? && (x.signbit != y.signbit), false, x.isFin && y.isFin && (add x y).inf?⟩

/-- `x * y`: zero times infinity is invalid. -/
def mulFlags (x y : F64) : Flags :=
  ⟨match x, y with
    | inf _, zero _ => true
    | zero _, inf _ => true
    | _, _ => false, false, x.isFin && y.isFin && (mul x y).inf?⟩

/-- `x / y`: `0/0` and infinity by infinity are invalid; other finite numbers by zero divide by zero. -/
def divFlags (x y : F64) : Flags :=
  match x, y with
  | inf _, inf _ => ⟨true, false, false⟩
  | zero _, zero _ => ⟨true, false, false⟩
  | fin _ _, zero _ => ⟨false, true, false⟩
  | fin _ _, fin _ _ => ⟨false, false, (div x y).inf?⟩
  | _, _ => Flags.none

/-- `std::sqrt(x)`: invalid for numbers less than zero. -/
def sqrtFlags : F64 → Flags
  | inf true => ⟨true, false, false⟩
  | fin v _ => ⟨decide (v < 0), false, false⟩
  | _ => Flags.none

/-- `x < y`: invalid if there is a NaN.  (`==` and `std::isnormal` raise nothing for quiet NaNs.) -/
def ltFlags : F64 → F64 → Flags
  | nan, _ => ⟨true, false, false⟩
  | _, nan => ⟨true, false, false⟩
  | _, _ => Flags.none

end F64

/-- A `double` with the flags raised while it was computed. -/
structure FV where
  val : F64
  fl : Flags

namespace FV

/-- A given number. -/
def clean (x : F64) : FV := ⟨x, Flags.none⟩

noncomputable instance : Add FV := ⟨fun a b => ⟨a.val + b.val, (a.fl.or b.fl).or (F64.addFlags a.val b.val)⟩⟩
noncomputable instance : Sub FV :=
  ⟨fun a b => ⟨a.val - b.val, (a.fl.or b.fl).or (F64.addFlags a.val (F64.neg b.val))⟩⟩
noncomputable instance : Mul FV := ⟨fun a b => ⟨a.val * b.val, (a.fl.or b.fl).or (F64.mulFlags a.val b.val)⟩⟩
noncomputable instance : Div FV := ⟨fun a b => ⟨a.val / b.val, (a.fl.or b.fl).or (F64.divFlags a.val b.val)⟩⟩
noncomputable instance : Neg FV := ⟨fun a => ⟨-a.val, a.fl⟩⟩
noncomputable instance : Zero FV := ⟨clean 0⟩
noncomputable instance : One FV := ⟨clean 1⟩

/-- `std::sqrt` -/
noncomputable def sqrt (a : FV) : FV := ⟨Dbl.sqrt a.val, a.fl.or (F64.sqrtFlags a.val)⟩

/-- `std::abs` -/
def abs (a : FV) : FV := ⟨F64.abs a.val, a.fl⟩

/-- `a < b`: the answer, and the flags raised so far on the way to it. -/
noncomputable def lt (a b : FV) : Bool × Flags :=
  (Dbl.lt a.val b.val, (a.fl.or b.fl).or (F64.ltFlags a.val b.val))

end FV

/-- All flags of a list of numbers. -/
def allFlags (l : List FV) : Flags := l.foldr (fun a f => a.fl.or f) Flags.none

/-- `pairMagDirFrom<T>`: `g3func.hpp:234-256`; the last component is all flags raised. -/
noncomputable def pairMagDirF (t : Ty) (x : t.D FV) : FV × t.D FV × Flags :=
  let mag := FV.sqrt (magSqTy t x)
  let big := FV.lt (.clean (Dbl.denormMin F64)) mag
  if big.1 then
    let dir := smulTy t (1 / mag) x
    (mag, dir, big.2.or (allFlags (comps t dir)))
  else (mag, gnullTy (.clean Dbl.nan) t, big.2)

/-- `inverse(x)` of a blade: `g3func.hpp:451-464`. -/
noncomputable def inverseF (t : Ty) (x : t.D FV) : t.D FV :=
  let mag2 := magSqTy t x
  smulTy t (1 / mag2) (reverseTy t x)

/-- `isSmallAbsDiff`: `g3compare.hpp:100-122`. -/
noncomputable def isSmallAbsDiffF (testVal refVal tol : FV) : Bool × Flags :=
  FV.lt (FV.abs (testVal - refVal)) tol

/-- `std::inner_product`, as `innerProduct`. -/
noncomputable def innerProductF (init : FV) : List FV → FV
  | [] => init
  | x :: xs => innerProductF (init + x * x) xs

/-- The small-reference loop `g3compare.hpp:283-287`. -/
noncomputable def smallLoopF (tol : FV) (same : Bool × Flags) : List FV → List FV → Bool × Flags
  | x :: xs, y :: ys =>
    if same.1 then
      let s := isSmallAbsDiffF x y tol
      smallLoopF tol (s.1, same.2.or s.2) xs ys
    else same
  | _, _ => same

/-- The difference loop `g3compare.hpp:295-300`. -/
noncomputable def difLoopF (magSqDif : FV) : List FV → List FV → FV
  | x :: xs, y :: ys =>
    let dif := x - y
    difLoopF (magSqDif + dif * dif) xs ys
  | _, _ => magSqDif

/-- `nearlyEquals(std::array, std::array)`: `g3compare.hpp:239-306`, the result and all flags raised.
`isValid` and the test of the first elements for validity use `std::isnormal` and `==`, which raise
none. -/
noncomputable def nearlyEqualsArrF (dataGot dataRef : List F64) (tol : F64) : Run Bool × Flags :=
  match isValidArr dataGot, isValidArr dataRef with
  | .ub, _ => (.ub, Flags.none)
  | .ok false, _ => (.ok false, Flags.none)
  | .ok true, .ub => (.ub, Flags.none)
  | .ok true, .ok false => (.ok false, Flags.none)
  | .ok true, .ok true =>
    let magSqRef := innerProductF 0 (dataRef.map .clean)
    let magRef := FV.sqrt magSqRef
    let small := FV.lt magRef (.clean (Dbl.minDub F64))
    if small.1 then
      match dataGot.map FV.clean, dataRef.map FV.clean with
      | x :: xs, y :: ys =>
        let s := if bothAreValid x.val y.val then isSmallAbsDiffF x y (.clean tol) else (false, Flags.none)
        let r := smallLoopF (.clean tol) s xs ys
        (.ok r.1, small.2.or r.2)
      | _, _ => (.ub, small.2)
    else
      let magSqDif := difLoopF 0 (dataGot.map .clean) (dataRef.map .clean)
      let r := FV.lt (FV.abs (FV.sqrt (magSqDif / magSqRef))) (.clean tol)
      (.ok r.1, small.2.or r.2)

end Engabra
