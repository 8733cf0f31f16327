import Verif.Model.Func
import Mathlib.Analysis.SpecialFunctions.Complex.Arg
import Mathlib.Analysis.SpecialFunctions.Pow.Complex
import Mathlib.Analysis.SpecialFunctions.Sqrt

/-! # Ideal arithmetic: the reals with an absorbing NaN

This is the number type behind every statement qualified "in exact arithmetic".  It differs
from `double` in these respects only:

* results are not rounded and do not overflow or underflow;
* there are no infinities and no signed zero: division by zero, the square root of a
  negative number and the logarithm of a non-positive number give NaN;
* `std::sin`, `cos`, `exp`, `log`, `atan2` and the complex functions are the mathematical ones;
* literals have their decimal (exact) value: `g3::pi` is 3.141592653589793, not π.

The comparisons, `isnormal` (with the range of normal doubles) and all guards are kept. -/

namespace Engabra

/-- Reals with NaN. -/
inductive XR where
  | nan
  | val (r : ℝ)

namespace XR

/-- binary operation, NaN is absorbing -/
def bin (f : ℝ → ℝ → XR) : XR → XR → XR
  | val a, val b => f a b
  | _, _ => nan

/-- unary operation, NaN is absorbing -/
def un (f : ℝ → XR) : XR → XR
  | val a => f a
  | nan => nan

/-- comparison, false on NaN -/
def cmp (f : ℝ → ℝ → Bool) : XR → XR → Bool
  | val a, val b => f a b
  | _, _ => false

open Classical in
/-- IEEE operations, ideal. -/
noncomputable instance : Dbl XR where
  add := bin fun a b => val (a + b)
  sub := bin fun a b => val (a - b)
  mul := bin fun a b => val (a * b)
  neg := un fun a => val (-a)
  zero := val 0
  one := val 1
  div := bin fun a b => if b = 0 then nan else val (a / b)
  nan := nan
  lit q := val q
  lt := cmp fun a b => decide (a < b)
  feq := cmp fun a b => decide (a = b)
  isnormal := fun x => match x with
    | nan => false
    | val a => decide ((1 : ℝ) / 2 ^ 1022 ≤ |a| ∧ |a| < 2 ^ 1024)
  sqrt := un fun a => if a < 0 then nan else val (√a)
  abs := un fun a => val |a|

/-- complex operation: any NaN gives NaN -/
noncomputable def cun (f : ℂ → XR × XR) : XR × XR → XR × XR
  | (val a, val b) => f ⟨a, b⟩
  | _ => (nan, nan)

/-- complex number to pair -/
noncomputable def ofC (z : ℂ) : XR × XR := (val z.re, val z.im)

open Classical in
/-- Library functions, ideal. `csqrt` is the principal root. -/
noncomputable instance : LibM XR where
  sin := un fun a => val (Real.sin a)
  cos := un fun a => val (Real.cos a)
  exp := un fun a => val (Real.exp a)
  log := un fun a => if 0 < a then val (Real.log a) else nan
  atan2 := bin fun y x => val (Complex.arg ⟨x, y⟩)
  csqrt := cun fun z => ofC (z ^ (1 / 2 : ℂ))
  cabs := fun z => match z with
    | (val a, val b) => val ‖(⟨a, b⟩ : ℂ)‖
    | _ => nan
  cmul := fun z w => cun (fun z => cun (fun w => ofC (z * w)) w) z
  cdiv := fun a z => match a with
    | val a => cun (fun z => if z = 0 then (nan, nan) else ofC (a / z)) z
    | nan => (nan, nan)

end XR

end Engabra
