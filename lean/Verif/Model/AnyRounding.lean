import Verif.Lemmas.F64
import Verif.Model.Fused

/-! # Arithmetic in any rounding mode and with any excess precision

`Model/F64.lean` rounds every operation to nearest even, `Model/Fused.lean` allows contraction.  A
program may also change the rounding mode (`std::fesetround`), be compiled for a machine that keeps
intermediate results in a wider format (`FLT_EVAL_METHOD`), or both.  This file describes all of
these at once: of the result of an operation it is only known that no binary64 number separates it
from the exact result.

Simplification: the exponent is not bounded above, that is, the description is of computations
without overflow (when there is none is part of C84). -/

namespace Engabra

/-- `r` may stand for the exact value `q`: no binary64 number lies strictly between the two (and if
`q` is such a number then `r = q`). -/
def Between {K : Type} [Field K] [LinearOrder K] (q : K) (r : ℚ) : Prop :=
  ∀ w : ℚ, F64.Rep w → (q ≤ (w : K) → r ≤ w) ∧ ((w : K) ≤ q → w ≤ r)

/-- `Rounded R env t r`: the arithmetic term `t` may evaluate to `r` if the result of each operation
is related to its exact value by `R`.  (Different occurrences of the same subterm may be evaluated
differently.)  Negation is exact. -/
inductive Rounded (R : ℚ → ℚ → Prop) (env : Nat → ℚ) : T → ℚ → Prop
  | zero : Rounded R env .zero 0
  | var (n : Nat) : Rounded R env (.var n) (env n)
  | neg {a : T} {x : ℚ} : Rounded R env a x → Rounded R env (.neg a) (-x)
  | add {a b : T} {x y r : ℚ} : Rounded R env a x → Rounded R env b y → R (x + y) r →
      Rounded R env (.add a b) r
  | sub {a b : T} {x y r : ℚ} : Rounded R env a x → Rounded R env b y → R (x - y) r →
      Rounded R env (.sub a b) r
  | mul {a b : T} {x y r : ℚ} : Rounded R env a x → Rounded R env b y → R (x * y) r →
      Rounded R env (.mul a b) r

/-- `FE_UPWARD`: the least binary64 number not below `q`. -/
def roundUp (q : ℚ) : ℚ := (⌈q / (2 : ℚ) ^ F64.ulpExp q⌉ : ℤ) * (2 : ℚ) ^ F64.ulpExp q

/-- `FE_DOWNWARD`: the greatest binary64 number not above `q`. -/
def roundDown (q : ℚ) : ℚ := (⌊q / (2 : ℚ) ^ F64.ulpExp q⌋ : ℤ) * (2 : ℚ) ^ F64.ulpExp q

/-- `FE_TOWARDZERO` -/
def roundZero (q : ℚ) : ℚ := if 0 ≤ q then roundDown q else roundUp q

end Engabra
