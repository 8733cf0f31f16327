import Verif.Model.F64
import Verif.Model.Num

/-! # Contraction of floating-point expressions

C++ lets a compiler evaluate `a * b + c` with one rounding (`fma`); GCC does so by default for C++
wherever the target has the instruction (nothing in `CMakeLists.txt:31-63` turns it off), across
statements and inlined functions.  The library is header-only and inline, so the arithmetic of a
whole user expression is one arithmetic term to the compiler.  This file describes every evaluation
of such a term that the compiler may choose. -/

namespace Engabra

/-- Arithmetic terms over variables. -/
inductive T
  | zero
  | var (n : Nat)
  | add (a b : T)
  | sub (a b : T)
  | mul (a b : T)
  | neg (a : T)
deriving DecidableEq

instance : Zero T := ⟨.zero⟩
instance : Add T := ⟨.add⟩
instance : Sub T := ⟨.sub⟩
instance : Mul T := ⟨.mul⟩
instance : Neg T := ⟨.neg⟩

/-- Value of a term in any number type; `T.ev` into `T` is substitution. -/
def T.ev {α : Type} [Add α] [Sub α] [Mul α] [Neg α] [Zero α] (env : Nat → α) : T → α
  | .zero => 0
  | .var n => env n
  | .add a b => a.ev env + b.ev env
  | .sub a b => a.ev env - b.ev env
  | .mul a b => a.ev env * b.ev env
  | .neg a => - a.ev env

namespace F64

/-- Neither infinite nor NaN. -/
def isFin : F64 → Bool
  | nan => false
  | inf _ => false
  | _ => true

/-- IEEE 754 `fusedMultiplyAdd(x, y, z)`, round to nearest even: the exact value of `x y + z` is
rounded once.  An exact zero is `-0` only when the product and `z` both have a sign bit. -/
def fma (x y z : F64) : F64 :=
  if x.isFin && y.isFin then
    if z.isFin then
      if x.value * y.value + z.value = 0 then zero (xor x.signbit y.signbit && z.signbit)
      else roundTo (x.value * y.value + z.value)
    else z
  else add (mul x y) z

end F64

/-- The factors of a product, and whether it is negated (negations of a product are free). -/
def T.prodOf : T → Option (Bool × T × T)
  | .mul a b => some (false, a, b)
  | .neg a => a.prodOf.map fun p => (!p.1, p.2.1, p.2.2)
  | _ => none

/-- `x` or `-x`. -/
def F64.sgn (s : Bool) (x : F64) : F64 := if s then F64.neg x else x

/-- `Contracted env t c`: a compiler may evaluate the term `t` to `c`.  Each operation is rounded on
its own, except that a sum or difference one of whose operands is a product may be fused with it.
(Different occurrences of the same subterm may be evaluated differently.) -/
inductive Contracted (env : Nat → F64) : T → F64 → Prop
  | zero : Contracted env .zero (F64.zero false)
  | var (n : Nat) : Contracted env (.var n) (env n)
  | neg {a : T} {x : F64} : Contracted env a x → Contracted env (.neg a) (F64.neg x)
  | add {a b : T} {x y : F64} : Contracted env a x → Contracted env b y →
      Contracted env (.add a b) (F64.add x y)
  | sub {a b : T} {x y : F64} : Contracted env a x → Contracted env b y →
      Contracted env (.sub a b) (F64.add x (F64.neg y))
  | mul {a b : T} {x y : F64} : Contracted env a x → Contracted env b y →
      Contracted env (.mul a b) (F64.mul x y)
  | addFusedLeft {p a b c : T} {s : Bool} {x y z : F64} : p.prodOf = some (s, a, b) →
      Contracted env a x → Contracted env b y → Contracted env c z →
      Contracted env (.add p c) (F64.fma (F64.sgn s x) y z)
  | addFusedRight {p a b c : T} {s : Bool} {x y z : F64} : p.prodOf = some (s, a, b) →
      Contracted env a x → Contracted env b y → Contracted env c z →
      Contracted env (.add c p) (F64.fma (F64.sgn s x) y z)
  | subFusedLeft {p a b c : T} {s : Bool} {x y z : F64} : p.prodOf = some (s, a, b) →
      Contracted env a x → Contracted env b y → Contracted env c z →
      Contracted env (.sub p c) (F64.fma (F64.sgn s x) y (F64.neg z))
  | subFusedRight {p a b c : T} {s : Bool} {x y z : F64} : p.prodOf = some (s, a, b) →
      Contracted env a x → Contracted env b y → Contracted env c z →
      Contracted env (.sub c p) (F64.fma (F64.sgn (!s) x) y z)

end Engabra
