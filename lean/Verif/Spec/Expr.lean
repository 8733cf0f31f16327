import Verif.Model.Overload

/-! # Specification: expressions of user programs

An expression over variables `0, 1, 2, ...` with the operators of the library.  `Expr.eval` is
what a C++ program computes: each operator is the overload selected by the operand types, and
`none` means that the expression does not compile.  `Expr.evalMV` is the same expression written
with `MultiVector` objects only, that is, in the geometric algebra. -/

namespace Engabra

/-- Expressions. -/
inductive Expr
  | var (i : Nat)
  | mul (a b : Expr)
  | add (a b : Expr)
  | sub (a b : Expr)
  | neg (a : Expr)
  | reverse (a : Expr)
  | oddverse (a : Expr)
  | dirverse (a : Expr)
  | dual (a : Expr)

namespace Expr

/-- Variables which occur in the expression. -/
def vars : Expr → List Nat
  | var i => [i]
  | mul a b => a.vars ++ b.vars
  | add a b => a.vars ++ b.vars
  | sub a b => a.vars ++ b.vars
  | neg a => a.vars
  | reverse a => a.vars
  | oddverse a => a.vars
  | dirverse a => a.vars
  | dual a => a.vars

/-- The expression and all its subexpressions. -/
def subs : Expr → List Expr
  | var i => [var i]
  | mul a b => mul a b :: (a.subs ++ b.subs)
  | add a b => add a b :: (a.subs ++ b.subs)
  | sub a b => sub a b :: (a.subs ++ b.subs)
  | neg a => neg a :: a.subs
  | reverse a => reverse a :: a.subs
  | oddverse a => oddverse a :: a.subs
  | dirverse a => dirverse a :: a.subs
  | dual a => dual a :: a.subs

/-- Greatest number of sums and differences on a path from the root to a variable. -/
def addDepth : Expr → Nat
  | var _ => 0
  | mul a b => max a.addDepth b.addDepth
  | add a b => max a.addDepth b.addDepth + 1
  | sub a b => max a.addDepth b.addDepth + 1
  | neg a => a.addDepth
  | reverse a => a.addDepth
  | oddverse a => a.addDepth
  | dirverse a => a.addDepth
  | dual a => a.addDepth

/-- No products. -/
def prodFree : Expr → Prop
  | var _ => True
  | mul _ _ => False
  | add a b => a.prodFree ∧ b.prodFree
  | sub a b => a.prodFree ∧ b.prodFree
  | neg a => a.prodFree
  | reverse a => a.prodFree
  | oddverse a => a.prodFree
  | dirverse a => a.prodFree
  | dual a => a.prodFree

variable {α : Type} [Add α] [Sub α] [Mul α] [Neg α] [Zero α]

/-- Value of the C++ expression when variable `i` holds `env i`; `none`: it does not compile. -/
def eval (env : Nat → Sigma fun t : Ty => t.D α) : Expr → Option (Sigma fun t : Ty => t.D α)
  | var i => some (env i)
  | mul a b => (a.eval env).bind fun x => (b.eval env).map fun y =>
      ⟨mulRes x.1 y.1, mulTy x.1 y.1 x.2 y.2⟩
  | add a b => (a.eval env).bind fun x => (b.eval env).bind fun y => addTy x.1 y.1 x.2 y.2
  | sub a b => (a.eval env).bind fun x => (b.eval env).bind fun y => subTy x.1 y.1 x.2 y.2
  | neg a => (a.eval env).map fun x => ⟨x.1, negTy x.1 x.2⟩
  | reverse a => (a.eval env).map fun x => ⟨x.1, reverseTy x.1 x.2⟩
  | oddverse a => (a.eval env).map fun x => ⟨x.1, oddverseTy x.1 x.2⟩
  | dirverse a => (a.eval env).map fun x => ⟨x.1, dirverseTy x.1 x.2⟩
  | dual a => (a.eval env).map fun x => ⟨dualRes x.1, dualTy x.1 x.2⟩

/-- The expression in the algebra of multivectors. -/
def evalMV (env : Nat → MultiVector α) : Expr → MultiVector α
  | var i => env i
  | mul a b => a.evalMV env * b.evalMV env
  | add a b => a.evalMV env + b.evalMV env
  | sub a b => a.evalMV env - b.evalMV env
  | neg a => - a.evalMV env
  | reverse a => Engabra.reverse (a.evalMV env)
  | oddverse a => Engabra.oddverse (a.evalMV env)
  | dirverse a => Engabra.dirverse (a.evalMV env)
  | dual a => Engabra.dual (a.evalMV env)

end Expr
end Engabra
