import Verif.Props.C09_Access
import Verif.Lemmas.Tactic
import Mathlib.Topology.Algebra.InfiniteSum.Defs
import Mathlib.Topology.Instances.Real.Lemmas

/-! Specification of the exponential: the power series, with powers taken by the library
product, convergent in every component. -/

namespace Spec
open Engabra

/-- `A^n` by repeated use of the library's `MultiVector * MultiVector`. -/
def powMv (A : MultiVector ℝ) : ℕ → MultiVector ℝ
  | 0 => gone
  | n + 1 => powMv A n * A

/-- `E` is the sum of the series `Σ A^n / n!`, in each of the eight components. -/
def IsExp (A E : MultiVector ℝ) : Prop :=
  ∀ k < 8, HasSum (fun n : ℕ => ((comps .mv (powMv A n)).getD k 0) / n.factorial)
    ((comps .mv E).getD k 0)

end Spec
