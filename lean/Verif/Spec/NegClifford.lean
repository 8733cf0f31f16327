import Verif.Spec.Exp
import Mathlib.LinearAlgebra.CliffordAlgebra.Fold
import Mathlib.LinearAlgebra.QuadraticForm.Basic

/-! # Specification: the exponential series in the Clifford algebra with negative squares

Mathlib's universal Clifford algebra for the quadratic form `-(x² + y² + z²)`, and the series
`Σ A^n / n!` with its powers. -/

namespace Spec

/-- The quadratic form `v ↦ -(v₀² + v₁² + v₂²)`. -/
def negEuclid : QuadraticForm ℝ (Fin 3 → ℝ) :=
  QuadraticMap.weightedSumSquares ℝ (fun _ : Fin 3 => (-1 : ℝ))

theorem negEuclid_apply (v : Fin 3 → ℝ) :
    negEuclid v = -(v 0 * v 0 + v 1 * v 1 + v 2 * v 2) := by
  simp [negEuclid, QuadraticMap.weightedSumSquares_apply, Fin.sum_univ_three]

/-- Mathlib's Clifford algebra in which the three unit vectors square to `-1`. -/
abbrev ClN := CliffordAlgebra negEuclid

/-- The unit vectors of `ClN`. -/
noncomputable def N (i : Fin 3) : ClN := CliffordAlgebra.ι negEuclid (Pi.single i 1)

open Engabra in
/-- The element of `ClN` with the coefficients of `A` on
`1, e1, e2, e3, e2 e3, e3 e1, e1 e2, e1 e2 e3`. -/
noncomputable def toClN (A : MultiVector ℝ) : ClN :=
  A.theSca.theData.d0 • 1
  + A.theVec.theData.d0 • N 0 + A.theVec.theData.d1 • N 1 + A.theVec.theData.d2 • N 2
  + A.theBiv.theData.d0 • (N 1 * N 2) + A.theBiv.theData.d1 • (N 2 * N 0)
  + A.theBiv.theData.d2 • (N 0 * N 1)
  + A.theTri.theData.d0 • (N 0 * (N 1 * N 2))

open Engabra in
/-- `E` is the sum of the series `Σ A^n / n!` with the powers taken in `ClN`, in each component. -/
def IsExpN (A E : MultiVector ℝ) : Prop :=
  ∃ P : ℕ → MultiVector ℝ, (∀ n, toClN (P n) = toClN A ^ n) ∧
    ∀ k < 8, HasSum (fun n : ℕ => ((comps .mv (P n)).getD k 0) / n.factorial)
      ((comps .mv E).getD k 0)

end Spec
