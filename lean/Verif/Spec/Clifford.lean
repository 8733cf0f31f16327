import Mathlib.LinearAlgebra.CliffordAlgebra.Fold
import Mathlib.LinearAlgebra.QuadraticForm.Basic

/-! # Specification: the Clifford algebra of Euclidean 3-space

Independent of the modelled code: Mathlib's universal Clifford algebra for the quadratic
form `x² + y² + z²`, and the sign rule for products of basis blades. -/

namespace Spec

/-- The quadratic form `v ↦ v₀² + v₁² + v₂²` on triples. -/
def euclid (R : Type) [CommRing R] : QuadraticForm R (Fin 3 → R) :=
  QuadraticMap.weightedSumSquares R (fun _ : Fin 3 => (1 : R))

theorem euclid_apply {R : Type} [CommRing R] (v : Fin 3 → R) :
    euclid R v = v 0 * v 0 + v 1 * v 1 + v 2 * v 2 := by
  simp [euclid, QuadraticMap.weightedSumSquares_apply, Fin.sum_univ_three]

/-- The Clifford algebra of Euclidean 3-space. -/
abbrev Cl3 (R : Type) [CommRing R] := CliffordAlgebra (euclid R)

/-- The generator of `Cl3` for the vector `v`. -/
abbrev gen {R : Type} [CommRing R] (v : Fin 3 → R) : Cl3 R := CliffordAlgebra.ι (euclid R) v

/-! ## Basis blades as subsets of `{0,1,2}`

A basis blade is a set of generator indices, coded as a bit mask `m < 8`
(bit `i` set: generator `eᵢ₊₁` is a factor, factors in increasing order).
The product of two basis blades is, up to sign, the blade of the symmetric difference;
the sign counts the transpositions needed to sort the factors. -/

/-- Number of pairs `(i, j)` with `i ∈ a`, `j ∈ b`, `j < i`. -/
def swaps (a b : Nat) : Nat :=
  (List.range 3).foldl (fun n i => (List.range 3).foldl (fun n j =>
    if a.testBit i && b.testBit j && decide (j < i) then n + 1 else n) n) 0

/-- Sign of the product of the basis blades `a` and `b`. -/
def bladeSign (a b : Nat) : Int := if swaps a b % 2 = 0 then 1 else -1

/-- The product of two elements given by their coefficients on the eight basis blades. -/
def bladeMul {R : Type} [CommRing R] (x y : Fin 8 → R) (m : Fin 8) : R :=
  ∑ a : Fin 8, ∑ b : Fin 8,
    if a.val ^^^ b.val = m.val then (bladeSign a b : R) * (x a * y b) else 0

end Spec
