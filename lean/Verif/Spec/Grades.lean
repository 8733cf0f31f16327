import Verif.Spec.Euclid
import Verif.Model.Overload
import Mathlib.Data.Real.Basic

/-! Specification: the grades held by each library type, and blades, for C55. -/

namespace Spec

open Engabra

/-- The grades a value of each type can hold, as the documentation of the types says
(`g3type.hpp`: "Scalar grade 0", "Spinor: Scalar + BiVector", ...). -/
def gradesOf : Ty → List Nat
  | .dub => [0]
  | .sca => [0]
  | .vec => [1]
  | .biv => [2]
  | .tri => [3]
  | .spin => [0, 2]
  | .imsp => [1, 3]
  | .cplx => [0, 3]
  | .dplx => [1, 2]
  | .mv => [0, 1, 2, 3]

/-- The grade of component `k`, in the order scalar, e1, e2, e3, e23, e31, e12, e123. -/
def gradeOf : Fin 8 → Nat
  | 0 => 0
  | 1 | 2 | 3 => 1
  | 4 | 5 | 6 => 2
  | 7 => 3

/-- The vector with the given coordinates, as a multivector. -/
def vecMV {α : Type} [Zero α] (a : V3 α) : MultiVector α := ⟨⟨⟨0⟩⟩, ⟨⟨a.x, a.y, a.z⟩⟩, ⟨⟨0, 0, 0⟩⟩, ⟨⟨0⟩⟩⟩

/-- A blade of grade `g` (Hestenes): a product of `g` mutually orthogonal vectors, or a number
for `g = 0`. -/
def IsBlade : Nat → MultiVector ℝ → Prop
  | 0, A => ∃ c : ℝ, A = ⟨⟨⟨c⟩⟩, ⟨⟨0, 0, 0⟩⟩, ⟨⟨0, 0, 0⟩⟩, ⟨⟨0⟩⟩⟩
  | 1, A => ∃ a : V3 ℝ, A = vecMV a
  | 2, A => ∃ a b : V3 ℝ, dot a b = 0 ∧ A = vecMV a * vecMV b
  | 3, A => ∃ a b c : V3 ℝ, dot a b = 0 ∧ dot a c = 0 ∧ dot b c = 0
      ∧ A = vecMV a * vecMV b * vecMV c
  | _, _ => False

end Spec
