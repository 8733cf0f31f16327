import Mathlib.Algebra.Ring.Defs

/-! Specification: Euclidean 3-space in coordinates, independent of the library types. -/

namespace Spec

/-- A point of 3-space as a triple. -/
structure V3 (α : Type) where
  x : α
  y : α
  z : α
  deriving DecidableEq

section
variable {α : Type} [CommRing α]
/-- dot product -/
def dot (a b : V3 α) : α := a.x * b.x + a.y * b.y + a.z * b.z
/-- cross product -/
def cross (a b : V3 α) : V3 α :=
  ⟨a.y * b.z - a.z * b.y, a.z * b.x - a.x * b.z, a.x * b.y - a.y * b.x⟩
/-- sum -/
def add (a b : V3 α) : V3 α := ⟨a.x + b.x, a.y + b.y, a.z + b.z⟩
/-- scaling -/
def smul (s : α) (a : V3 α) : V3 α := ⟨s * a.x, s * a.y, s * a.z⟩
/-- origin -/
def zero : V3 α := ⟨0, 0, 0⟩
/-- triple product (oriented volume) -/
def det (a b c : V3 α) : α := dot a (cross b c)
/-- linear dependence -/
def Parallel (a b : V3 α) : Prop := ∃ s t : α, (s ≠ 0 ∨ t ≠ 0) ∧ smul s a = smul t b
end

end Spec
