import Verif.Spec.Euclid
import Verif.Spec.Expr

/-! # Specification: a change of axes

A change from one orthonormal frame to another maps the triple of coordinates of every vector to
a new triple.  It is linear, keeps dot products, and keeps cross products up to the sign `sgn`,
which is `1` when both frames have the same handedness and `-1` when they have not.

`turnTy C t x` are the components in the new frame of the object whose components in the old
frame are those of `x`: scalars stay, the components of a vector change like coordinates, the
components of a bivector change like those of the plane's normal, with the sign of the change,
and a trivector takes the sign. -/

namespace Spec

/-- A change of orthonormal axes in coordinates. -/
structure AxisChange (α : Type) [CommRing α] where
  /-- new coordinates of the vector with the given old coordinates -/
  map : V3 α → V3 α
  /-- `1`: same handedness, `-1`: opposite handedness -/
  sgn : α
  sgn_sq : sgn * sgn = 1
  map_add : ∀ a b, map (add a b) = add (map a) (map b)
  map_smul : ∀ s a, map (smul s a) = smul s (map a)
  dot_map : ∀ a b, dot (map a) (map b) = dot a b
  cross_map : ∀ a b, cross (map a) (map b) = smul sgn (map (cross a b))

end Spec

namespace Engabra
open Spec

section
variable {α : Type} [CommRing α]

/-- Components of a vector in the new frame. -/
def turnVec (C : AxisChange α) (v : Vector α) : Vector α :=
  let w := C.map ⟨v.theData.d0, v.theData.d1, v.theData.d2⟩
  ⟨⟨w.x, w.y, w.z⟩⟩
/-- Components of a bivector in the new frame. -/
def turnBiv (C : AxisChange α) (b : BiVector α) : BiVector α :=
  let w := C.map ⟨b.theData.d0, b.theData.d1, b.theData.d2⟩
  ⟨⟨C.sgn * w.x, C.sgn * w.y, C.sgn * w.z⟩⟩
/-- Component of a trivector in the new frame. -/
def turnTri (C : AxisChange α) (t : TriVector α) : TriVector α := ⟨⟨C.sgn * t.theData.d0⟩⟩

/-- Components of an object of any type in the new frame. -/
def turnTy (C : AxisChange α) : (t : Ty) → t.D α → t.D α
  | .dub, x => x
  | .sca, x => x
  | .vec, x => turnVec C x
  | .biv, x => turnBiv C x
  | .tri, x => turnTri C x
  | .spin, x => ⟨x.theSca, turnBiv C x.theBiv⟩
  | .imsp, x => ⟨turnVec C x.theVec, turnTri C x.theTri⟩
  | .cplx, x => ⟨x.theSca, turnTri C x.theTri⟩
  | .dplx, x => ⟨turnVec C x.theVec, turnBiv C x.theBiv⟩
  | .mv, x => ⟨x.theSca, turnVec C x.theVec, turnBiv C x.theBiv, turnTri C x.theTri⟩

/-- The same with the type as part of the value. -/
def turnObj (C : AxisChange α) (x : Sigma fun t : Ty => t.D α) : Sigma fun t : Ty => t.D α :=
  ⟨x.1, turnTy C x.1 x.2⟩
end

/-- The expression does not call `dual`. -/
def Expr.dualFree : Expr → Prop
  | .var _ => True
  | .mul a b => a.dualFree ∧ b.dualFree
  | .add a b => a.dualFree ∧ b.dualFree
  | .sub a b => a.dualFree ∧ b.dualFree
  | .neg a => a.dualFree
  | .reverse a => a.dualFree
  | .oddverse a => a.dualFree
  | .dirverse a => a.dualFree
  | .dual _ => False

end Engabra
