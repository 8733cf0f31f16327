import Verif.Model.Overload
import Verif.Model.Compare
import Verif.Lemmas.Func

/-! # The function templates, with the type argument as a value

`pairMagDirFrom<T>`, `magnitude<T>` etc. are C++ templates.  Here the template argument is a
`Ty`; the lemmas show that at each struct type the result is the corresponding instance of the
definitions in `Func.lean` / `Validity.lean`. -/

namespace Engabra

/-- Apply a function to every component. -/
def mapTy {α β : Type} (f : α → β) : (t : Ty) → t.D α → t.D β
  | .dub, x => f x
  | .sca, x => ⟨⟨f x.theData.d0⟩⟩
  | .vec, x => ⟨⟨f x.theData.d0, f x.theData.d1, f x.theData.d2⟩⟩
  | .biv, x => ⟨⟨f x.theData.d0, f x.theData.d1, f x.theData.d2⟩⟩
  | .tri, x => ⟨⟨f x.theData.d0⟩⟩
  | .spin, x => ⟨⟨⟨f x.theSca.theData.d0⟩⟩,
      ⟨⟨f x.theBiv.theData.d0, f x.theBiv.theData.d1, f x.theBiv.theData.d2⟩⟩⟩
  | .imsp, x => ⟨⟨⟨f x.theVec.theData.d0, f x.theVec.theData.d1, f x.theVec.theData.d2⟩⟩,
      ⟨⟨f x.theTri.theData.d0⟩⟩⟩
  | .cplx, x => ⟨⟨⟨f x.theSca.theData.d0⟩⟩, ⟨⟨f x.theTri.theData.d0⟩⟩⟩
  | .dplx, x => ⟨⟨⟨f x.theVec.theData.d0, f x.theVec.theData.d1, f x.theVec.theData.d2⟩⟩,
      ⟨⟨f x.theBiv.theData.d0, f x.theBiv.theData.d1, f x.theBiv.theData.d2⟩⟩⟩
  | .mv, x => ⟨⟨⟨f x.theSca.theData.d0⟩⟩,
      ⟨⟨f x.theVec.theData.d0, f x.theVec.theData.d1, f x.theVec.theData.d2⟩⟩,
      ⟨⟨f x.theBiv.theData.d0, f x.theBiv.theData.d1, f x.theBiv.theData.d2⟩⟩,
      ⟨⟨f x.theTri.theData.d0⟩⟩⟩

section
variable {α : Type} [Add α] [Sub α] [Mul α] [Neg α] [Zero α]
/-- `double * T` returns a `T`: `g3opsMul_double.hpp` (at `double`: the built-in product). -/
def smulTy : (t : Ty) → α → t.D α → t.D α
  | .dub, s, x => (s * (show α from x) : α)
  | .sca, s, x => s * (show Scalar α from x)
  | .vec, s, x => s * (show Vector α from x)
  | .biv, s, x => s * (show BiVector α from x)
  | .tri, s, x => s * (show TriVector α from x)
  | .spin, s, x => s * (show Spinor α from x)
  | .imsp, s, x => s * (show ImSpin α from x)
  | .cplx, s, x => s * (show ComPlex α from x)
  | .dplx, s, x => s * (show DirPlex α from x)
  | .mv, s, x => s * (show MultiVector α from x)
attribute [engabra] smulTy
end

/-- `null<T>()`: `g3const.hpp:119-223`. -/
def gnullTy {α : Type} [Zero α] (nan : α) : (t : Ty) → t.D α
  | .dub => nan
  | .sca => gnull nan
  | .vec => gnull nan
  | .biv => gnull nan
  | .tri => gnull nan
  | .spin => gnull nan
  | .imsp => gnull nan
  | .cplx => gnull nan
  | .dplx => gnull nan
  | .mv => gnull nan

/-- `zero<T>()`: `g3const.hpp:229-337`. -/
def gzeroTy {α : Type} [Zero α] : (t : Ty) → t.D α
  | .dub => (0 : α)
  | .sca => gzero
  | .vec => gzero
  | .biv => gzero
  | .tri => gzero
  | .spin => gzero
  | .imsp => gzero
  | .cplx => gzero
  | .dplx => gzero
  | .mv => gzero

/-- `one<T>()`: `g3const.hpp:343-395`. -/
def goneTy {α : Type} [Zero α] [One α] : (t : Ty) → t.D α
  | .dub => (1 : α)
  | .sca => gone
  | .vec => gone
  | .biv => gone
  | .tri => gone
  | .spin => gone
  | .imsp => gone
  | .cplx => gone
  | .dplx => gone
  | .mv => gone

section
variable {α : Type} [Dbl α]

/-- `magnitude<T>`: `g3func.hpp:223-232`. -/
def magnitudeTy (t : Ty) (x : t.D α) : α := Dbl.sqrt (magSqTy t x)

/-- `pairMagDirFrom<T>`: `g3func.hpp:234-256`. -/
def pairMagDirTy (t : Ty) (x : t.D α) : α × t.D α :=
  let mag := magnitudeTy t x
  if Dbl.lt (Dbl.denormMin α) mag then (mag, smulTy t (1 / mag) x) else (mag, gnullTy Dbl.nan t)

/-- `direction<T>`: `g3func.hpp:433-445`. -/
def directionTy (t : Ty) (x : t.D α) : t.D α := (pairMagDirTy t x).2

/-- `isValid` by type: `g3validity.hpp:83-180`. -/
def isValidTy : (t : Ty) → t.D α → Bool
  | .dub, x => isValidDub x
  | .sca, x => isValid x
  | .vec, x => isValid x
  | .biv, x => isValid x
  | .tri, x => isValid x
  | .spin, x => isValid x
  | .imsp, x => isValid x
  | .cplx, x => isValid x
  | .dplx, x => isValid x
  | .mv, x => isValid x

/-- `nearlyEquals` by type: `g3compare.hpp:213-399`. -/
def nearlyEqualsTy : (t : Ty) → t.D α → t.D α → α → Run Bool
  | .dub, x, y, tol => .ok (nearlyEqualsDub x y tol)
  | .sca, x, y, tol => nearlyEquals x y tol
  | .vec, x, y, tol => nearlyEquals x y tol
  | .biv, x, y, tol => nearlyEquals x y tol
  | .tri, x, y, tol => nearlyEquals x y tol
  | .spin, x, y, tol => nearlyEquals x y tol
  | .imsp, x, y, tol => nearlyEquals x y tol
  | .cplx, x, y, tol => nearlyEquals x y tol
  | .dplx, x, y, tol => nearlyEquals x y tol
  | .mv, x, y, tol => nearlyEquals x y tol

/-- `operator==` by type: `g3compare.hpp:421-507` (built in for `double`); `none` for the two
types without the operator. -/
def geqTy : (t : Ty) → t.D α → t.D α → Option Bool
  | .dub, x, y => some (Dbl.feq x y)
  | .sca, x, y => some (geq x y)
  | .vec, x, y => some (geq x y)
  | .biv, x, y => some (geq x y)
  | .tri, x, y => some (geq x y)
  | .spin, x, y => some (geq x y)
  | .imsp, x, y => some (geq x y)
  | .cplx, _, _ => none
  | .dplx, _, _ => none
  | .mv, x, y => some (geq x y)

/-- The template definitions agree with the class-based ones. -/
theorem pairMagDirTy_eq :
    (∀ x : Scalar α, pairMagDirTy .sca x = pairMagDirFrom x) ∧
    (∀ x : Vector α, pairMagDirTy .vec x = pairMagDirFrom x) ∧
    (∀ x : BiVector α, pairMagDirTy .biv x = pairMagDirFrom x) ∧
    (∀ x : TriVector α, pairMagDirTy .tri x = pairMagDirFrom x) ∧
    (∀ x : Spinor α, pairMagDirTy .spin x = pairMagDirFrom x) ∧
    (∀ x : ImSpin α, pairMagDirTy .imsp x = pairMagDirFrom x) ∧
    (∀ x : ComPlex α, pairMagDirTy .cplx x = pairMagDirFrom x) ∧
    (∀ x : DirPlex α, pairMagDirTy .dplx x = pairMagDirFrom x) ∧
    (∀ x : MultiVector α, pairMagDirTy .mv x = pairMagDirFrom x) :=
  ⟨fun _ => rfl, fun _ => rfl, fun _ => rfl, fun _ => rfl, fun _ => rfl, fun _ => rfl,
   fun _ => rfl, fun _ => rfl, fun _ => rfl⟩
end

end Engabra
