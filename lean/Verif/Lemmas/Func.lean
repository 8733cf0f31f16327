import Verif.Lemmas.Tactic
import Verif.Model.Func

/-! Unfolding lemmas for the ring-valued functions of `g3func.hpp`, and selection by type. -/

namespace Engabra
set_option linter.unusedSectionVars false

section
variable {α : Type} [Add α] [Sub α] [Mul α] [Neg α] [Zero α]

attribute [engabra] sq cube magSqDub
@[engabra] theorem magSqSca (x : Scalar α) : magSq x = prodComm1 x.theData x.theData := rfl
@[engabra] theorem magSqVec (x : Vector α) : magSq x = prodComm x.theData x.theData := rfl
@[engabra] theorem magSqBiv (x : BiVector α) : magSq x = prodComm x.theData x.theData := rfl
@[engabra] theorem magSqTri (x : TriVector α) : magSq x = prodComm1 x.theData x.theData := rfl
@[engabra] theorem magSqSpin (x : Spinor α) :
    magSq x = sq x.theSca.theData.d0 + magSq x.theBiv := rfl
@[engabra] theorem magSqImsp (x : ImSpin α) :
    magSq x = magSq x.theVec + sq x.theTri.theData.d0 := rfl
@[engabra] theorem magSqCplx (x : ComPlex α) : magSq x = magSq x.theSca + magSq x.theTri := rfl
@[engabra] theorem magSqDplx (x : DirPlex α) : magSq x = magSq x.theVec + magSq x.theBiv := rfl
@[engabra] theorem magSqMv (x : MultiVector α) :
    magSq x = sq x.theSca.theData.d0 + magSq x.theVec + magSq x.theBiv + sq x.theTri.theData.d0 :=
  rfl
@[engabra] theorem ampSqSca (x : Scalar α) : ampSq x = ⟨⟨⟨magSq x⟩⟩, gzero⟩ := rfl
@[engabra] theorem ampSqVec (x : Vector α) : ampSq x = ⟨⟨⟨-magSq x⟩⟩, gzero⟩ := rfl
@[engabra] theorem ampSqBiv (x : BiVector α) : ampSq x = ⟨⟨⟨magSq x⟩⟩, gzero⟩ := rfl
@[engabra] theorem ampSqTri (x : TriVector α) : ampSq x = ⟨⟨⟨-magSq x⟩⟩, gzero⟩ := rfl
@[engabra] theorem ampSqSpin (x : Spinor α) :
    ampSq x = ⟨⟨⟨magSq x.theSca + magSq x.theBiv⟩⟩, gzero⟩ := rfl
@[engabra] theorem ampSqImsp (x : ImSpin α) :
    ampSq x = ⟨⟨⟨-(magSq x.theVec + magSq x.theTri)⟩⟩, gzero⟩ := rfl
section
variable [OfNat α 2]
@[engabra] theorem ampSqCplx (x : ComPlex α) :
    ampSq x = ⟨⟨⟨sq x.theSca.theData.d0 - sq x.theTri.theData.d0⟩⟩,
      ⟨⟨2 * x.theSca.theData.d0 * x.theTri.theData.d0⟩⟩⟩ := rfl
@[engabra] theorem ampSqDplx (x : DirPlex α) :
    ampSq x = ⟨⟨⟨-(magSq x.theVec - magSq x.theBiv)⟩⟩,
      ⟨⟨-(2 * prodComm x.theVec.theData x.theBiv.theData)⟩⟩⟩ := rfl
@[engabra] theorem ampSqMv (x : MultiVector α) :
    ampSq x = ⟨⟨⟨magSq x.theSca - magSq x.theVec - -magSq x.theBiv + -magSq x.theTri⟩⟩,
      ⟨⟨2 * (x.theSca.theData.d0 * x.theTri.theData.d0
        - prodComm x.theVec.theData x.theBiv.theData)⟩⟩⟩ := rfl
end

/-- `magSq` selected by type. -/
def magSqTy : (t : Ty) → t.D α → α
  | .dub, x => magSqDub x
  | .sca, x => magSq x
  | .vec, x => magSq x
  | .biv, x => magSq x
  | .tri, x => magSq x
  | .spin, x => magSq x
  | .imsp, x => magSq x
  | .cplx, x => magSq x
  | .dplx, x => magSq x
  | .mv, x => magSq x

/-- `ampSq` selected by type (there is no overload for `double`). -/
def ampSqTy [OfNat α 2] : (t : Ty) → t.D α → Option (ComPlex α)
  | .dub, _ => none
  | .sca, x => some (ampSq x)
  | .vec, x => some (ampSq x)
  | .biv, x => some (ampSq x)
  | .tri, x => some (ampSq x)
  | .spin, x => some (ampSq x)
  | .imsp, x => some (ampSq x)
  | .cplx, x => some (ampSq x)
  | .dplx, x => some (ampSq x)
  | .mv, x => some (ampSq x)
attribute [engabra] magSqTy ampSqTy
end

end Engabra
