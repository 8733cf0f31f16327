import Verif.Model.Num
import Verif.Model.Const

/-! # Validity tests (`g3validity.hpp`) -/

namespace Engabra

variable {α : Type} [Dbl α]

/-- `isValid(double)`: `g3validity.hpp:83-91`. -/
def isValidDub (dub : α) : Bool := Dbl.isnormal dub || Dbl.feq 0 dub

/-- Outcome of code that has undefined behaviour on some inputs. -/
inductive Run (β : Type) where
  /-- undefined behaviour -/
  | ub
  | ok (b : β)
  deriving DecidableEq, Repr

/-- The loop of `isValid(std::array)`: `okay &= isValid(data[ndx])` for the elements from
index 1 (`&=` on `bool` does not short-circuit; the elements are pure). -/
def isValidLoop (okay : Bool) : List α → Bool
  | [] => okay
  | x :: xs => isValidLoop (okay && isValidDub x) xs

/-- `isValid(std::array<double, Dim>)`: `g3validity.hpp:98-111`.  A `std::array` is the list of
its elements.  For `Dim = 0` the code reads `data[0]`: undefined behaviour. -/
def isValidArr : List α → Run Bool
  | [] => .ub
  | x :: xs => .ok (isValidLoop (isValidDub x) xs)

/-- `isValid(x)` for the nine types. -/
class IsValid (T : Type) where
  isValid : T → Bool
export IsValid (isValid)

/-- `isValid(Blade)`, `g3validity.hpp:114-125`, looks at the first component only. -/
instance : IsValid (Scalar α) := ⟨fun blade => isValidDub blade.theData.d0⟩
/-- `g3validity.hpp:114-125` -/
instance : IsValid (Vector α) := ⟨fun blade => isValidDub blade.theData.d0⟩
/-- `g3validity.hpp:114-125` -/
instance : IsValid (BiVector α) := ⟨fun blade => isValidDub blade.theData.d0⟩
/-- `g3validity.hpp:114-125` -/
instance : IsValid (TriVector α) := ⟨fun blade => isValidDub blade.theData.d0⟩
/-- `g3validity.hpp:127-135` -/
instance : IsValid (Spinor α) := ⟨fun spin => isValid spin.theSca && isValid spin.theBiv⟩
/-- `g3validity.hpp:137-145` -/
instance : IsValid (ImSpin α) := ⟨fun imsp => isValid imsp.theVec && isValid imsp.theTri⟩
/-- `g3validity.hpp:147-155` -/
instance : IsValid (ComPlex α) := ⟨fun cplx => isValid cplx.theSca && isValid cplx.theTri⟩
/-- `g3validity.hpp:157-165` -/
instance : IsValid (DirPlex α) := ⟨fun dplx => isValid dplx.theVec && isValid dplx.theBiv⟩
/-- `g3validity.hpp:167-180` -/
instance : IsValid (MultiVector α) := ⟨fun mv =>
  isValid mv.theSca && isValid mv.theVec && isValid mv.theBiv && isValid mv.theTri⟩

end Engabra
