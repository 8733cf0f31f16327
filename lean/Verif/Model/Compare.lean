import Verif.Model.Func

/-! # Comparisons (`g3compare.hpp`) -/

namespace Engabra

variable {α : Type} [Dbl α]

/-- `isSmallAbs`: `g3compare.hpp:100-109`. -/
def isSmallAbs (testVal tol : α) : Bool := Dbl.lt (Dbl.abs testVal) tol

/-- `isSmallAbsDiff`: `g3compare.hpp:111-122`. -/
def isSmallAbsDiff (testVal refVal tol : α) : Bool := isSmallAbs (testVal - refVal) tol

/-- `bothAreValid`: `g3compare.hpp:124-133`. -/
def bothAreValid (valA valB : α) : Bool := isValidDub valA && isValidDub valB

/-- `nearlyEqualsAbs`: `g3compare.hpp:155-169`. -/
def nearlyEqualsAbs (testVal refVal tol : α) : Bool :=
  if bothAreValid testVal refVal then isSmallAbsDiff testVal refVal tol else false

/-- `nearlyEqualsRel`: `g3compare.hpp:175-207`. -/
def nearlyEqualsRel (testVal refVal tol : α) : Bool :=
  if bothAreValid testVal refVal then
    let pad : α := 1 / Dbl.epsilon α
    let small := Dbl.minDub α
    let tolToZero := small * pad
    if Dbl.lt (Dbl.abs refVal) tolToZero then isSmallAbsDiff testVal refVal tol
    else
      let testNorm := testVal / refVal
      isSmallAbsDiff testNorm 1 tol
  else false

/-- `nearlyEquals(double, double)`: `g3compare.hpp:213-222`. -/
def nearlyEqualsDub (testVal refVal tol : α) : Bool := nearlyEqualsRel testVal refVal tol

/-- `nearlyEquals(bool, bool)`: `g3compare.hpp:228-237`. -/
def nearlyEqualsBool (boolA boolB : Bool) : Bool := boolA == boolB

/-- `std::inner_product(a.begin, a.end, a.begin, init)`: `acc = acc + a*a` from the left. -/
def innerProduct (init : α) : List α → α
  | [] => init
  | x :: xs => innerProduct (init + x * x) xs

/-- The small-reference loop `g3compare.hpp:283-287`: stops at the first difference. -/
def smallLoop (tol : α) (same : Bool) : List α → List α → Bool
  | x :: xs, y :: ys => if same then smallLoop tol (isSmallAbsDiff x y tol) xs ys else same
  | _, _ => same

/-- The difference loop `g3compare.hpp:295-300`: `magSqDif += dif * dif`. -/
def difLoop (magSqDif : α) : List α → List α → α
  | x :: xs, y :: ys =>
    let dif := x - y
    difLoop (magSqDif + dif * dif) xs ys
  | _, _ => magSqDif

/-- `nearlyEquals(std::array, std::array)`: `g3compare.hpp:239-306`.  Both lists have the
same length `Dim`; for `Dim = 0` the code has undefined behaviour (`data[0]`). -/
def nearlyEqualsArr (dataGot dataRef : List α) (tol : α) : Run Bool :=
  match isValidArr dataGot, isValidArr dataRef with
  | .ub, _ => .ub
  | .ok false, _ => .ok false
  | .ok true, .ub => .ub
  | .ok true, .ok false => .ok false
  | .ok true, .ok true =>
    let minDub := Dbl.minDub α
    let magSqRef := innerProduct 0 dataRef
    let magRef := Dbl.sqrt magSqRef
    if Dbl.lt magRef minDub then
      match dataGot, dataRef with
      | x :: xs, y :: ys => .ok (smallLoop tol (nearlyEqualsAbs x y tol) xs ys)
      | _, _ => .ub
    else
      let magSqDif := difLoop 0 dataGot dataRef
      let gotMagRel := Dbl.sqrt (magSqDif / magSqRef)
      .ok (isSmallAbs gotMagRel tol)

/-- Elements of the blade arrays. -/
def A1.toList {α : Type} (a : A1 α) : List α := [a.d0]
/-- Elements of the blade arrays. -/
def A3.toList {α : Type} (a : A3 α) : List α := [a.d0, a.d1, a.d2]

/-- The boolean of a run; undefined behaviour is excluded by `nearlyEqualsArr` being called
with one or three elements only (proved in `C25_array_defined` and `C25_defined`). -/
def Run.get (d : Bool) : Run Bool → Bool
  | .ub => d
  | .ok b => b

/-- `nearlyEquals(x, y, tol)` for the nine struct types. -/
class NearlyEquals (T : Type) (α : outParam Type) where
  nearlyEquals : T → T → α → Run Bool
export NearlyEquals (nearlyEquals)

/-- `&&` of two tests: the second is not evaluated when the first is false. -/
def Run.and (a : Run Bool) (b : Run Bool) : Run Bool :=
  match a with
  | .ub => .ub
  | .ok false => .ok false
  | .ok true => b

/-- `g3compare.hpp:308-322` -/
instance : NearlyEquals (Scalar α) α :=
  ⟨fun a b tol => nearlyEqualsArr a.theData.toList b.theData.toList tol⟩
/-- `g3compare.hpp:308-322` -/
instance : NearlyEquals (Vector α) α :=
  ⟨fun a b tol => nearlyEqualsArr a.theData.toList b.theData.toList tol⟩
/-- `g3compare.hpp:308-322` -/
instance : NearlyEquals (BiVector α) α :=
  ⟨fun a b tol => nearlyEqualsArr a.theData.toList b.theData.toList tol⟩
/-- `g3compare.hpp:308-322` -/
instance : NearlyEquals (TriVector α) α :=
  ⟨fun a b tol => nearlyEqualsArr a.theData.toList b.theData.toList tol⟩
/-- `g3compare.hpp:324-337` -/
instance : NearlyEquals (Spinor α) α := ⟨fun a b tol =>
  (nearlyEquals a.theSca b.theSca tol).and (nearlyEquals a.theBiv b.theBiv tol)⟩
/-- `g3compare.hpp:339-352` -/
instance : NearlyEquals (ImSpin α) α := ⟨fun a b tol =>
  (nearlyEquals a.theVec b.theVec tol).and (nearlyEquals a.theTri b.theTri tol)⟩
/-- `g3compare.hpp:354-367` -/
instance : NearlyEquals (ComPlex α) α := ⟨fun a b tol =>
  (nearlyEquals a.theSca b.theSca tol).and (nearlyEquals a.theTri b.theTri tol)⟩
/-- `g3compare.hpp:369-382` -/
instance : NearlyEquals (DirPlex α) α := ⟨fun a b tol =>
  (nearlyEquals a.theVec b.theVec tol).and (nearlyEquals a.theBiv b.theBiv tol)⟩
/-- `g3compare.hpp:384-399` -/
instance : NearlyEquals (MultiVector α) α := ⟨fun a b tol =>
  (((nearlyEquals a.theSca b.theSca tol).and (nearlyEquals a.theVec b.theVec tol)).and
    (nearlyEquals a.theBiv b.theBiv tol)).and (nearlyEquals a.theTri b.theTri tol)⟩

/-- `operator==`; the library has none for `ComPlex` and `DirPlex`. -/
class GEq (T : Type) where
  geq : T → T → Bool
export GEq (geq)

/-- `operator==(array<3>, array<3>)`: `g3compare.hpp:405-418`. -/
def eqArr3 (dataA dataB : A3 α) : Bool :=
  Dbl.feq dataA.d0 dataB.d0 && Dbl.feq dataA.d1 dataB.d1 && Dbl.feq dataA.d2 dataB.d2

/-- `g3compare.hpp:421-430` -/
instance : GEq (Scalar α) := ⟨fun a b => Dbl.feq a.theData.d0 b.theData.d0⟩
/-- `g3compare.hpp:432-441` -/
instance : GEq (Vector α) := ⟨fun a b => eqArr3 a.theData b.theData⟩
/-- `g3compare.hpp:443-452` -/
instance : GEq (BiVector α) := ⟨fun a b => eqArr3 a.theData b.theData⟩
/-- `g3compare.hpp:454-463` -/
instance : GEq (TriVector α) := ⟨fun a b => Dbl.feq a.theData.d0 b.theData.d0⟩
/-- `g3compare.hpp:465-477` -/
instance : GEq (Spinor α) := ⟨fun a b => geq a.theSca b.theSca && geq a.theBiv b.theBiv⟩
/-- `g3compare.hpp:479-491` -/
instance : GEq (ImSpin α) := ⟨fun a b => geq a.theVec b.theVec && geq a.theTri b.theTri⟩
/-- `g3compare.hpp:493-507` -/
instance : GEq (MultiVector α) := ⟨fun a b =>
  geq a.theSca b.theSca && geq a.theVec b.theVec && geq a.theBiv b.theBiv && geq a.theTri b.theTri⟩

end Engabra
