import Verif.Model.Text
import Verif.Model.Overload
import Verif.Model.Compare

/-! # Stream input and output (`g3io.hpp`) -/

namespace Engabra

/-! ## Output -/

/-- `priv::DoubleFormat`: `g3io.hpp:120-149`. -/
structure DoubleFormat where
  theNumDigLead : Nat := 3
  theNumDigFrac : Nat := 6

namespace DoubleFormat

/-- `fieldWide()`: `g3io.hpp:152-163`. -/
def fieldWide (fmt : DoubleFormat) : Nat := 1 + fmt.theNumDigLead + 1 + fmt.theNumDigFrac

/-- `prepareFixed(ostrm)`: `g3io.hpp:175-189`; also `operator<<(ostrm, fmt)`,
`g3io.hpp:233-242`. -/
def prepareFixed (fmt : DoubleFormat) (ostrm : OStream) : OStream :=
  (((ostrm.putStr [' ']).setFixed).setPrec fmt.theNumDigFrac).setW fmt.fieldWide

end DoubleFormat

/-- `priv::prepareEnote(ostrm, numDigits)`: `g3io.hpp:203-230`. -/
def prepareEnote (ostrm : OStream) (numDigits : Nat := 15) : OStream :=
  let numField := 1 + 1 + 1 + 1 + 1 + 2 + numDigits
  ((ostrm.setW numField).setScientific).setPrec numDigits

/-- `priv::put(ostrm, double, fmt)`: `g3io.hpp:249-259`. -/
def putDub (ostrm : OStream) (value : F64) (fmt : DoubleFormat := {}) : OStream :=
  (fmt.prepareFixed ostrm).putDub value

/-- `priv::put(ostrm, std::array, fmt)`: `g3io.hpp:262-278`. -/
def putArr (ostrm : OStream) (elems : List F64) (fmt : DoubleFormat := {}) : OStream :=
  let oss := elems.foldl (fun oss elem => (fmt.prepareFixed oss).putDub elem) OStream.fresh
  ostrm.putStr oss.out

/-- `io::fixed(double, digBefore, digAfter)`: `g3io.hpp:305-317`. -/
def fixedDub (dub : F64) (digBefore : Nat := 3) (digAfter : Nat := 6) : List Char :=
  let fmt : DoubleFormat := ⟨digBefore, digAfter⟩
  ((fmt.prepareFixed OStream.fresh).putDub dub).out

/-- `io::fixed(Blade, ...)`: `g3io.hpp:320-340`; the argument is the component array. -/
def fixedArr (data : List F64) (digBefore : Nat := 3) (digAfter : Nat := 6) : List Char :=
  (data.foldl (fun oss x => oss.putStr (fixedDub x digBefore digAfter)) OStream.fresh).out

/-- `io::enote(double, digAfter)`: `g3io.hpp:405-417`. -/
def enoteDub (dub : F64) (digAfter : Nat := 15) : List Char :=
  ((prepareEnote OStream.fresh digAfter).putDub dub).out

/-- Loop of `io::enote(Blade, ...)`: `g3io.hpp:432-441`. -/
def enoteLoop (digAfter : Nat) : (ndx : Nat) → List F64 → OStream → OStream
  | _, [], oss => oss
  | ndx, x :: xs, oss =>
    let oss := if 0 < ndx then oss.putStr [' '] else oss
    enoteLoop digAfter (ndx + 1) xs ((prepareEnote oss digAfter).putDub x)

/-- `io::enote(Blade, digAfter)`: `g3io.hpp:420-443`; the argument is the component array. -/
def enoteArr (data : List F64) (digAfter : Nat := 15) : List Char :=
  (enoteLoop digAfter 0 data OStream.fresh).out

/-- `oss << a << "  " << b ...` on a fresh `std::stringstream`: bodies of `fixed` and `enote`
for the composite types. -/
def catStr (parts : List (List Char)) : List Char :=
  (parts.foldl OStream.putStr OStream.fresh).out

/-- `io::fixed(x, digBefore, digAfter)` by type: `g3io.hpp:305-398`.  There is no overload
for `ComPlex` and `DirPlex`: `none`. -/
def fixedTy (b a : Nat) : (t : Ty) → t.D F64 → Option (List Char)
  | .dub, x => some (fixedDub x b a)
  | .sca, x => some (fixedArr x.theData.toList b a)
  | .vec, x => some (fixedArr x.theData.toList b a)
  | .biv, x => some (fixedArr x.theData.toList b a)
  | .tri, x => some (fixedArr x.theData.toList b a)
  | .spin, x => some (catStr
      [fixedArr x.theSca.theData.toList b a, [' ', ' '], fixedArr x.theBiv.theData.toList b a])
  | .imsp, x => some (catStr
      [fixedArr x.theVec.theData.toList b a, [' ', ' '], fixedArr x.theTri.theData.toList b a])
  | .mv, x => some (catStr
      [fixedArr x.theSca.theData.toList b a, [' ', ' '], fixedArr x.theVec.theData.toList b a,
       [' ', ' '], fixedArr x.theBiv.theData.toList b a, [' ', ' '],
       fixedArr x.theTri.theData.toList b a])
  | .cplx, _ => none
  | .dplx, _ => none

/-- `io::enote(x, digAfter)` by type: `g3io.hpp:405-496`.  There is no overload for `ComPlex`
and `DirPlex`: `none`. -/
def enoteTy (a : Nat) : (t : Ty) → t.D F64 → Option (List Char)
  | .dub, x => some (enoteDub x a)
  | .sca, x => some (enoteArr x.theData.toList a)
  | .vec, x => some (enoteArr x.theData.toList a)
  | .biv, x => some (enoteArr x.theData.toList a)
  | .tri, x => some (enoteArr x.theData.toList a)
  | .spin, x => some (catStr
      [enoteArr x.theSca.theData.toList a, [' ', ' '], enoteArr x.theBiv.theData.toList a])
  | .imsp, x => some (catStr
      [enoteArr x.theVec.theData.toList a, [' ', ' '], enoteArr x.theTri.theData.toList a])
  | .mv, x => some (catStr
      [enoteArr x.theSca.theData.toList a, [' ', ' '], enoteArr x.theVec.theData.toList a,
       [' ', ' '], enoteArr x.theBiv.theData.toList a, [' ', ' '],
       enoteArr x.theTri.theData.toList a])
  | .cplx, _ => none
  | .dplx, _ => none

/-- `operator<<(ostrm, x)` by type: `g3io.hpp:512-623`.  For `double` it is the operator of the
standard library. -/
def insertTy : (t : Ty) → OStream → t.D F64 → OStream
  | .dub, ostrm, x => ostrm.putDub x
  | .sca, ostrm, x => putArr ostrm x.theData.toList
  | .vec, ostrm, x => putArr ostrm x.theData.toList
  | .biv, ostrm, x => putArr ostrm x.theData.toList
  | .tri, ostrm, x => putArr ostrm x.theData.toList
  | .spin, ostrm, x =>
      putArr ((putArr ostrm x.theSca.theData.toList).putStr [' ']) x.theBiv.theData.toList
  | .imsp, ostrm, x =>
      putArr ((putArr ostrm x.theVec.theData.toList).putStr [' ']) x.theTri.theData.toList
  | .cplx, ostrm, x =>
      putArr ((putArr ostrm x.theSca.theData.toList).putStr [' ']) x.theTri.theData.toList
  | .dplx, ostrm, x =>
      putArr ((putArr ostrm x.theVec.theData.toList).putStr [' ']) x.theBiv.theData.toList
  | .mv, ostrm, x =>
      putArr ((putArr ((putArr ((putArr ostrm x.theSca.theData.toList).putStr [' '])
        x.theVec.theData.toList).putStr [' ']) x.theBiv.theData.toList).putStr [' '])
        x.theTri.theData.toList

/-! ## Input -/

/-- `priv::isInputOkay(istrm, value)`: `g3io.hpp:285-296`. -/
noncomputable def isInputOkay (istrm : IStream) (value : F64) : Bool := !istrm.fail && isValidDub value

/-- The loop of `operator>>(istrm, std::array)`: `g3io.hpp:646-651`, over the elements from
index 1: stream, `okay`, elements (the ones not reached keep their values). -/
noncomputable def extractLoop (istrm : IStream) (okay : Bool) : List F64 → IStream × Bool × List F64
  | [] => (istrm, okay, [])
  | x :: xs =>
    if okay then
      let r := extractDub istrm x
      let l := extractLoop r.1 (isInputOkay r.1 r.2) xs
      (l.1, l.2.1, r.2 :: l.2.2)
    else (istrm, okay, x :: xs)

/-- `operator>>(istrm, std::array<double, Dim>)`: `g3io.hpp:634-658`; `data` is the present
content of the array.  For `Dim = 0` the code accesses `data[0]`: undefined behaviour. -/
noncomputable def extractArr (istrm : IStream) (data : List F64) : Run (IStream × List F64) :=
  match data with
  | [] => .ub
  | x :: xs =>
    let r := extractDub istrm x
    let l := extractLoop r.1 (isInputOkay r.1 r.2) xs
    if l.2.1 then .ok (l.1, r.2 :: l.2.2)
    else .ok (l.1, List.replicate (xs.length + 1) Dbl.nan)

/-- Sequencing. -/
def Run.bind {β γ : Type} : Run β → (β → Run γ) → Run γ
  | .ub, _ => .ub
  | .ok b, f => f b

/-- `extractArr` at `Dim = 1`. -/
noncomputable def extractA1 (istrm : IStream) (a : A1 F64) : Run (IStream × A1 F64) :=
  (extractArr istrm a.toList).bind fun r =>
    match r.2 with
    | [x] => .ok (r.1, ⟨x⟩)
    | _ => .ub

/-- `extractArr` at `Dim = 3`. -/
noncomputable def extractA3 (istrm : IStream) (a : A3 F64) : Run (IStream × A3 F64) :=
  (extractArr istrm a.toList).bind fun r =>
    match r.2 with
    | [x, y, z] => .ok (r.1, ⟨x, y, z⟩)
    | _ => .ub

/-- `operator>>(istrm, x)` by type: `g3io.hpp:661-745`; the last argument is the present value
of the object.  For `double` it is the operator of the standard library. -/
noncomputable def extractTy : (t : Ty) → IStream → t.D F64 → Run (IStream × t.D F64)
  | .dub, s, x => .ok (extractDub s x)
  | .sca, s, x => (extractA1 s x.theData).bind fun r => .ok (r.1, ⟨r.2⟩)
  | .vec, s, x => (extractA3 s x.theData).bind fun r => .ok (r.1, ⟨r.2⟩)
  | .biv, s, x => (extractA3 s x.theData).bind fun r => .ok (r.1, ⟨r.2⟩)
  | .tri, s, x => (extractA1 s x.theData).bind fun r => .ok (r.1, ⟨r.2⟩)
  | .spin, s, x =>
      (extractA1 s x.theSca.theData).bind fun a =>
      (extractA3 a.1 x.theBiv.theData).bind fun b => .ok (b.1, ⟨⟨a.2⟩, ⟨b.2⟩⟩)
  | .imsp, s, x =>
      (extractA3 s x.theVec.theData).bind fun a =>
      (extractA1 a.1 x.theTri.theData).bind fun b => .ok (b.1, ⟨⟨a.2⟩, ⟨b.2⟩⟩)
  | .cplx, s, x =>
      (extractA1 s x.theSca.theData).bind fun a =>
      (extractA1 a.1 x.theTri.theData).bind fun b => .ok (b.1, ⟨⟨a.2⟩, ⟨b.2⟩⟩)
  | .dplx, s, x =>
      (extractA3 s x.theVec.theData).bind fun a =>
      (extractA3 a.1 x.theBiv.theData).bind fun b => .ok (b.1, ⟨⟨a.2⟩, ⟨b.2⟩⟩)
  | .mv, s, x =>
      (extractA1 s x.theSca.theData).bind fun a =>
      (extractA3 a.1 x.theVec.theData).bind fun b =>
      (extractA3 b.1 x.theBiv.theData).bind fun c =>
      (extractA1 c.1 x.theTri.theData).bind fun d => .ok (d.1, ⟨⟨a.2⟩, ⟨b.2⟩, ⟨c.2⟩, ⟨d.2⟩⟩)

end Engabra
