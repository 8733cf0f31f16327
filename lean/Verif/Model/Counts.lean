import Verif.Model.IO

/-! # Numbers of digits of any size (`g3io.hpp`)

The numbers of digits given to `io::fixed` and `io::enote` are `std::size_t`; the field width is
added up in `std::size_t`, and width and precision are then passed to `std::setw(int)` and
`std::setprecision(int)`.  `Model/IO.lean` has natural numbers in their place.  Here they are 64 bit
words, sums are modulo `2^64` and the conversion to `int` keeps the low 32 bits (two's complement:
implementation-defined before C++20, and so for all compilers in use).

Simplification: memory never runs out, however many digits are asked for. -/

namespace Engabra

/-- Conversion of a `std::size_t` to `int`, 32 bits, at the calls of `std::setprecision` and
`std::setw`: `g3io.hpp:184-185`, `226-228`. -/
def toInt32 (n : BitVec 64) : Int := (n.setWidth 32).toInt

/-- `os << std::setw(w)`: a negative width pads nothing, as zero (libstdc++ `num_put::do_put`). -/
def OStream.setWInt (os : OStream) (w : Int) : OStream := os.setW w.toNat

/-- `os << std::setprecision(n)`: with a negative precision numbers have six decimals
(libstdc++ `num_put::_M_insert_float`). -/
def OStream.setPrecInt (os : OStream) (n : Int) : OStream := os.setPrec (if n < 0 then 6 else n.toNat)

/-- `priv::DoubleFormat`: `g3io.hpp:118-140`. -/
structure DoubleFormatC where
  theNumDigLead : BitVec 64 := 3
  theNumDigFrac : BitVec 64 := 6

/-- `fieldWide()`: `g3io.hpp:152-163`. -/
def DoubleFormatC.fieldWide (fmt : DoubleFormatC) : BitVec 64 :=
  1 + fmt.theNumDigLead + 1 + fmt.theNumDigFrac

/-- `prepareFixed(ostrm)`: `g3io.hpp:175-189`. -/
def DoubleFormatC.prepareFixed (fmt : DoubleFormatC) (ostrm : OStream) : OStream :=
  (((ostrm.putStr [' ']).setFixed).setPrecInt (toInt32 fmt.theNumDigFrac)).setWInt
    (toInt32 fmt.fieldWide)

/-- `priv::prepareEnote(ostrm, numDigits)`: `g3io.hpp:203-230`. -/
def prepareEnoteC (ostrm : OStream) (numDigits : BitVec 64 := 15) : OStream :=
  let numField : BitVec 64 := 1 + 1 + 1 + 1 + 1 + 2 + numDigits
  ((ostrm.setWInt (toInt32 numField)).setScientific).setPrecInt (toInt32 numDigits)

/-- `io::fixed(double, digBefore, digAfter)`: `g3io.hpp:305-317`. -/
def fixedDubC (dub : F64) (digBefore : BitVec 64 := 3) (digAfter : BitVec 64 := 6) : List Char :=
  let fmt : DoubleFormatC := ⟨digBefore, digAfter⟩
  ((fmt.prepareFixed OStream.fresh).putDub dub).out

/-- `io::fixed(Blade, ...)`: `g3io.hpp:320-340`; the argument is the component array. -/
def fixedArrC (data : List F64) (digBefore : BitVec 64 := 3) (digAfter : BitVec 64 := 6) : List Char :=
  (data.foldl (fun oss x => oss.putStr (fixedDubC x digBefore digAfter)) OStream.fresh).out

/-- `io::enote(double, digAfter)`: `g3io.hpp:405-417`. -/
def enoteDubC (dub : F64) (digAfter : BitVec 64 := 15) : List Char :=
  ((prepareEnoteC OStream.fresh digAfter).putDub dub).out

/-- Loop of `io::enote(Blade, ...)`: `g3io.hpp:432-441`. -/
def enoteLoopC (digAfter : BitVec 64) : (ndx : Nat) → List F64 → OStream → OStream
  | _, [], oss => oss
  | ndx, x :: xs, oss =>
    let oss := if 0 < ndx then oss.putStr [' '] else oss
    enoteLoopC digAfter (ndx + 1) xs ((prepareEnoteC oss digAfter).putDub x)

/-- `io::enote(Blade, digAfter)`: `g3io.hpp:420-443`; the argument is the component array. -/
def enoteArrC (data : List F64) (digAfter : BitVec 64 := 15) : List Char :=
  (enoteLoopC digAfter 0 data OStream.fresh).out

/-- `io::fixed(x, digBefore, digAfter)` by type: `g3io.hpp:305-398`.  There is no overload
for `ComPlex` and `DirPlex`: `none`. -/
def fixedTyC (b a : BitVec 64) : (t : Ty) → t.D F64 → Option (List Char)
  | .dub, x => some (fixedDubC x b a)
  | .sca, x => some (fixedArrC x.theData.toList b a)
  | .vec, x => some (fixedArrC x.theData.toList b a)
  | .biv, x => some (fixedArrC x.theData.toList b a)
  | .tri, x => some (fixedArrC x.theData.toList b a)
  | .spin, x => some (catStr
      [fixedArrC x.theSca.theData.toList b a, [' ', ' '], fixedArrC x.theBiv.theData.toList b a])
  | .imsp, x => some (catStr
      [fixedArrC x.theVec.theData.toList b a, [' ', ' '], fixedArrC x.theTri.theData.toList b a])
  | .mv, x => some (catStr
      [fixedArrC x.theSca.theData.toList b a, [' ', ' '], fixedArrC x.theVec.theData.toList b a,
       [' ', ' '], fixedArrC x.theBiv.theData.toList b a, [' ', ' '],
       fixedArrC x.theTri.theData.toList b a])
  | .cplx, _ => none
  | .dplx, _ => none

/-- `io::enote(x, digAfter)` by type: `g3io.hpp:405-496`.  There is no overload for `ComPlex`
and `DirPlex`: `none`. -/
def enoteTyC (a : BitVec 64) : (t : Ty) → t.D F64 → Option (List Char)
  | .dub, x => some (enoteDubC x a)
  | .sca, x => some (enoteArrC x.theData.toList a)
  | .vec, x => some (enoteArrC x.theData.toList a)
  | .biv, x => some (enoteArrC x.theData.toList a)
  | .tri, x => some (enoteArrC x.theData.toList a)
  | .spin, x => some (catStr
      [enoteArrC x.theSca.theData.toList a, [' ', ' '], enoteArrC x.theBiv.theData.toList a])
  | .imsp, x => some (catStr
      [enoteArrC x.theVec.theData.toList a, [' ', ' '], enoteArrC x.theTri.theData.toList a])
  | .mv, x => some (catStr
      [enoteArrC x.theSca.theData.toList a, [' ', ' '], enoteArrC x.theVec.theData.toList a,
       [' ', ' '], enoteArrC x.theBiv.theData.toList a, [' ', ' '],
       enoteArrC x.theTri.theData.toList a])
  | .cplx, _ => none
  | .dplx, _ => none

end Engabra
