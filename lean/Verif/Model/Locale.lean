import Verif.Model.IO

/-! # The decimal point of the locale (`g3io.hpp`)

`Model/Text.lean` and `Model/IO.lean` are in the "C" locale.  Here the decimal point is that of a
locale (`std::numpunct<char>::decimal_point()`).  A string stream that a library function
constructs has the *global* locale, whatever the locale of the caller's stream; an extraction
uses the locale of the caller's stream.

Simplification: no digit grouping (`numpunct::grouping()` empty; see `Model/Grouping.lean`).  `io::enote` writes one digit
before the point and therefore never a separator. -/

namespace Engabra

/-! ## Output -/

/-- The decimal point of the "C" locale is replaced by that of the locale (libstdc++
`num_put::_M_insert_float`). -/
def point (g : Char) (c : Char) : Char := if c = '.' then g else c

/-- `os << x` for a `double` in a locale with decimal point `g`; otherwise as `OStream.putDub`. -/
def OStream.putDubL (g : Char) (os : OStream) (x : F64) : OStream :=
  let sg := signText x
  let b := (bodyText os.ff os.prec x).map (point g)
  let pad := List.replicate (os.width - (sg ++ b).length) os.fill
  { os with
    out := os.out ++ (match os.adj with
      | .left => sg ++ b ++ pad
      | .internal => sg ++ pad ++ b
      | _ => pad ++ (sg ++ b))
    width := 0 }

/-- `priv::put(ostrm, std::array, fmt)`: `g3io.hpp:262-278`. -/
def putArrL (g : Char) (ostrm : OStream) (elems : List F64) (fmt : DoubleFormat := {}) : OStream :=
  let oss := elems.foldl (fun oss elem => (fmt.prepareFixed oss).putDubL g elem) OStream.fresh
  ostrm.putStr oss.out

/-- `io::fixed(double, digBefore, digAfter)`: `g3io.hpp:305-317`. -/
def fixedDubL (g : Char) (dub : F64) (digBefore : Nat := 3) (digAfter : Nat := 6) : List Char :=
  let fmt : DoubleFormat := ⟨digBefore, digAfter⟩
  ((fmt.prepareFixed OStream.fresh).putDubL g dub).out

/-- `io::fixed(Blade, ...)`: `g3io.hpp:320-340`; the argument is the component array. -/
def fixedArrL (g : Char) (data : List F64) (digBefore : Nat := 3) (digAfter : Nat := 6) : List Char :=
  (data.foldl (fun oss x => oss.putStr (fixedDubL g x digBefore digAfter)) OStream.fresh).out

/-- `io::enote(double, digAfter)`: `g3io.hpp:405-417`. -/
def enoteDubL (g : Char) (dub : F64) (digAfter : Nat := 15) : List Char :=
  ((prepareEnote OStream.fresh digAfter).putDubL g dub).out

/-- Loop of `io::enote(Blade, ...)`: `g3io.hpp:432-441`. -/
def enoteLoopL (g : Char) (digAfter : Nat) : (ndx : Nat) → List F64 → OStream → OStream
  | _, [], oss => oss
  | ndx, x :: xs, oss =>
    let oss := if 0 < ndx then oss.putStr [' '] else oss
    enoteLoopL g digAfter (ndx + 1) xs ((prepareEnote oss digAfter).putDubL g x)

/-- `io::enote(Blade, digAfter)`: `g3io.hpp:420-443`; the argument is the component array. -/
def enoteArrL (g : Char) (data : List F64) (digAfter : Nat := 15) : List Char :=
  (enoteLoopL g digAfter 0 data OStream.fresh).out

/-- `io::fixed(x, digBefore, digAfter)` by type: `g3io.hpp:305-398`.  There is no overload
for `ComPlex` and `DirPlex`: `none`. -/
def fixedTyL (g : Char) (b a : Nat) : (t : Ty) → t.D F64 → Option (List Char)
  | .dub, x => some (fixedDubL g x b a)
  | .sca, x => some (fixedArrL g x.theData.toList b a)
  | .vec, x => some (fixedArrL g x.theData.toList b a)
  | .biv, x => some (fixedArrL g x.theData.toList b a)
  | .tri, x => some (fixedArrL g x.theData.toList b a)
  | .spin, x => some (catStr
      [fixedArrL g x.theSca.theData.toList b a, [' ', ' '], fixedArrL g x.theBiv.theData.toList b a])
  | .imsp, x => some (catStr
      [fixedArrL g x.theVec.theData.toList b a, [' ', ' '], fixedArrL g x.theTri.theData.toList b a])
  | .mv, x => some (catStr
      [fixedArrL g x.theSca.theData.toList b a, [' ', ' '], fixedArrL g x.theVec.theData.toList b a,
       [' ', ' '], fixedArrL g x.theBiv.theData.toList b a, [' ', ' '],
       fixedArrL g x.theTri.theData.toList b a])
  | .cplx, _ => none
  | .dplx, _ => none

/-- `io::enote(x, digAfter)` by type: `g3io.hpp:405-496`.  There is no overload for `ComPlex`
and `DirPlex`: `none`. -/
def enoteTyL (g : Char) (a : Nat) : (t : Ty) → t.D F64 → Option (List Char)
  | .dub, x => some (enoteDubL g x a)
  | .sca, x => some (enoteArrL g x.theData.toList a)
  | .vec, x => some (enoteArrL g x.theData.toList a)
  | .biv, x => some (enoteArrL g x.theData.toList a)
  | .tri, x => some (enoteArrL g x.theData.toList a)
  | .spin, x => some (catStr
      [enoteArrL g x.theSca.theData.toList a, [' ', ' '], enoteArrL g x.theBiv.theData.toList a])
  | .imsp, x => some (catStr
      [enoteArrL g x.theVec.theData.toList a, [' ', ' '], enoteArrL g x.theTri.theData.toList a])
  | .mv, x => some (catStr
      [enoteArrL g x.theSca.theData.toList a, [' ', ' '], enoteArrL g x.theVec.theData.toList a,
       [' ', ' '], enoteArrL g x.theBiv.theData.toList a, [' ', ' '],
       enoteArrL g x.theTri.theData.toList a])
  | .cplx, _ => none
  | .dplx, _ => none

/-- `operator<<(ostrm, x)` by type: `g3io.hpp:512-623`.  For `double` it is the operator of the
standard library, in the locale `loc` of the stream; the others format in a local
`std::ostringstream`, in the global locale `g`. -/
def insertTyL (g loc : Char) : (t : Ty) → OStream → t.D F64 → OStream
  | .dub, ostrm, x => ostrm.putDubL loc x
  | .sca, ostrm, x => putArrL g ostrm x.theData.toList
  | .vec, ostrm, x => putArrL g ostrm x.theData.toList
  | .biv, ostrm, x => putArrL g ostrm x.theData.toList
  | .tri, ostrm, x => putArrL g ostrm x.theData.toList
  | .spin, ostrm, x =>
      putArrL g ((putArrL g ostrm x.theSca.theData.toList).putStr [' ']) x.theBiv.theData.toList
  | .imsp, ostrm, x =>
      putArrL g ((putArrL g ostrm x.theVec.theData.toList).putStr [' ']) x.theTri.theData.toList
  | .cplx, ostrm, x =>
      putArrL g ((putArrL g ostrm x.theSca.theData.toList).putStr [' ']) x.theTri.theData.toList
  | .dplx, ostrm, x =>
      putArrL g ((putArrL g ostrm x.theVec.theData.toList).putStr [' ']) x.theBiv.theData.toList
  | .mv, ostrm, x =>
      putArrL g ((putArrL g ((putArrL g ((putArrL g ostrm x.theSca.theData.toList).putStr [' '])
        x.theVec.theData.toList).putStr [' ']) x.theBiv.theData.toList).putStr [' '])
        x.theTri.theData.toList

/-! ## Input -/

/-- `scanFrac` with decimal point `r`. -/
def scanFracL (r : Char) : List Char → List Char × List Char
  | [] => ([], [])
  | c :: cs => if c = r then cs.span isDig else ([], c :: cs)

/-- `scanNum` with decimal point `r` (libstdc++ `num_get::_M_extract_float`). -/
def scanNumL (r : Char) (cs : List Char) : NumTok × List Char :=
  let s := scanSign cs
  let i := s.2.span isDig
  let f := scanFracL r i.2
  let e := scanExp (!(i.1.isEmpty && f.1.isEmpty)) f.2
  (⟨s.1, i.1, f.1, e.1⟩, e.2)

/-- `is >> x` for a `double` in a locale with decimal point `r`; otherwise as `extractDub`. -/
def extractDubL (r : Char) (s : IStream) (old : F64) : IStream × F64 :=
  if s.eof || s.fail then (⟨s.rest, s.eof, true⟩, old)
  else
    let cs := s.rest.dropWhile isWs
    if cs = [] then (⟨[], true, true⟩, old)
    else
      let k := scanNumL r cs
      (⟨k.2, k.2.isEmpty, k.1.convert.2⟩, k.1.convert.1)

/-- The loop of `operator>>(istrm, std::array)`: `g3io.hpp:646-651`, over the elements from
index 1: stream, `okay`, elements (the ones not reached keep their values). -/
noncomputable def extractLoopL (p : Char) (istrm : IStream) (okay : Bool) : List F64 → IStream × Bool × List F64
  | [] => (istrm, okay, [])
  | x :: xs =>
    if okay then
      let r := extractDubL p istrm x
      let l := extractLoopL p r.1 (isInputOkay r.1 r.2) xs
      (l.1, l.2.1, r.2 :: l.2.2)
    else (istrm, okay, x :: xs)

/-- `operator>>(istrm, std::array<double, Dim>)`: `g3io.hpp:634-658`; `data` is the present
content of the array.  For `Dim = 0` the code accesses `data[0]`: undefined behaviour. -/
noncomputable def extractArrL (p : Char) (istrm : IStream) (data : List F64) : Run (IStream × List F64) :=
  match data with
  | [] => .ub
  | x :: xs =>
    let r := extractDubL p istrm x
    let l := extractLoopL p r.1 (isInputOkay r.1 r.2) xs
    if l.2.1 then .ok (l.1, r.2 :: l.2.2)
    else .ok (l.1, List.replicate (xs.length + 1) Dbl.nan)

/-- `extractArr` at `Dim = 1`. -/
noncomputable def extractA1L (p : Char) (istrm : IStream) (a : A1 F64) : Run (IStream × A1 F64) :=
  (extractArrL p istrm a.toList).bind fun r =>
    match r.2 with
    | [x] => .ok (r.1, ⟨x⟩)
    | _ => .ub

/-- `extractArr` at `Dim = 3`. -/
noncomputable def extractA3L (p : Char) (istrm : IStream) (a : A3 F64) : Run (IStream × A3 F64) :=
  (extractArrL p istrm a.toList).bind fun r =>
    match r.2 with
    | [x, y, z] => .ok (r.1, ⟨x, y, z⟩)
    | _ => .ub

/-- `operator>>(istrm, x)` by type: `g3io.hpp:661-745`; the last argument is the present value
of the object.  For `double` it is the operator of the standard library. -/
noncomputable def extractTyL (p : Char) : (t : Ty) → IStream → t.D F64 → Run (IStream × t.D F64)
  | .dub, s, x => .ok (extractDubL p s x)
  | .sca, s, x => (extractA1L p s x.theData).bind fun r => .ok (r.1, ⟨r.2⟩)
  | .vec, s, x => (extractA3L p s x.theData).bind fun r => .ok (r.1, ⟨r.2⟩)
  | .biv, s, x => (extractA3L p s x.theData).bind fun r => .ok (r.1, ⟨r.2⟩)
  | .tri, s, x => (extractA1L p s x.theData).bind fun r => .ok (r.1, ⟨r.2⟩)
  | .spin, s, x =>
      (extractA1L p s x.theSca.theData).bind fun a =>
      (extractA3L p a.1 x.theBiv.theData).bind fun b => .ok (b.1, ⟨⟨a.2⟩, ⟨b.2⟩⟩)
  | .imsp, s, x =>
      (extractA3L p s x.theVec.theData).bind fun a =>
      (extractA1L p a.1 x.theTri.theData).bind fun b => .ok (b.1, ⟨⟨a.2⟩, ⟨b.2⟩⟩)
  | .cplx, s, x =>
      (extractA1L p s x.theSca.theData).bind fun a =>
      (extractA1L p a.1 x.theTri.theData).bind fun b => .ok (b.1, ⟨⟨a.2⟩, ⟨b.2⟩⟩)
  | .dplx, s, x =>
      (extractA3L p s x.theVec.theData).bind fun a =>
      (extractA3L p a.1 x.theBiv.theData).bind fun b => .ok (b.1, ⟨⟨a.2⟩, ⟨b.2⟩⟩)
  | .mv, s, x =>
      (extractA1L p s x.theSca.theData).bind fun a =>
      (extractA3L p a.1 x.theVec.theData).bind fun b =>
      (extractA3L p b.1 x.theBiv.theData).bind fun c =>
      (extractA1L p c.1 x.theTri.theData).bind fun d => .ok (d.1, ⟨⟨a.2⟩, ⟨b.2⟩, ⟨c.2⟩, ⟨d.2⟩⟩)

end Engabra
