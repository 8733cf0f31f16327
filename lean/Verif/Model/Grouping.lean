import Verif.Model.Locale

/-! # Locales with digit grouping (`g3io.hpp`)

`Model/Locale.lean` has locales with a decimal point and no digit grouping.  Here the locale also
has a separator (`std::numpunct<char>::thousands_sep()`) and groups of three digits
(`numpunct::grouping()` is `"\3"`, as in most European and American locales).  As there, the
string streams of the library functions have the global locale and an extraction uses the locale
of the stream.

Simplification: other group sizes are not modelled; separator and point are single characters. -/

namespace Engabra

/-! ## Output -/

/-- The separator goes in front of every third digit from the right, never in front of the first
digit (libstdc++ `std::__add_grouping`). -/
def groupDigits (s : Char) : List Char → List Char
  | [] => []
  | c :: cs => if cs.length % 3 = 0 ∧ cs ≠ [] then c :: s :: groupDigits s cs else c :: groupDigits s cs

/-- Text of a number without the sign: the digits before the decimal point are grouped
(libstdc++ `num_put::_M_insert_float`, `_M_group_float`).  A text that does not begin with two
digits has nothing to group. -/
def bodyTextG (p s : Char) (ff : FloatField) (prec : Nat) (x : F64) : List Char :=
  let b := bodyText ff prec x
  groupDigits s (b.takeWhile isDig) ++ (b.dropWhile isDig).map (point p)

/-- `os << x` for a `double` in a locale with decimal point `p` and separator `s`; otherwise as
`OStream.putDub`. -/
def OStream.putDubG (p s : Char) (os : OStream) (x : F64) : OStream :=
  let sg := signText x
  let b := bodyTextG p s os.ff os.prec x
  let pad := List.replicate (os.width - (sg ++ b).length) os.fill
  { os with
    out := os.out ++ (match os.adj with
      | .left => sg ++ b ++ pad
      | .internal => sg ++ pad ++ b
      | _ => pad ++ (sg ++ b))
    width := 0 }

/-- `priv::put(ostrm, std::array, fmt)`: `g3io.hpp:262-278`. -/
def putArrG (p s : Char) (ostrm : OStream) (elems : List F64) (fmt : DoubleFormat := {}) : OStream :=
  let oss := elems.foldl (fun oss elem => (fmt.prepareFixed oss).putDubG p s elem) OStream.fresh
  ostrm.putStr oss.out

/-- `io::fixed(double, digBefore, digAfter)`: `g3io.hpp:305-317`. -/
def fixedDubG (p s : Char) (dub : F64) (digBefore : Nat := 3) (digAfter : Nat := 6) : List Char :=
  let fmt : DoubleFormat := ⟨digBefore, digAfter⟩
  ((fmt.prepareFixed OStream.fresh).putDubG p s dub).out

/-- `io::fixed(Blade, ...)`: `g3io.hpp:320-340`; the argument is the component array. -/
def fixedArrG (p s : Char) (data : List F64) (digBefore : Nat := 3) (digAfter : Nat := 6) : List Char :=
  (data.foldl (fun oss x => oss.putStr (fixedDubG p s x digBefore digAfter)) OStream.fresh).out

/-- `io::enote(double, digAfter)`: `g3io.hpp:405-417`. -/
def enoteDubG (p s : Char) (dub : F64) (digAfter : Nat := 15) : List Char :=
  ((prepareEnote OStream.fresh digAfter).putDubG p s dub).out

/-- Loop of `io::enote(Blade, ...)`: `g3io.hpp:432-441`. -/
def enoteLoopG (p s : Char) (digAfter : Nat) : (ndx : Nat) → List F64 → OStream → OStream
  | _, [], oss => oss
  | ndx, x :: xs, oss =>
    let oss := if 0 < ndx then oss.putStr [' '] else oss
    enoteLoopG p s digAfter (ndx + 1) xs ((prepareEnote oss digAfter).putDubG p s x)

/-- `io::enote(Blade, digAfter)`: `g3io.hpp:420-443`; the argument is the component array. -/
def enoteArrG (p s : Char) (data : List F64) (digAfter : Nat := 15) : List Char :=
  (enoteLoopG p s digAfter 0 data OStream.fresh).out

/-- `io::fixed(x, digBefore, digAfter)` by type: `g3io.hpp:305-398`.  There is no overload
for `ComPlex` and `DirPlex`: `none`. -/
def fixedTyG (p s : Char) (b a : Nat) : (t : Ty) → t.D F64 → Option (List Char)
  | .dub, x => some (fixedDubG p s x b a)
  | .sca, x => some (fixedArrG p s x.theData.toList b a)
  | .vec, x => some (fixedArrG p s x.theData.toList b a)
  | .biv, x => some (fixedArrG p s x.theData.toList b a)
  | .tri, x => some (fixedArrG p s x.theData.toList b a)
  | .spin, x => some (catStr
      [fixedArrG p s x.theSca.theData.toList b a, [' ', ' '], fixedArrG p s x.theBiv.theData.toList b a])
  | .imsp, x => some (catStr
      [fixedArrG p s x.theVec.theData.toList b a, [' ', ' '], fixedArrG p s x.theTri.theData.toList b a])
  | .mv, x => some (catStr
      [fixedArrG p s x.theSca.theData.toList b a, [' ', ' '], fixedArrG p s x.theVec.theData.toList b a,
       [' ', ' '], fixedArrG p s x.theBiv.theData.toList b a, [' ', ' '],
       fixedArrG p s x.theTri.theData.toList b a])
  | .cplx, _ => none
  | .dplx, _ => none

/-- `io::enote(x, digAfter)` by type: `g3io.hpp:405-496`.  There is no overload for `ComPlex`
and `DirPlex`: `none`. -/
def enoteTyG (p s : Char) (a : Nat) : (t : Ty) → t.D F64 → Option (List Char)
  | .dub, x => some (enoteDubG p s x a)
  | .sca, x => some (enoteArrG p s x.theData.toList a)
  | .vec, x => some (enoteArrG p s x.theData.toList a)
  | .biv, x => some (enoteArrG p s x.theData.toList a)
  | .tri, x => some (enoteArrG p s x.theData.toList a)
  | .spin, x => some (catStr
      [enoteArrG p s x.theSca.theData.toList a, [' ', ' '], enoteArrG p s x.theBiv.theData.toList a])
  | .imsp, x => some (catStr
      [enoteArrG p s x.theVec.theData.toList a, [' ', ' '], enoteArrG p s x.theTri.theData.toList a])
  | .mv, x => some (catStr
      [enoteArrG p s x.theSca.theData.toList a, [' ', ' '], enoteArrG p s x.theVec.theData.toList a,
       [' ', ' '], enoteArrG p s x.theBiv.theData.toList a, [' ', ' '],
       enoteArrG p s x.theTri.theData.toList a])
  | .cplx, _ => none
  | .dplx, _ => none

/-- `operator<<(ostrm, x)` by type: `g3io.hpp:512-623`, in a program whose global locale has
decimal point `p` and separator `s`.  For `double` it is the operator of the standard library, in
the locale of the stream (here the same). -/
def insertTyG (p s : Char) : (t : Ty) → OStream → t.D F64 → OStream
  | .dub, ostrm, x => ostrm.putDubG p s x
  | .sca, ostrm, x => putArrG p s ostrm x.theData.toList
  | .vec, ostrm, x => putArrG p s ostrm x.theData.toList
  | .biv, ostrm, x => putArrG p s ostrm x.theData.toList
  | .tri, ostrm, x => putArrG p s ostrm x.theData.toList
  | .spin, ostrm, x =>
      putArrG p s ((putArrG p s ostrm x.theSca.theData.toList).putStr [' ']) x.theBiv.theData.toList
  | .imsp, ostrm, x =>
      putArrG p s ((putArrG p s ostrm x.theVec.theData.toList).putStr [' ']) x.theTri.theData.toList
  | .cplx, ostrm, x =>
      putArrG p s ((putArrG p s ostrm x.theSca.theData.toList).putStr [' ']) x.theTri.theData.toList
  | .dplx, ostrm, x =>
      putArrG p s ((putArrG p s ostrm x.theVec.theData.toList).putStr [' ']) x.theBiv.theData.toList
  | .mv, ostrm, x =>
      putArrG p s ((putArrG p s ((putArrG p s ((putArrG p s ostrm x.theSca.theData.toList).putStr [' '])
        x.theVec.theData.toList).putStr [' ']) x.theBiv.theData.toList).putStr [' '])
        x.theTri.theData.toList

/-! ## Input -/

/-- Digits before the decimal point, with separators: the digits, the sizes of the groups, whether
a separator was met without a digit in front of it (everything accumulated is then dropped), and
the characters not consumed.  `cur` is the number of digits of the present group
(libstdc++ `num_get::_M_extract_float`). -/
def scanGroups (s : Char) : (cur : Nat) → List Char → List Char × List Nat × Bool × List Char
  | cur, [] => ([], [cur], false, [])
  | cur, c :: cs =>
    if c = s then
      if cur = 0 then ([], [0], true, c :: cs)
      else
        let r := scanGroups s 0 cs
        (r.1, cur :: r.2.1, r.2.2.1, r.2.2.2)
    else if isDig c then
      let r := scanGroups s (cur + 1) cs
      (c :: r.1, r.2.1, r.2.2.1, r.2.2.2)
    else ([], [cur], false, c :: cs)

/-- A number converted to `char`, here of eight bits with sign. -/
def asChar (n : Nat) : Int := Int.bmod n 256

/-- Check of the group sizes: if there was a separator, every group but the first has three
digits and the first at most three (libstdc++ `std::__verify_grouping` for the grouping `"\3"`).  The
sizes are kept in a string, each converted to `char`. -/
def groupsOk : List Nat → Bool
  | [] => true
  | [_] => true
  | g :: gs => decide (asChar g ≤ 3) && gs.all fun k => asChar k == 3

/-- `scanNum` with decimal point `p` and separator `s`: the token, whether the groups are in order,
and the characters not consumed (libstdc++ `num_get::_M_extract_float`). -/
def scanNumG (p s : Char) (cs : List Char) : NumTok × Bool × List Char :=
  let g := scanSign cs
  let i := scanGroups s 0 g.2
  if i.2.2.1 then (⟨false, [], [], none⟩, false, i.2.2.2)
  else
    let f := scanFracL p i.2.2.2
    let e := scanExp (!(i.1.isEmpty && f.1.isEmpty)) f.2
    (⟨g.1, i.1, f.1, e.1⟩, groupsOk i.2.1, e.2)

/-- `is >> x` for a `double` in a locale with decimal point `p` and separator `s`; otherwise as
`extractDub`.  Groups that are not in order set `failbit`; the number is stored nevertheless
(libstdc++ `num_get::do_get`). -/
def extractDubG (p s : Char) (st : IStream) (old : F64) : IStream × F64 :=
  if st.eof || st.fail then (⟨st.rest, st.eof, true⟩, old)
  else
    let cs := st.rest.dropWhile isWs
    if cs = [] then (⟨[], true, true⟩, old)
    else
      let k := scanNumG p s cs
      (⟨k.2.2, k.2.2.isEmpty, k.1.convert.2 || !k.2.1⟩, k.1.convert.1)

/-- The loop of `operator>>(istrm, std::array)`: `g3io.hpp:646-651`, over the elements from
index 1: stream, `okay`, elements (the ones not reached keep their values). -/
noncomputable def extractLoopG (p s : Char) (istrm : IStream) (okay : Bool) :
    List F64 → IStream × Bool × List F64
  | [] => (istrm, okay, [])
  | x :: xs =>
    if okay then
      let r := extractDubG p s istrm x
      let l := extractLoopG p s r.1 (isInputOkay r.1 r.2) xs
      (l.1, l.2.1, r.2 :: l.2.2)
    else (istrm, okay, x :: xs)

/-- `operator>>(istrm, std::array<double, Dim>)`: `g3io.hpp:634-658`; `data` is the present
content of the array.  For `Dim = 0` the code accesses `data[0]`: undefined behaviour. -/
noncomputable def extractArrG (p s : Char) (istrm : IStream) (data : List F64) :
    Run (IStream × List F64) :=
  match data with
  | [] => .ub
  | x :: xs =>
    let r := extractDubG p s istrm x
    let l := extractLoopG p s r.1 (isInputOkay r.1 r.2) xs
    if l.2.1 then .ok (l.1, r.2 :: l.2.2)
    else .ok (l.1, List.replicate (xs.length + 1) Dbl.nan)

/-- `extractArr` at `Dim = 1`. -/
noncomputable def extractA1G (p s : Char) (istrm : IStream) (a : A1 F64) : Run (IStream × A1 F64) :=
  (extractArrG p s istrm a.toList).bind fun r =>
    match r.2 with
    | [x] => .ok (r.1, ⟨x⟩)
    | _ => .ub

/-- `extractArr` at `Dim = 3`. -/
noncomputable def extractA3G (p s : Char) (istrm : IStream) (a : A3 F64) : Run (IStream × A3 F64) :=
  (extractArrG p s istrm a.toList).bind fun r =>
    match r.2 with
    | [x, y, z] => .ok (r.1, ⟨x, y, z⟩)
    | _ => .ub

/-- `operator>>(istrm, x)` by type: `g3io.hpp:661-745`; the last argument is the present value
of the object.  For `double` it is the operator of the standard library. -/
noncomputable def extractTyG (p s : Char) : (t : Ty) → IStream → t.D F64 → Run (IStream × t.D F64)
  | .dub, st, x => .ok (extractDubG p s st x)
  | .sca, st, x => (extractA1G p s st x.theData).bind fun r => .ok (r.1, ⟨r.2⟩)
  | .vec, st, x => (extractA3G p s st x.theData).bind fun r => .ok (r.1, ⟨r.2⟩)
  | .biv, st, x => (extractA3G p s st x.theData).bind fun r => .ok (r.1, ⟨r.2⟩)
  | .tri, st, x => (extractA1G p s st x.theData).bind fun r => .ok (r.1, ⟨r.2⟩)
  | .spin, st, x =>
      (extractA1G p s st x.theSca.theData).bind fun a =>
      (extractA3G p s a.1 x.theBiv.theData).bind fun b => .ok (b.1, ⟨⟨a.2⟩, ⟨b.2⟩⟩)
  | .imsp, st, x =>
      (extractA3G p s st x.theVec.theData).bind fun a =>
      (extractA1G p s a.1 x.theTri.theData).bind fun b => .ok (b.1, ⟨⟨a.2⟩, ⟨b.2⟩⟩)
  | .cplx, st, x =>
      (extractA1G p s st x.theSca.theData).bind fun a =>
      (extractA1G p s a.1 x.theTri.theData).bind fun b => .ok (b.1, ⟨⟨a.2⟩, ⟨b.2⟩⟩)
  | .dplx, st, x =>
      (extractA3G p s st x.theVec.theData).bind fun a =>
      (extractA3G p s a.1 x.theBiv.theData).bind fun b => .ok (b.1, ⟨⟨a.2⟩, ⟨b.2⟩⟩)
  | .mv, st, x =>
      (extractA1G p s st x.theSca.theData).bind fun a =>
      (extractA3G p s a.1 x.theVec.theData).bind fun b =>
      (extractA3G p s b.1 x.theBiv.theData).bind fun c =>
      (extractA1G p s c.1 x.theTri.theData).bind fun d => .ok (d.1, ⟨⟨a.2⟩, ⟨b.2⟩, ⟨c.2⟩, ⟨d.2⟩⟩)

end Engabra
