import Verif.Model.Grouping

/-! # Locales with digit groups of any sizes (`g3io.hpp`)

`Model/Grouping.lean` has groups of three digits.  Here the sizes are those of a list `z`
(`std::numpunct<char>::grouping()`): the first is that of the group next to the decimal point, the next that of
the group before it, and so on; the last one is repeated.  (`[3]` in most of Europe and America, `[3, 2]` in
India, `[4]` in parts of East Asia.)  A size that is zero or at least 127 (`CHAR_MAX`) stands for all the
digits that are left; entries are at most 127.  The names are those of `Model/Grouping.lean`, in the namespace
`Sizes`.

Simplification: the locale groups digits, that is the first size is from 1 to 126; otherwise it is one of
`Model/Locale.lean`. -/

namespace Engabra.Sizes

/-- Size of group number `i`, counted from the decimal point. -/
def sizeAt (z : List Nat) (i : Nat) : Nat := z.getD i (z.getLastD 0)

/-- That group has a largest size. -/
def Limited (z : List Nat) (i : Nat) : Prop := 0 < sizeAt z i ∧ sizeAt z i < 127

instance (z : List Nat) (i : Nat) : Decidable (Limited z i) := by unfold Limited; infer_instance

/-! ## Output -/

/-- Digits from right to left: `k` of group `i` have been written; a separator before a digit if the group
is full (libstdc++ `std::__add_grouping`). -/
def groupRev (z : List Nat) (s : Char) : (i k : Nat) → List Char → List Char
  | _, _, [] => []
  | i, k, c :: cs =>
    if k = sizeAt z i ∧ Limited z i then s :: c :: groupRev z s (i + 1) 1 cs
    else c :: groupRev z s i (k + 1) cs

/-- The digits with separators. -/
def groupDigits (z : List Nat) (s : Char) (ds : List Char) : List Char := (groupRev z s 0 0 ds.reverse).reverse

/-- Text of a number without the sign: the digits before the decimal point are grouped
(libstdc++ `num_put::_M_insert_float`, `_M_group_float`).  A text that does not begin with two
digits has nothing to group. -/
def bodyTextG (z : List Nat) (p s : Char) (ff : FloatField) (prec : Nat) (x : F64) : List Char :=
  let b := bodyText ff prec x
  groupDigits z s (b.takeWhile isDig) ++ (b.dropWhile isDig).map (point p)

/-- `os << x` for a `double` in a locale with decimal point `p` and separator `s`; otherwise as
`OStream.putDub`. -/
def _root_.Engabra.OStream.putDubZ (z : List Nat) (p s : Char) (os : OStream) (x : F64) : OStream :=
  let sg := signText x
  let b := bodyTextG z p s os.ff os.prec x
  let pad := List.replicate (os.width - (sg ++ b).length) os.fill
  { os with
    out := os.out ++ (match os.adj with
      | .left => sg ++ b ++ pad
      | .internal => sg ++ pad ++ b
      | _ => pad ++ (sg ++ b))
    width := 0 }

/-- `priv::put(ostrm, std::array, fmt)`: `g3io.hpp:262-278`. -/
def putArrG (z : List Nat) (p s : Char) (ostrm : OStream) (elems : List F64) (fmt : DoubleFormat := {}) : OStream :=
  let oss := elems.foldl (fun oss elem => (fmt.prepareFixed oss).putDubZ z p s elem) OStream.fresh
  ostrm.putStr oss.out

/-- `io::fixed(double, digBefore, digAfter)`: `g3io.hpp:305-317`. -/
def fixedDubG (z : List Nat) (p s : Char) (dub : F64) (digBefore : Nat := 3) (digAfter : Nat := 6) : List Char :=
  let fmt : DoubleFormat := ⟨digBefore, digAfter⟩
  ((fmt.prepareFixed OStream.fresh).putDubZ z p s dub).out

/-- `io::fixed(Blade, ...)`: `g3io.hpp:320-340`; the argument is the component array. -/
def fixedArrG (z : List Nat) (p s : Char) (data : List F64) (digBefore : Nat := 3) (digAfter : Nat := 6) : List Char :=
  (data.foldl (fun oss x => oss.putStr (fixedDubG z p s x digBefore digAfter)) OStream.fresh).out

/-- `io::enote(double, digAfter)`: `g3io.hpp:405-417`. -/
def enoteDubG (z : List Nat) (p s : Char) (dub : F64) (digAfter : Nat := 15) : List Char :=
  ((prepareEnote OStream.fresh digAfter).putDubZ z p s dub).out

/-- Loop of `io::enote(Blade, ...)`: `g3io.hpp:432-441`. -/
def enoteLoopG (z : List Nat) (p s : Char) (digAfter : Nat) : (ndx : Nat) → List F64 → OStream → OStream
  | _, [], oss => oss
  | ndx, x :: xs, oss =>
    let oss := if 0 < ndx then oss.putStr [' '] else oss
    enoteLoopG z p s digAfter (ndx + 1) xs ((prepareEnote oss digAfter).putDubZ z p s x)

/-- `io::enote(Blade, digAfter)`: `g3io.hpp:420-443`; the argument is the component array. -/
def enoteArrG (z : List Nat) (p s : Char) (data : List F64) (digAfter : Nat := 15) : List Char :=
  (enoteLoopG z p s digAfter 0 data OStream.fresh).out

/-- `io::fixed(x, digBefore, digAfter)` by type: `g3io.hpp:305-398`.  There is no overload
for `ComPlex` and `DirPlex`: `none`. -/
def fixedTyG (z : List Nat) (p s : Char) (b a : Nat) : (t : Ty) → t.D F64 → Option (List Char)
  | .dub, x => some (fixedDubG z p s x b a)
  | .sca, x => some (fixedArrG z p s x.theData.toList b a)
  | .vec, x => some (fixedArrG z p s x.theData.toList b a)
  | .biv, x => some (fixedArrG z p s x.theData.toList b a)
  | .tri, x => some (fixedArrG z p s x.theData.toList b a)
  | .spin, x => some (catStr
      [fixedArrG z p s x.theSca.theData.toList b a, [' ', ' '], fixedArrG z p s x.theBiv.theData.toList b a])
  | .imsp, x => some (catStr
      [fixedArrG z p s x.theVec.theData.toList b a, [' ', ' '], fixedArrG z p s x.theTri.theData.toList b a])
  | .mv, x => some (catStr
      [fixedArrG z p s x.theSca.theData.toList b a, [' ', ' '], fixedArrG z p s x.theVec.theData.toList b a,
       [' ', ' '], fixedArrG z p s x.theBiv.theData.toList b a, [' ', ' '],
       fixedArrG z p s x.theTri.theData.toList b a])
  | .cplx, _ => none
  | .dplx, _ => none

/-- `io::enote(x, digAfter)` by type: `g3io.hpp:405-496`.  There is no overload for `ComPlex`
and `DirPlex`: `none`. -/
def enoteTyG (z : List Nat) (p s : Char) (a : Nat) : (t : Ty) → t.D F64 → Option (List Char)
  | .dub, x => some (enoteDubG z p s x a)
  | .sca, x => some (enoteArrG z p s x.theData.toList a)
  | .vec, x => some (enoteArrG z p s x.theData.toList a)
  | .biv, x => some (enoteArrG z p s x.theData.toList a)
  | .tri, x => some (enoteArrG z p s x.theData.toList a)
  | .spin, x => some (catStr
      [enoteArrG z p s x.theSca.theData.toList a, [' ', ' '], enoteArrG z p s x.theBiv.theData.toList a])
  | .imsp, x => some (catStr
      [enoteArrG z p s x.theVec.theData.toList a, [' ', ' '], enoteArrG z p s x.theTri.theData.toList a])
  | .mv, x => some (catStr
      [enoteArrG z p s x.theSca.theData.toList a, [' ', ' '], enoteArrG z p s x.theVec.theData.toList a,
       [' ', ' '], enoteArrG z p s x.theBiv.theData.toList a, [' ', ' '],
       enoteArrG z p s x.theTri.theData.toList a])
  | .cplx, _ => none
  | .dplx, _ => none

/-- `operator<<(ostrm, x)` by type: `g3io.hpp:512-623`, in a program whose global locale has
decimal point `p` and separator `s`.  For `double` it is the operator of the standard library, in
the locale of the stream (here the same). -/
def insertTyG (z : List Nat) (p s : Char) : (t : Ty) → OStream → t.D F64 → OStream
  | .dub, ostrm, x => ostrm.putDubZ z p s x
  | .sca, ostrm, x => putArrG z p s ostrm x.theData.toList
  | .vec, ostrm, x => putArrG z p s ostrm x.theData.toList
  | .biv, ostrm, x => putArrG z p s ostrm x.theData.toList
  | .tri, ostrm, x => putArrG z p s ostrm x.theData.toList
  | .spin, ostrm, x =>
      putArrG z p s ((putArrG z p s ostrm x.theSca.theData.toList).putStr [' ']) x.theBiv.theData.toList
  | .imsp, ostrm, x =>
      putArrG z p s ((putArrG z p s ostrm x.theVec.theData.toList).putStr [' ']) x.theTri.theData.toList
  | .cplx, ostrm, x =>
      putArrG z p s ((putArrG z p s ostrm x.theSca.theData.toList).putStr [' ']) x.theTri.theData.toList
  | .dplx, ostrm, x =>
      putArrG z p s ((putArrG z p s ostrm x.theVec.theData.toList).putStr [' ']) x.theBiv.theData.toList
  | .mv, ostrm, x =>
      putArrG z p s ((putArrG z p s ((putArrG z p s ((putArrG z p s ostrm x.theSca.theData.toList).putStr [' '])
        x.theVec.theData.toList).putStr [' ']) x.theBiv.theData.toList).putStr [' '])
        x.theTri.theData.toList

/-! ## Input -/

/-- The sizes from right to left against those of the locale: equal for all but the last, which is at most that
of the locale if there is one. -/
def sizesOk (z : List Nat) : (i : Nat) → List Nat → Bool
  | _, [] => true
  | i, [n] => !decide (Limited z i) || decide (asChar n ≤ sizeAt z i)
  | i, n :: ns => asChar n == sizeAt z i && sizesOk z (i + 1) ns

/-- Check of the sizes of the groups, if there was a separator (libstdc++ `std::__verify_grouping`). -/
def groupsOk (z : List Nat) : List Nat → Bool
  | [] => true
  | [_] => true
  | gs => sizesOk z 0 gs.reverse

/-- `scanNum` with decimal point `p` and separator `s`: the token, whether the groups are in order,
and the characters not consumed (libstdc++ `num_get::_M_extract_float`). -/
def scanNumG (z : List Nat) (p s : Char) (cs : List Char) : NumTok × Bool × List Char :=
  let g := scanSign cs
  let i := scanGroups s 0 g.2
  if i.2.2.1 then (⟨false, [], [], none⟩, false, i.2.2.2)
  else
    let f := scanFracL p i.2.2.2
    let e := scanExp (!(i.1.isEmpty && f.1.isEmpty)) f.2
    (⟨g.1, i.1, f.1, e.1⟩, groupsOk z i.2.1, e.2)

/-- `is >> x` for a `double` in a locale with decimal point `p` and separator `s`; otherwise as
`extractDub`.  Groups that are not in order set `failbit`; the number is stored nevertheless
(libstdc++ `num_get::do_get`). -/
def extractDubG (z : List Nat) (p s : Char) (st : IStream) (old : F64) : IStream × F64 :=
  if st.eof || st.fail then (⟨st.rest, st.eof, true⟩, old)
  else
    let cs := st.rest.dropWhile isWs
    if cs = [] then (⟨[], true, true⟩, old)
    else
      let k := scanNumG z p s cs
      (⟨k.2.2, k.2.2.isEmpty, k.1.convert.2 || !k.2.1⟩, k.1.convert.1)

/-- The loop of `operator>>(istrm, std::array)`: `g3io.hpp:646-651`, over the elements from
index 1: stream, `okay`, elements (the ones not reached keep their values). -/
noncomputable def extractLoopG (z : List Nat) (p s : Char) (istrm : IStream) (okay : Bool) :
    List F64 → IStream × Bool × List F64
  | [] => (istrm, okay, [])
  | x :: xs =>
    if okay then
      let r := extractDubG z p s istrm x
      let l := extractLoopG z p s r.1 (isInputOkay r.1 r.2) xs
      (l.1, l.2.1, r.2 :: l.2.2)
    else (istrm, okay, x :: xs)

/-- `operator>>(istrm, std::array<double, Dim>)`: `g3io.hpp:634-658`; `data` is the present
content of the array.  For `Dim = 0` the code accesses `data[0]`: undefined behaviour. -/
noncomputable def extractArrG (z : List Nat) (p s : Char) (istrm : IStream) (data : List F64) :
    Run (IStream × List F64) :=
  match data with
  | [] => .ub
  | x :: xs =>
    let r := extractDubG z p s istrm x
    let l := extractLoopG z p s r.1 (isInputOkay r.1 r.2) xs
    if l.2.1 then .ok (l.1, r.2 :: l.2.2)
    else .ok (l.1, List.replicate (xs.length + 1) Dbl.nan)

/-- `extractArr` at `Dim = 1`. -/
noncomputable def extractA1G (z : List Nat) (p s : Char) (istrm : IStream) (a : A1 F64) : Run (IStream × A1 F64) :=
  (extractArrG z p s istrm a.toList).bind fun r =>
    match r.2 with
    | [x] => .ok (r.1, ⟨x⟩)
    | _ => .ub

/-- `extractArr` at `Dim = 3`. -/
noncomputable def extractA3G (z : List Nat) (p s : Char) (istrm : IStream) (a : A3 F64) : Run (IStream × A3 F64) :=
  (extractArrG z p s istrm a.toList).bind fun r =>
    match r.2 with
    | [x, y, z] => .ok (r.1, ⟨x, y, z⟩)
    | _ => .ub

/-- `operator>>(istrm, x)` by type: `g3io.hpp:661-745`; the last argument is the present value
of the object.  For `double` it is the operator of the standard library. -/
noncomputable def extractTyG (z : List Nat) (p s : Char) : (t : Ty) → IStream → t.D F64 → Run (IStream × t.D F64)
  | .dub, st, x => .ok (extractDubG z p s st x)
  | .sca, st, x => (extractA1G z p s st x.theData).bind fun r => .ok (r.1, ⟨r.2⟩)
  | .vec, st, x => (extractA3G z p s st x.theData).bind fun r => .ok (r.1, ⟨r.2⟩)
  | .biv, st, x => (extractA3G z p s st x.theData).bind fun r => .ok (r.1, ⟨r.2⟩)
  | .tri, st, x => (extractA1G z p s st x.theData).bind fun r => .ok (r.1, ⟨r.2⟩)
  | .spin, st, x =>
      (extractA1G z p s st x.theSca.theData).bind fun a =>
      (extractA3G z p s a.1 x.theBiv.theData).bind fun b => .ok (b.1, ⟨⟨a.2⟩, ⟨b.2⟩⟩)
  | .imsp, st, x =>
      (extractA3G z p s st x.theVec.theData).bind fun a =>
      (extractA1G z p s a.1 x.theTri.theData).bind fun b => .ok (b.1, ⟨⟨a.2⟩, ⟨b.2⟩⟩)
  | .cplx, st, x =>
      (extractA1G z p s st x.theSca.theData).bind fun a =>
      (extractA1G z p s a.1 x.theTri.theData).bind fun b => .ok (b.1, ⟨⟨a.2⟩, ⟨b.2⟩⟩)
  | .dplx, st, x =>
      (extractA3G z p s st x.theVec.theData).bind fun a =>
      (extractA3G z p s a.1 x.theBiv.theData).bind fun b => .ok (b.1, ⟨⟨a.2⟩, ⟨b.2⟩⟩)
  | .mv, st, x =>
      (extractA1G z p s st x.theSca.theData).bind fun a =>
      (extractA3G z p s a.1 x.theVec.theData).bind fun b =>
      (extractA3G z p s b.1 x.theBiv.theData).bind fun c =>
      (extractA1G z p s c.1 x.theTri.theData).bind fun d => .ok (d.1, ⟨⟨a.2⟩, ⟨b.2⟩, ⟨c.2⟩, ⟨d.2⟩⟩)

end Engabra.Sizes
