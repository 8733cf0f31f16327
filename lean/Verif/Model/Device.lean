import Verif.Model.IO

/-! # Extraction from a device that breaks (`g3io.hpp`)

`Model/IO.lean` reads from a text that ends with an end of file.  Here the device delivers some
characters and reports an error when asked for more (a disk error, a lost connection): the stream
buffer throws, which the standard library turns into `badbit`. -/

namespace Engabra

/-- A `std::istream` on a device that breaks: the characters it still delivers, `failbit`, `badbit`.
The end of the file is never seen. -/
structure DStream where
  rest : List Char
  fail : Bool
  bad : Bool
  deriving DecidableEq

/-- `good()` -/
def DStream.good (s : DStream) : Bool := !s.fail && !s.bad

/-- `is >> x` for a `double` (libstdc++ `istream::sentry`, `istream::_M_extract`); `old` is the
present value of `x`.  An extraction asks for more than the device delivers exactly when it would
reach the end of a text with these characters; the buffer then throws, `x` is left alone and
`badbit` is set, and `failbit` too if that happens while white space is skipped. -/
def extractDubD (s : DStream) (old : F64) : DStream × F64 :=
  if s.good then
    let r := extractDub ⟨s.rest, false, false⟩ old
    if r.1.eof then (⟨[], s.rest.dropWhile isWs = [], true⟩, old)
    else (⟨r.1.rest, r.1.fail, false⟩, r.2)
  else (⟨s.rest, true, s.bad⟩, old)

/-- `priv::isInputOkay(istrm, value)`: `g3io.hpp:285-296`; `fail()` is `failbit` or `badbit`. -/
noncomputable def isInputOkayD (istrm : DStream) (value : F64) : Bool :=
  !(istrm.fail || istrm.bad) && isValidDub value

/-- The loop of `operator>>(istrm, std::array)`: `g3io.hpp:646-651`. -/
noncomputable def extractLoopD (istrm : DStream) (okay : Bool) : List F64 → DStream × Bool × List F64
  | [] => (istrm, okay, [])
  | x :: xs =>
    if okay then
      let r := extractDubD istrm x
      let l := extractLoopD r.1 (isInputOkayD r.1 r.2) xs
      (l.1, l.2.1, r.2 :: l.2.2)
    else (istrm, okay, x :: xs)

/-- `operator>>(istrm, std::array<double, Dim>)`: `g3io.hpp:634-658`. -/
noncomputable def extractArrD (istrm : DStream) (data : List F64) : Run (DStream × List F64) :=
  match data with
  | [] => .ub
  | x :: xs =>
    let r := extractDubD istrm x
    let l := extractLoopD r.1 (isInputOkayD r.1 r.2) xs
    if l.2.1 then .ok (l.1, r.2 :: l.2.2)
    else .ok (l.1, List.replicate (xs.length + 1) Dbl.nan)

/-- `extractArrD` at `Dim = 1`. -/
noncomputable def extractA1D (istrm : DStream) (a : A1 F64) : Run (DStream × A1 F64) :=
  (extractArrD istrm a.toList).bind fun r =>
    match r.2 with
    | [x] => .ok (r.1, ⟨x⟩)
    | _ => .ub

/-- `extractArrD` at `Dim = 3`. -/
noncomputable def extractA3D (istrm : DStream) (a : A3 F64) : Run (DStream × A3 F64) :=
  (extractArrD istrm a.toList).bind fun r =>
    match r.2 with
    | [x, y, z] => .ok (r.1, ⟨x, y, z⟩)
    | _ => .ub

/-- `operator>>(istrm, x)` by type: `g3io.hpp:661-745`. -/
noncomputable def extractTyD : (t : Ty) → DStream → t.D F64 → Run (DStream × t.D F64)
  | .dub, s, x => .ok (extractDubD s x)
  | .sca, s, x => (extractA1D s x.theData).bind fun r => .ok (r.1, ⟨r.2⟩)
  | .vec, s, x => (extractA3D s x.theData).bind fun r => .ok (r.1, ⟨r.2⟩)
  | .biv, s, x => (extractA3D s x.theData).bind fun r => .ok (r.1, ⟨r.2⟩)
  | .tri, s, x => (extractA1D s x.theData).bind fun r => .ok (r.1, ⟨r.2⟩)
  | .spin, s, x =>
      (extractA1D s x.theSca.theData).bind fun a =>
      (extractA3D a.1 x.theBiv.theData).bind fun b => .ok (b.1, ⟨⟨a.2⟩, ⟨b.2⟩⟩)
  | .imsp, s, x =>
      (extractA3D s x.theVec.theData).bind fun a =>
      (extractA1D a.1 x.theTri.theData).bind fun b => .ok (b.1, ⟨⟨a.2⟩, ⟨b.2⟩⟩)
  | .cplx, s, x =>
      (extractA1D s x.theSca.theData).bind fun a =>
      (extractA1D a.1 x.theTri.theData).bind fun b => .ok (b.1, ⟨⟨a.2⟩, ⟨b.2⟩⟩)
  | .dplx, s, x =>
      (extractA3D s x.theVec.theData).bind fun a =>
      (extractA3D a.1 x.theBiv.theData).bind fun b => .ok (b.1, ⟨⟨a.2⟩, ⟨b.2⟩⟩)
  | .mv, s, x =>
      (extractA1D s x.theSca.theData).bind fun a =>
      (extractA3D a.1 x.theVec.theData).bind fun b =>
      (extractA3D b.1 x.theBiv.theData).bind fun c =>
      (extractA1D c.1 x.theTri.theData).bind fun d => .ok (d.1, ⟨⟨a.2⟩, ⟨b.2⟩, ⟨c.2⟩, ⟨d.2⟩⟩)

end Engabra
