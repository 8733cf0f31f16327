import Verif.Model.IO

/-! # Input with `std::noskipws` (`g3io.hpp`)

A stream whose flag `skipws` has been cleared does not skip the white space in front of a number.  The functions
of the library are those of `Model/IO.lean`; only the extraction of a `double` is different. -/

namespace Engabra

/-- `is >> x` for a `double` with `skipws` cleared; `old` is the present value of `x`.  A stream that is not good
fails and leaves `x` alone.  Otherwise the number must begin at the next character; in contrast to `extractDub`,
an empty stream gives zero (libstdc++ `num_get::do_get` is called, and finds no digit). -/
def extractDubN (s : IStream) (old : F64) : IStream × F64 :=
  if s.eof || s.fail then (⟨s.rest, s.eof, true⟩, old)
  else
    let r := scanNum s.rest
    (⟨r.2, r.2.isEmpty, r.1.convert.2⟩, r.1.convert.1)

/-- The loop of `operator>>(istrm, std::array)`: `g3io.hpp:646-651`. -/
noncomputable def extractLoopN (istrm : IStream) (okay : Bool) : List F64 → IStream × Bool × List F64
  | [] => (istrm, okay, [])
  | x :: xs =>
    if okay then
      let r := extractDubN istrm x
      let l := extractLoopN r.1 (isInputOkay r.1 r.2) xs
      (l.1, l.2.1, r.2 :: l.2.2)
    else (istrm, okay, x :: xs)

/-- `operator>>(istrm, std::array<double, Dim>)`: `g3io.hpp:634-658`. -/
noncomputable def extractArrN (istrm : IStream) (data : List F64) : Run (IStream × List F64) :=
  match data with
  | [] => .ub
  | x :: xs =>
    let r := extractDubN istrm x
    let l := extractLoopN r.1 (isInputOkay r.1 r.2) xs
    if l.2.1 then .ok (l.1, r.2 :: l.2.2)
    else .ok (l.1, List.replicate (xs.length + 1) Dbl.nan)

/-- `extractArrN` at `Dim = 1`. -/
noncomputable def extractA1N (istrm : IStream) (a : A1 F64) : Run (IStream × A1 F64) :=
  (extractArrN istrm a.toList).bind fun r =>
    match r.2 with
    | [x] => .ok (r.1, ⟨x⟩)
    | _ => .ub

/-- `extractArrN` at `Dim = 3`. -/
noncomputable def extractA3N (istrm : IStream) (a : A3 F64) : Run (IStream × A3 F64) :=
  (extractArrN istrm a.toList).bind fun r =>
    match r.2 with
    | [x, y, z] => .ok (r.1, ⟨x, y, z⟩)
    | _ => .ub

/-- `operator>>(istrm, x)` by type: `g3io.hpp:661-745`. -/
noncomputable def extractTyN : (t : Ty) → IStream → t.D F64 → Run (IStream × t.D F64)
  | .dub, s, x => .ok (extractDubN s x)
  | .sca, s, x => (extractA1N s x.theData).bind fun r => .ok (r.1, ⟨r.2⟩)
  | .vec, s, x => (extractA3N s x.theData).bind fun r => .ok (r.1, ⟨r.2⟩)
  | .biv, s, x => (extractA3N s x.theData).bind fun r => .ok (r.1, ⟨r.2⟩)
  | .tri, s, x => (extractA1N s x.theData).bind fun r => .ok (r.1, ⟨r.2⟩)
  | .spin, s, x =>
      (extractA1N s x.theSca.theData).bind fun a =>
      (extractA3N a.1 x.theBiv.theData).bind fun b => .ok (b.1, ⟨⟨a.2⟩, ⟨b.2⟩⟩)
  | .imsp, s, x =>
      (extractA3N s x.theVec.theData).bind fun a =>
      (extractA1N a.1 x.theTri.theData).bind fun b => .ok (b.1, ⟨⟨a.2⟩, ⟨b.2⟩⟩)
  | .cplx, s, x =>
      (extractA1N s x.theSca.theData).bind fun a =>
      (extractA1N a.1 x.theTri.theData).bind fun b => .ok (b.1, ⟨⟨a.2⟩, ⟨b.2⟩⟩)
  | .dplx, s, x =>
      (extractA3N s x.theVec.theData).bind fun a =>
      (extractA3N a.1 x.theBiv.theData).bind fun b => .ok (b.1, ⟨⟨a.2⟩, ⟨b.2⟩⟩)
  | .mv, s, x =>
      (extractA1N s x.theSca.theData).bind fun a =>
      (extractA3N a.1 x.theVec.theData).bind fun b =>
      (extractA3N b.1 x.theBiv.theData).bind fun c =>
      (extractA1N c.1 x.theTri.theData).bind fun d => .ok (d.1, ⟨⟨a.2⟩, ⟨b.2⟩, ⟨c.2⟩, ⟨d.2⟩⟩)

end Engabra
