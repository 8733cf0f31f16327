import Verif.Model.IO

/-! # Streams that fail: full output devices, stream exceptions (`g3io.hpp`)

`Model/IO.lean` writes to streams that accept every character and reads from streams that report
errors by their state only.  Here: a stream whose device is full after some number of characters,
and a stream told (with `exceptions()`) to throw. -/

namespace Engabra

/-! ## Output to a device that fills up -/

/-- A `std::ostream` whose device holds `room` characters in all; `bad` is `badbit`. -/
structure FStream where
  os : OStream
  room : Nat
  bad : Bool

namespace FStream

/-- A formatted insertion (libstdc++ `ostream::sentry`, `sputn`): nothing happens on a stream that
is not good; otherwise the characters that fit are written, and `badbit` is set if some do not.
`new` is the state that a device without limit would lead to. -/
def emit (f : FStream) (new : OStream) : FStream :=
  if f.bad then f
  else if new.out.length ≤ f.room then { f with os := new }
  else ⟨{ new with out := new.out.take f.room }, f.room, true⟩

/-- `os << s` for a string. -/
def putStr (f : FStream) (s : List Char) : FStream := f.emit (f.os.putStr s)

/-- `os << x` for a `double`. -/
def putDub (f : FStream) (x : F64) : FStream := f.emit (f.os.putDub x)

end FStream

/-- `priv::put(ostrm, std::array, fmt)`: `g3io.hpp:262-278`.  The elements are formatted in a local
`std::ostringstream` (no limit), the text is inserted as one string. -/
def putArrF (ostrm : FStream) (elems : List F64) (fmt : DoubleFormat := {}) : FStream :=
  let oss := elems.foldl (fun oss elem => (fmt.prepareFixed oss).putDub elem) OStream.fresh
  ostrm.putStr oss.out

/-- `operator<<(ostrm, x)` by type: `g3io.hpp:512-623`. -/
def insertTyF : (t : Ty) → FStream → t.D F64 → FStream
  | .dub, ostrm, x => ostrm.putDub x
  | .sca, ostrm, x => putArrF ostrm x.theData.toList
  | .vec, ostrm, x => putArrF ostrm x.theData.toList
  | .biv, ostrm, x => putArrF ostrm x.theData.toList
  | .tri, ostrm, x => putArrF ostrm x.theData.toList
  | .spin, ostrm, x =>
      putArrF ((putArrF ostrm x.theSca.theData.toList).putStr [' ']) x.theBiv.theData.toList
  | .imsp, ostrm, x =>
      putArrF ((putArrF ostrm x.theVec.theData.toList).putStr [' ']) x.theTri.theData.toList
  | .cplx, ostrm, x =>
      putArrF ((putArrF ostrm x.theSca.theData.toList).putStr [' ']) x.theTri.theData.toList
  | .dplx, ostrm, x =>
      putArrF ((putArrF ostrm x.theVec.theData.toList).putStr [' ']) x.theBiv.theData.toList
  | .mv, ostrm, x =>
      putArrF ((putArrF ((putArrF ((putArrF ostrm x.theSca.theData.toList).putStr [' '])
        x.theVec.theData.toList).putStr [' ']) x.theBiv.theData.toList).putStr [' '])
        x.theTri.theData.toList

/-! ## Extraction from a stream that throws -/

/-- `istrm.exceptions(...)`: which of `eofbit`, `failbit` throw. -/
structure Mask where
  eof : Bool
  fail : Bool

/-- Does this state throw (`basic_ios::clear`)? -/
def Mask.hit (m : Mask) (s : IStream) : Bool := (m.eof && s.eof) || (m.fail && s.fail)

/-- Outcome of a function that may throw: value returned, or what the caller's variables hold when
the exception reaches the caller; or undefined behaviour. -/
inductive Ex (β : Type) where
  | ub
  | ok (b : β)
  | threw (b : β)

/-- `istrm >> x` for a `double`: as `extractDub`; the value is stored before the state is set, and
setting the state throws.  (If no bit is set the state is not touched, and nothing is thrown; the
two cases coincide as `hit` needs a bit.) -/
def extractDubX (m : Mask) (s : IStream) (old : F64) : Ex (IStream × F64) :=
  if m.hit (extractDub s old).1 then .threw (extractDub s old) else .ok (extractDub s old)

/-- The loop of `operator>>(istrm, std::array)`: `g3io.hpp:646-651`, as `extractLoop`. -/
noncomputable def extractLoopX (m : Mask) (istrm : IStream) (okay : Bool) :
    List F64 → Ex (IStream × Bool × List F64)
  | [] => .ok (istrm, okay, [])
  | x :: xs =>
    if okay then
      match extractDubX m istrm x with
      | .ub => .ub
      | .threw r => .threw (r.1, okay, r.2 :: xs)
      | .ok r =>
        match extractLoopX m r.1 (isInputOkay r.1 r.2) xs with
        | .ub => .ub
        | .threw l => .threw (l.1, l.2.1, r.2 :: l.2.2)
        | .ok l => .ok (l.1, l.2.1, r.2 :: l.2.2)
    else .ok (istrm, okay, x :: xs)

/-- `operator>>(istrm, std::array<double, Dim>)`: `g3io.hpp:634-658`.  An exception leaves the
function before `std::fill`. -/
noncomputable def extractArrX (m : Mask) (istrm : IStream) (data : List F64) :
    Ex (IStream × List F64) :=
  match data with
  | [] => .ub
  | x :: xs =>
    match extractDubX m istrm x with
    | .ub => .ub
    | .threw r => .threw (r.1, r.2 :: xs)
    | .ok r =>
      match extractLoopX m r.1 (isInputOkay r.1 r.2) xs with
      | .ub => .ub
      | .threw l => .threw (l.1, r.2 :: l.2.2)
      | .ok l =>
        if l.2.1 then .ok (l.1, r.2 :: l.2.2)
        else .ok (l.1, List.replicate (xs.length + 1) Dbl.nan)

/-- Two statements in sequence.  `left b` is the object when the first one throws and leaves `b`;
`next` runs the second one. -/
def Ex.andThen {β γ : Type} (r : Ex (IStream × β)) (left : β → γ)
    (next : IStream → β → Ex (IStream × γ)) : Ex (IStream × γ) :=
  match r with
  | .ub => .ub
  | .threw b => .threw (b.1, left b.2)
  | .ok b => next b.1 b.2

/-- `extractArrX` at `Dim = 1`. -/
noncomputable def extractA1X (m : Mask) (istrm : IStream) (a : A1 F64) : Ex (IStream × A1 F64) :=
  match extractArrX m istrm a.toList with
  | .ok (s, [x]) => .ok (s, ⟨x⟩)
  | .threw (s, [x]) => .threw (s, ⟨x⟩)
  | _ => .ub

/-- `extractArrX` at `Dim = 3`. -/
noncomputable def extractA3X (m : Mask) (istrm : IStream) (a : A3 F64) : Ex (IStream × A3 F64) :=
  match extractArrX m istrm a.toList with
  | .ok (s, [x, y, z]) => .ok (s, ⟨x, y, z⟩)
  | .threw (s, [x, y, z]) => .threw (s, ⟨x, y, z⟩)
  | _ => .ub

/-- `operator>>(istrm, x)` by type: `g3io.hpp:661-745`, as `extractTy`. -/
noncomputable def extractTyX (m : Mask) : (t : Ty) → IStream → t.D F64 → Ex (IStream × t.D F64)
  | .dub, s, x => extractDubX m s x
  | .sca, s, x => (extractA1X m s x.theData).andThen (fun a => ⟨a⟩) fun s a => .ok (s, ⟨a⟩)
  | .vec, s, x => (extractA3X m s x.theData).andThen (fun a => ⟨a⟩) fun s a => .ok (s, ⟨a⟩)
  | .biv, s, x => (extractA3X m s x.theData).andThen (fun a => ⟨a⟩) fun s a => .ok (s, ⟨a⟩)
  | .tri, s, x => (extractA1X m s x.theData).andThen (fun a => ⟨a⟩) fun s a => .ok (s, ⟨a⟩)
  | .spin, s, x =>
      (extractA1X m s x.theSca.theData).andThen (fun a => ⟨⟨a⟩, x.theBiv⟩) fun s a =>
      (extractA3X m s x.theBiv.theData).andThen (fun b => ⟨⟨a⟩, ⟨b⟩⟩) fun s b => .ok (s, ⟨⟨a⟩, ⟨b⟩⟩)
  | .imsp, s, x =>
      (extractA3X m s x.theVec.theData).andThen (fun a => ⟨⟨a⟩, x.theTri⟩) fun s a =>
      (extractA1X m s x.theTri.theData).andThen (fun b => ⟨⟨a⟩, ⟨b⟩⟩) fun s b => .ok (s, ⟨⟨a⟩, ⟨b⟩⟩)
  | .cplx, s, x =>
      (extractA1X m s x.theSca.theData).andThen (fun a => ⟨⟨a⟩, x.theTri⟩) fun s a =>
      (extractA1X m s x.theTri.theData).andThen (fun b => ⟨⟨a⟩, ⟨b⟩⟩) fun s b => .ok (s, ⟨⟨a⟩, ⟨b⟩⟩)
  | .dplx, s, x =>
      (extractA3X m s x.theVec.theData).andThen (fun a => ⟨⟨a⟩, x.theBiv⟩) fun s a =>
      (extractA3X m s x.theBiv.theData).andThen (fun b => ⟨⟨a⟩, ⟨b⟩⟩) fun s b => .ok (s, ⟨⟨a⟩, ⟨b⟩⟩)
  | .mv, s, x =>
      (extractA1X m s x.theSca.theData).andThen (fun a => ⟨⟨a⟩, x.theVec, x.theBiv, x.theTri⟩) fun s a =>
      (extractA3X m s x.theVec.theData).andThen (fun b => ⟨⟨a⟩, ⟨b⟩, x.theBiv, x.theTri⟩) fun s b =>
      (extractA3X m s x.theBiv.theData).andThen (fun c => ⟨⟨a⟩, ⟨b⟩, ⟨c⟩, x.theTri⟩) fun s c =>
      (extractA1X m s x.theTri.theData).andThen (fun d => ⟨⟨a⟩, ⟨b⟩, ⟨c⟩, ⟨d⟩⟩) fun s d =>
        .ok (s, ⟨⟨a⟩, ⟨b⟩, ⟨c⟩, ⟨d⟩⟩)

end Engabra
