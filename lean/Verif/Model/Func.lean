import Verif.Model.Validity

/-! # Functions (`g3func.hpp`) -/

namespace Engabra

section Squares
variable {α : Type} [Add α] [Sub α] [Mul α] [Neg α] [Zero α]

/-- `sq(x)` for a type closed under its product: `g3func.hpp:106-114`. -/
def sq {T : Type} [Mul T] (someValue : T) : T := someValue * someValue

/-- `cube(x)`: `g3func.hpp:121-129`. -/
def cube {T : Type} [Mul T] (someValue : T) : T := someValue * someValue * someValue

/-- `magSq(double)`: `g3func.hpp:136-144`. -/
def magSqDub (dub : α) : α := sq dub

/-- `magSq(x)` for the nine struct types. -/
class MagSq (T : Type) (α : outParam Type) where
  magSq : T → α
export MagSq (magSq)

/-- blades: `g3func.hpp:147-159` with `priv::prodComm` on one component. -/
instance : MagSq (Scalar α) α := ⟨fun blade => prodComm1 blade.theData blade.theData⟩
/-- blades: `g3func.hpp:147-159`. -/
instance : MagSq (Vector α) α := ⟨fun blade => prodComm blade.theData blade.theData⟩
/-- blades: `g3func.hpp:147-159`. -/
instance : MagSq (BiVector α) α := ⟨fun blade => prodComm blade.theData blade.theData⟩
/-- blades: `g3func.hpp:147-159`. -/
instance : MagSq (TriVector α) α := ⟨fun blade => prodComm1 blade.theData blade.theData⟩
/-- `g3func.hpp:161-171`. -/
instance : MagSq (Spinor α) α := ⟨fun spin =>
  let scaSq := sq spin.theSca.theData.d0
  let bivSq := magSq spin.theBiv
  scaSq + bivSq⟩
/-- `g3func.hpp:173-183`. -/
instance : MagSq (ImSpin α) α := ⟨fun imsp =>
  let vecSq := magSq imsp.theVec
  let triSq := sq imsp.theTri.theData.d0
  vecSq + triSq⟩
/-- `g3func.hpp:185-195`. -/
instance : MagSq (ComPlex α) α := ⟨fun cplx => magSq cplx.theSca + magSq cplx.theTri⟩
/-- `g3func.hpp:197-207`. -/
instance : MagSq (DirPlex α) α := ⟨fun dplx => magSq dplx.theVec + magSq dplx.theBiv⟩
/-- `g3func.hpp:209-221`. -/
instance : MagSq (MultiVector α) α := ⟨fun mv =>
  let scaSq := sq mv.theSca.theData.d0
  let vecSq := magSq mv.theVec
  let bivSq := magSq mv.theBiv
  let triSq := sq mv.theTri.theData.d0
  scaSq + vecSq + bivSq + triSq⟩

/-- `ampSq(x)`. -/
class AmpSq (T : Type) (α : outParam Type) where
  ampSq : T → ComPlex α
export AmpSq (ampSq)

/-- `g3func.hpp:262-270`. -/
instance : AmpSq (Scalar α) α := ⟨fun sca => ⟨⟨⟨magSq sca⟩⟩, gzero⟩⟩
/-- `g3func.hpp:272-280`. -/
instance : AmpSq (Vector α) α := ⟨fun vec => ⟨⟨⟨-magSq vec⟩⟩, gzero⟩⟩
/-- `g3func.hpp:282-291`. -/
instance : AmpSq (BiVector α) α := ⟨fun biv => ⟨⟨⟨magSq biv⟩⟩, gzero⟩⟩
/-- `g3func.hpp:293-302`. -/
instance : AmpSq (TriVector α) α := ⟨fun tri => ⟨⟨⟨-magSq tri⟩⟩, gzero⟩⟩
/-- `g3func.hpp:304-317`. -/
instance : AmpSq (Spinor α) α := ⟨fun spin =>
  ⟨⟨⟨magSq spin.theSca + magSq spin.theBiv⟩⟩, gzero⟩⟩
/-- `g3func.hpp:319-332`. -/
instance : AmpSq (ImSpin α) α := ⟨fun imsp =>
  ⟨⟨⟨-(magSq imsp.theVec + magSq imsp.theTri)⟩⟩, gzero⟩⟩
/-- `g3func.hpp:334-348`. -/
instance [OfNat α 2] : AmpSq (ComPlex α) α := ⟨fun cplx =>
  let dubSca := cplx.theSca.theData.d0
  let dubTri := cplx.theTri.theData.d0
  ⟨⟨⟨sq dubSca - sq dubTri⟩⟩, ⟨⟨2 * dubSca * dubTri⟩⟩⟩⟩
/-- `g3func.hpp:350-371`. -/
instance [OfNat α 2] : AmpSq (DirPlex α) α := ⟨fun dplx =>
  let scaPart := magSq dplx.theVec - magSq dplx.theBiv
  let triVecBiv := prodComm dplx.theVec.theData dplx.theBiv.theData
  let triPart := 2 * triVecBiv
  ⟨⟨⟨-scaPart⟩⟩, ⟨⟨-triPart⟩⟩⟩⟩
/-- `g3func.hpp:373-413`. -/
instance [OfNat α 2] : AmpSq (MultiVector α) α := ⟨fun mv =>
  let sqSca := magSq mv.theSca
  let sqVec := magSq mv.theVec
  let sqBiv := -magSq mv.theBiv
  let sqTri := -magSq mv.theTri
  let scaPart := sqSca - sqVec - sqBiv + sqTri
  let triScaTri := mv.theSca.theData.d0 * mv.theTri.theData.d0
  let triVecBiv := prodComm mv.theVec.theData mv.theBiv.theData
  let triPart := 2 * (triScaTri - triVecBiv)
  ⟨⟨⟨scaPart⟩⟩, ⟨⟨triPart⟩⟩⟩⟩

end Squares

section Complex
variable {α : Type}
/-- `ComPlex::from(std::complex<double>)`: `g3type.hpp:516-528`. -/
def ComPlex.from (stdcplx : α × α) : ComPlex α := ⟨⟨⟨stdcplx.1⟩⟩, ⟨⟨stdcplx.2⟩⟩⟩
/-- `ComPlex::operator std::complex<double>`: `g3type.hpp:530-536`. -/
def ComPlex.toStd (cplx : ComPlex α) : α × α := ⟨cplx.theSca.theData.d0, cplx.theTri.theData.d0⟩
end Complex

variable {α : Type} [Dbl α]

/-- `magnitude(x)`: `g3func.hpp:223-232`. -/
def magnitude {T : Type} [MagSq T α] (element : T) : α := Dbl.sqrt (magSq element)

/-- `magnitude(double)`: the same template at `double`, `g3func.hpp:223-232`. -/
def magnitudeDub (element : α) : α := Dbl.sqrt (magSqDub element)

/-- `pairMagDirFrom(x)`: `g3func.hpp:234-256` (instantiated at the nine struct types). -/
def pairMagDirFrom {T : Type} [MagSq T α] [GNull T α] [HMul α T T] (blade : T) : α × T :=
  let mag := magnitude blade
  if Dbl.lt (Dbl.denormMin α) mag then (mag, (1 / mag) * blade) else (mag, gnull Dbl.nan)

/-- `direction(x)`: `g3func.hpp:433-445`. -/
def direction {T : Type} [MagSq T α] [GNull T α] [HMul α T T] (blade : T) : T :=
  (pairMagDirFrom blade).2

/-- `inverse(x)` of a blade: `g3func.hpp:451-464`. -/
def inverseBlade {T : Type} [MagSq T α] [Reverse T] [HMul α T T] (someItem : T) : T :=
  let mag2 := magSq someItem
  (1 / mag2) * reverse someItem

section Lib
variable [LibM α]

/-- `amplitude(x)`: `g3func.hpp:415-427`. -/
def amplitude {T : Type} [AmpSq T α] (item : T) : ComPlex α :=
  let cSq := ampSq item
  ComPlex.from (LibM.csqrt (cSq.theSca.theData.d0, cSq.theTri.theData.d0))

/-- `inverse<ComPlex>(z)`: `g3func.hpp:466-493`. `std::conj` negates the imaginary part. -/
def inverseCplx (cplx : ComPlex α) : ComPlex α :=
  let zFwd := (cplx.theSca.theData.d0, cplx.theTri.theData.d0)
  let zConj := (zFwd.1, -zFwd.2)
  let zAmpSq := LibM.cmul zFwd (zFwd.1, -zFwd.2)
  if Dbl.lt (Dbl.minDub α) (LibM.cabs zAmpSq) then
    let zInvAmpSq := LibM.cdiv 1 zAmpSq
    let zInv := LibM.cmul zConj zInvAmpSq
    ⟨⟨⟨zInv.1⟩⟩, ⟨⟨zInv.2⟩⟩⟩
  else gnull Dbl.nan

/-- `inverse<MultiVector>(mv)`: `g3func.hpp:496-513`. -/
def inverseMv (mv : MultiVector α) : MultiVector α :=
  let amp2 := ampSq mv
  let invAmp := inverseCplx amp2
  let mvDv := dirverse mv
  invAmp.theSca * mvDv + invAmp.theTri * mvDv

/-- `exp(BiVector)`: `g3func.hpp:534-556`. -/
def expBiv (spinAngle : BiVector α) : Spinor α :=
  if isValid spinAngle then
    let magdir := pairMagDirFrom spinAngle
    let mag := magdir.1
    let dir := magdir.2
    if isValid dir then ⟨⟨⟨LibM.cos mag⟩⟩, LibM.sin mag * dir⟩
    else ⟨⟨⟨1⟩⟩, gzero⟩
  else gnull Dbl.nan

/-- `exp(Spinor)`: `g3func.hpp:558-566`. -/
def expSpin (someItem : Spinor α) : Spinor α :=
  LibM.exp someItem.theSca.theData.d0 * expBiv someItem.theBiv

/-- `priv::sync`: `g3func.hpp:571-595`. -/
def sync (angle : α) : α :=
  if Dbl.lt angle (Dbl.lit (1 / 10000)) then
    sq (sq angle) / Dbl.lit 120 - sq angle / Dbl.lit 6 + 1
  else LibM.sin angle / angle

/-- What `exp(MultiVector)` writes to `std::cout`: label and value of each line, in order. -/
abbrev CoutLog (α : Type) := List (String × α)

/-- `exp(MultiVector)`: `g3func.hpp:600-702`.  The C++ writes ten lines to `std::cout`;
the model returns their labels and values beside the result. -/
def expMvIO (someItem : MultiVector α) : CoutLog α × MultiVector α :=
  if isValid someItem then
    let a0 := someItem.theSca.theData.d0
    let a1 := someItem.theVec.theData.d0
    let a2 := someItem.theVec.theData.d1
    let a3 := someItem.theVec.theData.d2
    let a12 := someItem.theBiv.theData.d2
    let a13 := -someItem.theBiv.theData.d1
    let a23 := someItem.theBiv.theData.d0
    let a123 := someItem.theTri.theData.d0
    let a3m12 := a3 - a12
    let a3p12 := a3 + a12
    let a2m13 := a2 - a13
    let a2p13 := a2 + a13
    let a1m23 := a1 - a23
    let a1p23 := a1 + a23
    let apos := Dbl.sqrt (sq a3m12 + sq a2p13 + sq a1m23)
    let aneg := Dbl.sqrt (sq a3p12 + sq a2m13 + sq a1p23)
    let cospos := LibM.cos apos
    let cosneg := LibM.cos aneg
    let syncpos := sync apos
    let syncneg := sync aneg
    let hea0 := Dbl.lit (1 / 2) * LibM.exp a0
    let epa123 := LibM.exp a123
    let ena123 := LibM.exp (-a123)
    let b0 := epa123 * cospos + ena123 * cosneg
    let b1 := epa123 * a1m23 * syncpos + ena123 * a1p23 * syncneg
    let b2 := epa123 * a2p13 * syncpos + ena123 * a2m13 * syncneg
    let b3 := epa123 * a3m12 * syncpos + ena123 * a3p12 * syncneg
    let b12 := -epa123 * a3m12 * syncpos + ena123 * a3p12 * syncneg
    let b13 := epa123 * a2p13 * syncpos - ena123 * a2m13 * syncneg
    let b23 := -epa123 * a1m23 * syncpos + ena123 * a1p23 * syncneg
    let b123 := epa123 * cospos - ena123 * cosneg
    let result := mvOf8 b0 b1 b2 b3 b23 (-b13) b12 b123
    ([("apos: ", apos), ("aneg: ", aneg), ("cospos: ", cospos), ("cosneg: ", cosneg),
      ("syncpos: ", syncpos), ("syncneg: ", syncneg), ("hea0  : ", hea0),
      ("epa123: ", epa123), ("ena123: ", ena123), (" sum  : ", epa123 + ena123)],
     hea0 * result)
  else ([], gnull Dbl.nan)

/-- The value of `exp(MultiVector)`. -/
def expMv (someItem : MultiVector α) : MultiVector α := (expMvIO someItem).2

/-- `logG2(genSpin, bivDirForImaginary)`: `g3func.hpp:711-768`. The default argument is
`e23`. -/
def logG2 (genSpin : Spinor α) (bivDirForImaginary : BiVector α := e23) : Spinor α :=
  if isValid genSpin then
    let spinMag := magnitude genSpin
    if Dbl.lt (Dbl.epsilon α) spinMag then
      let logSpinMag := LibM.log spinMag
      let invMag := 1 / spinMag
      let spinDir := invMag * genSpin
      let dirCosValue := spinDir.theSca.theData.d0
      let almostOne : α := 1 - Dbl.epsilon α
      if Dbl.lt almostOne dirCosValue then ⟨⟨⟨logSpinMag⟩⟩, gzero⟩
      else if Dbl.lt dirCosValue (-almostOne) then
        let bivDir := direction bivDirForImaginary
        ⟨⟨⟨logSpinMag⟩⟩, Dbl.pi α * bivDir⟩
      else
        let bivMagDir := pairMagDirFrom spinDir.theBiv
        let dirSinMag := bivMagDir.1
        let bivDir := bivMagDir.2
        let angleSize := LibM.atan2 dirSinMag dirCosValue
        ⟨⟨⟨logSpinMag⟩⟩, angleSize * bivDir⟩
    else gnull Dbl.nan
  else gnull Dbl.nan

/-- `sqrtG2(genSpin, bivDirForImaginary)`: `g3func.hpp:770-795`. -/
def sqrtG2 (genSpin : Spinor α) (bivDirForImaginary : BiVector α := e23) : Spinor α :=
  if isValid genSpin then
    let spinMag := magnitude genSpin
    let tol := Dbl.lit 4 * Dbl.epsilon α
    if Dbl.lt spinMag tol then gzero
    else
      let gangle := logG2 genSpin bivDirForImaginary
      expSpin ((Dbl.lit (1 / 2) : α) * gangle)
  else gnull Dbl.nan

end Lib

end Engabra
