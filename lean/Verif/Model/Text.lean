import Verif.Model.F64
import Verif.Model.Validity

/-! # Decimal text of doubles and standard streams

What `g3io.hpp` uses of `<iomanip>`, `<ostream>`, `<istream>`.  Text is `List Char`.  This is
a model of the *standard library*, not of the repository: `std::ostream << double` as
`printf` with `%.*f`, `%.*e`, `%.*g` correctly rounded (glibc; round to nearest, ties to
even), "C" locale; `std::istream >> double` as in libstdc++ (`num_get::_M_extract_float` and
`__convert_to_v`).

Simplifications: the flags `showpos`, `showpoint`, `uppercase`, `unitbuf`, and `hexfloat` are
taken to be at their defaults; `skipws` is set; `badbit`, exception masks, and failing output
streams are not modelled; `setw`/`setprecision` arguments do not overflow `int`; a NaN prints
as `nan` (its sign is not modelled). -/

namespace Engabra

/-! ## Digits -/

/-- The digit `d < 10`. -/
def digitChar (d : Nat) : Char := Char.ofNat (48 + d)

/-- Exactly `len` decimal digits of `n` (most significant first). -/
def fixedDigits : (len : Nat) → (n : Nat) → List Char
  | 0, _ => []
  | len + 1, n => fixedDigits len (n / 10) ++ [digitChar (n % 10)]

/-- Decimal digits of `n` without leading zeros; `0` for zero. -/
def natDigits (n : Nat) : List Char :=
  if n < 10 then [digitChar n] else natDigits (n / 10) ++ [digitChar (n % 10)]
termination_by n
decreasing_by omega

/-- Value of a digit. -/
def digitVal (c : Char) : Nat := c.toNat - 48

/-- Value of a sequence of digits. -/
def digitsVal (cs : List Char) : Nat := cs.foldl (fun a c => 10 * a + digitVal c) 0

/-- `'0'` … `'9'` -/
def isDig (c : Char) : Bool := 48 ≤ c.toNat && c.toNat ≤ 57

/-- `std::isspace` in the "C" locale. -/
def isWs (c : Char) : Bool := c == ' ' || (9 ≤ c.toNat && c.toNat ≤ 13)

/-! ## Number to text -/

/-- `.` and the fractional digits; no point when there are none. -/
def fracText (p n : Nat) : List Char := if p = 0 then [] else '.' :: fixedDigits p n

/-- `%.{p}f` of a non-negative number. -/
def fixedText (p : Nat) (v : ℚ) : List Char :=
  let n := (F64.rhe (v * 10 ^ p)).toNat
  natDigits (n / 10 ^ p) ++ fracText p (n % 10 ^ p)

/-- Significand (`p + 1` digits) and exponent of `%.{p}e` of a positive number. -/
def sciParts (p : Nat) (v : ℚ) : Nat × ℤ :=
  let e := Int.log 10 v
  let n := (F64.rhe (v / (10 : ℚ) ^ (e - (p : ℤ)))).toNat
  if n = 10 ^ (p + 1) then (10 ^ p, e + 1) else (n, e)

/-- Exponent field: sign and at least two digits. -/
def expText (e : ℤ) : List Char :=
  (if e < 0 then '-' else '+') ::
    (if e.natAbs < 10 then '0' :: natDigits e.natAbs else natDigits e.natAbs)

/-- Significand text. -/
def mantText (p n : Nat) : List Char := natDigits (n / 10 ^ p) ++ fracText p (n % 10 ^ p)

/-- `%.{p}e` of a non-negative number. -/
def sciText (p : Nat) (v : ℚ) : List Char :=
  if v = 0 then mantText p 0 ++ 'e' :: expText 0
  else mantText p (sciParts p v).1 ++ 'e' :: expText (sciParts p v).2

/-- Removal of trailing zeros after a point, and of a trailing point (`%g`). -/
def stripZeros (cs : List Char) : List Char :=
  if cs.contains '.' then
    ((cs.reverse.dropWhile (· == '0')).dropWhile (· == '.')).reverse
  else cs

/-- `%.{p}g` of a non-negative number. -/
def generalText (p : Nat) (v : ℚ) : List Char :=
  let q := if p = 0 then 1 else p
  let x := if v = 0 then 0 else (sciParts (q - 1) v).2
  if -4 ≤ x ∧ x < q then stripZeros (fixedText ((q : ℤ) - 1 - x).toNat v)
  else stripZeros (mantText (q - 1) (sciParts (q - 1) v).1) ++ 'e' :: expText x

/-- `ios_base::floatfield` -/
inductive FloatField | general | fixed | scientific
  deriving DecidableEq, Repr

/-- Text of the magnitude of a finite number. -/
def magText : FloatField → Nat → ℚ → List Char
  | .general, p, v => generalText p v
  | .fixed, p, v => fixedText p v
  | .scientific, p, v => sciText p v

/-- Sign of the text of a number. -/
def signText (x : F64) : List Char := if x.signbit then ['-'] else []

/-- Text without the sign. -/
def bodyText (f : FloatField) (p : Nat) : F64 → List Char
  | .nan => ['n', 'a', 'n']
  | .inf _ => ['i', 'n', 'f']
  | .zero _ => magText f p 0
  | .fin v _ => magText f p |v|

/-- Unpadded text of a number. -/
def numText (f : FloatField) (p : Nat) (x : F64) : List Char := signText x ++ bodyText f p x

/-! ## Output streams -/

/-- `ios_base::adjustfield` -/
inductive Adjust | none | left | right | internal
  deriving DecidableEq, Repr

/-- A `std::ostream`: text written so far and formatting state. -/
structure OStream where
  out : List Char
  ff : FloatField
  prec : Nat
  width : Nat
  fill : Char
  adj : Adjust

namespace OStream

/-- A freshly constructed `std::ostringstream` / `std::stringstream`. -/
def fresh : OStream := ⟨[], .general, 6, 0, ' ', .none⟩

/-- `os << s` for a string: padded to the width, which is reset. -/
def putStr (os : OStream) (s : List Char) : OStream :=
  let pad := List.replicate (os.width - s.length) os.fill
  { os with
    out := os.out ++ (match os.adj with | .left => s ++ pad | _ => pad ++ s)
    width := 0 }

/-- `os << x` for a `double`: padded to the width, which is reset. -/
def putDub (os : OStream) (x : F64) : OStream :=
  let sg := signText x
  let b := bodyText os.ff os.prec x
  let pad := List.replicate (os.width - (sg ++ b).length) os.fill
  { os with
    out := os.out ++ (match os.adj with
      | .left => sg ++ b ++ pad
      | .internal => sg ++ pad ++ b
      | _ => pad ++ (sg ++ b))
    width := 0 }

/-- `os << std::fixed` -/
def setFixed (os : OStream) : OStream := { os with ff := .fixed }
/-- `os << std::scientific` -/
def setScientific (os : OStream) : OStream := { os with ff := .scientific }
/-- `os << std::setprecision(p)` -/
def setPrec (os : OStream) (p : Nat) : OStream := { os with prec := p }
/-- `os << std::setw(w)` -/
def setW (os : OStream) (w : Nat) : OStream := { os with width := w }

end OStream

/-! ## Input streams -/

/-- A `std::istream`: characters not yet consumed, `eofbit`, `failbit`. -/
structure IStream where
  rest : List Char
  eof : Bool
  fail : Bool
  deriving DecidableEq

/-- `std::numeric_limits<double>::max()` (negated if `neg`) -/
def maxDub (neg : Bool) : F64 :=
  .fin ((if neg then -(2 ^ 53 - 1) else 2 ^ 53 - 1 : ℚ) * (2 : ℚ) ^ (971 : ℤ)) (by
    refine ⟨mul_ne_zero (by split <;> norm_num) (zpow_ne_zero _ (by norm_num)),
      (if neg then -(2 ^ 53 - 1) else 2 ^ 53 - 1), 971, ?_, by norm_num, by norm_num, ?_⟩
    · split <;> norm_num
    · split <;> norm_num)

/-- The number `± n 10^e` as `strtod` returns it: correctly rounded, zero keeps its sign. -/
def decToF64 (neg : Bool) (n : Nat) (e : ℤ) : F64 :=
  if n = 0 then .zero neg
  else F64.roundTo ((if neg then -(n : ℚ) else (n : ℚ)) * (10 : ℚ) ^ e)

/-- What `num_get` accumulates: sign, digits before and after the point, exponent (sign,
digits) if an `e` was seen. -/
structure NumTok where
  neg : Bool
  ip : List Char
  fp : List Char
  ex : Option (Bool × List Char)

/-- Optional sign. -/
def scanSign : List Char → Bool × List Char
  | [] => (false, [])
  | c :: cs => if c = '-' then (true, cs) else if c = '+' then (false, cs) else (false, c :: cs)

/-- Optional point and digits. -/
def scanFrac : List Char → List Char × List Char
  | [] => ([], [])
  | c :: cs => if c = '.' then cs.span isDig else ([], c :: cs)

/-- Optional exponent; looked for only after a digit of the significand. -/
def scanExp (seen : Bool) : List Char → Option (Bool × List Char) × List Char
  | [] => (none, [])
  | c :: cs =>
    if (c = 'e' ∨ c = 'E') ∧ seen = true then
      (some ((scanSign cs).1, ((scanSign cs).2.span isDig).1), ((scanSign cs).2.span isDig).2)
    else (none, c :: cs)

/-- The longest prefix that can belong to a number (libstdc++ `_M_extract_float`). -/
def scanNum (cs : List Char) : NumTok × List Char :=
  let s := scanSign cs
  let i := s.2.span isDig
  let f := scanFrac i.2
  let e := scanExp (!(i.1.isEmpty && f.1.isEmpty)) f.2
  (⟨s.1, i.1, f.1, e.1⟩, e.2)

/-- Conversion of the accumulated characters (libstdc++ `__convert_to_v`): value and failure.
No digit, or an exponent without digits: zero and failure.  Overflow: `±max` and failure. -/
def NumTok.convert (k : NumTok) : F64 × Bool :=
  if k.ip = [] ∧ k.fp = [] then (.zero false, true)
  else
    match k.ex with
    | some (_, []) => (.zero false, true)
    | ex =>
      let x : ℤ := match ex with
        | none => 0
        | some (s, ds) => if s then -(digitsVal ds : ℤ) else digitsVal ds
      match decToF64 k.neg (digitsVal (k.ip ++ k.fp)) (x - k.fp.length) with
      | .inf s => (maxDub s, true)
      | v => (v, false)

/-- `is >> x` for a `double`; `old` is the present value of `x`.  A stream that is not good,
or has only white space left, fails and leaves `x` alone. -/
def extractDub (s : IStream) (old : F64) : IStream × F64 :=
  if s.eof || s.fail then (⟨s.rest, s.eof, true⟩, old)
  else
    let cs := s.rest.dropWhile isWs
    if cs = [] then (⟨[], true, true⟩, old)
    else
      let r := scanNum cs
      (⟨r.2, r.2.isEmpty, r.1.convert.2⟩, r.1.convert.1)

end Engabra
