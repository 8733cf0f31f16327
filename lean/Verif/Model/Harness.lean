import Verif.Model.IO
import Verif.Model.Template

/-! # The verdict of the repository's test programs

`checkGotExp` of `test/checks.hpp`, `checkInverse` of `test/test_g3func_inv.cpp` and the `main`
function that all programs under `test` share.  `std::endl` writes a newline (the flush is not
modelled). -/

namespace Engabra

/-- `tst::checkGotExp(ostrm, got, exp, title, tol)`: `test/checks.hpp:51-69`. -/
noncomputable def checkGotExp (t : Ty) (ostrm : OStream) (got exp : t.D F64) (title : List Char)
    (tol : F64 := Dbl.epsilon F64) : Run OStream :=
  (nearlyEqualsTy t got exp tol).bind fun same =>
    if !same then
      let ostrm := ((ostrm.putStr "Failure of ".toList).putStr title).putStr " test\n".toList
      let ostrm := (insertTy t (ostrm.putStr "exp: ".toList) exp).putStr "\n".toList
      .ok ((insertTy t (ostrm.putStr "got: ".toList) got).putStr "\n".toList)
    else .ok ostrm

/-- The arguments of one call of `checkGotExp` other than the stream. -/
structure Check where
  t : Ty
  got : t.D F64
  exp : t.D F64
  title : List Char
  tol : F64

/-- A sequence of calls of `checkGotExp` on one stream, as in the bodies of the `test0`, `test1`, ...
functions (e.g. `test/test_g3func_amp.cpp:123-133`). -/
noncomputable def runChecks : OStream → List Check → Run OStream
  | ostrm, [] => .ok ostrm
  | ostrm, c :: cs =>
    (checkGotExp c.t ostrm c.got c.exp c.title c.tol).bind fun ostrm => runChecks ostrm cs

/-- `test0()`: checks on a fresh `std::ostringstream`, whose text is returned
(`test/test_g3func_amp.cpp:75-136`). -/
noncomputable def testText (cs : List Check) : Run (List Char) :=
  (runChecks OStream.fresh cs).bind fun oss => .ok oss.out

/-- `oss << test0(); oss << test1(); ...` (`test/test_g3func_inv.cpp:177-179`). -/
noncomputable def gather : OStream → List (List Check) → Run OStream
  | oss, [] => .ok oss
  | oss, test :: tests => (testText test).bind fun s => gather (oss.putStr s) tests

/-- What `main` leaves behind: its return value and the text it wrote on `std::cerr`. -/
structure Verdict where
  status : Nat
  cerr : List Char

/-- `main()` of a program in the file `file`: `test/test_g3func_inv.cpp:170-193`, with
`CTest::pass` and `CTest::fail` of `test/checks.hpp:46-47`. -/
noncomputable def testMain (file : List Char) (tests : List (List Check)) : Run Verdict :=
  (gather OStream.fresh tests).bind fun oss =>
    if oss.out.isEmpty then .ok ⟨0, []⟩
    else .ok ⟨1, (((OStream.fresh.putStr "### FAILURE in test file: ".toList).putStr file).putStr
      "\n".toList).putStr oss.out |>.out⟩

/-- The block `checkInverse` writes for one product: `test/test_g3func_inv.cpp:73-79` (with the label
`FI`) and `83-89` (with `IF`). -/
def inverseReport (t : Ty) (ostrm : OStream) (fwd inv : t.D F64) (label title : List Char)
    (got exp : MultiVector F64) (tol : F64) : OStream :=
  let ostrm := ((ostrm.putStr "Failure of inverse ".toList).putStr title).putStr " test\n".toList
  let ostrm := (insertTy t (ostrm.putStr "fwd: ".toList) fwd).putStr ['\n']
  let ostrm := (insertTy t (ostrm.putStr "inv: ".toList) inv).putStr ['\n']
  let ostrm := (insertTy .mv (ostrm.putStr ("got".toList ++ label ++ ":".toList)) got).putStr ['\n']
  let ostrm := ((ostrm.putStr ("got".toList ++ label ++ ":".toList)).putStr
    ((enoteTy 5 .mv got).getD [])).putStr ['\n']
  let ostrm := ((ostrm.putStr ("exp".toList ++ label ++ ":".toList)).putStr
    ((enoteTy 5 .mv exp).getD [])).putStr ['\n']
  ((ostrm.putStr "  tol:".toList).putStr (enoteDub tol 5)).putStr ['\n']

/-- `checkInverse(ostrm, fwd, title, tol)`: `test/test_g3func_inv.cpp:47-92`.  The result `inv` of
`inverse<Type>(fwd)` is an argument here.  Both conditions test `gotFI`, as in the code. -/
noncomputable def checkInverse (t : Ty) (ostrm : OStream) (fwd inv : t.D F64) (title : List Char)
    (tol : F64 := Dbl.epsilon F64) : Run OStream :=
  let mvFwd := promote t fwd
  let mvInv := promote t inv
  let gotFI := mvFwd * mvInv
  let gotIF := mvInv * mvFwd
  let expIdent : MultiVector F64 := gone
  (nearlyEqualsTy .mv gotFI expIdent tol).bind fun same =>
    let ostrm := if !same then
      inverseReport t ostrm fwd inv "FI".toList title gotFI expIdent tol else ostrm
    (nearlyEqualsTy .mv gotFI expIdent tol).bind fun same =>
      .ok (if !same then
        inverseReport t ostrm fwd inv "IF".toList title gotIF expIdent tol else ostrm)

end Engabra
