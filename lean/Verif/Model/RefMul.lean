import Verif.Model.Template

/-! # The repository's own check of the products

`check` of `test/test_g3opsMulAll.cpp`: every typed product is compared with the product of the
operands made `MultiVector`s. -/

namespace Engabra

/-- `check(itemA, itemB)`: `test_g3opsMulAll.cpp:50-92`: whether the report is empty.  The text of the
report (which contains `typeid(...).name()`) is left out, and the tolerance, `1.e-14` in the program,
is an argument. -/
def mulCheck {α : Type} [Dbl α] (s t : Ty) (itemA : s.D α) (itemB : t.D α) (tol : α) : Run Bool :=
  let mvA := promote s itemA
  let mvB := promote t itemB
  let expAB := mvA * mvB
  let prodAB := mulTy s t itemA itemB
  let gotAB := promote _ prodAB
  nearlyEqualsTy .mv gotAB expAB tol

end Engabra
