import Verif.Props.C55_Types

/-! # C55: the table of product types in the documentation

`math/MulTable.lyx` lists the type of every product.  Only the diagonal and the part above it are
filled in; the text says that the table is symmetric and that the entries in capitals are closed
under multiplication. -/

namespace Engabra

/-- Specification: the heading of the table, `math/MulTable.lyx:158-261`. -/
def docTypes : List Ty := [.dub, .sca, .vec, .biv, .tri, .spin, .imsp, .cplx, .dplx, .mv]

/-- Specification: the rows of the table from the diagonal on, `math/MulTable.lyx:262-1282`. -/
def docRows : List (List Ty) :=
  [[.dub, .sca, .vec, .biv, .tri, .spin, .imsp, .cplx, .dplx, .mv],
   [.sca, .vec, .biv, .tri, .spin, .imsp, .cplx, .dplx, .mv],
   [.spin, .imsp, .biv, .imsp, .spin, .dplx, .mv, .mv],
   [.spin, .vec, .spin, .imsp, .dplx, .mv, .mv],
   [.sca, .imsp, .spin, .cplx, .dplx, .mv],
   [.spin, .imsp, .mv, .mv, .mv],
   [.spin, .mv, .mv, .mv],
   [.cplx, .dplx, .mv],
   [.mv, .mv],
   [.mv]]

/-- Specification: the types printed in capitals on the diagonal. -/
def docClosed : List Ty := [.dub, .sca, .spin, .cplx, .mv]

/-- **C55.**  The declared types of the products are those of the documentation: the row of the `i`-th
type, from the diagonal on, holds the types of its products with the `i`-th and all later types. -/
theorem C55_documented_rows :
    docRows = docTypes.tails.filterMap fun l => l.head?.map fun s => l.map (mulRes s) := by
  decide

/-- **C55.**  The heading names every type, and each once. -/
theorem C55_documented_types : docTypes.Nodup ∧ ∀ t : Ty, t ∈ docTypes := by
  refine ⟨by decide, fun t => ?_⟩
  cases t <;> decide

/-- **C55.**  The type of a product does not depend on the order of the factors. -/
theorem C55_symmetric (s t : Ty) : mulRes s t = mulRes t s := by
  cases s <;> cases t <;> rfl

/-- **C55.**  The types of which two objects always have a product of the same type are exactly the
ones marked in the documentation. -/
theorem C55_closed (t : Ty) : mulRes t t = t ↔ t ∈ docClosed := by
  cases t <;> decide

end Engabra
