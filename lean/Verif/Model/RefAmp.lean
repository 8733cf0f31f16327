import Verif.Model.Template

/-! # The repository's own references for `magnitude` and `amplitude`

`expMag` of `test/test_g3func_mag.cpp` and `expAmp` of `test/test_g3func_amp.cpp`: what the test
programs compare the results of `magnitude` and `amplitude` with. -/

namespace Engabra

variable {α : Type} [Dbl α]

/-- `expMag(item)`: `test_g3func_mag.cpp:48-57`. -/
def refMag (t : Ty) (item : t.D α) : α := magnitude (promote t item)

/-- `expAmp(mv)`: `test_g3func_amp.cpp:47-57`; the components 0 and 7 are the scalar and the
trivector. -/
def refAmp [LibM α] (mv : MultiVector α) : ComPlex α :=
  let mvSq := mv * dirverse mv
  ComPlex.from (LibM.csqrt (mvSq.theSca.theData.d0, mvSq.theTri.theData.d0))

end Engabra
