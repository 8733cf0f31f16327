import Verif.Model.Overload
import Verif.Model.Func

/-! # `sq` and `cube` as overload sets

The two templates return `{ x * x }` and `{ x * x * x }` as the argument's own type.  They
compile when the product has that type: no class has an implicit conversion from another, and no
class has a first member of the type which its own square or cube has (`g3type.hpp:153-860`; all
converting constructors of `MultiVector` are `explicit`). -/

namespace Engabra

variable {α : Type} [Add α] [Sub α] [Mul α] [Neg α] [Zero α]

/-- `sq(x)` for `x` of type `t`, `none` when the call does not compile: `g3func.hpp:101-114`. -/
def sqTy : (t : Ty) → t.D α → Option (t.D α)
  | .dub, x => some (sq x)
  | .sca, x => some (sq x)
  | .spin, x => some (sq x)
  | .cplx, x => some (sq x)
  | .mv, x => some (sq x)
  | _, _ => none

/-- `cube(x)` for `x` of type `t`, `none` when the call does not compile: `g3func.hpp:116-129`. -/
def cubeTy : (t : Ty) → t.D α → Option (t.D α)
  | .dub, x => some (cube x)
  | .sca, x => some (cube x)
  | .tri, x => some (x * x * x)
  | .spin, x => some (cube x)
  | .imsp, x => some (x * x * x)
  | .cplx, x => some (cube x)
  | .mv, x => some (cube x)
  | _, _ => none

end Engabra
