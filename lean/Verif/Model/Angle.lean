import Verif.Model.Num

/-! # Angle constants (`g3const.hpp:98-112`)

`pi` itself is `Dbl.pi` in `Num.lean`. -/

namespace Engabra
namespace Dbl
variable (α : Type) [Dbl α]

/-- `piHalf{ .5 * pi }`: `g3const.hpp:101`. -/
def piHalf : α := lit (1 / 2) * pi α
/-- `piQtr{ .5 * piHalf }`: `g3const.hpp:103`. -/
def piQtr : α := lit (1 / 2) * piHalf α
/-- `turnFull{ 2.*pi }`: `g3const.hpp:106`. -/
def turnFull : α := 2 * pi α
/-- `turnHalf{ pi }`: `g3const.hpp:108`. -/
def turnHalf : α := pi α
/-- `turnQtr{ piHalf }`: `g3const.hpp:110`. -/
def turnQtr : α := piHalf α

end Dbl
end Engabra
