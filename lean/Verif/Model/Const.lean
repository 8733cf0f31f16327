import Verif.Model.Mul

/-! # Constants (`g3const.hpp`)

`null<T>()`, `zero<T>()`, `one<T>()` are templates selected by an explicit type
argument; here they are classes indexed by that type. -/

namespace Engabra

variable {α : Type}

/-- `null<T>()`, given the NaN value of the number type: `g3const.hpp:119-223`. -/
class GNull (T : Type) (α : outParam Type) where
  gnull : α → T
export GNull (gnull)

/-- `zero<T>()`: `g3const.hpp:229-337`. -/
class GZero (T : Type) where
  gzero : T
export GZero (gzero)

/-- `one<T>()`: `g3const.hpp:343-395`. -/
class GOne (T : Type) where
  gone : T
export GOne (gone)

section Null
/-- generic template `Type{ nan }` at `Scalar`: `g3const.hpp:119-128`. -/
instance : GNull (Scalar α) α := ⟨fun nan => ⟨⟨nan⟩⟩⟩
/-- `g3const.hpp:148-157`. -/
instance : GNull (Vector α) α := ⟨fun nan => ⟨⟨nan, nan, nan⟩⟩⟩
/-- `g3const.hpp:159-168`. -/
instance : GNull (BiVector α) α := ⟨fun nan => ⟨⟨nan, nan, nan⟩⟩⟩
/-- generic template `Type{ nan }` at `TriVector`: `g3const.hpp:119-128`. -/
instance : GNull (TriVector α) α := ⟨fun nan => ⟨⟨nan⟩⟩⟩
/-- `g3const.hpp:185-192`. -/
instance : GNull (Spinor α) α := ⟨fun nan => ⟨gnull nan, gnull nan⟩⟩
/-- `g3const.hpp:195-202`. -/
instance : GNull (ImSpin α) α := ⟨fun nan => ⟨gnull nan, gnull nan⟩⟩
/-- `g3const.hpp:205-213`. -/
instance : GNull (ComPlex α) α := ⟨fun nan => ⟨gnull nan, gnull nan⟩⟩
/-- `g3const.hpp:216-223`. -/
instance : GNull (DirPlex α) α := ⟨fun nan => ⟨gnull nan, gnull nan⟩⟩
/-- There is no specialisation for `MultiVector`: the generic template
(`g3const.hpp:119-128`) calls `MultiVector(double)`, so only the scalar is NaN and the
other seven components are zero. -/
instance [Zero α] : GNull (MultiVector α) α := ⟨fun nan => mvOfDub nan⟩
end Null

section Zero
variable [Zero α]
/-- generic template: `g3const.hpp:229-238`. -/
instance : GZero (Scalar α) := ⟨⟨⟨0⟩⟩⟩
/-- `g3const.hpp:253-261`. -/
instance : GZero (Vector α) := ⟨⟨⟨0, 0, 0⟩⟩⟩
/-- `g3const.hpp:263-271`. -/
instance : GZero (BiVector α) := ⟨⟨⟨0, 0, 0⟩⟩⟩
/-- generic template: `g3const.hpp:229-238`. -/
instance : GZero (TriVector α) := ⟨⟨⟨0⟩⟩⟩
/-- `g3const.hpp:286-294`. -/
instance : GZero (Spinor α) := ⟨⟨gzero, gzero⟩⟩
/-- `g3const.hpp:296-304`. -/
instance : GZero (ImSpin α) := ⟨⟨gzero, gzero⟩⟩
/-- `g3const.hpp:306-314`. -/
instance : GZero (ComPlex α) := ⟨⟨gzero, gzero⟩⟩
/-- `g3const.hpp:316-324`. -/
instance : GZero (DirPlex α) := ⟨⟨gzero, gzero⟩⟩
/-- `g3const.hpp:326-337`. -/
instance : GZero (MultiVector α) := ⟨⟨gzero, gzero, gzero, gzero⟩⟩
end Zero

section One
variable [Zero α] [One α]
/-- generic template `Type{ 1 }`: `g3const.hpp:343-351`. -/
instance : GOne (Scalar α) := ⟨⟨⟨1⟩⟩⟩
/-- `g3const.hpp:353-361`: all zeros. -/
instance : GOne (Vector α) := ⟨gzero⟩
/-- `g3const.hpp:363-371`: all zeros. -/
instance : GOne (BiVector α) := ⟨gzero⟩
/-- generic template `Type{ 1 }`: `g3const.hpp:343-351`. -/
instance : GOne (TriVector α) := ⟨⟨⟨1⟩⟩⟩
/-- `g3const.hpp:373-381`. -/
instance : GOne (Spinor α) := ⟨⟨gone, gzero⟩⟩
/-- generic template `ImSpin{ 1 }` with brace elision (remaining members value
initialised): `g3const.hpp:343-351`. -/
instance : GOne (ImSpin α) := ⟨⟨⟨⟨1, 0, 0⟩⟩, ⟨⟨0⟩⟩⟩⟩
/-- generic template `ComPlex{ 1 }` with brace elision: `g3const.hpp:343-351`. -/
instance : GOne (ComPlex α) := ⟨⟨⟨⟨1⟩⟩, ⟨⟨0⟩⟩⟩⟩
/-- generic template `DirPlex{ 1 }` with brace elision: `g3const.hpp:343-351`. -/
instance : GOne (DirPlex α) := ⟨⟨⟨⟨1, 0, 0⟩⟩, ⟨⟨0, 0, 0⟩⟩⟩⟩
/-- `g3const.hpp:383-395`. -/
instance : GOne (MultiVector α) := ⟨⟨gone, gzero, gzero, gzero⟩⟩

/-- `g3const.hpp:402`. -/
def e0 : Scalar α := ⟨⟨1⟩⟩
/-- `g3const.hpp:405`. -/
def e1 : Vector α := ⟨⟨1, 0, 0⟩⟩
/-- `g3const.hpp:406`. -/
def e2 : Vector α := ⟨⟨0, 1, 0⟩⟩
/-- `g3const.hpp:407`. -/
def e3 : Vector α := ⟨⟨0, 0, 1⟩⟩
/-- `g3const.hpp:410`. -/
def e23 : BiVector α := ⟨⟨1, 0, 0⟩⟩
/-- `g3const.hpp:411`. -/
def e31 : BiVector α := ⟨⟨0, 1, 0⟩⟩
/-- `g3const.hpp:412`. -/
def e12 : BiVector α := ⟨⟨0, 0, 1⟩⟩
/-- `g3const.hpp:415`. -/
def e123 : TriVector α := ⟨⟨1⟩⟩
end One

end Engabra
