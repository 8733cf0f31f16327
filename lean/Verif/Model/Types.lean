/-! # Data types of `engabra::g3`

The C++ aggregates of `include/g3type.hpp`, polymorphic in the number type `α`
(`double` in the C++).  Field names are those of the C++.  -/

namespace Engabra

/-- `std::array<double, 1u>` as used for `Scalar` and `TriVector` (`g3type.hpp:156`). -/
@[ext] structure A1 (α : Type) where
  d0 : α
  deriving DecidableEq, Repr

/-- `std::array<double, 3u>` as used for `Vector` and `BiVector` (`g3type.hpp:239`). -/
@[ext] structure A3 (α : Type) where
  d0 : α
  d1 : α
  d2 : α
  deriving DecidableEq, Repr

/-- Grade 0 blade: `struct Scalar`, `g3type.hpp:153-180`. -/
@[ext] structure Scalar (α : Type) where
  theData : A1 α
  deriving DecidableEq, Repr

/-- Grade 1 blade: `struct Vector`, `g3type.hpp:237-262`. -/
@[ext] structure Vector (α : Type) where
  theData : A3 α
  deriving DecidableEq, Repr

/-- Grade 2 blade: `struct BiVector`, `g3type.hpp:306-331`; components in the order
`e23, e31, e12`. -/
@[ext] structure BiVector (α : Type) where
  theData : A3 α
  deriving DecidableEq, Repr

/-- Grade 3 blade: `struct TriVector`, `g3type.hpp:371-398`. -/
@[ext] structure TriVector (α : Type) where
  theData : A1 α
  deriving DecidableEq, Repr

/-- Grades 0+2: `struct Spinor`, `g3type.hpp:409-442`. -/
@[ext] structure Spinor (α : Type) where
  theSca : Scalar α
  theBiv : BiVector α
  deriving DecidableEq, Repr

/-- Grades 1+3: `struct ImSpin`, `g3type.hpp:455-489`. -/
@[ext] structure ImSpin (α : Type) where
  theVec : Vector α
  theTri : TriVector α
  deriving DecidableEq, Repr

/-- Grades 0+3: `struct ComPlex`, `g3type.hpp:510-567`. -/
@[ext] structure ComPlex (α : Type) where
  theSca : Scalar α
  theTri : TriVector α
  deriving DecidableEq, Repr

/-- Grades 1+2: `struct DirPlex`, `g3type.hpp:586-621`. -/
@[ext] structure DirPlex (α : Type) where
  theVec : Vector α
  theBiv : BiVector α
  deriving DecidableEq, Repr

/-- All grades: `struct MultiVector`, `g3type.hpp:634-869`.  The Lean constructor is
the four-grade constructor `g3type.hpp:647-659`. -/
@[ext] structure MultiVector (α : Type) where
  theSca : Scalar α
  theVec : Vector α
  theBiv : BiVector α
  theTri : TriVector α
  deriving DecidableEq, Repr

section Promotion
variable {α : Type} [Zero α]

/-- Promotion to the full multivector: the one-argument explicit constructors of
`MultiVector`, `g3type.hpp:662-768`. -/
class Promote (T : Type) (α : outParam Type) where
  /-- `MultiVector(x)` -/
  toMV : T → MultiVector α
export Promote (toMV)

/-- `MultiVector(double)`: `g3type.hpp:662-671`. (Not made an instance of `Promote`,
because the number type itself is a type variable.) -/
def mvOfDub (dub : α) : MultiVector α := ⟨⟨⟨dub⟩⟩, ⟨⟨0, 0, 0⟩⟩, ⟨⟨0, 0, 0⟩⟩, ⟨⟨0⟩⟩⟩

/-- `MultiVector(Scalar)`: `g3type.hpp:674-683`. -/
instance : Promote (Scalar α) α :=
  ⟨fun sca => ⟨sca, ⟨⟨0, 0, 0⟩⟩, ⟨⟨0, 0, 0⟩⟩, ⟨⟨0⟩⟩⟩⟩

/-- `MultiVector(Vector)`: `g3type.hpp:686-695`. -/
instance : Promote (Vector α) α :=
  ⟨fun vec => ⟨⟨⟨0⟩⟩, vec, ⟨⟨0, 0, 0⟩⟩, ⟨⟨0⟩⟩⟩⟩

/-- `MultiVector(BiVector)`: `g3type.hpp:698-707`. -/
instance : Promote (BiVector α) α :=
  ⟨fun biv => ⟨⟨⟨0⟩⟩, ⟨⟨0, 0, 0⟩⟩, biv, ⟨⟨0⟩⟩⟩⟩

/-- `MultiVector(TriVector)`: `g3type.hpp:710-719`. -/
instance : Promote (TriVector α) α :=
  ⟨fun tri => ⟨⟨⟨0⟩⟩, ⟨⟨0, 0, 0⟩⟩, ⟨⟨0, 0, 0⟩⟩, tri⟩⟩

/-- `MultiVector(Spinor)`: `g3type.hpp:722-731`. -/
instance : Promote (Spinor α) α :=
  ⟨fun spin => ⟨spin.theSca, ⟨⟨0, 0, 0⟩⟩, spin.theBiv, ⟨⟨0⟩⟩⟩⟩

/-- `MultiVector(ImSpin)`: `g3type.hpp:734-743`. -/
instance : Promote (ImSpin α) α :=
  ⟨fun imsp => ⟨⟨⟨0⟩⟩, imsp.theVec, ⟨⟨0, 0, 0⟩⟩, imsp.theTri⟩⟩

/-- `MultiVector(ComPlex)`: `g3type.hpp:746-755`. -/
instance : Promote (ComPlex α) α :=
  ⟨fun cplx => ⟨cplx.theSca, ⟨⟨0, 0, 0⟩⟩, ⟨⟨0, 0, 0⟩⟩, cplx.theTri⟩⟩

/-- `MultiVector(DirPlex)`: `g3type.hpp:758-767`. -/
instance : Promote (DirPlex α) α :=
  ⟨fun dplx => ⟨⟨⟨0⟩⟩, dplx.theVec, dplx.theBiv, ⟨⟨0⟩⟩⟩⟩

/-- The implicit copy constructor of `MultiVector`. -/
instance : Promote (MultiVector α) α := ⟨fun mv => mv⟩

/-- `MultiVector(ComPlex, DirPlex)`: `g3type.hpp:770-780`. -/
def mvOfCplxDplx (cplx : ComPlex α) (dplx : DirPlex α) : MultiVector α :=
  ⟨cplx.theSca, dplx.theVec, dplx.theBiv, cplx.theTri⟩

/-- `MultiVector(sca0, vec0, vec1, vec2, biv0, biv1, biv2, tri0)`: `g3type.hpp:783-799`. -/
def mvOf8 (sca0 vec0 vec1 vec2 biv0 biv1 biv2 tri0 : α) : MultiVector α :=
  ⟨⟨⟨sca0⟩⟩, ⟨⟨vec0, vec1, vec2⟩⟩, ⟨⟨biv0, biv1, biv2⟩⟩, ⟨⟨tri0⟩⟩⟩

end Promotion

section Index
variable {α : Type}

/-! ## Subscript access

The result when `ndx` is out of range is `priv::sGlobalNaN`; the number type is
abstract here, so the NaN value is a parameter `nan`. -/

/-- In-range access to a `std::array<double, 3>`; every caller below is guarded, the
unguarded (undefined behaviour) case is the distinct outcome `none`. -/
def A3.at? (a : A3 α) : Nat → Option α
  | 0 => some a.d0
  | 1 => some a.d1
  | 2 => some a.d2
  | _ => none

/-- `Scalar::operator[]`: `g3type.hpp:165-179`. -/
def Scalar.index (nan : α) (x : Scalar α) (ndx : Nat) : Option α :=
  if ndx < 1 then some x.theData.d0 else some nan

/-- `Vector::operator[]`: `g3type.hpp:247-261`. -/
def Vector.index (nan : α) (x : Vector α) (ndx : Nat) : Option α :=
  if ndx < 3 then x.theData.at? ndx else some nan

/-- `BiVector::operator[]`: `g3type.hpp:316-330`. -/
def BiVector.index (nan : α) (x : BiVector α) (ndx : Nat) : Option α :=
  if ndx < 3 then x.theData.at? ndx else some nan

/-- `TriVector::operator[]`: `g3type.hpp:383-397`. -/
def TriVector.index (nan : α) (x : TriVector α) (ndx : Nat) : Option α :=
  if ndx < 1 then some x.theData.d0 else some nan

/-- `Spinor::operator[]`: `g3type.hpp:422-441`. -/
def Spinor.index (nan : α) (x : Spinor α) (ndx : Nat) : Option α :=
  if ndx < 1 then some x.theSca.theData.d0
  else if ndx < 4 then x.theBiv.theData.at? (ndx - 1)
  else some nan

/-- `ImSpin::operator[]`: `g3type.hpp:468-487`. -/
def ImSpin.index (nan : α) (x : ImSpin α) (ndx : Nat) : Option α :=
  if ndx < 3 then x.theVec.theData.at? ndx
  else if ndx < 4 then some x.theTri.theData.d0
  else some nan

/-- `ComPlex::operator[]`: `g3type.hpp:546-565`. -/
def ComPlex.index (nan : α) (x : ComPlex α) (ndx : Nat) : Option α :=
  if ndx < 1 then some x.theSca.theData.d0
  else if ndx < 2 then some x.theTri.theData.d0
  else some nan

/-- `DirPlex::operator[]`: `g3type.hpp:600-619`. -/
def DirPlex.index (nan : α) (x : DirPlex α) (ndx : Nat) : Option α :=
  if ndx < 3 then x.theVec.theData.at? ndx
  else if ndx < 6 then x.theBiv.theData.at? (ndx - 3)
  else some nan

/-- `MultiVector::operator[] const`: `g3type.hpp:811-836`.  There is no NaN branch: every
`ndx ≥ 7` is the trivector. -/
def MultiVector.index (x : MultiVector α) (ndx : Nat) : Option α :=
  if ndx < 1 then some x.theSca.theData.d0
  else if ndx < 4 then x.theVec.theData.at? (ndx - 1)
  else if ndx < 7 then x.theBiv.theData.at? (ndx - 4)
  else some x.theTri.theData.d0

/-- Assignment through an element of a `std::array<double, 3>` (out of range is UB). -/
def A3.set? (a : A3 α) (v : α) : Nat → Option (A3 α)
  | 0 => some { a with d0 := v }
  | 1 => some { a with d1 := v }
  | 2 => some { a with d2 := v }
  | _ => none

/-- The effect of `mv[ndx] = v` through the mutable `MultiVector::operator[]`,
`g3type.hpp:843-868`. -/
def MultiVector.assign (x : MultiVector α) (ndx : Nat) (v : α) : Option (MultiVector α) :=
  if ndx < 1 then some { x with theSca := ⟨⟨v⟩⟩ }
  else if ndx < 4 then (x.theVec.theData.set? v (ndx - 1)).map fun a => { x with theVec := ⟨a⟩ }
  else if ndx < 7 then (x.theBiv.theData.set? v (ndx - 4)).map fun a => { x with theBiv := ⟨a⟩ }
  else some { x with theTri := ⟨⟨v⟩⟩ }

end Index

section Private
variable {α : Type} [Add α] [Sub α] [Mul α] [Zero α]

/-- `priv::prodComm(array<3>, array<3>)`: `g3_private.hpp:77-91`.
`std::inner_product(.., 0.)` accumulates `acc = acc + a*b` from `0.`. -/
def prodComm (argA argB : A3 α) : α :=
  ((0 + argA.d0 * argB.d0) + argA.d1 * argB.d1) + argA.d2 * argB.d2

/-- `priv::prodComm(array<1>, array<1>)`: `g3_private.hpp:93-102`. -/
def prodComm1 (argA argB : A1 α) : α := argA.d0 * argB.d0

/-- `priv::prodAnti`: `g3_private.hpp:108-121`. -/
def prodAnti (argA argB : A3 α) : A3 α :=
  ⟨argA.d1 * argB.d2 - argA.d2 * argB.d1,
   argA.d2 * argB.d0 - argA.d0 * argB.d2,
   argA.d0 * argB.d1 - argA.d1 * argB.d0⟩

end Private

end Engabra
