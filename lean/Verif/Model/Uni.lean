import Verif.Model.Types

/-! Unary operators (`g3opsUni.hpp`).

Transcribed mechanically from the C++ headers: one definition per overload, same
order of evaluation.  `let` bindings keep the C++ names of the locals. -/

namespace Engabra

variable {α : Type} [Add α] [Sub α] [Mul α] [Neg α] [Zero α]

/-- unary `operator-(Blade)` at `Blade = Scalar`: `g3opsUni.hpp:122-141` (the loop of `std::transform`, unrolled). -/
def negSca (anyBlade : Scalar α) : Scalar α :=
  ⟨⟨-anyBlade.theData.d0⟩⟩
instance : Neg (Scalar α) := ⟨negSca⟩

/-- unary `operator-(Blade)` at `Blade = Vector`: `g3opsUni.hpp:122-141` (the loop of `std::transform`, unrolled). -/
def negVec (anyBlade : Vector α) : Vector α :=
  ⟨⟨-anyBlade.theData.d0, -anyBlade.theData.d1, -anyBlade.theData.d2⟩⟩
instance : Neg (Vector α) := ⟨negVec⟩

/-- unary `operator-(Blade)` at `Blade = BiVector`: `g3opsUni.hpp:122-141` (the loop of `std::transform`, unrolled). -/
def negBiv (anyBlade : BiVector α) : BiVector α :=
  ⟨⟨-anyBlade.theData.d0, -anyBlade.theData.d1, -anyBlade.theData.d2⟩⟩
instance : Neg (BiVector α) := ⟨negBiv⟩

/-- unary `operator-(Blade)` at `Blade = TriVector`: `g3opsUni.hpp:122-141` (the loop of `std::transform`, unrolled). -/
def negTri (anyBlade : TriVector α) : TriVector α :=
  ⟨⟨-anyBlade.theData.d0⟩⟩
instance : Neg (TriVector α) := ⟨negTri⟩

/-- unary `operator-(Spinor)`: `g3opsUni.hpp:145-151`. -/
def negSpin (spin : Spinor α) : Spinor α :=
  ⟨-spin.theSca, -spin.theBiv⟩
instance : Neg (Spinor α) := ⟨negSpin⟩

/-- unary `operator-(ImSpin)`: `g3opsUni.hpp:155-161`. -/
def negImsp (imsp : ImSpin α) : ImSpin α :=
  ⟨-imsp.theVec, -imsp.theTri⟩
instance : Neg (ImSpin α) := ⟨negImsp⟩

/-- unary `operator-(ComPlex)`: `g3opsUni.hpp:165-171`. -/
def negCplx (cplex : ComPlex α) : ComPlex α :=
  ⟨-cplex.theSca, -cplex.theTri⟩
instance : Neg (ComPlex α) := ⟨negCplx⟩

/-- unary `operator-(DirPlex)`: `g3opsUni.hpp:175-181`. -/
def negDplx (dplex : DirPlex α) : DirPlex α :=
  ⟨-dplex.theVec, -dplex.theBiv⟩
instance : Neg (DirPlex α) := ⟨negDplx⟩

/-- unary `operator-(MultiVector)`: `g3opsUni.hpp:185-191`. -/
def negMv (mv : MultiVector α) : MultiVector α :=
  ⟨-mv.theSca, -mv.theVec, -mv.theBiv, -mv.theTri⟩
instance : Neg (MultiVector α) := ⟨negMv⟩

/-- Overload set of `reverse` (order of vector factors reversed): same result type as argument. -/
class Reverse (T : Type) where
  reverse : T → T
export Reverse (reverse)

/-- Overload set of `oddverse` (odd grades negated): same result type as argument. -/
class Oddverse (T : Type) where
  oddverse : T → T
export Oddverse (oddverse)

/-- Overload set of `dirverse` (directed grades negated): same result type as argument. -/
class Dirverse (T : Type) where
  dirverse : T → T
export Dirverse (dirverse)

/-- Overload set of `dual`: argument type determines the result type. -/
class Dual (T : Type) (R : outParam Type) where
  dual : T → R
export Dual (dual)

/-- `double reverse(double)`: `g3opsUni.hpp:199-205`. -/
def reverseDub (dub : α) : α :=
  dub

/-- `Scalar reverse(Scalar)`: `g3opsUni.hpp:209-215`. -/
def reverseSca (sca : Scalar α) : Scalar α :=
  sca
instance : Reverse (Scalar α) := ⟨reverseSca⟩

/-- `Vector reverse(Vector)`: `g3opsUni.hpp:219-225`. -/
def reverseVec (vec : Vector α) : Vector α :=
  vec
instance : Reverse (Vector α) := ⟨reverseVec⟩

/-- `BiVector reverse(BiVector)`: `g3opsUni.hpp:229-236`. -/
def reverseBiv (biv : BiVector α) : BiVector α :=
  ⟨⟨-biv.theData.d0, -biv.theData.d1, -biv.theData.d2⟩⟩
instance : Reverse (BiVector α) := ⟨reverseBiv⟩

/-- `TriVector reverse(TriVector)`: `g3opsUni.hpp:240-246`. -/
def reverseTri (tri : TriVector α) : TriVector α :=
  ⟨⟨-tri.theData.d0⟩⟩
instance : Reverse (TriVector α) := ⟨reverseTri⟩

/-- `Spinor reverse(Spinor)`: `g3opsUni.hpp:250-260`. -/
def reverseSpin (spin : Spinor α) : Spinor α :=
  ⟨reverse (spin.theSca), reverse (spin.theBiv)⟩
instance : Reverse (Spinor α) := ⟨reverseSpin⟩

/-- `ImSpin reverse(ImSpin)`: `g3opsUni.hpp:264-274`. -/
def reverseImsp (imsp : ImSpin α) : ImSpin α :=
  ⟨reverse (imsp.theVec), reverse (imsp.theTri)⟩
instance : Reverse (ImSpin α) := ⟨reverseImsp⟩

/-- `ComPlex reverse(ComPlex)`: `g3opsUni.hpp:278-287`. -/
def reverseCplx (cplex : ComPlex α) : ComPlex α :=
  ⟨reverse (cplex.theSca), reverse (cplex.theTri)⟩
instance : Reverse (ComPlex α) := ⟨reverseCplx⟩

/-- `DirPlex reverse(DirPlex)`: `g3opsUni.hpp:291-300`. -/
def reverseDplx (dplex : DirPlex α) : DirPlex α :=
  ⟨reverse (dplex.theVec), reverse (dplex.theBiv)⟩
instance : Reverse (DirPlex α) := ⟨reverseDplx⟩

/-- `MultiVector reverse(MultiVector)`: `g3opsUni.hpp:304-316`. -/
def reverseMv (mv : MultiVector α) : MultiVector α :=
  ⟨reverse (mv.theSca), reverse (mv.theVec), reverse (mv.theBiv), reverse (mv.theTri)⟩
instance : Reverse (MultiVector α) := ⟨reverseMv⟩

/-- `Scalar oddverse(Scalar)`: `g3opsUni.hpp:324-330`. -/
def oddverseSca (sca : Scalar α) : Scalar α :=
  sca
instance : Oddverse (Scalar α) := ⟨oddverseSca⟩

/-- `Vector oddverse(Vector)`: `g3opsUni.hpp:334-340`. -/
def oddverseVec (vec : Vector α) : Vector α :=
  ⟨⟨-vec.theData.d0, -vec.theData.d1, -vec.theData.d2⟩⟩
instance : Oddverse (Vector α) := ⟨oddverseVec⟩

/-- `BiVector oddverse(BiVector)`: `g3opsUni.hpp:344-350`. -/
def oddverseBiv (biv : BiVector α) : BiVector α :=
  biv
instance : Oddverse (BiVector α) := ⟨oddverseBiv⟩

/-- `TriVector oddverse(TriVector)`: `g3opsUni.hpp:354-360`. -/
def oddverseTri (tri : TriVector α) : TriVector α :=
  ⟨⟨-tri.theData.d0⟩⟩
instance : Oddverse (TriVector α) := ⟨oddverseTri⟩

/-- `Spinor oddverse(Spinor)`: `g3opsUni.hpp:364-370`. -/
def oddverseSpin (spin : Spinor α) : Spinor α :=
  spin
instance : Oddverse (Spinor α) := ⟨oddverseSpin⟩

/-- `ImSpin oddverse(ImSpin)`: `g3opsUni.hpp:374-383`. -/
def oddverseImsp (imsp : ImSpin α) : ImSpin α :=
  ⟨oddverse (imsp.theVec), oddverse (imsp.theTri)⟩
instance : Oddverse (ImSpin α) := ⟨oddverseImsp⟩

/-- `ComPlex oddverse(ComPlex)`: `g3opsUni.hpp:387-396`. -/
def oddverseCplx (cplex : ComPlex α) : ComPlex α :=
  ⟨cplex.theSca, oddverse (cplex.theTri)⟩
instance : Oddverse (ComPlex α) := ⟨oddverseCplx⟩

/-- `DirPlex oddverse(DirPlex)`: `g3opsUni.hpp:400-409`. -/
def oddverseDplx (dplex : DirPlex α) : DirPlex α :=
  ⟨oddverse (dplex.theVec), dplex.theBiv⟩
instance : Oddverse (DirPlex α) := ⟨oddverseDplx⟩

/-- `MultiVector oddverse(MultiVector)`: `g3opsUni.hpp:413-425`. -/
def oddverseMv (mv : MultiVector α) : MultiVector α :=
  ⟨oddverse (mv.theSca), oddverse (mv.theVec), oddverse (mv.theBiv), oddverse (mv.theTri)⟩
instance : Oddverse (MultiVector α) := ⟨oddverseMv⟩

/-- `Scalar dirverse(Scalar)`: `g3opsUni.hpp:434-440`. -/
def dirverseSca (sca : Scalar α) : Scalar α :=
  sca
instance : Dirverse (Scalar α) := ⟨dirverseSca⟩

/-- `Vector dirverse(Vector)`: `g3opsUni.hpp:444-450`. -/
def dirverseVec (vec : Vector α) : Vector α :=
  ⟨⟨-vec.theData.d0, -vec.theData.d1, -vec.theData.d2⟩⟩
instance : Dirverse (Vector α) := ⟨dirverseVec⟩

/-- `BiVector dirverse(BiVector)`: `g3opsUni.hpp:454-460`. -/
def dirverseBiv (biv : BiVector α) : BiVector α :=
  ⟨⟨-biv.theData.d0, -biv.theData.d1, -biv.theData.d2⟩⟩
instance : Dirverse (BiVector α) := ⟨dirverseBiv⟩

/-- `TriVector dirverse(TriVector)`: `g3opsUni.hpp:464-470`. -/
def dirverseTri (tri : TriVector α) : TriVector α :=
  tri
instance : Dirverse (TriVector α) := ⟨dirverseTri⟩

/-- `Spinor dirverse(Spinor)`: `g3opsUni.hpp:474-484`. -/
def dirverseSpin (spin : Spinor α) : Spinor α :=
  ⟨dirverse (spin.theSca), dirverse (spin.theBiv)⟩
instance : Dirverse (Spinor α) := ⟨dirverseSpin⟩

/-- `ImSpin dirverse(ImSpin)`: `g3opsUni.hpp:488-499`. -/
def dirverseImsp (imsp : ImSpin α) : ImSpin α :=
  ⟨dirverse (imsp.theVec), dirverse (imsp.theTri)⟩
instance : Dirverse (ImSpin α) := ⟨dirverseImsp⟩

/-- `ComPlex dirverse(ComPlex)`: `g3opsUni.hpp:503-509`. -/
def dirverseCplx (cplex : ComPlex α) : ComPlex α :=
  cplex
instance : Dirverse (ComPlex α) := ⟨dirverseCplx⟩

/-- `DirPlex dirverse(DirPlex)`: `g3opsUni.hpp:513-523`. -/
def dirverseDplx (dplex : DirPlex α) : DirPlex α :=
  ⟨dirverse (dplex.theVec), dirverse (dplex.theBiv)⟩
instance : Dirverse (DirPlex α) := ⟨dirverseDplx⟩

/-- `MultiVector dirverse(MultiVector)`: `g3opsUni.hpp:527-539`. -/
def dirverseMv (mv : MultiVector α) : MultiVector α :=
  ⟨dirverse (mv.theSca), dirverse (mv.theVec), dirverse (mv.theBiv), dirverse (mv.theTri)⟩
instance : Dirverse (MultiVector α) := ⟨dirverseMv⟩

/-- `TriVector dual(double)`: `g3opsUni.hpp:547-553`. -/
def dualDub (dub : α) : TriVector α :=
  ⟨⟨dub⟩⟩

/-- `TriVector dual(Scalar)`: `g3opsUni.hpp:557-563`. -/
def dualSca (sca : Scalar α) : TriVector α :=
  ⟨sca.theData⟩
instance : Dual (Scalar α) (TriVector α) := ⟨dualSca⟩

/-- `BiVector dual(Vector)`: `g3opsUni.hpp:567-573`. -/
def dualVec (vec : Vector α) : BiVector α :=
  ⟨vec.theData⟩
instance : Dual (Vector α) (BiVector α) := ⟨dualVec⟩

/-- `Vector dual(BiVector)`: `g3opsUni.hpp:577-587`. -/
def dualBiv (biv : BiVector α) : Vector α :=
  ⟨⟨-biv.theData.d0, -biv.theData.d1, -biv.theData.d2⟩⟩
instance : Dual (BiVector α) (Vector α) := ⟨dualBiv⟩

/-- `Scalar dual(TriVector)`: `g3opsUni.hpp:591-597`. -/
def dualTri (tri : TriVector α) : Scalar α :=
  ⟨⟨-tri.theData.d0⟩⟩
instance : Dual (TriVector α) (Scalar α) := ⟨dualTri⟩

/-- `ImSpin dual(Spinor)`: `g3opsUni.hpp:601-607`. -/
def dualSpin (spin : Spinor α) : ImSpin α :=
  ⟨dual (spin.theBiv), dual (spin.theSca)⟩
instance : Dual (Spinor α) (ImSpin α) := ⟨dualSpin⟩

/-- `Spinor dual(ImSpin)`: `g3opsUni.hpp:611-617`. -/
def dualImsp (imsp : ImSpin α) : Spinor α :=
  ⟨dual (imsp.theTri), dual (imsp.theVec)⟩
instance : Dual (ImSpin α) (Spinor α) := ⟨dualImsp⟩

/-- `ComPlex dual(ComPlex)`: `g3opsUni.hpp:621-627`. -/
def dualCplx (cplex : ComPlex α) : ComPlex α :=
  ⟨dual (cplex.theTri), dual (cplex.theSca)⟩
instance : Dual (ComPlex α) (ComPlex α) := ⟨dualCplx⟩

/-- `DirPlex dual(DirPlex)`: `g3opsUni.hpp:631-637`. -/
def dualDplx (dplex : DirPlex α) : DirPlex α :=
  ⟨dual (dplex.theBiv), dual (dplex.theVec)⟩
instance : Dual (DirPlex α) (DirPlex α) := ⟨dualDplx⟩

/-- `MultiVector dual(MultiVector)`: `g3opsUni.hpp:641-652`. -/
def dualMv (mv : MultiVector α) : MultiVector α :=
  ⟨dual (mv.theTri), dual (mv.theBiv), dual (mv.theVec), dual (mv.theSca)⟩
instance : Dual (MultiVector α) (MultiVector α) := ⟨dualMv⟩

end Engabra
