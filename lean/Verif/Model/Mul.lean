import Verif.Model.Sub

/-! Product overloads (`g3opsMul_*.hpp`).

Transcribed mechanically from the C++ headers: one definition per overload, same
order of evaluation.  `let` bindings keep the C++ names of the locals. -/

namespace Engabra

variable {α : Type} [Add α] [Sub α] [Mul α] [Neg α] [Zero α]

/-- `Scalar operator*(double, Scalar)`: `g3opsMul_double.hpp:69-76`. -/
def mulDubSca (dubA : α) (scaB : Scalar α) : Scalar α :=
  ⟨⟨dubA * scaB.theData.d0⟩⟩
instance : HMul α (Scalar α) (Scalar α) := ⟨mulDubSca⟩

/-- `Vector operator*(double, Vector)`: `g3opsMul_double.hpp:85-96`. -/
def mulDubVec (dubA : α) (vecB : Vector α) : Vector α :=
  ⟨⟨dubA * vecB.theData.d0, dubA * vecB.theData.d1, dubA * vecB.theData.d2⟩⟩
instance : HMul α (Vector α) (Vector α) := ⟨mulDubVec⟩

/-- `BiVector operator*(double, BiVector)`: `g3opsMul_double.hpp:105-116`. -/
def mulDubBiv (dubA : α) (bivB : BiVector α) : BiVector α :=
  ⟨⟨dubA * bivB.theData.d0, dubA * bivB.theData.d1, dubA * bivB.theData.d2⟩⟩
instance : HMul α (BiVector α) (BiVector α) := ⟨mulDubBiv⟩

/-- `TriVector operator*(double, TriVector)`: `g3opsMul_double.hpp:125-132`. -/
def mulDubTri (dubA : α) (triB : TriVector α) : TriVector α :=
  ⟨⟨dubA * triB.theData.d0⟩⟩
instance : HMul α (TriVector α) (TriVector α) := ⟨mulDubTri⟩

/-- `Spinor operator*(double, Spinor)`: `g3opsMul_double.hpp:141-156`. -/
def mulDubSpin (dubA : α) (spinB : Spinor α) : Spinor α :=
  ⟨(⟨⟨dubA * spinB.theSca.theData.d0⟩⟩ : Scalar α), (⟨⟨dubA * spinB.theBiv.theData.d0, dubA * spinB.theBiv.theData.d1, dubA * spinB.theBiv.theData.d2⟩⟩ : BiVector α)⟩
instance : HMul α (Spinor α) (Spinor α) := ⟨mulDubSpin⟩

/-- `ImSpin operator*(double, ImSpin)`: `g3opsMul_double.hpp:165-180`. -/
def mulDubImsp (dubA : α) (imspB : ImSpin α) : ImSpin α :=
  ⟨(⟨⟨dubA * imspB.theVec.theData.d0, dubA * imspB.theVec.theData.d1, dubA * imspB.theVec.theData.d2⟩⟩ : Vector α), (⟨⟨dubA * imspB.theTri.theData.d0⟩⟩ : TriVector α)⟩
instance : HMul α (ImSpin α) (ImSpin α) := ⟨mulDubImsp⟩

/-- `ComPlex operator*(double, ComPlex)`: `g3opsMul_double.hpp:189-199`. -/
def mulDubCplx (dubA : α) (cplxB : ComPlex α) : ComPlex α :=
  ⟨⟨⟨dubA * cplxB.theSca.theData.d0⟩⟩, ⟨⟨dubA * cplxB.theTri.theData.d0⟩⟩⟩
instance : HMul α (ComPlex α) (ComPlex α) := ⟨mulDubCplx⟩

/-- `DirPlex operator*(double, DirPlex)`: `g3opsMul_double.hpp:208-226`. -/
def mulDubDplx (dubA : α) (dplxB : DirPlex α) : DirPlex α :=
  ⟨(⟨⟨dubA * dplxB.theVec.theData.d0, dubA * dplxB.theVec.theData.d1, dubA * dplxB.theVec.theData.d2⟩⟩ : Vector α), (⟨⟨dubA * dplxB.theBiv.theData.d0, dubA * dplxB.theBiv.theData.d1, dubA * dplxB.theBiv.theData.d2⟩⟩ : BiVector α)⟩
instance : HMul α (DirPlex α) (DirPlex α) := ⟨mulDubDplx⟩

/-- `MultiVector operator*(double, MultiVector)`: `g3opsMul_double.hpp:235-257`. -/
def mulDubMv (dubA : α) (mvB : MultiVector α) : MultiVector α :=
  ⟨(⟨⟨dubA * mvB.theSca.theData.d0⟩⟩ : Scalar α), (⟨⟨dubA * mvB.theVec.theData.d0, dubA * mvB.theVec.theData.d1, dubA * mvB.theVec.theData.d2⟩⟩ : Vector α), (⟨⟨dubA * mvB.theBiv.theData.d0, dubA * mvB.theBiv.theData.d1, dubA * mvB.theBiv.theData.d2⟩⟩ : BiVector α), (⟨⟨dubA * mvB.theTri.theData.d0⟩⟩ : TriVector α)⟩
instance : HMul α (MultiVector α) (MultiVector α) := ⟨mulDubMv⟩

/-- `Scalar operator*(Scalar, double)`: `g3opsMul_Scalar.hpp:61-68`. -/
def mulScaDub (scaA : Scalar α) (dubB : α) : Scalar α :=
  dubB * scaA
instance : HMul (Scalar α) α (Scalar α) := ⟨mulScaDub⟩

/-- `Scalar operator*(Scalar, Scalar)`: `g3opsMul_Scalar.hpp:81-88`. -/
def mulScaSca (scaA : Scalar α) (scaB : Scalar α) : Scalar α :=
  ⟨⟨scaA.theData.d0 * scaB.theData.d0⟩⟩
instance : Mul (Scalar α) := ⟨mulScaSca⟩

/-- `Vector operator*(Scalar, Vector)`: `g3opsMul_Scalar.hpp:101-112`. -/
def mulScaVec (scaA : Scalar α) (vecB : Vector α) : Vector α :=
  ⟨⟨scaA.theData.d0 * vecB.theData.d0, scaA.theData.d0 * vecB.theData.d1, scaA.theData.d0 * vecB.theData.d2⟩⟩
instance : HMul (Scalar α) (Vector α) (Vector α) := ⟨mulScaVec⟩

/-- `BiVector operator*(Scalar, BiVector)`: `g3opsMul_Scalar.hpp:121-132`. -/
def mulScaBiv (scaA : Scalar α) (bivB : BiVector α) : BiVector α :=
  ⟨⟨scaA.theData.d0 * bivB.theData.d0, scaA.theData.d0 * bivB.theData.d1, scaA.theData.d0 * bivB.theData.d2⟩⟩
instance : HMul (Scalar α) (BiVector α) (BiVector α) := ⟨mulScaBiv⟩

/-- `TriVector operator*(Scalar, TriVector)`: `g3opsMul_Scalar.hpp:141-148`. -/
def mulScaTri (scaA : Scalar α) (triB : TriVector α) : TriVector α :=
  ⟨⟨scaA.theData.d0 * triB.theData.d0⟩⟩
instance : HMul (Scalar α) (TriVector α) (TriVector α) := ⟨mulScaTri⟩

/-- `Spinor operator*(Scalar, Spinor)`: `g3opsMul_Scalar.hpp:157-172`. -/
def mulScaSpin (scaA : Scalar α) (spinB : Spinor α) : Spinor α :=
  ⟨(⟨⟨scaA.theData.d0 * spinB.theSca.theData.d0⟩⟩ : Scalar α), (⟨⟨scaA.theData.d0 * spinB.theBiv.theData.d0, scaA.theData.d0 * spinB.theBiv.theData.d1, scaA.theData.d0 * spinB.theBiv.theData.d2⟩⟩ : BiVector α)⟩
instance : HMul (Scalar α) (Spinor α) (Spinor α) := ⟨mulScaSpin⟩

/-- `ImSpin operator*(Scalar, ImSpin)`: `g3opsMul_Scalar.hpp:181-196`. -/
def mulScaImsp (scaA : Scalar α) (imspB : ImSpin α) : ImSpin α :=
  ⟨(⟨⟨scaA.theData.d0 * imspB.theVec.theData.d0, scaA.theData.d0 * imspB.theVec.theData.d1, scaA.theData.d0 * imspB.theVec.theData.d2⟩⟩ : Vector α), (⟨⟨scaA.theData.d0 * imspB.theTri.theData.d0⟩⟩ : TriVector α)⟩
instance : HMul (Scalar α) (ImSpin α) (ImSpin α) := ⟨mulScaImsp⟩

/-- `ComPlex operator*(Scalar, ComPlex)`: `g3opsMul_Scalar.hpp:205-215`. -/
def mulScaCplx (scaA : Scalar α) (cplxB : ComPlex α) : ComPlex α :=
  ⟨⟨⟨scaA.theData.d0 * cplxB.theSca.theData.d0⟩⟩, ⟨⟨scaA.theData.d0 * cplxB.theTri.theData.d0⟩⟩⟩
instance : HMul (Scalar α) (ComPlex α) (ComPlex α) := ⟨mulScaCplx⟩

/-- `DirPlex operator*(Scalar, DirPlex)`: `g3opsMul_Scalar.hpp:224-242`. -/
def mulScaDplx (scaA : Scalar α) (dplxB : DirPlex α) : DirPlex α :=
  ⟨(⟨⟨scaA.theData.d0 * dplxB.theVec.theData.d0, scaA.theData.d0 * dplxB.theVec.theData.d1, scaA.theData.d0 * dplxB.theVec.theData.d2⟩⟩ : Vector α), (⟨⟨scaA.theData.d0 * dplxB.theBiv.theData.d0, scaA.theData.d0 * dplxB.theBiv.theData.d1, scaA.theData.d0 * dplxB.theBiv.theData.d2⟩⟩ : BiVector α)⟩
instance : HMul (Scalar α) (DirPlex α) (DirPlex α) := ⟨mulScaDplx⟩

/-- `MultiVector operator*(Scalar, MultiVector)`: `g3opsMul_Scalar.hpp:251-273`. -/
def mulScaMv (scaA : Scalar α) (mvB : MultiVector α) : MultiVector α :=
  ⟨(⟨⟨scaA.theData.d0 * mvB.theSca.theData.d0⟩⟩ : Scalar α), (⟨⟨scaA.theData.d0 * mvB.theVec.theData.d0, scaA.theData.d0 * mvB.theVec.theData.d1, scaA.theData.d0 * mvB.theVec.theData.d2⟩⟩ : Vector α), (⟨⟨scaA.theData.d0 * mvB.theBiv.theData.d0, scaA.theData.d0 * mvB.theBiv.theData.d1, scaA.theData.d0 * mvB.theBiv.theData.d2⟩⟩ : BiVector α), (⟨⟨scaA.theData.d0 * mvB.theTri.theData.d0⟩⟩ : TriVector α)⟩
instance : HMul (Scalar α) (MultiVector α) (MultiVector α) := ⟨mulScaMv⟩

/-- `Vector operator*(Vector, double)`: `g3opsMul_Vector.hpp:66-73`. -/
def mulVecDub (vecA : Vector α) (dubB : α) : Vector α :=
  dubB * vecA
instance : HMul (Vector α) α (Vector α) := ⟨mulVecDub⟩

/-- `Vector operator*(Vector, Scalar)`: `g3opsMul_Vector.hpp:82-89`. -/
def mulVecSca (vecA : Vector α) (scaB : Scalar α) : Vector α :=
  scaB * vecA
instance : HMul (Vector α) (Scalar α) (Vector α) := ⟨mulVecSca⟩

/-- `Spinor operator*(Vector, Vector)`: `g3opsMul_Vector.hpp:102-111`. -/
def mulVecVec (vecA : Vector α) (vecB : Vector α) : Spinor α :=
  let dot : Scalar α := ⟨⟨prodComm (vecA.theData) (vecB.theData)⟩⟩
  let wedge : BiVector α := ⟨prodAnti (vecA.theData) (vecB.theData)⟩
  ⟨dot, wedge⟩
instance : HMul (Vector α) (Vector α) (Spinor α) := ⟨mulVecVec⟩

/-- `ImSpin operator*(Vector, BiVector)`: `g3opsMul_Vector.hpp:124-134`. -/
def mulVecBiv (vecA : Vector α) (bivB : BiVector α) : ImSpin α :=
  let v1 : Vector α := ⟨prodAnti (vecA.theData) (bivB.theData)⟩
  let t1 : TriVector α := ⟨⟨prodComm (vecA.theData) (bivB.theData)⟩⟩
  ⟨-v1, t1⟩
instance : HMul (Vector α) (BiVector α) (ImSpin α) := ⟨mulVecBiv⟩

/-- `BiVector operator*(Vector, TriVector)`: `g3opsMul_Vector.hpp:143-155`. -/
def mulVecTri (vecA : Vector α) (triB : TriVector α) : BiVector α :=
  ⟨⟨triB.theData.d0 * vecA.theData.d0, triB.theData.d0 * vecA.theData.d1, triB.theData.d0 * vecA.theData.d2⟩⟩
instance : HMul (Vector α) (TriVector α) (BiVector α) := ⟨mulVecTri⟩

/-- `ImSpin operator*(Vector, Spinor)`: `g3opsMul_Vector.hpp:164-180`. -/
def mulVecSpin (vecA : Vector α) (spinB : Spinor α) : ImSpin α :=
  let v1 : Vector α := ⟨⟨spinB.theSca.theData.d0 * vecA.theData.d0, spinB.theSca.theData.d0 * vecA.theData.d1, spinB.theSca.theData.d0 * vecA.theData.d2⟩⟩
  let v2 : Vector α := ⟨prodAnti (vecA.theData) (spinB.theBiv.theData)⟩
  let t2 : TriVector α := ⟨⟨prodComm (vecA.theData) (spinB.theBiv.theData)⟩⟩
  ⟨-v2 + v1, t2⟩
instance : HMul (Vector α) (Spinor α) (ImSpin α) := ⟨mulVecSpin⟩

/-- `Spinor operator*(Vector, ImSpin)`: `g3opsMul_Vector.hpp:189-215`. -/
def mulVecImsp (vecA : Vector α) (imspB : ImSpin α) : Spinor α :=
  let v1 : Vector α := vecA
  let v2 : Vector α := imspB.theVec
  let t2 : TriVector α := imspB.theTri
  let sca_v1v2 : Scalar α := ⟨⟨prodComm (v1.theData) (v2.theData)⟩⟩
  let biv_v1v2 : BiVector α := ⟨prodAnti (v1.theData) (v2.theData)⟩
  let biv_v1t2 : BiVector α := ⟨⟨v1.theData.d0 * t2.theData.d0, v1.theData.d1 * t2.theData.d0, v1.theData.d2 * t2.theData.d0⟩⟩
  ⟨sca_v1v2, (⟨⟨biv_v1v2.theData.d0 + biv_v1t2.theData.d0, biv_v1v2.theData.d1 + biv_v1t2.theData.d1, biv_v1v2.theData.d2 + biv_v1t2.theData.d2⟩⟩ : BiVector α)⟩
instance : HMul (Vector α) (ImSpin α) (Spinor α) := ⟨mulVecImsp⟩

/-- `DirPlex operator*(Vector, ComPlex)`: `g3opsMul_Vector.hpp:224-242`. -/
def mulVecCplx (vecA : Vector α) (mvB : ComPlex α) : DirPlex α :=
  ⟨(⟨⟨vecA.theData.d0 * mvB.theSca.theData.d0, vecA.theData.d1 * mvB.theSca.theData.d0, vecA.theData.d2 * mvB.theSca.theData.d0⟩⟩ : Vector α), (⟨⟨vecA.theData.d0 * mvB.theTri.theData.d0, vecA.theData.d1 * mvB.theTri.theData.d0, vecA.theData.d2 * mvB.theTri.theData.d0⟩⟩ : BiVector α)⟩
instance : HMul (Vector α) (ComPlex α) (DirPlex α) := ⟨mulVecCplx⟩

/-- `MultiVector operator*(Vector, DirPlex)`: `g3opsMul_Vector.hpp:251-272`. -/
def mulVecDplx (vecA : Vector α) (dplxB : DirPlex α) : MultiVector α :=
  let v1 : Vector α := vecA
  let v2 : Vector α := dplxB.theVec
  let b2 : BiVector α := dplxB.theBiv
  let sca_v1v2 : Scalar α := ⟨⟨prodComm (v1.theData) (v2.theData)⟩⟩
  let biv_v1v2 : BiVector α := ⟨prodAnti (v1.theData) (v2.theData)⟩
  let vec_v1b2 : Vector α := ⟨prodAnti (v1.theData) (b2.theData)⟩
  let tri_v1b2 : TriVector α := ⟨⟨prodComm (v1.theData) (b2.theData)⟩⟩
  ⟨sca_v1v2, -vec_v1b2, biv_v1v2, tri_v1b2⟩
instance : HMul (Vector α) (DirPlex α) (MultiVector α) := ⟨mulVecDplx⟩

/-- `MultiVector operator*(Vector, MultiVector)`: `g3opsMul_Vector.hpp:281-317`. -/
def mulVecMv (vecA : Vector α) (mvB : MultiVector α) : MultiVector α :=
  let vec1 : Vector α := ⟨⟨vecA.theData.d0 * mvB.theSca.theData.d0, vecA.theData.d1 * mvB.theSca.theData.d0, vecA.theData.d2 * mvB.theSca.theData.d0⟩⟩
  let biv1 : BiVector α := ⟨⟨vecA.theData.d0 * mvB.theTri.theData.d0, vecA.theData.d1 * mvB.theTri.theData.d0, vecA.theData.d2 * mvB.theTri.theData.d0⟩⟩
  let spin1 : Spinor α := ⟨(⟨⟨prodComm (vecA.theData) (mvB.theVec.theData)⟩⟩ : Scalar α), (⟨prodAnti (vecA.theData) (mvB.theVec.theData)⟩ : BiVector α)⟩
  let imsp1 : ImSpin α := ⟨(⟨prodAnti (vecA.theData) (mvB.theBiv.theData)⟩ : Vector α), (⟨⟨prodComm (vecA.theData) (mvB.theBiv.theData)⟩⟩ : TriVector α)⟩
  ⟨spin1.theSca, vec1 + (-imsp1.theVec), biv1 + spin1.theBiv, imsp1.theTri⟩
instance : HMul (Vector α) (MultiVector α) (MultiVector α) := ⟨mulVecMv⟩

/-- `BiVector operator*(BiVector, double)`: `g3opsMul_BiVector.hpp:67-74`. -/
def mulBivDub (bivA : BiVector α) (dubB : α) : BiVector α :=
  dubB * bivA
instance : HMul (BiVector α) α (BiVector α) := ⟨mulBivDub⟩

/-- `BiVector operator*(BiVector, Scalar)`: `g3opsMul_BiVector.hpp:83-90`. -/
def mulBivSca (bivA : BiVector α) (scaB : Scalar α) : BiVector α :=
  scaB * bivA
instance : HMul (BiVector α) (Scalar α) (BiVector α) := ⟨mulBivSca⟩

/-- `ImSpin operator*(BiVector, Vector)`: `g3opsMul_BiVector.hpp:99-109`. -/
def mulBivVec (bivA : BiVector α) (vecB : Vector α) : ImSpin α :=
  let anti : Vector α := ⟨prodAnti (bivA.theData) (vecB.theData)⟩
  let symm : TriVector α := ⟨⟨prodComm (bivA.theData) (vecB.theData)⟩⟩
  ⟨-anti, symm⟩
instance : HMul (BiVector α) (Vector α) (ImSpin α) := ⟨mulBivVec⟩

/-- `Spinor operator*(BiVector, BiVector)`: `g3opsMul_BiVector.hpp:122-140`. -/
def mulBivBiv (bivA : BiVector α) (bivB : BiVector α) : Spinor α :=
  let symm : Scalar α := ⟨⟨prodComm (bivA.theData) (bivB.theData)⟩⟩
  let anti : BiVector α := ⟨prodAnti (bivA.theData) (bivB.theData)⟩
  ⟨(⟨⟨-symm.theData.d0⟩⟩ : Scalar α), (⟨⟨-anti.theData.d0, -anti.theData.d1, -anti.theData.d2⟩⟩ : BiVector α)⟩
instance : HMul (BiVector α) (BiVector α) (Spinor α) := ⟨mulBivBiv⟩

/-- `Vector operator*(BiVector, TriVector)`: `g3opsMul_BiVector.hpp:153-165`. -/
def mulBivTri (bivA : BiVector α) (triB : TriVector α) : Vector α :=
  ⟨⟨-triB.theData.d0 * bivA.theData.d0, -triB.theData.d0 * bivA.theData.d1, -triB.theData.d0 * bivA.theData.d2⟩⟩
instance : HMul (BiVector α) (TriVector α) (Vector α) := ⟨mulBivTri⟩

/-- `Spinor operator*(BiVector, Spinor)`: `g3opsMul_BiVector.hpp:174-200`. -/
def mulBivSpin (bivA : BiVector α) (spinB : Spinor α) : Spinor α :=
  let b1 : BiVector α := bivA
  let s2 : α := spinB.theSca.theData.d0
  let b2 : BiVector α := spinB.theBiv
  let biv_b1s2 : BiVector α := ⟨⟨b1.theData.d0 * s2, b1.theData.d1 * s2, b1.theData.d2 * s2⟩⟩
  let sca_b1b2 : Scalar α := ⟨⟨prodComm (b1.theData) (b2.theData)⟩⟩
  let biv_b1b2 : BiVector α := ⟨prodAnti (b1.theData) (b2.theData)⟩
  ⟨-sca_b1b2, (⟨⟨biv_b1s2.theData.d0 - biv_b1b2.theData.d0, biv_b1s2.theData.d1 - biv_b1b2.theData.d1, biv_b1s2.theData.d2 - biv_b1b2.theData.d2⟩⟩ : BiVector α)⟩
instance : HMul (BiVector α) (Spinor α) (Spinor α) := ⟨mulBivSpin⟩

/-- `ImSpin operator*(BiVector, ImSpin)`: `g3opsMul_BiVector.hpp:209-235`. -/
def mulBivImsp (bivA : BiVector α) (imspB : ImSpin α) : ImSpin α :=
  let b1 : BiVector α := bivA
  let v2 : Vector α := imspB.theVec
  let t2 : TriVector α := imspB.theTri
  let vec_b1v2 : Vector α := ⟨prodAnti (b1.theData) (v2.theData)⟩
  let tri_b1v2 : TriVector α := ⟨⟨prodComm (b1.theData) (v2.theData)⟩⟩
  let vec_b1t2 : Vector α := ⟨⟨-b1.theData.d0 * t2.theData.d0, -b1.theData.d1 * t2.theData.d0, -b1.theData.d2 * t2.theData.d0⟩⟩
  ⟨(⟨⟨vec_b1t2.theData.d0 - vec_b1v2.theData.d0, vec_b1t2.theData.d1 - vec_b1v2.theData.d1, vec_b1t2.theData.d2 - vec_b1v2.theData.d2⟩⟩ : Vector α), tri_b1v2⟩
instance : HMul (BiVector α) (ImSpin α) (ImSpin α) := ⟨mulBivImsp⟩

/-- `DirPlex operator*(BiVector, ComPlex)`: `g3opsMul_BiVector.hpp:244-269`. -/
def mulBivCplx (bivA : BiVector α) (cplxB : ComPlex α) : DirPlex α :=
  let b1 : BiVector α := bivA
  let s2 : Scalar α := cplxB.theSca
  let t2 : TriVector α := cplxB.theTri
  let biv_b1s2 : BiVector α := ⟨⟨b1.theData.d0 * s2.theData.d0, b1.theData.d1 * s2.theData.d0, b1.theData.d2 * s2.theData.d0⟩⟩
  let vec_b1t2 : Vector α := ⟨⟨-b1.theData.d0 * t2.theData.d0, -b1.theData.d1 * t2.theData.d0, -b1.theData.d2 * t2.theData.d0⟩⟩
  ⟨vec_b1t2, biv_b1s2⟩
instance : HMul (BiVector α) (ComPlex α) (DirPlex α) := ⟨mulBivCplx⟩

/-- `MultiVector operator*(BiVector, DirPlex)`: `g3opsMul_BiVector.hpp:278-309`. -/
def mulBivDplx (bivA : BiVector α) (dplxB : DirPlex α) : MultiVector α :=
  let b1 : BiVector α := bivA
  let v2 : Vector α := dplxB.theVec
  let b2 : BiVector α := dplxB.theBiv
  let tri_b1v2 : TriVector α := ⟨⟨prodComm (b1.theData) (v2.theData)⟩⟩
  let vec_b1v2 : Vector α := ⟨prodAnti (b1.theData) (v2.theData)⟩
  let sca_b1b2 : Scalar α := ⟨⟨prodComm (b1.theData) (b2.theData)⟩⟩
  let biv_b1b2 : BiVector α := ⟨prodAnti (b1.theData) (b2.theData)⟩
  ⟨(⟨⟨-sca_b1b2.theData.d0⟩⟩ : Scalar α), (⟨⟨-vec_b1v2.theData.d0, -vec_b1v2.theData.d1, -vec_b1v2.theData.d2⟩⟩ : Vector α), (⟨⟨-biv_b1b2.theData.d0, -biv_b1b2.theData.d1, -biv_b1b2.theData.d2⟩⟩ : BiVector α), (⟨⟨tri_b1v2.theData.d0⟩⟩ : TriVector α)⟩
instance : HMul (BiVector α) (DirPlex α) (MultiVector α) := ⟨mulBivDplx⟩

/-- `MultiVector operator*(BiVector, MultiVector)`: `g3opsMul_BiVector.hpp:318-363`. -/
def mulBivMv (bivA : BiVector α) (mvB : MultiVector α) : MultiVector α :=
  let b1 : BiVector α := bivA
  let s2 : Scalar α := mvB.theSca
  let v2 : Vector α := mvB.theVec
  let b2 : BiVector α := mvB.theBiv
  let t2 : TriVector α := mvB.theTri
  let biv_b1s2 : BiVector α := ⟨⟨b1.theData.d0 * s2.theData.d0, b1.theData.d1 * s2.theData.d0, b1.theData.d2 * s2.theData.d0⟩⟩
  let vec_b1v2 : Vector α := ⟨prodAnti (b1.theData) (v2.theData)⟩
  let tri_b1v2 : TriVector α := ⟨⟨prodComm (b1.theData) (v2.theData)⟩⟩
  let sca_b1b2 : Scalar α := ⟨⟨prodComm (b1.theData) (b2.theData)⟩⟩
  let biv_b1b2 : BiVector α := ⟨prodAnti (b1.theData) (b2.theData)⟩
  let vec_b1t2 : Vector α := ⟨⟨-b1.theData.d0 * t2.theData.d0, -b1.theData.d1 * t2.theData.d0, -b1.theData.d2 * t2.theData.d0⟩⟩
  ⟨(⟨⟨-sca_b1b2.theData.d0⟩⟩ : Scalar α), (⟨⟨vec_b1t2.theData.d0 - vec_b1v2.theData.d0, vec_b1t2.theData.d1 - vec_b1v2.theData.d1, vec_b1t2.theData.d2 - vec_b1v2.theData.d2⟩⟩ : Vector α), (⟨⟨biv_b1s2.theData.d0 - biv_b1b2.theData.d0, biv_b1s2.theData.d1 - biv_b1b2.theData.d1, biv_b1s2.theData.d2 - biv_b1b2.theData.d2⟩⟩ : BiVector α), (⟨⟨tri_b1v2.theData.d0⟩⟩ : TriVector α)⟩
instance : HMul (BiVector α) (MultiVector α) (MultiVector α) := ⟨mulBivMv⟩

/-- `TriVector operator*(TriVector, double)`: `g3opsMul_TriVector.hpp:68-75`. -/
def mulTriDub (triA : TriVector α) (dubB : α) : TriVector α :=
  ⟨⟨dubB * triA.theData.d0⟩⟩
instance : HMul (TriVector α) α (TriVector α) := ⟨mulTriDub⟩

/-- `TriVector operator*(TriVector, Scalar)`: `g3opsMul_TriVector.hpp:84-92`. -/
def mulTriSca (triA : TriVector α) (scaB : Scalar α) : TriVector α :=
  ⟨⟨scaB.theData.d0 * triA.theData.d0⟩⟩
instance : HMul (TriVector α) (Scalar α) (TriVector α) := ⟨mulTriSca⟩

/-- `BiVector operator*(TriVector, Vector)`: `g3opsMul_TriVector.hpp:101-109`. -/
def mulTriVec (triA : TriVector α) (vecB : Vector α) : BiVector α :=
  vecB * triA
instance : HMul (TriVector α) (Vector α) (BiVector α) := ⟨mulTriVec⟩

/-- `Vector operator*(TriVector, BiVector)`: `g3opsMul_TriVector.hpp:118-126`. -/
def mulTriBiv (triA : TriVector α) (bivB : BiVector α) : Vector α :=
  bivB * triA
instance : HMul (TriVector α) (BiVector α) (Vector α) := ⟨mulTriBiv⟩

/-- `Scalar operator*(TriVector, TriVector)`: `g3opsMul_TriVector.hpp:139-150`. -/
def mulTriTri (triA : TriVector α) (triB : TriVector α) : Scalar α :=
  ⟨⟨-triA.theData.d0 * triB.theData.d0⟩⟩
instance : HMul (TriVector α) (TriVector α) (Scalar α) := ⟨mulTriTri⟩

/-- `ImSpin operator*(TriVector, Spinor)`: `g3opsMul_TriVector.hpp:163-179`. -/
def mulTriSpin (triA : TriVector α) (spinB : Spinor α) : ImSpin α :=
  ⟨(⟨⟨-triA.theData.d0 * spinB.theBiv.theData.d0, -triA.theData.d0 * spinB.theBiv.theData.d1, -triA.theData.d0 * spinB.theBiv.theData.d2⟩⟩ : Vector α), (⟨⟨triA.theData.d0 * spinB.theSca.theData.d0⟩⟩ : TriVector α)⟩
instance : HMul (TriVector α) (Spinor α) (ImSpin α) := ⟨mulTriSpin⟩

/-- `Spinor operator*(TriVector, ImSpin)`: `g3opsMul_TriVector.hpp:188-203`. -/
def mulTriImsp (triA : TriVector α) (imspB : ImSpin α) : Spinor α :=
  ⟨(⟨⟨-triA.theData.d0 * imspB.theTri.theData.d0⟩⟩ : Scalar α), (⟨⟨triA.theData.d0 * imspB.theVec.theData.d0, triA.theData.d0 * imspB.theVec.theData.d1, triA.theData.d0 * imspB.theVec.theData.d2⟩⟩ : BiVector α)⟩
instance : HMul (TriVector α) (ImSpin α) (Spinor α) := ⟨mulTriImsp⟩

/-- `ComPlex operator*(TriVector, ComPlex)`: `g3opsMul_TriVector.hpp:212-222`. -/
def mulTriCplx (triA : TriVector α) (cplx : ComPlex α) : ComPlex α :=
  ⟨⟨⟨-triA.theData.d0 * cplx.theTri.theData.d0⟩⟩, ⟨⟨triA.theData.d0 * cplx.theSca.theData.d0⟩⟩⟩
instance : HMul (TriVector α) (ComPlex α) (ComPlex α) := ⟨mulTriCplx⟩

/-- `DirPlex operator*(TriVector, DirPlex)`: `g3opsMul_TriVector.hpp:231-249`. -/
def mulTriDplx (triA : TriVector α) (dplx : DirPlex α) : DirPlex α :=
  ⟨(⟨⟨-triA.theData.d0 * dplx.theBiv.theData.d0, -triA.theData.d0 * dplx.theBiv.theData.d1, -triA.theData.d0 * dplx.theBiv.theData.d2⟩⟩ : Vector α), (⟨⟨triA.theData.d0 * dplx.theVec.theData.d0, triA.theData.d0 * dplx.theVec.theData.d1, triA.theData.d0 * dplx.theVec.theData.d2⟩⟩ : BiVector α)⟩
instance : HMul (TriVector α) (DirPlex α) (DirPlex α) := ⟨mulTriDplx⟩

/-- `MultiVector operator*(TriVector, MultiVector)`: `g3opsMul_TriVector.hpp:258-281`. -/
def mulTriMv (triA : TriVector α) (mvB : MultiVector α) : MultiVector α :=
  ⟨(⟨⟨-triA.theData.d0 * mvB.theTri.theData.d0⟩⟩ : Scalar α), (⟨⟨-triA.theData.d0 * mvB.theBiv.theData.d0, -triA.theData.d0 * mvB.theBiv.theData.d1, -triA.theData.d0 * mvB.theBiv.theData.d2⟩⟩ : Vector α), (⟨⟨triA.theData.d0 * mvB.theVec.theData.d0, triA.theData.d0 * mvB.theVec.theData.d1, triA.theData.d0 * mvB.theVec.theData.d2⟩⟩ : BiVector α), (⟨⟨triA.theData.d0 * mvB.theSca.theData.d0⟩⟩ : TriVector α)⟩
instance : HMul (TriVector α) (MultiVector α) (MultiVector α) := ⟨mulTriMv⟩

/-- `Spinor operator*(Spinor, double)`: `g3opsMul_Spinor.hpp:70-77`. -/
def mulSpinDub (spinA : Spinor α) (dubB : α) : Spinor α :=
  ⟨dubB * spinA.theSca, dubB * spinA.theBiv⟩
instance : HMul (Spinor α) α (Spinor α) := ⟨mulSpinDub⟩

/-- `Spinor operator*(Spinor, Scalar)`: `g3opsMul_Spinor.hpp:85-95`. -/
def mulSpinSca (spinA : Spinor α) (scaB : Scalar α) : Spinor α :=
  ⟨scaB.theData.d0 * spinA.theSca, scaB.theData.d0 * spinA.theBiv⟩
instance : HMul (Spinor α) (Scalar α) (Spinor α) := ⟨mulSpinSca⟩

/-- `ImSpin operator*(Spinor, Vector)`: `g3opsMul_Spinor.hpp:103-120`. -/
def mulSpinVec (spinA : Spinor α) (vecB : Vector α) : ImSpin α :=
  let v1 : Vector α := spinA.theSca * vecB
  let v2 : Vector α := ⟨prodAnti (spinA.theBiv.theData) (vecB.theData)⟩
  let t1 : TriVector α := ⟨⟨prodComm (spinA.theBiv.theData) (vecB.theData)⟩⟩
  ⟨v1 - v2, t1⟩
instance : HMul (Spinor α) (Vector α) (ImSpin α) := ⟨mulSpinVec⟩

/-- `Spinor operator*(Spinor, BiVector)`: `g3opsMul_Spinor.hpp:128-137`. -/
def mulSpinBiv (spinA : Spinor α) (bivB : BiVector α) : Spinor α :=
  let biv1 : BiVector α := spinA.theSca * bivB
  let spin1 : Spinor α := spinA.theBiv * bivB
  ⟨spin1.theSca, spin1.theBiv + biv1⟩
instance : HMul (Spinor α) (BiVector α) (Spinor α) := ⟨mulSpinBiv⟩

/-- `ImSpin operator*(Spinor, TriVector)`: `g3opsMul_Spinor.hpp:145-152`. -/
def mulSpinTri (spinA : Spinor α) (triB : TriVector α) : ImSpin α :=
  ⟨triB * spinA.theBiv, triB * spinA.theSca⟩
instance : HMul (Spinor α) (TriVector α) (ImSpin α) := ⟨mulSpinTri⟩

/-- `Spinor operator*(Spinor, Spinor)`: `g3opsMul_Spinor.hpp:164-187`. -/
def mulSpinSpin (spinA : Spinor α) (spinB : Spinor α) : Spinor α :=
  let alpha : α := spinA.theSca.theData.d0
  let bivA : BiVector α := spinA.theBiv
  let beta : α := spinB.theSca.theData.d0
  let bivB : BiVector α := spinB.theBiv
  let symmAB : α := prodComm (bivA.theData) (bivB.theData)
  let antiAB : BiVector α := ⟨prodAnti (bivA.theData) (bivB.theData)⟩
  let scaC : Scalar α := ⟨⟨alpha * beta - symmAB⟩⟩
  let bivC : BiVector α := alpha * bivB + beta * bivA - antiAB
  ⟨scaC, bivC⟩
instance : Mul (Spinor α) := ⟨mulSpinSpin⟩

/-- `ImSpin operator*(Spinor, ImSpin)`: `g3opsMul_Spinor.hpp:199-208`. -/
def mulSpinImsp (spinA : Spinor α) (imspB : ImSpin α) : ImSpin α :=
  let imsp1 : ImSpin α := spinA.theSca.theData.d0 * imspB
  let imsp2 : ImSpin α := spinA.theBiv * imspB
  imsp1 + imsp2
instance : HMul (Spinor α) (ImSpin α) (ImSpin α) := ⟨mulSpinImsp⟩

/-- `MultiVector operator*(Spinor, ComPlex)`: `g3opsMul_Spinor.hpp:216-228`. -/
def mulSpinCplx (spinA : Spinor α) (cplxB : ComPlex α) : MultiVector α :=
  ⟨(⟨⟨spinA.theSca.theData.d0 * cplxB.theSca.theData.d0⟩⟩ : Scalar α), spinA.theBiv * cplxB.theTri, spinA.theBiv * cplxB.theSca.theData.d0, spinA.theSca.theData.d0 * cplxB.theTri⟩
instance : HMul (Spinor α) (ComPlex α) (MultiVector α) := ⟨mulSpinCplx⟩

/-- `MultiVector operator*(Spinor, DirPlex)`: `g3opsMul_Spinor.hpp:236-252`. -/
def mulSpinDplx (spinA : Spinor α) (dplxB : DirPlex α) : MultiVector α :=
  let vec : Vector α := spinA.theSca.theData.d0 * dplxB.theVec
  let biv : BiVector α := spinA.theSca.theData.d0 * dplxB.theBiv
  let imsp : ImSpin α := spinA.theBiv * dplxB.theVec
  let spin : Spinor α := spinA.theBiv * dplxB.theBiv
  ⟨spin.theSca, vec + imsp.theVec, biv + spin.theBiv, imsp.theTri⟩
instance : HMul (Spinor α) (DirPlex α) (MultiVector α) := ⟨mulSpinDplx⟩

/-- `MultiVector operator*(Spinor, MultiVector)`: `g3opsMul_Spinor.hpp:261-270`. -/
def mulSpinMv (spinA : Spinor α) (mvB : MultiVector α) : MultiVector α :=
  let mv1 : MultiVector α := spinA.theSca.theData.d0 * mvB
  let mv2 : MultiVector α := spinA.theBiv * mvB
  mv1 + mv2
instance : HMul (Spinor α) (MultiVector α) (MultiVector α) := ⟨mulSpinMv⟩

/-- `ImSpin operator*(ImSpin, double)`: `g3opsMul_ImSpin.hpp:71-78`. -/
def mulImspDub (imspA : ImSpin α) (dubB : α) : ImSpin α :=
  ⟨dubB * imspA.theVec, dubB * imspA.theTri⟩
instance : HMul (ImSpin α) α (ImSpin α) := ⟨mulImspDub⟩

/-- `ImSpin operator*(ImSpin, Scalar)`: `g3opsMul_ImSpin.hpp:86-94`. -/
def mulImspSca (imspA : ImSpin α) (scaB : Scalar α) : ImSpin α :=
  let dubB : α := scaB.theData.d0
  ⟨dubB * imspA.theVec, dubB * imspA.theTri⟩
instance : HMul (ImSpin α) (Scalar α) (ImSpin α) := ⟨mulImspSca⟩

/-- `Spinor operator*(ImSpin, Vector)`: `g3opsMul_ImSpin.hpp:102-112`. -/
def mulImspVec (imspA : ImSpin α) (vecB : Vector α) : Spinor α :=
  let spinAB : Spinor α := imspA.theVec * vecB
  let bivAB : BiVector α := imspA.theTri * vecB
  ⟨spinAB.theSca, spinAB.theBiv + bivAB⟩
instance : HMul (ImSpin α) (Vector α) (Spinor α) := ⟨mulImspVec⟩

/-- `ImSpin operator*(ImSpin, BiVector)`: `g3opsMul_ImSpin.hpp:120-129`. -/
def mulImspBiv (imspA : ImSpin α) (bivB : BiVector α) : ImSpin α :=
  let imsp1 : ImSpin α := imspA.theVec * bivB
  let vec1 : Vector α := imspA.theTri * bivB
  ⟨imsp1.theVec + vec1, imsp1.theTri⟩
instance : HMul (ImSpin α) (BiVector α) (ImSpin α) := ⟨mulImspBiv⟩

/-- `Spinor operator*(ImSpin, TriVector)`: `g3opsMul_ImSpin.hpp:138-145`. -/
def mulImspTri (imspA : ImSpin α) (triB : TriVector α) : Spinor α :=
  triB * imspA
instance : HMul (ImSpin α) (TriVector α) (Spinor α) := ⟨mulImspTri⟩

/-- `ImSpin operator*(ImSpin, Spinor)`: `g3opsMul_ImSpin.hpp:153-162`. -/
def mulImspSpin (imspA : ImSpin α) (spinB : Spinor α) : ImSpin α :=
  let imsp1 : ImSpin α := imspA.theVec * spinB
  let imsp2 : ImSpin α := imspA.theTri * spinB
  imsp1 + imsp2
instance : HMul (ImSpin α) (Spinor α) (ImSpin α) := ⟨mulImspSpin⟩

/-- `Spinor operator*(ImSpin, ImSpin)`: `g3opsMul_ImSpin.hpp:174-183`. -/
def mulImspImsp (imspA : ImSpin α) (imspB : ImSpin α) : Spinor α :=
  let spin1 : Spinor α := imspA.theVec * imspB
  let spin2 : Spinor α := imspA.theTri * imspB
  spin1 + spin2
instance : HMul (ImSpin α) (ImSpin α) (Spinor α) := ⟨mulImspImsp⟩

/-- `MultiVector operator*(ImSpin, ComPlex)`: `g3opsMul_ImSpin.hpp:195-207`. -/
def mulImspCplx (imspA : ImSpin α) (cplxB : ComPlex α) : MultiVector α :=
  ⟨imspA.theTri * cplxB.theTri, imspA.theVec * cplxB.theSca, imspA.theVec * cplxB.theTri, imspA.theTri * cplxB.theSca⟩
instance : HMul (ImSpin α) (ComPlex α) (MultiVector α) := ⟨mulImspCplx⟩

/-- `MultiVector operator*(ImSpin, DirPlex)`: `g3opsMul_ImSpin.hpp:215-229`. -/
def mulImspDplx (imspA : ImSpin α) (dplxB : DirPlex α) : MultiVector α :=
  let spin : Spinor α := imspA.theVec * dplxB.theVec
  let imsp : ImSpin α := imspA.theVec * dplxB.theBiv
  ⟨spin.theSca, imsp.theVec + (imspA.theTri * dplxB.theBiv), spin.theBiv + (imspA.theTri * dplxB.theVec), imsp.theTri⟩
instance : HMul (ImSpin α) (DirPlex α) (MultiVector α) := ⟨mulImspDplx⟩

/-- `MultiVector operator*(ImSpin, MultiVector)`: `g3opsMul_ImSpin.hpp:237-247`. -/
def mulImspMv (imspA : ImSpin α) (mvB : MultiVector α) : MultiVector α :=
  imspA.theVec * mvB + imspA.theTri * mvB
instance : HMul (ImSpin α) (MultiVector α) (MultiVector α) := ⟨mulImspMv⟩

/-- `ComPlex operator*(ComPlex, double)`: `g3opsMul_ComPlex.hpp:72-79`. -/
def mulCplxDub (cplxA : ComPlex α) (dubB : α) : ComPlex α :=
  dubB * cplxA
instance : HMul (ComPlex α) α (ComPlex α) := ⟨mulCplxDub⟩

/-- `ComPlex operator*(ComPlex, Scalar)`: `g3opsMul_ComPlex.hpp:87-94`. -/
def mulCplxSca (cplxA : ComPlex α) (scaB : Scalar α) : ComPlex α :=
  scaB * cplxA
instance : HMul (ComPlex α) (Scalar α) (ComPlex α) := ⟨mulCplxSca⟩

/-- `DirPlex operator*(ComPlex, Vector)`: `g3opsMul_ComPlex.hpp:102-109`. -/
def mulCplxVec (cplxA : ComPlex α) (vecB : Vector α) : DirPlex α :=
  vecB * cplxA
instance : HMul (ComPlex α) (Vector α) (DirPlex α) := ⟨mulCplxVec⟩

/-- `DirPlex operator*(ComPlex, BiVector)`: `g3opsMul_ComPlex.hpp:117-124`. -/
def mulCplxBiv (cplxA : ComPlex α) (bivB : BiVector α) : DirPlex α :=
  bivB * cplxA
instance : HMul (ComPlex α) (BiVector α) (DirPlex α) := ⟨mulCplxBiv⟩

/-- `ComPlex operator*(ComPlex, TriVector)`: `g3opsMul_ComPlex.hpp:132-139`. -/
def mulCplxTri (cplxA : ComPlex α) (triB : TriVector α) : ComPlex α :=
  triB * cplxA
instance : HMul (ComPlex α) (TriVector α) (ComPlex α) := ⟨mulCplxTri⟩

/-- `MultiVector operator*(ComPlex, Spinor)`: `g3opsMul_ComPlex.hpp:147-154`. -/
def mulCplxSpin (cplxA : ComPlex α) (spinB : Spinor α) : MultiVector α :=
  spinB * cplxA
instance : HMul (ComPlex α) (Spinor α) (MultiVector α) := ⟨mulCplxSpin⟩

/-- `MultiVector operator*(ComPlex, ImSpin)`: `g3opsMul_ComPlex.hpp:162-169`. -/
def mulCplxImsp (cplxA : ComPlex α) (imspB : ImSpin α) : MultiVector α :=
  imspB * cplxA
instance : HMul (ComPlex α) (ImSpin α) (MultiVector α) := ⟨mulCplxImsp⟩

/-- `ComPlex operator*(ComPlex, ComPlex)`: `g3opsMul_ComPlex.hpp:181-197`. -/
def mulCplxCplx (cplxA : ComPlex α) (cplxB : ComPlex α) : ComPlex α :=
  ⟨(⟨⟨cplxA.theSca.theData.d0 * cplxB.theSca.theData.d0 - cplxA.theTri.theData.d0 * cplxB.theTri.theData.d0⟩⟩ : Scalar α), (⟨⟨cplxA.theSca.theData.d0 * cplxB.theTri.theData.d0 + cplxA.theTri.theData.d0 * cplxB.theSca.theData.d0⟩⟩ : TriVector α)⟩
instance : Mul (ComPlex α) := ⟨mulCplxCplx⟩

/-- `DirPlex operator*(ComPlex, DirPlex)`: `g3opsMul_ComPlex.hpp:209-225`. -/
def mulCplxDplx (cplxA : ComPlex α) (dplxB : DirPlex α) : DirPlex α :=
  ⟨cplxA.theSca * dplxB.theVec + dplxB.theBiv * cplxA.theTri, cplxA.theSca * dplxB.theBiv + dplxB.theVec * cplxA.theTri⟩
instance : HMul (ComPlex α) (DirPlex α) (DirPlex α) := ⟨mulCplxDplx⟩

/-- `MultiVector operator*(ComPlex, MultiVector)`: `g3opsMul_ComPlex.hpp:233-249`. -/
def mulCplxMv (cplxA : ComPlex α) (mvecB : MultiVector α) : MultiVector α :=
  ⟨cplxA.theSca * mvecB.theSca + cplxA.theTri * mvecB.theTri, cplxA.theSca * mvecB.theVec + mvecB.theBiv * cplxA.theTri, cplxA.theSca * mvecB.theBiv + mvecB.theVec * cplxA.theTri, cplxA.theSca * mvecB.theTri + mvecB.theSca * cplxA.theTri⟩
instance : HMul (ComPlex α) (MultiVector α) (MultiVector α) := ⟨mulCplxMv⟩

/-- `DirPlex operator*(DirPlex, double)`: `g3opsMul_DirPlex.hpp:73-80`. -/
def mulDplxDub (dplxA : DirPlex α) (dubB : α) : DirPlex α :=
  dubB * dplxA
instance : HMul (DirPlex α) α (DirPlex α) := ⟨mulDplxDub⟩

/-- `DirPlex operator*(DirPlex, Scalar)`: `g3opsMul_DirPlex.hpp:88-95`. -/
def mulDplxSca (dplxA : DirPlex α) (scaB : Scalar α) : DirPlex α :=
  scaB * dplxA
instance : HMul (DirPlex α) (Scalar α) (DirPlex α) := ⟨mulDplxSca⟩

/-- `MultiVector operator*(DirPlex, Vector)`: `g3opsMul_DirPlex.hpp:103-118`. -/
def mulDplxVec (dplxA : DirPlex α) (vecB : Vector α) : MultiVector α :=
  let spin : Spinor α := dplxA.theVec * vecB
  let imspRev : ImSpin α := vecB * reverse (dplxA.theBiv)
  let imsp : ImSpin α := reverse (imspRev)
  ⟨spin.theSca, imsp.theVec, spin.theBiv, imsp.theTri⟩
instance : HMul (DirPlex α) (Vector α) (MultiVector α) := ⟨mulDplxVec⟩

/-- `MultiVector operator*(DirPlex, BiVector)`: `g3opsMul_DirPlex.hpp:126-141`. -/
def mulDplxBiv (dplxA : DirPlex α) (bivB : BiVector α) : MultiVector α :=
  let imsp : ImSpin α := dplxA.theVec * bivB
  let spinRev : Spinor α := reverse (bivB) * reverse (dplxA.theBiv)
  let spin : Spinor α := reverse (spinRev)
  ⟨spin.theSca, imsp.theVec, spin.theBiv, imsp.theTri⟩
instance : HMul (DirPlex α) (BiVector α) (MultiVector α) := ⟨mulDplxBiv⟩

/-- `DirPlex operator*(DirPlex, TriVector)`: `g3opsMul_DirPlex.hpp:149-159`. -/
def mulDplxTri (dplxA : DirPlex α) (triB : TriVector α) : DirPlex α :=
  ⟨dplxA.theBiv * triB, dplxA.theVec * triB⟩
instance : HMul (DirPlex α) (TriVector α) (DirPlex α) := ⟨mulDplxTri⟩

/-- `MultiVector operator*(DirPlex, Spinor)`: `g3opsMul_DirPlex.hpp:167-181`. -/
def mulDplxSpin (dplxA : DirPlex α) (spinB : Spinor α) : MultiVector α :=
  let imsp : ImSpin α := dplxA.theVec * spinB.theBiv
  let spin : Spinor α := dplxA.theBiv * spinB.theBiv
  ⟨spin.theSca, imsp.theVec + (spinB.theSca * dplxA.theVec), spin.theBiv + (spinB.theSca * dplxA.theBiv), imsp.theTri⟩
instance : HMul (DirPlex α) (Spinor α) (MultiVector α) := ⟨mulDplxSpin⟩

/-- `MultiVector operator*(DirPlex, ImSpin)`: `g3opsMul_DirPlex.hpp:189-203`. -/
def mulDplxImsp (dplxA : DirPlex α) (imspB : ImSpin α) : MultiVector α :=
  let spin : Spinor α := dplxA.theVec * imspB.theVec
  let imsp : ImSpin α := dplxA.theBiv * imspB.theVec
  ⟨spin.theSca, imsp.theVec + (dplxA.theBiv * imspB.theTri), spin.theBiv + (dplxA.theVec * imspB.theTri), imsp.theTri⟩
instance : HMul (DirPlex α) (ImSpin α) (MultiVector α) := ⟨mulDplxImsp⟩

/-- `DirPlex operator*(DirPlex, ComPlex)`: `g3opsMul_DirPlex.hpp:211-223`. -/
def mulDplxCplx (dplxA : DirPlex α) (cplxB : ComPlex α) : DirPlex α :=
  ⟨cplxB.theSca * dplxA.theVec + dplxA.theBiv * cplxB.theTri, cplxB.theSca * dplxA.theBiv + dplxA.theVec * cplxB.theTri⟩
instance : HMul (DirPlex α) (ComPlex α) (DirPlex α) := ⟨mulDplxCplx⟩

/-- `MultiVector operator*(DirPlex, DirPlex)`: `g3opsMul_DirPlex.hpp:235-251`. -/
def mulDplxDplx (dplxA : DirPlex α) (dplxB : DirPlex α) : MultiVector α :=
  let spin1 : Spinor α := dplxA.theVec * dplxB.theVec
  let imsp1 : ImSpin α := dplxA.theBiv * dplxB.theVec
  let imsp2 : ImSpin α := dplxA.theVec * dplxB.theBiv
  let spin2 : Spinor α := dplxA.theBiv * dplxB.theBiv
  ⟨spin1.theSca + spin2.theSca, imsp1.theVec + imsp2.theVec, spin1.theBiv + spin2.theBiv, imsp1.theTri + imsp2.theTri⟩
instance : HMul (DirPlex α) (DirPlex α) (MultiVector α) := ⟨mulDplxDplx⟩

/-- `MultiVector operator*(DirPlex, MultiVector)`: `g3opsMul_DirPlex.hpp:263-284`. -/
def mulDplxMv (dplxA : DirPlex α) (mvecB : MultiVector α) : MultiVector α :=
  let spin1 : Spinor α := dplxA.theVec * mvecB.theVec
  let imsp1 : ImSpin α := dplxA.theVec * mvecB.theBiv
  let spin2 : Spinor α := dplxA.theBiv * mvecB.theBiv
  let imsp2Rev : ImSpin α := mvecB.theVec * reverse (dplxA.theBiv)
  let imsp2 : ImSpin α := reverse (imsp2Rev)
  ⟨spin1.theSca + spin2.theSca, imsp1.theVec + imsp2.theVec + (mvecB.theSca * dplxA.theVec) + (dplxA.theBiv * mvecB.theTri), spin1.theBiv + spin2.theBiv + (dplxA.theVec * mvecB.theTri) + (mvecB.theSca * dplxA.theBiv), imsp1.theTri + imsp2.theTri⟩
instance : HMul (DirPlex α) (MultiVector α) (MultiVector α) := ⟨mulDplxMv⟩

/-- `MultiVector operator*(MultiVector, double)`: `g3opsMul_MultiVector.hpp:74-86`. -/
def mulMvDub (mvA : MultiVector α) (dubB : α) : MultiVector α :=
  ⟨dubB * mvA.theSca, dubB * mvA.theVec, dubB * mvA.theBiv, dubB * mvA.theTri⟩
instance : HMul (MultiVector α) α (MultiVector α) := ⟨mulMvDub⟩

/-- `MultiVector operator*(MultiVector, Scalar)`: `g3opsMul_MultiVector.hpp:94-107`. -/
def mulMvSca (mvA : MultiVector α) (scaB : Scalar α) : MultiVector α :=
  let dubB : α := scaB.theData.d0
  ⟨dubB * mvA.theSca, dubB * mvA.theVec, dubB * mvA.theBiv, dubB * mvA.theTri⟩
instance : HMul (MultiVector α) (Scalar α) (MultiVector α) := ⟨mulMvSca⟩

/-- `MultiVector operator*(MultiVector, Vector)`: `g3opsMul_MultiVector.hpp:115-131`. -/
def mulMvVec (mvA : MultiVector α) (vecB : Vector α) : MultiVector α :=
  let vec1 : Vector α := mvA.theSca * vecB
  let spin1 : Spinor α := mvA.theVec * vecB
  let imsp1 : ImSpin α := mvA.theBiv * vecB
  let biv1 : BiVector α := mvA.theTri * vecB
  ⟨spin1.theSca, vec1 + imsp1.theVec, biv1 + spin1.theBiv, imsp1.theTri⟩
instance : HMul (MultiVector α) (Vector α) (MultiVector α) := ⟨mulMvVec⟩

/-- `MultiVector operator*(MultiVector, BiVector)`: `g3opsMul_MultiVector.hpp:139-155`. -/
def mulMvBiv (mvA : MultiVector α) (bivB : BiVector α) : MultiVector α :=
  let biv1 : BiVector α := mvA.theSca * bivB
  let imsp1 : ImSpin α := mvA.theVec * bivB
  let spin1 : Spinor α := mvA.theBiv * bivB
  let vec1 : Vector α := mvA.theTri * bivB
  ⟨spin1.theSca, imsp1.theVec + vec1, biv1 + spin1.theBiv, imsp1.theTri⟩
instance : HMul (MultiVector α) (BiVector α) (MultiVector α) := ⟨mulMvBiv⟩

/-- `MultiVector operator*(MultiVector, TriVector)`: `g3opsMul_MultiVector.hpp:163-174`. -/
def mulMvTri (mvA : MultiVector α) (triB : TriVector α) : MultiVector α :=
  let tri1 : TriVector α := mvA.theSca * triB
  let biv1 : BiVector α := mvA.theVec * triB
  let vec1 : Vector α := mvA.theBiv * triB
  let sca1 : Scalar α := mvA.theTri * triB
  ⟨sca1, vec1, biv1, tri1⟩
instance : HMul (MultiVector α) (TriVector α) (MultiVector α) := ⟨mulMvTri⟩

/-- `MultiVector operator*(MultiVector, Spinor)`: `g3opsMul_MultiVector.hpp:182-192`. -/
def mulMvSpin (mvA : MultiVector α) (spinB : Spinor α) : MultiVector α :=
  mvA * spinB.theSca + mvA * spinB.theBiv
instance : HMul (MultiVector α) (Spinor α) (MultiVector α) := ⟨mulMvSpin⟩

/-- `MultiVector operator*(MultiVector, ImSpin)`: `g3opsMul_MultiVector.hpp:200-210`. -/
def mulMvImsp (mvA : MultiVector α) (imspB : ImSpin α) : MultiVector α :=
  mvA * imspB.theVec + mvA * imspB.theTri
instance : HMul (MultiVector α) (ImSpin α) (MultiVector α) := ⟨mulMvImsp⟩

/-- `MultiVector operator*(MultiVector, ComPlex)`: `g3opsMul_MultiVector.hpp:218-225`. -/
def mulMvCplx (mvA : MultiVector α) (cplxB : ComPlex α) : MultiVector α :=
  (cplxB * mvA)
instance : HMul (MultiVector α) (ComPlex α) (MultiVector α) := ⟨mulMvCplx⟩

/-- `MultiVector operator*(MultiVector, DirPlex)`: `g3opsMul_MultiVector.hpp:233-253`. -/
def mulMvDplx (mvA : MultiVector α) (dplxB : DirPlex α) : MultiVector α :=
  let spin1 : Spinor α := mvA.theVec * dplxB.theVec
  let imsp1 : ImSpin α := mvA.theBiv * dplxB.theVec
  let imsp2 : ImSpin α := mvA.theVec * dplxB.theBiv
  let spin2 : Spinor α := mvA.theBiv * dplxB.theBiv
  ⟨spin1.theSca + spin2.theSca, imsp1.theVec + imsp2.theVec + (mvA.theSca * dplxB.theVec) + (mvA.theTri * dplxB.theBiv), spin1.theBiv + spin2.theBiv + (mvA.theTri * dplxB.theVec) + (mvA.theSca * dplxB.theBiv), imsp1.theTri + imsp2.theTri⟩
instance : HMul (MultiVector α) (DirPlex α) (MultiVector α) := ⟨mulMvDplx⟩

/-- `MultiVector operator*(MultiVector, MultiVector)`: `g3opsMul_MultiVector.hpp:281-371`. -/
def mulMvMv (mvA : MultiVector α) (mvB : MultiVector α) : MultiVector α :=
  ⟨⟨⟨(mvA.theSca.theData.d0 * mvB.theSca.theData.d0 + mvA.theVec.theData.d0 * mvB.theVec.theData.d0 + mvA.theVec.theData.d1 * mvB.theVec.theData.d1 + mvA.theVec.theData.d2 * mvB.theVec.theData.d2)
      - (mvA.theBiv.theData.d0 * mvB.theBiv.theData.d0 + mvA.theBiv.theData.d1 * mvB.theBiv.theData.d1 + mvA.theBiv.theData.d2 * mvB.theBiv.theData.d2 + mvA.theTri.theData.d0 * mvB.theTri.theData.d0)⟩⟩,
   ⟨⟨(mvA.theVec.theData.d0 * mvB.theSca.theData.d0 + mvA.theSca.theData.d0 * mvB.theVec.theData.d0 + mvA.theBiv.theData.d2 * mvB.theVec.theData.d1 + mvA.theVec.theData.d2 * mvB.theBiv.theData.d1)
      - (mvA.theBiv.theData.d1 * mvB.theVec.theData.d2 + mvA.theTri.theData.d0 * mvB.theBiv.theData.d0 + mvA.theVec.theData.d1 * mvB.theBiv.theData.d2 + mvA.theBiv.theData.d0 * mvB.theTri.theData.d0),
     (mvA.theVec.theData.d1 * mvB.theSca.theData.d0 + mvA.theSca.theData.d0 * mvB.theVec.theData.d1 + mvA.theBiv.theData.d0 * mvB.theVec.theData.d2 + mvA.theVec.theData.d0 * mvB.theBiv.theData.d2)
      - (mvA.theBiv.theData.d2 * mvB.theVec.theData.d0 + mvA.theVec.theData.d2 * mvB.theBiv.theData.d0 + mvA.theTri.theData.d0 * mvB.theBiv.theData.d1 + mvA.theBiv.theData.d1 * mvB.theTri.theData.d0),
     (mvA.theVec.theData.d2 * mvB.theSca.theData.d0 + mvA.theBiv.theData.d1 * mvB.theVec.theData.d0 + mvA.theSca.theData.d0 * mvB.theVec.theData.d2 + mvA.theVec.theData.d1 * mvB.theBiv.theData.d0)
      - (mvA.theBiv.theData.d0 * mvB.theVec.theData.d1 + mvA.theVec.theData.d0 * mvB.theBiv.theData.d1 + mvA.theTri.theData.d0 * mvB.theBiv.theData.d2 + mvA.theBiv.theData.d2 * mvB.theTri.theData.d0)⟩⟩,
   ⟨⟨(mvA.theBiv.theData.d0 * mvB.theSca.theData.d0 + mvA.theTri.theData.d0 * mvB.theVec.theData.d0 + mvA.theVec.theData.d1 * mvB.theVec.theData.d2 + mvA.theSca.theData.d0 * mvB.theBiv.theData.d0 + mvA.theBiv.theData.d2 * mvB.theBiv.theData.d1 + mvA.theVec.theData.d0 * mvB.theTri.theData.d0)
      - (mvA.theVec.theData.d2 * mvB.theVec.theData.d1 + mvA.theBiv.theData.d1 * mvB.theBiv.theData.d2),
     (mvA.theBiv.theData.d1 * mvB.theSca.theData.d0 + mvA.theVec.theData.d2 * mvB.theVec.theData.d0 + mvA.theTri.theData.d0 * mvB.theVec.theData.d1 + mvA.theSca.theData.d0 * mvB.theBiv.theData.d1 + mvA.theBiv.theData.d0 * mvB.theBiv.theData.d2 + mvA.theVec.theData.d1 * mvB.theTri.theData.d0)
      - (mvA.theVec.theData.d0 * mvB.theVec.theData.d2 + mvA.theBiv.theData.d2 * mvB.theBiv.theData.d0),
     (mvA.theBiv.theData.d2 * mvB.theSca.theData.d0 + mvA.theVec.theData.d0 * mvB.theVec.theData.d1 + mvA.theTri.theData.d0 * mvB.theVec.theData.d2 + mvA.theBiv.theData.d1 * mvB.theBiv.theData.d0 + mvA.theSca.theData.d0 * mvB.theBiv.theData.d2 + mvA.theVec.theData.d2 * mvB.theTri.theData.d0)
      - (mvA.theVec.theData.d1 * mvB.theVec.theData.d0 + mvA.theBiv.theData.d0 * mvB.theBiv.theData.d1)⟩⟩,
   ⟨⟨(mvA.theTri.theData.d0 * mvB.theSca.theData.d0 + mvA.theBiv.theData.d0 * mvB.theVec.theData.d0 + mvA.theBiv.theData.d1 * mvB.theVec.theData.d1 + mvA.theBiv.theData.d2 * mvB.theVec.theData.d2 + mvA.theVec.theData.d0 * mvB.theBiv.theData.d0 + mvA.theVec.theData.d1 * mvB.theBiv.theData.d1 + mvA.theVec.theData.d2 * mvB.theBiv.theData.d2 + mvA.theSca.theData.d0 * mvB.theTri.theData.d0)⟩⟩⟩
instance : Mul (MultiVector α) := ⟨mulMvMv⟩

end Engabra
