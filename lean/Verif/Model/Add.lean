import Verif.Model.Uni

/-! Addition overloads (`g3opsAdd_*.hpp`).

Transcribed mechanically from the C++ headers: one definition per overload, same
order of evaluation.  `let` bindings keep the C++ names of the locals. -/

namespace Engabra

variable {α : Type} [Add α] [Sub α] [Mul α] [Neg α] [Zero α]

/-- `operator+(Blade, Blade)` at `Blade = Scalar`: `g3opsAdd_same.hpp:58-76` with `priv::binaryElementByElement` (`g3_private.hpp:53-71`), loop unrolled. -/
def addScaSca (bladeA bladeB : Scalar α) : Scalar α :=
  ⟨⟨bladeA.theData.d0 + bladeB.theData.d0⟩⟩
instance : Add (Scalar α) := ⟨addScaSca⟩

/-- `operator+(Blade, Blade)` at `Blade = Vector`: `g3opsAdd_same.hpp:58-76` with `priv::binaryElementByElement` (`g3_private.hpp:53-71`), loop unrolled. -/
def addVecVec (bladeA bladeB : Vector α) : Vector α :=
  ⟨⟨bladeA.theData.d0 + bladeB.theData.d0, bladeA.theData.d1 + bladeB.theData.d1, bladeA.theData.d2 + bladeB.theData.d2⟩⟩
instance : Add (Vector α) := ⟨addVecVec⟩

/-- `operator+(Blade, Blade)` at `Blade = BiVector`: `g3opsAdd_same.hpp:58-76` with `priv::binaryElementByElement` (`g3_private.hpp:53-71`), loop unrolled. -/
def addBivBiv (bladeA bladeB : BiVector α) : BiVector α :=
  ⟨⟨bladeA.theData.d0 + bladeB.theData.d0, bladeA.theData.d1 + bladeB.theData.d1, bladeA.theData.d2 + bladeB.theData.d2⟩⟩
instance : Add (BiVector α) := ⟨addBivBiv⟩

/-- `operator+(Blade, Blade)` at `Blade = TriVector`: `g3opsAdd_same.hpp:58-76` with `priv::binaryElementByElement` (`g3_private.hpp:53-71`), loop unrolled. -/
def addTriTri (bladeA bladeB : TriVector α) : TriVector α :=
  ⟨⟨bladeA.theData.d0 + bladeB.theData.d0⟩⟩
instance : Add (TriVector α) := ⟨addTriTri⟩

/-- `Spinor operator+(Spinor, Spinor)`: `g3opsAdd_same.hpp:86-96`. -/
def addSpinSpin (spinA : Spinor α) (spinB : Spinor α) : Spinor α :=
  ⟨spinA.theSca + spinB.theSca, spinA.theBiv + spinB.theBiv⟩
instance : Add (Spinor α) := ⟨addSpinSpin⟩

/-- `ImSpin operator+(ImSpin, ImSpin)`: `g3opsAdd_same.hpp:100-110`. -/
def addImspImsp (imspA : ImSpin α) (imspB : ImSpin α) : ImSpin α :=
  ⟨imspA.theVec + imspB.theVec, imspA.theTri + imspB.theTri⟩
instance : Add (ImSpin α) := ⟨addImspImsp⟩

/-- `ComPlex operator+(ComPlex, ComPlex)`: `g3opsAdd_same.hpp:114-124`. -/
def addCplxCplx (cplxA : ComPlex α) (cplxB : ComPlex α) : ComPlex α :=
  ⟨cplxA.theSca + cplxB.theSca, cplxA.theTri + cplxB.theTri⟩
instance : Add (ComPlex α) := ⟨addCplxCplx⟩

/-- `DirPlex operator+(DirPlex, DirPlex)`: `g3opsAdd_same.hpp:128-138`. -/
def addDplxDplx (dplxA : DirPlex α) (dplxB : DirPlex α) : DirPlex α :=
  ⟨dplxA.theVec + dplxB.theVec, dplxA.theBiv + dplxB.theBiv⟩
instance : Add (DirPlex α) := ⟨addDplxDplx⟩

/-- `MultiVector operator+(MultiVector, MultiVector)`: `g3opsAdd_same.hpp:142-154`. -/
def addMvMv (mvA : MultiVector α) (mvB : MultiVector α) : MultiVector α :=
  ⟨mvA.theSca + mvB.theSca, mvA.theVec + mvB.theVec, mvA.theBiv + mvB.theBiv, mvA.theTri + mvB.theTri⟩
instance : Add (MultiVector α) := ⟨addMvMv⟩

/-- `Spinor operator+(Scalar, BiVector)`: `g3opsAdd_Scalar.hpp:58-65`. -/
def addScaBiv (sca : Scalar α) (biv : BiVector α) : Spinor α :=
  ⟨sca, biv⟩
instance : HAdd (Scalar α) (BiVector α) (Spinor α) := ⟨addScaBiv⟩

/-- `ComPlex operator+(Scalar, TriVector)`: `g3opsAdd_Scalar.hpp:69-76`. -/
def addScaTri (sca : Scalar α) (tri : TriVector α) : ComPlex α :=
  ⟨sca, tri⟩
instance : HAdd (Scalar α) (TriVector α) (ComPlex α) := ⟨addScaTri⟩

/-- `Spinor operator+(Scalar, Spinor)`: `g3opsAdd_Scalar.hpp:80-90`. -/
def addScaSpin (sca : Scalar α) (spin : Spinor α) : Spinor α :=
  ⟨sca + spin.theSca, spin.theBiv⟩
instance : HAdd (Scalar α) (Spinor α) (Spinor α) := ⟨addScaSpin⟩

/-- `ComPlex operator+(Scalar, ComPlex)`: `g3opsAdd_Scalar.hpp:96-106`. -/
def addScaCplx (sca : Scalar α) (cplx : ComPlex α) : ComPlex α :=
  ⟨sca + cplx.theSca, cplx.theTri⟩
instance : HAdd (Scalar α) (ComPlex α) (ComPlex α) := ⟨addScaCplx⟩

/-- `MultiVector operator+(Scalar, MultiVector)`: `g3opsAdd_Scalar.hpp:112-124`. -/
def addScaMv (sca : Scalar α) (mv : MultiVector α) : MultiVector α :=
  ⟨sca + mv.theSca, mv.theVec, mv.theBiv, mv.theTri⟩
instance : HAdd (Scalar α) (MultiVector α) (MultiVector α) := ⟨addScaMv⟩

/-- `DirPlex operator+(Vector, BiVector)`: `g3opsAdd_Vector.hpp:62-69`. -/
def addVecBiv (vec : Vector α) (biv : BiVector α) : DirPlex α :=
  ⟨vec, biv⟩
instance : HAdd (Vector α) (BiVector α) (DirPlex α) := ⟨addVecBiv⟩

/-- `ImSpin operator+(Vector, TriVector)`: `g3opsAdd_Vector.hpp:73-80`. -/
def addVecTri (vec : Vector α) (tri : TriVector α) : ImSpin α :=
  ⟨vec, tri⟩
instance : HAdd (Vector α) (TriVector α) (ImSpin α) := ⟨addVecTri⟩

/-- `ImSpin operator+(Vector, ImSpin)`: `g3opsAdd_Vector.hpp:84-94`. -/
def addVecImsp (vec : Vector α) (imsp : ImSpin α) : ImSpin α :=
  ⟨vec + imsp.theVec, imsp.theTri⟩
instance : HAdd (Vector α) (ImSpin α) (ImSpin α) := ⟨addVecImsp⟩

/-- `DirPlex operator+(Vector, DirPlex)`: `g3opsAdd_Vector.hpp:100-110`. -/
def addVecDplx (vec : Vector α) (dplx : DirPlex α) : DirPlex α :=
  ⟨vec + dplx.theVec, dplx.theBiv⟩
instance : HAdd (Vector α) (DirPlex α) (DirPlex α) := ⟨addVecDplx⟩

/-- `MultiVector operator+(Vector, MultiVector)`: `g3opsAdd_Vector.hpp:114-126`. -/
def addVecMv (vec : Vector α) (mv : MultiVector α) : MultiVector α :=
  ⟨mv.theSca, vec + mv.theVec, mv.theBiv, mv.theTri⟩
instance : HAdd (Vector α) (MultiVector α) (MultiVector α) := ⟨addVecMv⟩

/-- `Spinor operator+(BiVector, Scalar)`: `g3opsAdd_BiVector.hpp:57-64`. -/
def addBivSca (biv : BiVector α) (sca : Scalar α) : Spinor α :=
  sca + biv
instance : HAdd (BiVector α) (Scalar α) (Spinor α) := ⟨addBivSca⟩

/-- `DirPlex operator+(BiVector, Vector)`: `g3opsAdd_BiVector.hpp:68-75`. -/
def addBivVec (biv : BiVector α) (vec : Vector α) : DirPlex α :=
  vec + biv
instance : HAdd (BiVector α) (Vector α) (DirPlex α) := ⟨addBivVec⟩

/-- `Spinor operator+(BiVector, Spinor)`: `g3opsAdd_BiVector.hpp:87-94`. -/
def addBivSpin (biv : BiVector α) (spin : Spinor α) : Spinor α :=
  ⟨spin.theSca, biv + spin.theBiv⟩
instance : HAdd (BiVector α) (Spinor α) (Spinor α) := ⟨addBivSpin⟩

/-- `DirPlex operator+(BiVector, DirPlex)`: `g3opsAdd_BiVector.hpp:100-107`. -/
def addBivDplx (biv : BiVector α) (dplx : DirPlex α) : DirPlex α :=
  ⟨dplx.theVec, biv + dplx.theBiv⟩
instance : HAdd (BiVector α) (DirPlex α) (DirPlex α) := ⟨addBivDplx⟩

/-- `MultiVector operator+(BiVector, MultiVector)`: `g3opsAdd_BiVector.hpp:111-123`. -/
def addBivMv (biv : BiVector α) (mv : MultiVector α) : MultiVector α :=
  ⟨mv.theSca, mv.theVec, biv + mv.theBiv, mv.theTri⟩
instance : HAdd (BiVector α) (MultiVector α) (MultiVector α) := ⟨addBivMv⟩

/-- `ComPlex operator+(TriVector, Scalar)`: `g3opsAdd_TriVector.hpp:57-64`. -/
def addTriSca (tri : TriVector α) (sca : Scalar α) : ComPlex α :=
  sca + tri
instance : HAdd (TriVector α) (Scalar α) (ComPlex α) := ⟨addTriSca⟩

/-- `ImSpin operator+(TriVector, Vector)`: `g3opsAdd_TriVector.hpp:68-75`. -/
def addTriVec (tri : TriVector α) (vec : Vector α) : ImSpin α :=
  vec + tri
instance : HAdd (TriVector α) (Vector α) (ImSpin α) := ⟨addTriVec⟩

/-- `ImSpin operator+(TriVector, ImSpin)`: `g3opsAdd_TriVector.hpp:89-96`. -/
def addTriImsp (tri : TriVector α) (imsp : ImSpin α) : ImSpin α :=
  ⟨imsp.theVec, tri + imsp.theTri⟩
instance : HAdd (TriVector α) (ImSpin α) (ImSpin α) := ⟨addTriImsp⟩

/-- `ComPlex operator+(TriVector, ComPlex)`: `g3opsAdd_TriVector.hpp:100-107`. -/
def addTriCplx (tri : TriVector α) (cplx : ComPlex α) : ComPlex α :=
  ⟨cplx.theSca, tri + cplx.theTri⟩
instance : HAdd (TriVector α) (ComPlex α) (ComPlex α) := ⟨addTriCplx⟩

/-- `MultiVector operator+(TriVector, MultiVector)`: `g3opsAdd_TriVector.hpp:113-125`. -/
def addTriMv (tri : TriVector α) (mv : MultiVector α) : MultiVector α :=
  ⟨mv.theSca, mv.theVec, mv.theBiv, tri + mv.theTri⟩
instance : HAdd (TriVector α) (MultiVector α) (MultiVector α) := ⟨addTriMv⟩

/-- `Spinor operator+(Spinor, Scalar)`: `g3opsAdd_Spinor.hpp:57-64`. -/
def addSpinSca (spin : Spinor α) (sca : Scalar α) : Spinor α :=
  sca + spin
instance : HAdd (Spinor α) (Scalar α) (Spinor α) := ⟨addSpinSca⟩

/-- `Spinor operator+(Spinor, BiVector)`: `g3opsAdd_Spinor.hpp:70-77`. -/
def addSpinBiv (spin : Spinor α) (biv : BiVector α) : Spinor α :=
  biv + spin
instance : HAdd (Spinor α) (BiVector α) (Spinor α) := ⟨addSpinBiv⟩

/-- `MultiVector operator+(Spinor, ImSpin)`: `g3opsAdd_Spinor.hpp:89-101`. -/
def addSpinImsp (spin : Spinor α) (imsp : ImSpin α) : MultiVector α :=
  ⟨spin.theSca, imsp.theVec, spin.theBiv, imsp.theTri⟩
instance : HAdd (Spinor α) (ImSpin α) (MultiVector α) := ⟨addSpinImsp⟩

/-- `MultiVector operator+(Spinor, MultiVector)`: `g3opsAdd_Spinor.hpp:109-121`. -/
def addSpinMv (spin : Spinor α) (mv : MultiVector α) : MultiVector α :=
  ⟨spin.theSca + mv.theSca, mv.theVec, spin.theBiv + mv.theBiv, mv.theTri⟩
instance : HAdd (Spinor α) (MultiVector α) (MultiVector α) := ⟨addSpinMv⟩

/-- `ImSpin operator+(ImSpin, Vector)`: `g3opsAdd_ImSpin.hpp:60-67`. -/
def addImspVec (imsp : ImSpin α) (vec : Vector α) : ImSpin α :=
  vec + imsp
instance : HAdd (ImSpin α) (Vector α) (ImSpin α) := ⟨addImspVec⟩

/-- `ImSpin operator+(ImSpin, TriVector)`: `g3opsAdd_ImSpin.hpp:73-80`. -/
def addImspTri (imsp : ImSpin α) (tri : TriVector α) : ImSpin α :=
  tri + imsp
instance : HAdd (ImSpin α) (TriVector α) (ImSpin α) := ⟨addImspTri⟩

/-- `MultiVector operator+(ImSpin, Spinor)`: `g3opsAdd_ImSpin.hpp:84-91`. -/
def addImspSpin (imsp : ImSpin α) (spin : Spinor α) : MultiVector α :=
  spin + imsp
instance : HAdd (ImSpin α) (Spinor α) (MultiVector α) := ⟨addImspSpin⟩

/-- `MultiVector operator+(ImSpin, MultiVector)`: `g3opsAdd_ImSpin.hpp:105-117`. -/
def addImspMv (imsp : ImSpin α) (mv : MultiVector α) : MultiVector α :=
  ⟨mv.theSca, imsp.theVec + mv.theVec, mv.theBiv, imsp.theTri + mv.theTri⟩
instance : HAdd (ImSpin α) (MultiVector α) (MultiVector α) := ⟨addImspMv⟩

/-- `ComPlex operator+(ComPlex, Scalar)`: `g3opsAdd_ComPlex.hpp:58-65`. -/
def addCplxSca (cplx : ComPlex α) (sca : Scalar α) : ComPlex α :=
  sca + cplx
instance : HAdd (ComPlex α) (Scalar α) (ComPlex α) := ⟨addCplxSca⟩

/-- `ComPlex operator+(ComPlex, TriVector)`: `g3opsAdd_ComPlex.hpp:73-80`. -/
def addCplxTri (cplx : ComPlex α) (tri : TriVector α) : ComPlex α :=
  tri + cplx
instance : HAdd (ComPlex α) (TriVector α) (ComPlex α) := ⟨addCplxTri⟩

/-- `MultiVector operator+(ComPlex, DirPlex)`: `g3opsAdd_ComPlex.hpp:94-106`. -/
def addCplxDplx (cplx : ComPlex α) (dplx : DirPlex α) : MultiVector α :=
  ⟨cplx.theSca, dplx.theVec, dplx.theBiv, cplx.theTri⟩
instance : HAdd (ComPlex α) (DirPlex α) (MultiVector α) := ⟨addCplxDplx⟩

/-- `MultiVector operator+(ComPlex, MultiVector)`: `g3opsAdd_ComPlex.hpp:110-122`. -/
def addCplxMv (cplx : ComPlex α) (mv : MultiVector α) : MultiVector α :=
  ⟨cplx.theSca + mv.theSca, mv.theVec, mv.theBiv, cplx.theTri + mv.theTri⟩
instance : HAdd (ComPlex α) (MultiVector α) (MultiVector α) := ⟨addCplxMv⟩

/-- `DirPlex operator+(DirPlex, Vector)`: `g3opsAdd_DirPlex.hpp:61-68`. -/
def addDplxVec (dplx : DirPlex α) (vec : Vector α) : DirPlex α :=
  vec + dplx
instance : HAdd (DirPlex α) (Vector α) (DirPlex α) := ⟨addDplxVec⟩

/-- `DirPlex operator+(DirPlex, BiVector)`: `g3opsAdd_DirPlex.hpp:72-79`. -/
def addDplxBiv (dplx : DirPlex α) (biv : BiVector α) : DirPlex α :=
  biv + dplx
instance : HAdd (DirPlex α) (BiVector α) (DirPlex α) := ⟨addDplxBiv⟩

/-- `MultiVector operator+(DirPlex, ComPlex)`: `g3opsAdd_DirPlex.hpp:89-96`. -/
def addDplxCplx (dplx : DirPlex α) (cplx : ComPlex α) : MultiVector α :=
  cplx + dplx
instance : HAdd (DirPlex α) (ComPlex α) (MultiVector α) := ⟨addDplxCplx⟩

/-- `MultiVector operator+(DirPlex, MultiVector)`: `g3opsAdd_DirPlex.hpp:106-118`. -/
def addDplxMv (dplx : DirPlex α) (mv : MultiVector α) : MultiVector α :=
  ⟨mv.theSca, dplx.theVec + mv.theVec, dplx.theBiv + mv.theBiv, mv.theTri⟩
instance : HAdd (DirPlex α) (MultiVector α) (MultiVector α) := ⟨addDplxMv⟩

/-- `MultiVector operator+(MultiVector, Scalar)`: `g3opsAdd_MultiVector.hpp:64-71`. -/
def addMvSca (mv : MultiVector α) (sca : Scalar α) : MultiVector α :=
  sca + mv
instance : HAdd (MultiVector α) (Scalar α) (MultiVector α) := ⟨addMvSca⟩

/-- `MultiVector operator+(MultiVector, Vector)`: `g3opsAdd_MultiVector.hpp:75-82`. -/
def addMvVec (mv : MultiVector α) (vec : Vector α) : MultiVector α :=
  vec + mv
instance : HAdd (MultiVector α) (Vector α) (MultiVector α) := ⟨addMvVec⟩

/-- `MultiVector operator+(MultiVector, BiVector)`: `g3opsAdd_MultiVector.hpp:86-93`. -/
def addMvBiv (mv : MultiVector α) (biv : BiVector α) : MultiVector α :=
  biv + mv
instance : HAdd (MultiVector α) (BiVector α) (MultiVector α) := ⟨addMvBiv⟩

/-- `MultiVector operator+(MultiVector, TriVector)`: `g3opsAdd_MultiVector.hpp:97-104`. -/
def addMvTri (mv : MultiVector α) (tri : TriVector α) : MultiVector α :=
  tri + mv
instance : HAdd (MultiVector α) (TriVector α) (MultiVector α) := ⟨addMvTri⟩

/-- `MultiVector operator+(MultiVector, Spinor)`: `g3opsAdd_MultiVector.hpp:108-115`. -/
def addMvSpin (mv : MultiVector α) (spin : Spinor α) : MultiVector α :=
  spin + mv
instance : HAdd (MultiVector α) (Spinor α) (MultiVector α) := ⟨addMvSpin⟩

/-- `MultiVector operator+(MultiVector, ImSpin)`: `g3opsAdd_MultiVector.hpp:119-126`. -/
def addMvImsp (mv : MultiVector α) (imsp : ImSpin α) : MultiVector α :=
  imsp + mv
instance : HAdd (MultiVector α) (ImSpin α) (MultiVector α) := ⟨addMvImsp⟩

/-- `MultiVector operator+(MultiVector, ComPlex)`: `g3opsAdd_MultiVector.hpp:130-137`. -/
def addMvCplx (mv : MultiVector α) (cplx : ComPlex α) : MultiVector α :=
  cplx + mv
instance : HAdd (MultiVector α) (ComPlex α) (MultiVector α) := ⟨addMvCplx⟩

/-- `MultiVector operator+(MultiVector, DirPlex)`: `g3opsAdd_MultiVector.hpp:141-148`. -/
def addMvDplx (mv : MultiVector α) (dplx : DirPlex α) : MultiVector α :=
  dplx + mv
instance : HAdd (MultiVector α) (DirPlex α) (MultiVector α) := ⟨addMvDplx⟩

end Engabra
