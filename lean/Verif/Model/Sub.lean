import Verif.Model.Add

/-! Subtraction overloads (`g3opsSub_*.hpp`).

Transcribed mechanically from the C++ headers: one definition per overload, same
order of evaluation.  `let` bindings keep the C++ names of the locals. -/

namespace Engabra

variable {α : Type} [Add α] [Sub α] [Mul α] [Neg α] [Zero α]

/-- `operator-(Blade, Blade)` at `Blade = Scalar`: `g3opsSub_same.hpp:67-83` with `priv::binaryElementByElement` (`g3_private.hpp:53-71`), loop unrolled. -/
def subScaSca (bladeA bladeB : Scalar α) : Scalar α :=
  ⟨⟨bladeA.theData.d0 - bladeB.theData.d0⟩⟩
instance : Sub (Scalar α) := ⟨subScaSca⟩

/-- `operator-(Blade, Blade)` at `Blade = Vector`: `g3opsSub_same.hpp:67-83` with `priv::binaryElementByElement` (`g3_private.hpp:53-71`), loop unrolled. -/
def subVecVec (bladeA bladeB : Vector α) : Vector α :=
  ⟨⟨bladeA.theData.d0 - bladeB.theData.d0, bladeA.theData.d1 - bladeB.theData.d1, bladeA.theData.d2 - bladeB.theData.d2⟩⟩
instance : Sub (Vector α) := ⟨subVecVec⟩

/-- `operator-(Blade, Blade)` at `Blade = BiVector`: `g3opsSub_same.hpp:67-83` with `priv::binaryElementByElement` (`g3_private.hpp:53-71`), loop unrolled. -/
def subBivBiv (bladeA bladeB : BiVector α) : BiVector α :=
  ⟨⟨bladeA.theData.d0 - bladeB.theData.d0, bladeA.theData.d1 - bladeB.theData.d1, bladeA.theData.d2 - bladeB.theData.d2⟩⟩
instance : Sub (BiVector α) := ⟨subBivBiv⟩

/-- `operator-(Blade, Blade)` at `Blade = TriVector`: `g3opsSub_same.hpp:67-83` with `priv::binaryElementByElement` (`g3_private.hpp:53-71`), loop unrolled. -/
def subTriTri (bladeA bladeB : TriVector α) : TriVector α :=
  ⟨⟨bladeA.theData.d0 - bladeB.theData.d0⟩⟩
instance : Sub (TriVector α) := ⟨subTriTri⟩

/-- `Spinor operator-(Spinor, Spinor)`: `g3opsSub_same.hpp:87-97`. -/
def subSpinSpin (spinA : Spinor α) (spinB : Spinor α) : Spinor α :=
  ⟨spinA.theSca - spinB.theSca, spinA.theBiv - spinB.theBiv⟩
instance : Sub (Spinor α) := ⟨subSpinSpin⟩

/-- `ImSpin operator-(ImSpin, ImSpin)`: `g3opsSub_same.hpp:101-111`. -/
def subImspImsp (imspA : ImSpin α) (imspB : ImSpin α) : ImSpin α :=
  ⟨imspA.theVec - imspB.theVec, imspA.theTri - imspB.theTri⟩
instance : Sub (ImSpin α) := ⟨subImspImsp⟩

/-- `ComPlex operator-(ComPlex, ComPlex)`: `g3opsSub_same.hpp:115-125`. -/
def subCplxCplx (cplxA : ComPlex α) (cplxB : ComPlex α) : ComPlex α :=
  ⟨cplxA.theSca - cplxB.theSca, cplxA.theTri - cplxB.theTri⟩
instance : Sub (ComPlex α) := ⟨subCplxCplx⟩

/-- `DirPlex operator-(DirPlex, DirPlex)`: `g3opsSub_same.hpp:129-139`. -/
def subDplxDplx (dplxA : DirPlex α) (dplxB : DirPlex α) : DirPlex α :=
  ⟨dplxA.theVec - dplxB.theVec, dplxA.theBiv - dplxB.theBiv⟩
instance : Sub (DirPlex α) := ⟨subDplxDplx⟩

/-- `MultiVector operator-(MultiVector, MultiVector)`: `g3opsSub_same.hpp:143-155`. -/
def subMvMv (mvA : MultiVector α) (mvB : MultiVector α) : MultiVector α :=
  ⟨mvA.theSca - mvB.theSca, mvA.theVec - mvB.theVec, mvA.theBiv - mvB.theBiv, mvA.theTri - mvB.theTri⟩
instance : Sub (MultiVector α) := ⟨subMvMv⟩

/-- `Spinor operator-(Scalar, BiVector)`: `g3opsSub_Scalar.hpp:59-66`. -/
def subScaBiv (sca : Scalar α) (biv : BiVector α) : Spinor α :=
  ⟨sca, -biv⟩
instance : HSub (Scalar α) (BiVector α) (Spinor α) := ⟨subScaBiv⟩

/-- `ComPlex operator-(Scalar, TriVector)`: `g3opsSub_Scalar.hpp:70-77`. -/
def subScaTri (sca : Scalar α) (tri : TriVector α) : ComPlex α :=
  ⟨sca, -tri⟩
instance : HSub (Scalar α) (TriVector α) (ComPlex α) := ⟨subScaTri⟩

/-- `Spinor operator-(Scalar, Spinor)`: `g3opsSub_Scalar.hpp:81-91`. -/
def subScaSpin (sca : Scalar α) (spin : Spinor α) : Spinor α :=
  ⟨sca - spin.theSca, -spin.theBiv⟩
instance : HSub (Scalar α) (Spinor α) (Spinor α) := ⟨subScaSpin⟩

/-- `ComPlex operator-(Scalar, ComPlex)`: `g3opsSub_Scalar.hpp:97-107`. -/
def subScaCplx (sca : Scalar α) (cplx : ComPlex α) : ComPlex α :=
  ⟨sca - cplx.theSca, -cplx.theTri⟩
instance : HSub (Scalar α) (ComPlex α) (ComPlex α) := ⟨subScaCplx⟩

/-- `MultiVector operator-(Scalar, MultiVector)`: `g3opsSub_Scalar.hpp:113-125`. -/
def subScaMv (sca : Scalar α) (mv : MultiVector α) : MultiVector α :=
  ⟨sca - mv.theSca, -mv.theVec, -mv.theBiv, -mv.theTri⟩
instance : HSub (Scalar α) (MultiVector α) (MultiVector α) := ⟨subScaMv⟩

/-- `DirPlex operator-(Vector, BiVector)`: `g3opsSub_Vector.hpp:63-70`. -/
def subVecBiv (vec : Vector α) (biv : BiVector α) : DirPlex α :=
  ⟨vec, -biv⟩
instance : HSub (Vector α) (BiVector α) (DirPlex α) := ⟨subVecBiv⟩

/-- `ImSpin operator-(Vector, TriVector)`: `g3opsSub_Vector.hpp:74-81`. -/
def subVecTri (vec : Vector α) (tri : TriVector α) : ImSpin α :=
  ⟨vec, -tri⟩
instance : HSub (Vector α) (TriVector α) (ImSpin α) := ⟨subVecTri⟩

/-- `ImSpin operator-(Vector, ImSpin)`: `g3opsSub_Vector.hpp:85-95`. -/
def subVecImsp (vec : Vector α) (imsp : ImSpin α) : ImSpin α :=
  ⟨vec - imsp.theVec, -imsp.theTri⟩
instance : HSub (Vector α) (ImSpin α) (ImSpin α) := ⟨subVecImsp⟩

/-- `DirPlex operator-(Vector, DirPlex)`: `g3opsSub_Vector.hpp:101-111`. -/
def subVecDplx (vec : Vector α) (dplx : DirPlex α) : DirPlex α :=
  ⟨vec - dplx.theVec, -dplx.theBiv⟩
instance : HSub (Vector α) (DirPlex α) (DirPlex α) := ⟨subVecDplx⟩

/-- `MultiVector operator-(Vector, MultiVector)`: `g3opsSub_Vector.hpp:115-127`. -/
def subVecMv (vec : Vector α) (mv : MultiVector α) : MultiVector α :=
  ⟨-mv.theSca, vec - mv.theVec, -mv.theBiv, -mv.theTri⟩
instance : HSub (Vector α) (MultiVector α) (MultiVector α) := ⟨subVecMv⟩

/-- `Spinor operator-(BiVector, Scalar)`: `g3opsSub_BiVector.hpp:58-65`. -/
def subBivSca (biv : BiVector α) (sca : Scalar α) : Spinor α :=
  sca - biv
instance : HSub (BiVector α) (Scalar α) (Spinor α) := ⟨subBivSca⟩

/-- `DirPlex operator-(BiVector, Vector)`: `g3opsSub_BiVector.hpp:69-76`. -/
def subBivVec (biv : BiVector α) (vec : Vector α) : DirPlex α :=
  vec - biv
instance : HSub (BiVector α) (Vector α) (DirPlex α) := ⟨subBivVec⟩

/-- `Spinor operator-(BiVector, Spinor)`: `g3opsSub_BiVector.hpp:88-95`. -/
def subBivSpin (biv : BiVector α) (spin : Spinor α) : Spinor α :=
  ⟨-spin.theSca, biv - spin.theBiv⟩
instance : HSub (BiVector α) (Spinor α) (Spinor α) := ⟨subBivSpin⟩

/-- `DirPlex operator-(BiVector, DirPlex)`: `g3opsSub_BiVector.hpp:101-108`. -/
def subBivDplx (biv : BiVector α) (dplx : DirPlex α) : DirPlex α :=
  ⟨-dplx.theVec, biv - dplx.theBiv⟩
instance : HSub (BiVector α) (DirPlex α) (DirPlex α) := ⟨subBivDplx⟩

/-- `MultiVector operator-(BiVector, MultiVector)`: `g3opsSub_BiVector.hpp:112-124`. -/
def subBivMv (biv : BiVector α) (mv : MultiVector α) : MultiVector α :=
  ⟨-mv.theSca, -mv.theVec, biv - mv.theBiv, -mv.theTri⟩
instance : HSub (BiVector α) (MultiVector α) (MultiVector α) := ⟨subBivMv⟩

/-- `ComPlex operator-(TriVector, Scalar)`: `g3opsSub_TriVector.hpp:58-65`. -/
def subTriSca (tri : TriVector α) (sca : Scalar α) : ComPlex α :=
  sca - tri
instance : HSub (TriVector α) (Scalar α) (ComPlex α) := ⟨subTriSca⟩

/-- `ImSpin operator-(TriVector, Vector)`: `g3opsSub_TriVector.hpp:69-76`. -/
def subTriVec (tri : TriVector α) (vec : Vector α) : ImSpin α :=
  vec - tri
instance : HSub (TriVector α) (Vector α) (ImSpin α) := ⟨subTriVec⟩

/-- `ImSpin operator-(TriVector, ImSpin)`: `g3opsSub_TriVector.hpp:90-97`. -/
def subTriImsp (tri : TriVector α) (imsp : ImSpin α) : ImSpin α :=
  ⟨-imsp.theVec, tri - imsp.theTri⟩
instance : HSub (TriVector α) (ImSpin α) (ImSpin α) := ⟨subTriImsp⟩

/-- `ComPlex operator-(TriVector, ComPlex)`: `g3opsSub_TriVector.hpp:101-108`. -/
def subTriCplx (tri : TriVector α) (cplx : ComPlex α) : ComPlex α :=
  ⟨-cplx.theSca, tri - cplx.theTri⟩
instance : HSub (TriVector α) (ComPlex α) (ComPlex α) := ⟨subTriCplx⟩

/-- `MultiVector operator-(TriVector, MultiVector)`: `g3opsSub_TriVector.hpp:114-126`. -/
def subTriMv (tri : TriVector α) (mv : MultiVector α) : MultiVector α :=
  ⟨-mv.theSca, -mv.theVec, -mv.theBiv, tri - mv.theTri⟩
instance : HSub (TriVector α) (MultiVector α) (MultiVector α) := ⟨subTriMv⟩

/-- `Spinor operator-(Spinor, Scalar)`: `g3opsSub_Spinor.hpp:58-65`. -/
def subSpinSca (spin : Spinor α) (sca : Scalar α) : Spinor α :=
  sca - spin
instance : HSub (Spinor α) (Scalar α) (Spinor α) := ⟨subSpinSca⟩

/-- `Spinor operator-(Spinor, BiVector)`: `g3opsSub_Spinor.hpp:71-78`. -/
def subSpinBiv (spin : Spinor α) (biv : BiVector α) : Spinor α :=
  biv - spin
instance : HSub (Spinor α) (BiVector α) (Spinor α) := ⟨subSpinBiv⟩

/-- `MultiVector operator-(Spinor, ImSpin)`: `g3opsSub_Spinor.hpp:90-102`. -/
def subSpinImsp (spin : Spinor α) (imsp : ImSpin α) : MultiVector α :=
  ⟨spin.theSca, -imsp.theVec, spin.theBiv, -imsp.theTri⟩
instance : HSub (Spinor α) (ImSpin α) (MultiVector α) := ⟨subSpinImsp⟩

/-- `MultiVector operator-(Spinor, MultiVector)`: `g3opsSub_Spinor.hpp:110-122`. -/
def subSpinMv (spin : Spinor α) (mv : MultiVector α) : MultiVector α :=
  ⟨spin.theSca - mv.theSca, -mv.theVec, spin.theBiv - mv.theBiv, -mv.theTri⟩
instance : HSub (Spinor α) (MultiVector α) (MultiVector α) := ⟨subSpinMv⟩

/-- `ImSpin operator-(ImSpin, Vector)`: `g3opsSub_ImSpin.hpp:61-68`. -/
def subImspVec (imsp : ImSpin α) (vec : Vector α) : ImSpin α :=
  -(vec - imsp)
instance : HSub (ImSpin α) (Vector α) (ImSpin α) := ⟨subImspVec⟩

/-- `ImSpin operator-(ImSpin, TriVector)`: `g3opsSub_ImSpin.hpp:74-81`. -/
def subImspTri (imsp : ImSpin α) (tri : TriVector α) : ImSpin α :=
  -(tri - imsp)
instance : HSub (ImSpin α) (TriVector α) (ImSpin α) := ⟨subImspTri⟩

/-- `MultiVector operator-(ImSpin, Spinor)`: `g3opsSub_ImSpin.hpp:85-92`. -/
def subImspSpin (imsp : ImSpin α) (spin : Spinor α) : MultiVector α :=
  -(spin - imsp)
instance : HSub (ImSpin α) (Spinor α) (MultiVector α) := ⟨subImspSpin⟩

/-- `MultiVector operator-(ImSpin, MultiVector)`: `g3opsSub_ImSpin.hpp:106-118`. -/
def subImspMv (imsp : ImSpin α) (mv : MultiVector α) : MultiVector α :=
  ⟨-mv.theSca, imsp.theVec - mv.theVec, -mv.theBiv, imsp.theTri - mv.theTri⟩
instance : HSub (ImSpin α) (MultiVector α) (MultiVector α) := ⟨subImspMv⟩

/-- `ComPlex operator-(ComPlex, Scalar)`: `g3opsSub_ComPlex.hpp:59-66`. -/
def subCplxSca (cplx : ComPlex α) (sca : Scalar α) : ComPlex α :=
  -(sca - cplx)
instance : HSub (ComPlex α) (Scalar α) (ComPlex α) := ⟨subCplxSca⟩

/-- `ComPlex operator-(ComPlex, TriVector)`: `g3opsSub_ComPlex.hpp:74-81`. -/
def subCplxTri (cplx : ComPlex α) (tri : TriVector α) : ComPlex α :=
  -(tri - cplx)
instance : HSub (ComPlex α) (TriVector α) (ComPlex α) := ⟨subCplxTri⟩

/-- `MultiVector operator-(ComPlex, DirPlex)`: `g3opsSub_ComPlex.hpp:95-107`. -/
def subCplxDplx (cplx : ComPlex α) (dplx : DirPlex α) : MultiVector α :=
  ⟨cplx.theSca, -dplx.theVec, -dplx.theBiv, cplx.theTri⟩
instance : HSub (ComPlex α) (DirPlex α) (MultiVector α) := ⟨subCplxDplx⟩

/-- `MultiVector operator-(ComPlex, MultiVector)`: `g3opsSub_ComPlex.hpp:111-123`. -/
def subCplxMv (cplx : ComPlex α) (mv : MultiVector α) : MultiVector α :=
  ⟨cplx.theSca - mv.theSca, -mv.theVec, -mv.theBiv, cplx.theTri - mv.theTri⟩
instance : HSub (ComPlex α) (MultiVector α) (MultiVector α) := ⟨subCplxMv⟩

/-- `DirPlex operator-(DirPlex, Vector)`: `g3opsSub_DirPlex.hpp:62-69`. -/
def subDplxVec (dplx : DirPlex α) (vec : Vector α) : DirPlex α :=
  -(vec - dplx)
instance : HSub (DirPlex α) (Vector α) (DirPlex α) := ⟨subDplxVec⟩

/-- `DirPlex operator-(DirPlex, BiVector)`: `g3opsSub_DirPlex.hpp:73-80`. -/
def subDplxBiv (dplx : DirPlex α) (biv : BiVector α) : DirPlex α :=
  -(biv - dplx)
instance : HSub (DirPlex α) (BiVector α) (DirPlex α) := ⟨subDplxBiv⟩

/-- `MultiVector operator-(DirPlex, ComPlex)`: `g3opsSub_DirPlex.hpp:90-97`. -/
def subDplxCplx (dplx : DirPlex α) (cplx : ComPlex α) : MultiVector α :=
  -(cplx - dplx)
instance : HSub (DirPlex α) (ComPlex α) (MultiVector α) := ⟨subDplxCplx⟩

/-- `MultiVector operator-(DirPlex, MultiVector)`: `g3opsSub_DirPlex.hpp:107-119`. -/
def subDplxMv (dplx : DirPlex α) (mv : MultiVector α) : MultiVector α :=
  ⟨-mv.theSca, dplx.theVec - mv.theVec, dplx.theBiv - mv.theBiv, -mv.theTri⟩
instance : HSub (DirPlex α) (MultiVector α) (MultiVector α) := ⟨subDplxMv⟩

/-- `MultiVector operator-(MultiVector, Scalar)`: `g3opsSub_MultiVector.hpp:65-72`. -/
def subMvSca (mv : MultiVector α) (sca : Scalar α) : MultiVector α :=
  -(sca - mv)
instance : HSub (MultiVector α) (Scalar α) (MultiVector α) := ⟨subMvSca⟩

/-- `MultiVector operator-(MultiVector, Vector)`: `g3opsSub_MultiVector.hpp:76-83`. -/
def subMvVec (mv : MultiVector α) (vec : Vector α) : MultiVector α :=
  -(vec - mv)
instance : HSub (MultiVector α) (Vector α) (MultiVector α) := ⟨subMvVec⟩

/-- `MultiVector operator-(MultiVector, BiVector)`: `g3opsSub_MultiVector.hpp:87-94`. -/
def subMvBiv (mv : MultiVector α) (biv : BiVector α) : MultiVector α :=
  -(biv - mv)
instance : HSub (MultiVector α) (BiVector α) (MultiVector α) := ⟨subMvBiv⟩

/-- `MultiVector operator-(MultiVector, TriVector)`: `g3opsSub_MultiVector.hpp:98-105`. -/
def subMvTri (mv : MultiVector α) (tri : TriVector α) : MultiVector α :=
  -(tri - mv)
instance : HSub (MultiVector α) (TriVector α) (MultiVector α) := ⟨subMvTri⟩

/-- `MultiVector operator-(MultiVector, Spinor)`: `g3opsSub_MultiVector.hpp:109-116`. -/
def subMvSpin (mv : MultiVector α) (spin : Spinor α) : MultiVector α :=
  -(spin - mv)
instance : HSub (MultiVector α) (Spinor α) (MultiVector α) := ⟨subMvSpin⟩

/-- `MultiVector operator-(MultiVector, ImSpin)`: `g3opsSub_MultiVector.hpp:120-127`. -/
def subMvImsp (mv : MultiVector α) (imsp : ImSpin α) : MultiVector α :=
  -(imsp - mv)
instance : HSub (MultiVector α) (ImSpin α) (MultiVector α) := ⟨subMvImsp⟩

/-- `MultiVector operator-(MultiVector, ComPlex)`: `g3opsSub_MultiVector.hpp:131-138`. -/
def subMvCplx (mv : MultiVector α) (cplx : ComPlex α) : MultiVector α :=
  -(cplx - mv)
instance : HSub (MultiVector α) (ComPlex α) (MultiVector α) := ⟨subMvCplx⟩

/-- `MultiVector operator-(MultiVector, DirPlex)`: `g3opsSub_MultiVector.hpp:142-149`. -/
def subMvDplx (mv : MultiVector α) (dplx : DirPlex α) : MultiVector α :=
  -(dplx - mv)
instance : HSub (MultiVector α) (DirPlex α) (MultiVector α) := ⟨subMvDplx⟩

end Engabra
