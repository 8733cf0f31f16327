import Verif.Lemmas.Attr
import Verif.Model.Mul

/-! Unfolding lemmas: each overloaded notation is the named definition of the model. -/

namespace Engabra

set_option linter.unusedSectionVars false

variable {α : Type} [Add α] [Sub α] [Mul α] [Neg α] [Zero α]

@[engabra] theorem haddScaSca (a b : Scalar α) : a + b = addScaSca a b := rfl
@[engabra] theorem haddVecVec (a b : Vector α) : a + b = addVecVec a b := rfl
@[engabra] theorem haddBivBiv (a b : BiVector α) : a + b = addBivBiv a b := rfl
@[engabra] theorem haddTriTri (a b : TriVector α) : a + b = addTriTri a b := rfl
@[engabra] theorem haddSpinSpin (a : Spinor α) (b : Spinor α) : a + b = addSpinSpin a b := rfl
@[engabra] theorem haddImspImsp (a : ImSpin α) (b : ImSpin α) : a + b = addImspImsp a b := rfl
@[engabra] theorem haddCplxCplx (a : ComPlex α) (b : ComPlex α) : a + b = addCplxCplx a b := rfl
@[engabra] theorem haddDplxDplx (a : DirPlex α) (b : DirPlex α) : a + b = addDplxDplx a b := rfl
@[engabra] theorem haddMvMv (a : MultiVector α) (b : MultiVector α) : a + b = addMvMv a b := rfl
@[engabra] theorem haddScaBiv (a : Scalar α) (b : BiVector α) : a + b = addScaBiv a b := rfl
@[engabra] theorem haddScaTri (a : Scalar α) (b : TriVector α) : a + b = addScaTri a b := rfl
@[engabra] theorem haddScaSpin (a : Scalar α) (b : Spinor α) : a + b = addScaSpin a b := rfl
@[engabra] theorem haddScaCplx (a : Scalar α) (b : ComPlex α) : a + b = addScaCplx a b := rfl
@[engabra] theorem haddScaMv (a : Scalar α) (b : MultiVector α) : a + b = addScaMv a b := rfl
@[engabra] theorem haddVecBiv (a : Vector α) (b : BiVector α) : a + b = addVecBiv a b := rfl
@[engabra] theorem haddVecTri (a : Vector α) (b : TriVector α) : a + b = addVecTri a b := rfl
@[engabra] theorem haddVecImsp (a : Vector α) (b : ImSpin α) : a + b = addVecImsp a b := rfl
@[engabra] theorem haddVecDplx (a : Vector α) (b : DirPlex α) : a + b = addVecDplx a b := rfl
@[engabra] theorem haddVecMv (a : Vector α) (b : MultiVector α) : a + b = addVecMv a b := rfl
@[engabra] theorem haddBivSca (a : BiVector α) (b : Scalar α) : a + b = addBivSca a b := rfl
@[engabra] theorem haddBivVec (a : BiVector α) (b : Vector α) : a + b = addBivVec a b := rfl
@[engabra] theorem haddBivSpin (a : BiVector α) (b : Spinor α) : a + b = addBivSpin a b := rfl
@[engabra] theorem haddBivDplx (a : BiVector α) (b : DirPlex α) : a + b = addBivDplx a b := rfl
@[engabra] theorem haddBivMv (a : BiVector α) (b : MultiVector α) : a + b = addBivMv a b := rfl
@[engabra] theorem haddTriSca (a : TriVector α) (b : Scalar α) : a + b = addTriSca a b := rfl
@[engabra] theorem haddTriVec (a : TriVector α) (b : Vector α) : a + b = addTriVec a b := rfl
@[engabra] theorem haddTriImsp (a : TriVector α) (b : ImSpin α) : a + b = addTriImsp a b := rfl
@[engabra] theorem haddTriCplx (a : TriVector α) (b : ComPlex α) : a + b = addTriCplx a b := rfl
@[engabra] theorem haddTriMv (a : TriVector α) (b : MultiVector α) : a + b = addTriMv a b := rfl
@[engabra] theorem haddSpinSca (a : Spinor α) (b : Scalar α) : a + b = addSpinSca a b := rfl
@[engabra] theorem haddSpinBiv (a : Spinor α) (b : BiVector α) : a + b = addSpinBiv a b := rfl
@[engabra] theorem haddSpinImsp (a : Spinor α) (b : ImSpin α) : a + b = addSpinImsp a b := rfl
@[engabra] theorem haddSpinMv (a : Spinor α) (b : MultiVector α) : a + b = addSpinMv a b := rfl
@[engabra] theorem haddImspVec (a : ImSpin α) (b : Vector α) : a + b = addImspVec a b := rfl
@[engabra] theorem haddImspTri (a : ImSpin α) (b : TriVector α) : a + b = addImspTri a b := rfl
@[engabra] theorem haddImspSpin (a : ImSpin α) (b : Spinor α) : a + b = addImspSpin a b := rfl
@[engabra] theorem haddImspMv (a : ImSpin α) (b : MultiVector α) : a + b = addImspMv a b := rfl
@[engabra] theorem haddCplxSca (a : ComPlex α) (b : Scalar α) : a + b = addCplxSca a b := rfl
@[engabra] theorem haddCplxTri (a : ComPlex α) (b : TriVector α) : a + b = addCplxTri a b := rfl
@[engabra] theorem haddCplxDplx (a : ComPlex α) (b : DirPlex α) : a + b = addCplxDplx a b := rfl
@[engabra] theorem haddCplxMv (a : ComPlex α) (b : MultiVector α) : a + b = addCplxMv a b := rfl
@[engabra] theorem haddDplxVec (a : DirPlex α) (b : Vector α) : a + b = addDplxVec a b := rfl
@[engabra] theorem haddDplxBiv (a : DirPlex α) (b : BiVector α) : a + b = addDplxBiv a b := rfl
@[engabra] theorem haddDplxCplx (a : DirPlex α) (b : ComPlex α) : a + b = addDplxCplx a b := rfl
@[engabra] theorem haddDplxMv (a : DirPlex α) (b : MultiVector α) : a + b = addDplxMv a b := rfl
@[engabra] theorem haddMvSca (a : MultiVector α) (b : Scalar α) : a + b = addMvSca a b := rfl
@[engabra] theorem haddMvVec (a : MultiVector α) (b : Vector α) : a + b = addMvVec a b := rfl
@[engabra] theorem haddMvBiv (a : MultiVector α) (b : BiVector α) : a + b = addMvBiv a b := rfl
@[engabra] theorem haddMvTri (a : MultiVector α) (b : TriVector α) : a + b = addMvTri a b := rfl
@[engabra] theorem haddMvSpin (a : MultiVector α) (b : Spinor α) : a + b = addMvSpin a b := rfl
@[engabra] theorem haddMvImsp (a : MultiVector α) (b : ImSpin α) : a + b = addMvImsp a b := rfl
@[engabra] theorem haddMvCplx (a : MultiVector α) (b : ComPlex α) : a + b = addMvCplx a b := rfl
@[engabra] theorem haddMvDplx (a : MultiVector α) (b : DirPlex α) : a + b = addMvDplx a b := rfl
@[engabra] theorem hsubScaSca (a b : Scalar α) : a - b = subScaSca a b := rfl
@[engabra] theorem hsubVecVec (a b : Vector α) : a - b = subVecVec a b := rfl
@[engabra] theorem hsubBivBiv (a b : BiVector α) : a - b = subBivBiv a b := rfl
@[engabra] theorem hsubTriTri (a b : TriVector α) : a - b = subTriTri a b := rfl
@[engabra] theorem hsubSpinSpin (a : Spinor α) (b : Spinor α) : a - b = subSpinSpin a b := rfl
@[engabra] theorem hsubImspImsp (a : ImSpin α) (b : ImSpin α) : a - b = subImspImsp a b := rfl
@[engabra] theorem hsubCplxCplx (a : ComPlex α) (b : ComPlex α) : a - b = subCplxCplx a b := rfl
@[engabra] theorem hsubDplxDplx (a : DirPlex α) (b : DirPlex α) : a - b = subDplxDplx a b := rfl
@[engabra] theorem hsubMvMv (a : MultiVector α) (b : MultiVector α) : a - b = subMvMv a b := rfl
@[engabra] theorem hsubScaBiv (a : Scalar α) (b : BiVector α) : a - b = subScaBiv a b := rfl
@[engabra] theorem hsubScaTri (a : Scalar α) (b : TriVector α) : a - b = subScaTri a b := rfl
@[engabra] theorem hsubScaSpin (a : Scalar α) (b : Spinor α) : a - b = subScaSpin a b := rfl
@[engabra] theorem hsubScaCplx (a : Scalar α) (b : ComPlex α) : a - b = subScaCplx a b := rfl
@[engabra] theorem hsubScaMv (a : Scalar α) (b : MultiVector α) : a - b = subScaMv a b := rfl
@[engabra] theorem hsubVecBiv (a : Vector α) (b : BiVector α) : a - b = subVecBiv a b := rfl
@[engabra] theorem hsubVecTri (a : Vector α) (b : TriVector α) : a - b = subVecTri a b := rfl
@[engabra] theorem hsubVecImsp (a : Vector α) (b : ImSpin α) : a - b = subVecImsp a b := rfl
@[engabra] theorem hsubVecDplx (a : Vector α) (b : DirPlex α) : a - b = subVecDplx a b := rfl
@[engabra] theorem hsubVecMv (a : Vector α) (b : MultiVector α) : a - b = subVecMv a b := rfl
@[engabra] theorem hsubBivSca (a : BiVector α) (b : Scalar α) : a - b = subBivSca a b := rfl
@[engabra] theorem hsubBivVec (a : BiVector α) (b : Vector α) : a - b = subBivVec a b := rfl
@[engabra] theorem hsubBivSpin (a : BiVector α) (b : Spinor α) : a - b = subBivSpin a b := rfl
@[engabra] theorem hsubBivDplx (a : BiVector α) (b : DirPlex α) : a - b = subBivDplx a b := rfl
@[engabra] theorem hsubBivMv (a : BiVector α) (b : MultiVector α) : a - b = subBivMv a b := rfl
@[engabra] theorem hsubTriSca (a : TriVector α) (b : Scalar α) : a - b = subTriSca a b := rfl
@[engabra] theorem hsubTriVec (a : TriVector α) (b : Vector α) : a - b = subTriVec a b := rfl
@[engabra] theorem hsubTriImsp (a : TriVector α) (b : ImSpin α) : a - b = subTriImsp a b := rfl
@[engabra] theorem hsubTriCplx (a : TriVector α) (b : ComPlex α) : a - b = subTriCplx a b := rfl
@[engabra] theorem hsubTriMv (a : TriVector α) (b : MultiVector α) : a - b = subTriMv a b := rfl
@[engabra] theorem hsubSpinSca (a : Spinor α) (b : Scalar α) : a - b = subSpinSca a b := rfl
@[engabra] theorem hsubSpinBiv (a : Spinor α) (b : BiVector α) : a - b = subSpinBiv a b := rfl
@[engabra] theorem hsubSpinImsp (a : Spinor α) (b : ImSpin α) : a - b = subSpinImsp a b := rfl
@[engabra] theorem hsubSpinMv (a : Spinor α) (b : MultiVector α) : a - b = subSpinMv a b := rfl
@[engabra] theorem hsubImspVec (a : ImSpin α) (b : Vector α) : a - b = subImspVec a b := rfl
@[engabra] theorem hsubImspTri (a : ImSpin α) (b : TriVector α) : a - b = subImspTri a b := rfl
@[engabra] theorem hsubImspSpin (a : ImSpin α) (b : Spinor α) : a - b = subImspSpin a b := rfl
@[engabra] theorem hsubImspMv (a : ImSpin α) (b : MultiVector α) : a - b = subImspMv a b := rfl
@[engabra] theorem hsubCplxSca (a : ComPlex α) (b : Scalar α) : a - b = subCplxSca a b := rfl
@[engabra] theorem hsubCplxTri (a : ComPlex α) (b : TriVector α) : a - b = subCplxTri a b := rfl
@[engabra] theorem hsubCplxDplx (a : ComPlex α) (b : DirPlex α) : a - b = subCplxDplx a b := rfl
@[engabra] theorem hsubCplxMv (a : ComPlex α) (b : MultiVector α) : a - b = subCplxMv a b := rfl
@[engabra] theorem hsubDplxVec (a : DirPlex α) (b : Vector α) : a - b = subDplxVec a b := rfl
@[engabra] theorem hsubDplxBiv (a : DirPlex α) (b : BiVector α) : a - b = subDplxBiv a b := rfl
@[engabra] theorem hsubDplxCplx (a : DirPlex α) (b : ComPlex α) : a - b = subDplxCplx a b := rfl
@[engabra] theorem hsubDplxMv (a : DirPlex α) (b : MultiVector α) : a - b = subDplxMv a b := rfl
@[engabra] theorem hsubMvSca (a : MultiVector α) (b : Scalar α) : a - b = subMvSca a b := rfl
@[engabra] theorem hsubMvVec (a : MultiVector α) (b : Vector α) : a - b = subMvVec a b := rfl
@[engabra] theorem hsubMvBiv (a : MultiVector α) (b : BiVector α) : a - b = subMvBiv a b := rfl
@[engabra] theorem hsubMvTri (a : MultiVector α) (b : TriVector α) : a - b = subMvTri a b := rfl
@[engabra] theorem hsubMvSpin (a : MultiVector α) (b : Spinor α) : a - b = subMvSpin a b := rfl
@[engabra] theorem hsubMvImsp (a : MultiVector α) (b : ImSpin α) : a - b = subMvImsp a b := rfl
@[engabra] theorem hsubMvCplx (a : MultiVector α) (b : ComPlex α) : a - b = subMvCplx a b := rfl
@[engabra] theorem hsubMvDplx (a : MultiVector α) (b : DirPlex α) : a - b = subMvDplx a b := rfl
@[engabra] theorem hmulDubSca (a : α) (b : Scalar α) : a * b = mulDubSca a b := rfl
@[engabra] theorem hmulDubVec (a : α) (b : Vector α) : a * b = mulDubVec a b := rfl
@[engabra] theorem hmulDubBiv (a : α) (b : BiVector α) : a * b = mulDubBiv a b := rfl
@[engabra] theorem hmulDubTri (a : α) (b : TriVector α) : a * b = mulDubTri a b := rfl
@[engabra] theorem hmulDubSpin (a : α) (b : Spinor α) : a * b = mulDubSpin a b := rfl
@[engabra] theorem hmulDubImsp (a : α) (b : ImSpin α) : a * b = mulDubImsp a b := rfl
@[engabra] theorem hmulDubCplx (a : α) (b : ComPlex α) : a * b = mulDubCplx a b := rfl
@[engabra] theorem hmulDubDplx (a : α) (b : DirPlex α) : a * b = mulDubDplx a b := rfl
@[engabra] theorem hmulDubMv (a : α) (b : MultiVector α) : a * b = mulDubMv a b := rfl
@[engabra] theorem hmulScaDub (a : Scalar α) (b : α) : a * b = mulScaDub a b := rfl
@[engabra] theorem hmulScaSca (a : Scalar α) (b : Scalar α) : a * b = mulScaSca a b := rfl
@[engabra] theorem hmulScaVec (a : Scalar α) (b : Vector α) : a * b = mulScaVec a b := rfl
@[engabra] theorem hmulScaBiv (a : Scalar α) (b : BiVector α) : a * b = mulScaBiv a b := rfl
@[engabra] theorem hmulScaTri (a : Scalar α) (b : TriVector α) : a * b = mulScaTri a b := rfl
@[engabra] theorem hmulScaSpin (a : Scalar α) (b : Spinor α) : a * b = mulScaSpin a b := rfl
@[engabra] theorem hmulScaImsp (a : Scalar α) (b : ImSpin α) : a * b = mulScaImsp a b := rfl
@[engabra] theorem hmulScaCplx (a : Scalar α) (b : ComPlex α) : a * b = mulScaCplx a b := rfl
@[engabra] theorem hmulScaDplx (a : Scalar α) (b : DirPlex α) : a * b = mulScaDplx a b := rfl
@[engabra] theorem hmulScaMv (a : Scalar α) (b : MultiVector α) : a * b = mulScaMv a b := rfl
@[engabra] theorem hmulVecDub (a : Vector α) (b : α) : a * b = mulVecDub a b := rfl
@[engabra] theorem hmulVecSca (a : Vector α) (b : Scalar α) : a * b = mulVecSca a b := rfl
@[engabra] theorem hmulVecVec (a : Vector α) (b : Vector α) : a * b = mulVecVec a b := rfl
@[engabra] theorem hmulVecBiv (a : Vector α) (b : BiVector α) : a * b = mulVecBiv a b := rfl
@[engabra] theorem hmulVecTri (a : Vector α) (b : TriVector α) : a * b = mulVecTri a b := rfl
@[engabra] theorem hmulVecSpin (a : Vector α) (b : Spinor α) : a * b = mulVecSpin a b := rfl
@[engabra] theorem hmulVecImsp (a : Vector α) (b : ImSpin α) : a * b = mulVecImsp a b := rfl
@[engabra] theorem hmulVecCplx (a : Vector α) (b : ComPlex α) : a * b = mulVecCplx a b := rfl
@[engabra] theorem hmulVecDplx (a : Vector α) (b : DirPlex α) : a * b = mulVecDplx a b := rfl
@[engabra] theorem hmulVecMv (a : Vector α) (b : MultiVector α) : a * b = mulVecMv a b := rfl
@[engabra] theorem hmulBivDub (a : BiVector α) (b : α) : a * b = mulBivDub a b := rfl
@[engabra] theorem hmulBivSca (a : BiVector α) (b : Scalar α) : a * b = mulBivSca a b := rfl
@[engabra] theorem hmulBivVec (a : BiVector α) (b : Vector α) : a * b = mulBivVec a b := rfl
@[engabra] theorem hmulBivBiv (a : BiVector α) (b : BiVector α) : a * b = mulBivBiv a b := rfl
@[engabra] theorem hmulBivTri (a : BiVector α) (b : TriVector α) : a * b = mulBivTri a b := rfl
@[engabra] theorem hmulBivSpin (a : BiVector α) (b : Spinor α) : a * b = mulBivSpin a b := rfl
@[engabra] theorem hmulBivImsp (a : BiVector α) (b : ImSpin α) : a * b = mulBivImsp a b := rfl
@[engabra] theorem hmulBivCplx (a : BiVector α) (b : ComPlex α) : a * b = mulBivCplx a b := rfl
@[engabra] theorem hmulBivDplx (a : BiVector α) (b : DirPlex α) : a * b = mulBivDplx a b := rfl
@[engabra] theorem hmulBivMv (a : BiVector α) (b : MultiVector α) : a * b = mulBivMv a b := rfl
@[engabra] theorem hmulTriDub (a : TriVector α) (b : α) : a * b = mulTriDub a b := rfl
@[engabra] theorem hmulTriSca (a : TriVector α) (b : Scalar α) : a * b = mulTriSca a b := rfl
@[engabra] theorem hmulTriVec (a : TriVector α) (b : Vector α) : a * b = mulTriVec a b := rfl
@[engabra] theorem hmulTriBiv (a : TriVector α) (b : BiVector α) : a * b = mulTriBiv a b := rfl
@[engabra] theorem hmulTriTri (a : TriVector α) (b : TriVector α) : a * b = mulTriTri a b := rfl
@[engabra] theorem hmulTriSpin (a : TriVector α) (b : Spinor α) : a * b = mulTriSpin a b := rfl
@[engabra] theorem hmulTriImsp (a : TriVector α) (b : ImSpin α) : a * b = mulTriImsp a b := rfl
@[engabra] theorem hmulTriCplx (a : TriVector α) (b : ComPlex α) : a * b = mulTriCplx a b := rfl
@[engabra] theorem hmulTriDplx (a : TriVector α) (b : DirPlex α) : a * b = mulTriDplx a b := rfl
@[engabra] theorem hmulTriMv (a : TriVector α) (b : MultiVector α) : a * b = mulTriMv a b := rfl
@[engabra] theorem hmulSpinDub (a : Spinor α) (b : α) : a * b = mulSpinDub a b := rfl
@[engabra] theorem hmulSpinSca (a : Spinor α) (b : Scalar α) : a * b = mulSpinSca a b := rfl
@[engabra] theorem hmulSpinVec (a : Spinor α) (b : Vector α) : a * b = mulSpinVec a b := rfl
@[engabra] theorem hmulSpinBiv (a : Spinor α) (b : BiVector α) : a * b = mulSpinBiv a b := rfl
@[engabra] theorem hmulSpinTri (a : Spinor α) (b : TriVector α) : a * b = mulSpinTri a b := rfl
@[engabra] theorem hmulSpinSpin (a : Spinor α) (b : Spinor α) : a * b = mulSpinSpin a b := rfl
@[engabra] theorem hmulSpinImsp (a : Spinor α) (b : ImSpin α) : a * b = mulSpinImsp a b := rfl
@[engabra] theorem hmulSpinCplx (a : Spinor α) (b : ComPlex α) : a * b = mulSpinCplx a b := rfl
@[engabra] theorem hmulSpinDplx (a : Spinor α) (b : DirPlex α) : a * b = mulSpinDplx a b := rfl
@[engabra] theorem hmulSpinMv (a : Spinor α) (b : MultiVector α) : a * b = mulSpinMv a b := rfl
@[engabra] theorem hmulImspDub (a : ImSpin α) (b : α) : a * b = mulImspDub a b := rfl
@[engabra] theorem hmulImspSca (a : ImSpin α) (b : Scalar α) : a * b = mulImspSca a b := rfl
@[engabra] theorem hmulImspVec (a : ImSpin α) (b : Vector α) : a * b = mulImspVec a b := rfl
@[engabra] theorem hmulImspBiv (a : ImSpin α) (b : BiVector α) : a * b = mulImspBiv a b := rfl
@[engabra] theorem hmulImspTri (a : ImSpin α) (b : TriVector α) : a * b = mulImspTri a b := rfl
@[engabra] theorem hmulImspSpin (a : ImSpin α) (b : Spinor α) : a * b = mulImspSpin a b := rfl
@[engabra] theorem hmulImspImsp (a : ImSpin α) (b : ImSpin α) : a * b = mulImspImsp a b := rfl
@[engabra] theorem hmulImspCplx (a : ImSpin α) (b : ComPlex α) : a * b = mulImspCplx a b := rfl
@[engabra] theorem hmulImspDplx (a : ImSpin α) (b : DirPlex α) : a * b = mulImspDplx a b := rfl
@[engabra] theorem hmulImspMv (a : ImSpin α) (b : MultiVector α) : a * b = mulImspMv a b := rfl
@[engabra] theorem hmulCplxDub (a : ComPlex α) (b : α) : a * b = mulCplxDub a b := rfl
@[engabra] theorem hmulCplxSca (a : ComPlex α) (b : Scalar α) : a * b = mulCplxSca a b := rfl
@[engabra] theorem hmulCplxVec (a : ComPlex α) (b : Vector α) : a * b = mulCplxVec a b := rfl
@[engabra] theorem hmulCplxBiv (a : ComPlex α) (b : BiVector α) : a * b = mulCplxBiv a b := rfl
@[engabra] theorem hmulCplxTri (a : ComPlex α) (b : TriVector α) : a * b = mulCplxTri a b := rfl
@[engabra] theorem hmulCplxSpin (a : ComPlex α) (b : Spinor α) : a * b = mulCplxSpin a b := rfl
@[engabra] theorem hmulCplxImsp (a : ComPlex α) (b : ImSpin α) : a * b = mulCplxImsp a b := rfl
@[engabra] theorem hmulCplxCplx (a : ComPlex α) (b : ComPlex α) : a * b = mulCplxCplx a b := rfl
@[engabra] theorem hmulCplxDplx (a : ComPlex α) (b : DirPlex α) : a * b = mulCplxDplx a b := rfl
@[engabra] theorem hmulCplxMv (a : ComPlex α) (b : MultiVector α) : a * b = mulCplxMv a b := rfl
@[engabra] theorem hmulDplxDub (a : DirPlex α) (b : α) : a * b = mulDplxDub a b := rfl
@[engabra] theorem hmulDplxSca (a : DirPlex α) (b : Scalar α) : a * b = mulDplxSca a b := rfl
@[engabra] theorem hmulDplxVec (a : DirPlex α) (b : Vector α) : a * b = mulDplxVec a b := rfl
@[engabra] theorem hmulDplxBiv (a : DirPlex α) (b : BiVector α) : a * b = mulDplxBiv a b := rfl
@[engabra] theorem hmulDplxTri (a : DirPlex α) (b : TriVector α) : a * b = mulDplxTri a b := rfl
@[engabra] theorem hmulDplxSpin (a : DirPlex α) (b : Spinor α) : a * b = mulDplxSpin a b := rfl
@[engabra] theorem hmulDplxImsp (a : DirPlex α) (b : ImSpin α) : a * b = mulDplxImsp a b := rfl
@[engabra] theorem hmulDplxCplx (a : DirPlex α) (b : ComPlex α) : a * b = mulDplxCplx a b := rfl
@[engabra] theorem hmulDplxDplx (a : DirPlex α) (b : DirPlex α) : a * b = mulDplxDplx a b := rfl
@[engabra] theorem hmulDplxMv (a : DirPlex α) (b : MultiVector α) : a * b = mulDplxMv a b := rfl
@[engabra] theorem hmulMvDub (a : MultiVector α) (b : α) : a * b = mulMvDub a b := rfl
@[engabra] theorem hmulMvSca (a : MultiVector α) (b : Scalar α) : a * b = mulMvSca a b := rfl
@[engabra] theorem hmulMvVec (a : MultiVector α) (b : Vector α) : a * b = mulMvVec a b := rfl
@[engabra] theorem hmulMvBiv (a : MultiVector α) (b : BiVector α) : a * b = mulMvBiv a b := rfl
@[engabra] theorem hmulMvTri (a : MultiVector α) (b : TriVector α) : a * b = mulMvTri a b := rfl
@[engabra] theorem hmulMvSpin (a : MultiVector α) (b : Spinor α) : a * b = mulMvSpin a b := rfl
@[engabra] theorem hmulMvImsp (a : MultiVector α) (b : ImSpin α) : a * b = mulMvImsp a b := rfl
@[engabra] theorem hmulMvCplx (a : MultiVector α) (b : ComPlex α) : a * b = mulMvCplx a b := rfl
@[engabra] theorem hmulMvDplx (a : MultiVector α) (b : DirPlex α) : a * b = mulMvDplx a b := rfl
@[engabra] theorem hmulMvMv (a : MultiVector α) (b : MultiVector α) : a * b = mulMvMv a b := rfl
@[engabra] theorem hnegSca (a : Scalar α) : -a = negSca a := rfl
@[engabra] theorem hnegVec (a : Vector α) : -a = negVec a := rfl
@[engabra] theorem hnegBiv (a : BiVector α) : -a = negBiv a := rfl
@[engabra] theorem hnegTri (a : TriVector α) : -a = negTri a := rfl
@[engabra] theorem hnegSpin (a : Spinor α) : -a = negSpin a := rfl
@[engabra] theorem hnegImsp (a : ImSpin α) : -a = negImsp a := rfl
@[engabra] theorem hnegCplx (a : ComPlex α) : -a = negCplx a := rfl
@[engabra] theorem hnegDplx (a : DirPlex α) : -a = negDplx a := rfl
@[engabra] theorem hnegMv (a : MultiVector α) : -a = negMv a := rfl
@[engabra] theorem hreverseSca (a : Scalar α) : reverse a = reverseSca a := rfl
@[engabra] theorem hreverseVec (a : Vector α) : reverse a = reverseVec a := rfl
@[engabra] theorem hreverseBiv (a : BiVector α) : reverse a = reverseBiv a := rfl
@[engabra] theorem hreverseTri (a : TriVector α) : reverse a = reverseTri a := rfl
@[engabra] theorem hreverseSpin (a : Spinor α) : reverse a = reverseSpin a := rfl
@[engabra] theorem hreverseImsp (a : ImSpin α) : reverse a = reverseImsp a := rfl
@[engabra] theorem hreverseCplx (a : ComPlex α) : reverse a = reverseCplx a := rfl
@[engabra] theorem hreverseDplx (a : DirPlex α) : reverse a = reverseDplx a := rfl
@[engabra] theorem hreverseMv (a : MultiVector α) : reverse a = reverseMv a := rfl
@[engabra] theorem hoddverseSca (a : Scalar α) : oddverse a = oddverseSca a := rfl
@[engabra] theorem hoddverseVec (a : Vector α) : oddverse a = oddverseVec a := rfl
@[engabra] theorem hoddverseBiv (a : BiVector α) : oddverse a = oddverseBiv a := rfl
@[engabra] theorem hoddverseTri (a : TriVector α) : oddverse a = oddverseTri a := rfl
@[engabra] theorem hoddverseSpin (a : Spinor α) : oddverse a = oddverseSpin a := rfl
@[engabra] theorem hoddverseImsp (a : ImSpin α) : oddverse a = oddverseImsp a := rfl
@[engabra] theorem hoddverseCplx (a : ComPlex α) : oddverse a = oddverseCplx a := rfl
@[engabra] theorem hoddverseDplx (a : DirPlex α) : oddverse a = oddverseDplx a := rfl
@[engabra] theorem hoddverseMv (a : MultiVector α) : oddverse a = oddverseMv a := rfl
@[engabra] theorem hdirverseSca (a : Scalar α) : dirverse a = dirverseSca a := rfl
@[engabra] theorem hdirverseVec (a : Vector α) : dirverse a = dirverseVec a := rfl
@[engabra] theorem hdirverseBiv (a : BiVector α) : dirverse a = dirverseBiv a := rfl
@[engabra] theorem hdirverseTri (a : TriVector α) : dirverse a = dirverseTri a := rfl
@[engabra] theorem hdirverseSpin (a : Spinor α) : dirverse a = dirverseSpin a := rfl
@[engabra] theorem hdirverseImsp (a : ImSpin α) : dirverse a = dirverseImsp a := rfl
@[engabra] theorem hdirverseCplx (a : ComPlex α) : dirverse a = dirverseCplx a := rfl
@[engabra] theorem hdirverseDplx (a : DirPlex α) : dirverse a = dirverseDplx a := rfl
@[engabra] theorem hdirverseMv (a : MultiVector α) : dirverse a = dirverseMv a := rfl
@[engabra] theorem hdualSca (a : Scalar α) : dual a = dualSca a := rfl
@[engabra] theorem hdualVec (a : Vector α) : dual a = dualVec a := rfl
@[engabra] theorem hdualBiv (a : BiVector α) : dual a = dualBiv a := rfl
@[engabra] theorem hdualTri (a : TriVector α) : dual a = dualTri a := rfl
@[engabra] theorem hdualSpin (a : Spinor α) : dual a = dualSpin a := rfl
@[engabra] theorem hdualImsp (a : ImSpin α) : dual a = dualImsp a := rfl
@[engabra] theorem hdualCplx (a : ComPlex α) : dual a = dualCplx a := rfl
@[engabra] theorem hdualDplx (a : DirPlex α) : dual a = dualDplx a := rfl
@[engabra] theorem hdualMv (a : MultiVector α) : dual a = dualMv a := rfl
@[engabra] theorem htoMvSca (a : Scalar α) : toMV a = ⟨a, ⟨⟨0, 0, 0⟩⟩, ⟨⟨0, 0, 0⟩⟩, ⟨⟨0⟩⟩⟩ := rfl
@[engabra] theorem htoMvVec (a : Vector α) : toMV a = ⟨⟨⟨0⟩⟩, a, ⟨⟨0, 0, 0⟩⟩, ⟨⟨0⟩⟩⟩ := rfl
@[engabra] theorem htoMvBiv (a : BiVector α) : toMV a = ⟨⟨⟨0⟩⟩, ⟨⟨0, 0, 0⟩⟩, a, ⟨⟨0⟩⟩⟩ := rfl
@[engabra] theorem htoMvTri (a : TriVector α) : toMV a = ⟨⟨⟨0⟩⟩, ⟨⟨0, 0, 0⟩⟩, ⟨⟨0, 0, 0⟩⟩, a⟩ := rfl
@[engabra] theorem htoMvSpin (a : Spinor α) : toMV a = ⟨a.theSca, ⟨⟨0, 0, 0⟩⟩, a.theBiv, ⟨⟨0⟩⟩⟩ := rfl
@[engabra] theorem htoMvImsp (a : ImSpin α) : toMV a = ⟨⟨⟨0⟩⟩, a.theVec, ⟨⟨0, 0, 0⟩⟩, a.theTri⟩ := rfl
@[engabra] theorem htoMvCplx (a : ComPlex α) : toMV a = ⟨a.theSca, ⟨⟨0, 0, 0⟩⟩, ⟨⟨0, 0, 0⟩⟩, a.theTri⟩ := rfl
@[engabra] theorem htoMvDplx (a : DirPlex α) : toMV a = ⟨⟨⟨0⟩⟩, a.theVec, a.theBiv, ⟨⟨0⟩⟩⟩ := rfl
@[engabra] theorem htoMvMv (a : MultiVector α) : toMV a = a := rfl

attribute [engabra]
  addScaSca addVecVec addBivBiv addTriTri addSpinSpin addImspImsp addCplxCplx addDplxDplx
  addMvMv addScaBiv addScaTri addScaSpin addScaCplx addScaMv addVecBiv addVecTri addVecImsp
  addVecDplx addVecMv addBivSca addBivVec addBivSpin addBivDplx addBivMv addTriSca addTriVec
  addTriImsp addTriCplx addTriMv addSpinSca addSpinBiv addSpinImsp addSpinMv addImspVec
  addImspTri addImspSpin addImspMv addCplxSca addCplxTri addCplxDplx addCplxMv addDplxVec
  addDplxBiv addDplxCplx addDplxMv addMvSca addMvVec addMvBiv addMvTri addMvSpin addMvImsp
  addMvCplx addMvDplx subScaSca subVecVec subBivBiv subTriTri subSpinSpin subImspImsp
  subCplxCplx subDplxDplx subMvMv subScaBiv subScaTri subScaSpin subScaCplx subScaMv
  subVecBiv subVecTri subVecImsp subVecDplx subVecMv subBivSca subBivVec subBivSpin
  subBivDplx subBivMv subTriSca subTriVec subTriImsp subTriCplx subTriMv subSpinSca
  subSpinBiv subSpinImsp subSpinMv subImspVec subImspTri subImspSpin subImspMv subCplxSca
  subCplxTri subCplxDplx subCplxMv subDplxVec subDplxBiv subDplxCplx subDplxMv subMvSca
  subMvVec subMvBiv subMvTri subMvSpin subMvImsp subMvCplx subMvDplx mulDubSca mulDubVec
  mulDubBiv mulDubTri mulDubSpin mulDubImsp mulDubCplx mulDubDplx mulDubMv mulScaDub
  mulScaSca mulScaVec mulScaBiv mulScaTri mulScaSpin mulScaImsp mulScaCplx mulScaDplx
  mulScaMv mulVecDub mulVecSca mulVecVec mulVecBiv mulVecTri mulVecSpin mulVecImsp
  mulVecCplx mulVecDplx mulVecMv mulBivDub mulBivSca mulBivVec mulBivBiv mulBivTri
  mulBivSpin mulBivImsp mulBivCplx mulBivDplx mulBivMv mulTriDub mulTriSca mulTriVec
  mulTriBiv mulTriTri mulTriSpin mulTriImsp mulTriCplx mulTriDplx mulTriMv mulSpinDub
  mulSpinSca mulSpinVec mulSpinBiv mulSpinTri mulSpinSpin mulSpinImsp mulSpinCplx
  mulSpinDplx mulSpinMv mulImspDub mulImspSca mulImspVec mulImspBiv mulImspTri mulImspSpin
  mulImspImsp mulImspCplx mulImspDplx mulImspMv mulCplxDub mulCplxSca mulCplxVec mulCplxBiv
  mulCplxTri mulCplxSpin mulCplxImsp mulCplxCplx mulCplxDplx mulCplxMv mulDplxDub mulDplxSca
  mulDplxVec mulDplxBiv mulDplxTri mulDplxSpin mulDplxImsp mulDplxCplx mulDplxDplx mulDplxMv
  mulMvDub mulMvSca mulMvVec mulMvBiv mulMvTri mulMvSpin mulMvImsp mulMvCplx mulMvDplx
  mulMvMv negSca negVec negBiv negTri negSpin negImsp negCplx negDplx negMv reverseDub
  reverseSca reverseVec reverseBiv reverseTri reverseSpin reverseImsp reverseCplx
  reverseDplx reverseMv oddverseSca oddverseVec oddverseBiv oddverseTri oddverseSpin
  oddverseImsp oddverseCplx oddverseDplx oddverseMv dirverseSca dirverseVec dirverseBiv
  dirverseTri dirverseSpin dirverseImsp dirverseCplx dirverseDplx dirverseMv dualDub dualSca
  dualVec dualBiv dualTri dualSpin dualImsp dualCplx dualDplx dualMv mvOfDub mvOf8
  mvOfCplxDplx prodComm prodComm1 prodAnti

end Engabra
