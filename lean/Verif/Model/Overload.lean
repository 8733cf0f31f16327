import Verif.Model.Mul

/-! # Overload sets as total dispatch tables

`Ty` names the ten types which take part in the operator overload sets.  `mulTy`,
`addTy`, `subTy` select the overload by the (exact) types of the operands, which is
what C++ overload resolution does for these non converting signatures. -/

namespace Engabra

/-- The ten operand types: `double` and the nine structs of `g3type.hpp`. -/
inductive Ty
  | dub | sca | vec | biv | tri | spin | imsp | cplx | dplx | mv
  deriving DecidableEq, Repr

/-- The data type named by a `Ty`. -/
@[reducible] def Ty.D (α : Type) : Ty → Type
  | .dub => α
  | .sca => Scalar α
  | .vec => Vector α
  | .biv => BiVector α
  | .tri => TriVector α
  | .spin => Spinor α
  | .imsp => ImSpin α
  | .cplx => ComPlex α
  | .dplx => DirPlex α
  | .mv => MultiVector α

variable {α : Type} [Add α] [Sub α] [Mul α] [Neg α] [Zero α]

/-- `MultiVector(x)` selected by the type of `x`: `g3type.hpp:662-768`. -/
def promote : (t : Ty) → t.D α → MultiVector α
  | .dub, x => mvOfDub x
  | .sca, x => toMV x
  | .vec, x => toMV x
  | .biv, x => toMV x
  | .tri, x => toMV x
  | .spin, x => toMV x
  | .imsp, x => toMV x
  | .cplx, x => toMV x
  | .dplx, x => toMV x
  | .mv, x => x

/-- Result type of `operator*` for operand types `s`, `t` (declared return types of
`g3opsMul_*.hpp`). -/
@[reducible] def mulRes : Ty → Ty → Ty
  | .dub, .dub => .dub
  | .dub, .sca => .sca
  | .dub, .vec => .vec
  | .dub, .biv => .biv
  | .dub, .tri => .tri
  | .dub, .spin => .spin
  | .dub, .imsp => .imsp
  | .dub, .cplx => .cplx
  | .dub, .dplx => .dplx
  | .dub, .mv => .mv
  | .sca, .dub => .sca
  | .sca, .sca => .sca
  | .sca, .vec => .vec
  | .sca, .biv => .biv
  | .sca, .tri => .tri
  | .sca, .spin => .spin
  | .sca, .imsp => .imsp
  | .sca, .cplx => .cplx
  | .sca, .dplx => .dplx
  | .sca, .mv => .mv
  | .vec, .dub => .vec
  | .vec, .sca => .vec
  | .vec, .vec => .spin
  | .vec, .biv => .imsp
  | .vec, .tri => .biv
  | .vec, .spin => .imsp
  | .vec, .imsp => .spin
  | .vec, .cplx => .dplx
  | .vec, .dplx => .mv
  | .vec, .mv => .mv
  | .biv, .dub => .biv
  | .biv, .sca => .biv
  | .biv, .vec => .imsp
  | .biv, .biv => .spin
  | .biv, .tri => .vec
  | .biv, .spin => .spin
  | .biv, .imsp => .imsp
  | .biv, .cplx => .dplx
  | .biv, .dplx => .mv
  | .biv, .mv => .mv
  | .tri, .dub => .tri
  | .tri, .sca => .tri
  | .tri, .vec => .biv
  | .tri, .biv => .vec
  | .tri, .tri => .sca
  | .tri, .spin => .imsp
  | .tri, .imsp => .spin
  | .tri, .cplx => .cplx
  | .tri, .dplx => .dplx
  | .tri, .mv => .mv
  | .spin, .dub => .spin
  | .spin, .sca => .spin
  | .spin, .vec => .imsp
  | .spin, .biv => .spin
  | .spin, .tri => .imsp
  | .spin, .spin => .spin
  | .spin, .imsp => .imsp
  | .spin, .cplx => .mv
  | .spin, .dplx => .mv
  | .spin, .mv => .mv
  | .imsp, .dub => .imsp
  | .imsp, .sca => .imsp
  | .imsp, .vec => .spin
  | .imsp, .biv => .imsp
  | .imsp, .tri => .spin
  | .imsp, .spin => .imsp
  | .imsp, .imsp => .spin
  | .imsp, .cplx => .mv
  | .imsp, .dplx => .mv
  | .imsp, .mv => .mv
  | .cplx, .dub => .cplx
  | .cplx, .sca => .cplx
  | .cplx, .vec => .dplx
  | .cplx, .biv => .dplx
  | .cplx, .tri => .cplx
  | .cplx, .spin => .mv
  | .cplx, .imsp => .mv
  | .cplx, .cplx => .cplx
  | .cplx, .dplx => .dplx
  | .cplx, .mv => .mv
  | .dplx, .dub => .dplx
  | .dplx, .sca => .dplx
  | .dplx, .vec => .mv
  | .dplx, .biv => .mv
  | .dplx, .tri => .dplx
  | .dplx, .spin => .mv
  | .dplx, .imsp => .mv
  | .dplx, .cplx => .dplx
  | .dplx, .dplx => .mv
  | .dplx, .mv => .mv
  | .mv, .dub => .mv
  | .mv, .sca => .mv
  | .mv, .vec => .mv
  | .mv, .biv => .mv
  | .mv, .tri => .mv
  | .mv, .spin => .mv
  | .mv, .imsp => .mv
  | .mv, .cplx => .mv
  | .mv, .dplx => .mv
  | .mv, .mv => .mv

/-- The overload set of `operator*` (`g3opsMul_*.hpp`); `double * double` is built in. -/
def mulTy : (s t : Ty) → s.D α → t.D α → (mulRes s t).D α
  | .dub, .dub, a, b => a * b
  | .dub, .sca, a, b => mulDubSca a b
  | .dub, .vec, a, b => mulDubVec a b
  | .dub, .biv, a, b => mulDubBiv a b
  | .dub, .tri, a, b => mulDubTri a b
  | .dub, .spin, a, b => mulDubSpin a b
  | .dub, .imsp, a, b => mulDubImsp a b
  | .dub, .cplx, a, b => mulDubCplx a b
  | .dub, .dplx, a, b => mulDubDplx a b
  | .dub, .mv, a, b => mulDubMv a b
  | .sca, .dub, a, b => mulScaDub a b
  | .sca, .sca, a, b => mulScaSca a b
  | .sca, .vec, a, b => mulScaVec a b
  | .sca, .biv, a, b => mulScaBiv a b
  | .sca, .tri, a, b => mulScaTri a b
  | .sca, .spin, a, b => mulScaSpin a b
  | .sca, .imsp, a, b => mulScaImsp a b
  | .sca, .cplx, a, b => mulScaCplx a b
  | .sca, .dplx, a, b => mulScaDplx a b
  | .sca, .mv, a, b => mulScaMv a b
  | .vec, .dub, a, b => mulVecDub a b
  | .vec, .sca, a, b => mulVecSca a b
  | .vec, .vec, a, b => mulVecVec a b
  | .vec, .biv, a, b => mulVecBiv a b
  | .vec, .tri, a, b => mulVecTri a b
  | .vec, .spin, a, b => mulVecSpin a b
  | .vec, .imsp, a, b => mulVecImsp a b
  | .vec, .cplx, a, b => mulVecCplx a b
  | .vec, .dplx, a, b => mulVecDplx a b
  | .vec, .mv, a, b => mulVecMv a b
  | .biv, .dub, a, b => mulBivDub a b
  | .biv, .sca, a, b => mulBivSca a b
  | .biv, .vec, a, b => mulBivVec a b
  | .biv, .biv, a, b => mulBivBiv a b
  | .biv, .tri, a, b => mulBivTri a b
  | .biv, .spin, a, b => mulBivSpin a b
  | .biv, .imsp, a, b => mulBivImsp a b
  | .biv, .cplx, a, b => mulBivCplx a b
  | .biv, .dplx, a, b => mulBivDplx a b
  | .biv, .mv, a, b => mulBivMv a b
  | .tri, .dub, a, b => mulTriDub a b
  | .tri, .sca, a, b => mulTriSca a b
  | .tri, .vec, a, b => mulTriVec a b
  | .tri, .biv, a, b => mulTriBiv a b
  | .tri, .tri, a, b => mulTriTri a b
  | .tri, .spin, a, b => mulTriSpin a b
  | .tri, .imsp, a, b => mulTriImsp a b
  | .tri, .cplx, a, b => mulTriCplx a b
  | .tri, .dplx, a, b => mulTriDplx a b
  | .tri, .mv, a, b => mulTriMv a b
  | .spin, .dub, a, b => mulSpinDub a b
  | .spin, .sca, a, b => mulSpinSca a b
  | .spin, .vec, a, b => mulSpinVec a b
  | .spin, .biv, a, b => mulSpinBiv a b
  | .spin, .tri, a, b => mulSpinTri a b
  | .spin, .spin, a, b => mulSpinSpin a b
  | .spin, .imsp, a, b => mulSpinImsp a b
  | .spin, .cplx, a, b => mulSpinCplx a b
  | .spin, .dplx, a, b => mulSpinDplx a b
  | .spin, .mv, a, b => mulSpinMv a b
  | .imsp, .dub, a, b => mulImspDub a b
  | .imsp, .sca, a, b => mulImspSca a b
  | .imsp, .vec, a, b => mulImspVec a b
  | .imsp, .biv, a, b => mulImspBiv a b
  | .imsp, .tri, a, b => mulImspTri a b
  | .imsp, .spin, a, b => mulImspSpin a b
  | .imsp, .imsp, a, b => mulImspImsp a b
  | .imsp, .cplx, a, b => mulImspCplx a b
  | .imsp, .dplx, a, b => mulImspDplx a b
  | .imsp, .mv, a, b => mulImspMv a b
  | .cplx, .dub, a, b => mulCplxDub a b
  | .cplx, .sca, a, b => mulCplxSca a b
  | .cplx, .vec, a, b => mulCplxVec a b
  | .cplx, .biv, a, b => mulCplxBiv a b
  | .cplx, .tri, a, b => mulCplxTri a b
  | .cplx, .spin, a, b => mulCplxSpin a b
  | .cplx, .imsp, a, b => mulCplxImsp a b
  | .cplx, .cplx, a, b => mulCplxCplx a b
  | .cplx, .dplx, a, b => mulCplxDplx a b
  | .cplx, .mv, a, b => mulCplxMv a b
  | .dplx, .dub, a, b => mulDplxDub a b
  | .dplx, .sca, a, b => mulDplxSca a b
  | .dplx, .vec, a, b => mulDplxVec a b
  | .dplx, .biv, a, b => mulDplxBiv a b
  | .dplx, .tri, a, b => mulDplxTri a b
  | .dplx, .spin, a, b => mulDplxSpin a b
  | .dplx, .imsp, a, b => mulDplxImsp a b
  | .dplx, .cplx, a, b => mulDplxCplx a b
  | .dplx, .dplx, a, b => mulDplxDplx a b
  | .dplx, .mv, a, b => mulDplxMv a b
  | .mv, .dub, a, b => mulMvDub a b
  | .mv, .sca, a, b => mulMvSca a b
  | .mv, .vec, a, b => mulMvVec a b
  | .mv, .biv, a, b => mulMvBiv a b
  | .mv, .tri, a, b => mulMvTri a b
  | .mv, .spin, a, b => mulMvSpin a b
  | .mv, .imsp, a, b => mulMvImsp a b
  | .mv, .cplx, a, b => mulMvCplx a b
  | .mv, .dplx, a, b => mulMvDplx a b
  | .mv, .mv, a, b => mulMvMv a b

/-- The overload set of binary `operator+` (`g3opsAdd_*.hpp`); `none` when there is no such
overload (the expression does not compile). -/
def addTy : (s t : Ty) → s.D α → t.D α → Option (Sigma fun r : Ty => r.D α)
  | .dub, .dub, a, b => some ⟨.dub, a + b⟩
  | .sca, .sca, a, b => some ⟨.sca, addScaSca a b⟩
  | .sca, .biv, a, b => some ⟨.spin, addScaBiv a b⟩
  | .sca, .tri, a, b => some ⟨.cplx, addScaTri a b⟩
  | .sca, .spin, a, b => some ⟨.spin, addScaSpin a b⟩
  | .sca, .cplx, a, b => some ⟨.cplx, addScaCplx a b⟩
  | .sca, .mv, a, b => some ⟨.mv, addScaMv a b⟩
  | .vec, .vec, a, b => some ⟨.vec, addVecVec a b⟩
  | .vec, .biv, a, b => some ⟨.dplx, addVecBiv a b⟩
  | .vec, .tri, a, b => some ⟨.imsp, addVecTri a b⟩
  | .vec, .imsp, a, b => some ⟨.imsp, addVecImsp a b⟩
  | .vec, .dplx, a, b => some ⟨.dplx, addVecDplx a b⟩
  | .vec, .mv, a, b => some ⟨.mv, addVecMv a b⟩
  | .biv, .sca, a, b => some ⟨.spin, addBivSca a b⟩
  | .biv, .vec, a, b => some ⟨.dplx, addBivVec a b⟩
  | .biv, .biv, a, b => some ⟨.biv, addBivBiv a b⟩
  | .biv, .spin, a, b => some ⟨.spin, addBivSpin a b⟩
  | .biv, .dplx, a, b => some ⟨.dplx, addBivDplx a b⟩
  | .biv, .mv, a, b => some ⟨.mv, addBivMv a b⟩
  | .tri, .sca, a, b => some ⟨.cplx, addTriSca a b⟩
  | .tri, .vec, a, b => some ⟨.imsp, addTriVec a b⟩
  | .tri, .tri, a, b => some ⟨.tri, addTriTri a b⟩
  | .tri, .imsp, a, b => some ⟨.imsp, addTriImsp a b⟩
  | .tri, .cplx, a, b => some ⟨.cplx, addTriCplx a b⟩
  | .tri, .mv, a, b => some ⟨.mv, addTriMv a b⟩
  | .spin, .sca, a, b => some ⟨.spin, addSpinSca a b⟩
  | .spin, .biv, a, b => some ⟨.spin, addSpinBiv a b⟩
  | .spin, .spin, a, b => some ⟨.spin, addSpinSpin a b⟩
  | .spin, .imsp, a, b => some ⟨.mv, addSpinImsp a b⟩
  | .spin, .mv, a, b => some ⟨.mv, addSpinMv a b⟩
  | .imsp, .vec, a, b => some ⟨.imsp, addImspVec a b⟩
  | .imsp, .tri, a, b => some ⟨.imsp, addImspTri a b⟩
  | .imsp, .spin, a, b => some ⟨.mv, addImspSpin a b⟩
  | .imsp, .imsp, a, b => some ⟨.imsp, addImspImsp a b⟩
  | .imsp, .mv, a, b => some ⟨.mv, addImspMv a b⟩
  | .cplx, .sca, a, b => some ⟨.cplx, addCplxSca a b⟩
  | .cplx, .tri, a, b => some ⟨.cplx, addCplxTri a b⟩
  | .cplx, .cplx, a, b => some ⟨.cplx, addCplxCplx a b⟩
  | .cplx, .dplx, a, b => some ⟨.mv, addCplxDplx a b⟩
  | .cplx, .mv, a, b => some ⟨.mv, addCplxMv a b⟩
  | .dplx, .vec, a, b => some ⟨.dplx, addDplxVec a b⟩
  | .dplx, .biv, a, b => some ⟨.dplx, addDplxBiv a b⟩
  | .dplx, .cplx, a, b => some ⟨.mv, addDplxCplx a b⟩
  | .dplx, .dplx, a, b => some ⟨.dplx, addDplxDplx a b⟩
  | .dplx, .mv, a, b => some ⟨.mv, addDplxMv a b⟩
  | .mv, .sca, a, b => some ⟨.mv, addMvSca a b⟩
  | .mv, .vec, a, b => some ⟨.mv, addMvVec a b⟩
  | .mv, .biv, a, b => some ⟨.mv, addMvBiv a b⟩
  | .mv, .tri, a, b => some ⟨.mv, addMvTri a b⟩
  | .mv, .spin, a, b => some ⟨.mv, addMvSpin a b⟩
  | .mv, .imsp, a, b => some ⟨.mv, addMvImsp a b⟩
  | .mv, .cplx, a, b => some ⟨.mv, addMvCplx a b⟩
  | .mv, .dplx, a, b => some ⟨.mv, addMvDplx a b⟩
  | .mv, .mv, a, b => some ⟨.mv, addMvMv a b⟩
  | _, _, _, _ => none

/-- The overload set of binary `operator-` (`g3opsSub_*.hpp`); `none` when there is no such
overload (the expression does not compile). -/
def subTy : (s t : Ty) → s.D α → t.D α → Option (Sigma fun r : Ty => r.D α)
  | .dub, .dub, a, b => some ⟨.dub, a - b⟩
  | .sca, .sca, a, b => some ⟨.sca, subScaSca a b⟩
  | .sca, .biv, a, b => some ⟨.spin, subScaBiv a b⟩
  | .sca, .tri, a, b => some ⟨.cplx, subScaTri a b⟩
  | .sca, .spin, a, b => some ⟨.spin, subScaSpin a b⟩
  | .sca, .cplx, a, b => some ⟨.cplx, subScaCplx a b⟩
  | .sca, .mv, a, b => some ⟨.mv, subScaMv a b⟩
  | .vec, .vec, a, b => some ⟨.vec, subVecVec a b⟩
  | .vec, .biv, a, b => some ⟨.dplx, subVecBiv a b⟩
  | .vec, .tri, a, b => some ⟨.imsp, subVecTri a b⟩
  | .vec, .imsp, a, b => some ⟨.imsp, subVecImsp a b⟩
  | .vec, .dplx, a, b => some ⟨.dplx, subVecDplx a b⟩
  | .vec, .mv, a, b => some ⟨.mv, subVecMv a b⟩
  | .biv, .sca, a, b => some ⟨.spin, subBivSca a b⟩
  | .biv, .vec, a, b => some ⟨.dplx, subBivVec a b⟩
  | .biv, .biv, a, b => some ⟨.biv, subBivBiv a b⟩
  | .biv, .spin, a, b => some ⟨.spin, subBivSpin a b⟩
  | .biv, .dplx, a, b => some ⟨.dplx, subBivDplx a b⟩
  | .biv, .mv, a, b => some ⟨.mv, subBivMv a b⟩
  | .tri, .sca, a, b => some ⟨.cplx, subTriSca a b⟩
  | .tri, .vec, a, b => some ⟨.imsp, subTriVec a b⟩
  | .tri, .tri, a, b => some ⟨.tri, subTriTri a b⟩
  | .tri, .imsp, a, b => some ⟨.imsp, subTriImsp a b⟩
  | .tri, .cplx, a, b => some ⟨.cplx, subTriCplx a b⟩
  | .tri, .mv, a, b => some ⟨.mv, subTriMv a b⟩
  | .spin, .sca, a, b => some ⟨.spin, subSpinSca a b⟩
  | .spin, .biv, a, b => some ⟨.spin, subSpinBiv a b⟩
  | .spin, .spin, a, b => some ⟨.spin, subSpinSpin a b⟩
  | .spin, .imsp, a, b => some ⟨.mv, subSpinImsp a b⟩
  | .spin, .mv, a, b => some ⟨.mv, subSpinMv a b⟩
  | .imsp, .vec, a, b => some ⟨.imsp, subImspVec a b⟩
  | .imsp, .tri, a, b => some ⟨.imsp, subImspTri a b⟩
  | .imsp, .spin, a, b => some ⟨.mv, subImspSpin a b⟩
  | .imsp, .imsp, a, b => some ⟨.imsp, subImspImsp a b⟩
  | .imsp, .mv, a, b => some ⟨.mv, subImspMv a b⟩
  | .cplx, .sca, a, b => some ⟨.cplx, subCplxSca a b⟩
  | .cplx, .tri, a, b => some ⟨.cplx, subCplxTri a b⟩
  | .cplx, .cplx, a, b => some ⟨.cplx, subCplxCplx a b⟩
  | .cplx, .dplx, a, b => some ⟨.mv, subCplxDplx a b⟩
  | .cplx, .mv, a, b => some ⟨.mv, subCplxMv a b⟩
  | .dplx, .vec, a, b => some ⟨.dplx, subDplxVec a b⟩
  | .dplx, .biv, a, b => some ⟨.dplx, subDplxBiv a b⟩
  | .dplx, .cplx, a, b => some ⟨.mv, subDplxCplx a b⟩
  | .dplx, .dplx, a, b => some ⟨.dplx, subDplxDplx a b⟩
  | .dplx, .mv, a, b => some ⟨.mv, subDplxMv a b⟩
  | .mv, .sca, a, b => some ⟨.mv, subMvSca a b⟩
  | .mv, .vec, a, b => some ⟨.mv, subMvVec a b⟩
  | .mv, .biv, a, b => some ⟨.mv, subMvBiv a b⟩
  | .mv, .tri, a, b => some ⟨.mv, subMvTri a b⟩
  | .mv, .spin, a, b => some ⟨.mv, subMvSpin a b⟩
  | .mv, .imsp, a, b => some ⟨.mv, subMvImsp a b⟩
  | .mv, .cplx, a, b => some ⟨.mv, subMvCplx a b⟩
  | .mv, .dplx, a, b => some ⟨.mv, subMvDplx a b⟩
  | .mv, .mv, a, b => some ⟨.mv, subMvMv a b⟩
  | _, _, _, _ => none

/-- Unary minus selected by type: `g3opsUni.hpp:122-191`. -/
def negTy : (t : Ty) → t.D α → t.D α
  | .dub, x => -x
  | .sca, x => -x
  | .vec, x => -x
  | .biv, x => -x
  | .tri, x => -x
  | .spin, x => -x
  | .imsp, x => -x
  | .cplx, x => -x
  | .dplx, x => -x
  | .mv, x => -x

/-- Overload set of `reverse` (`g3opsUni.hpp`). -/
def reverseTy : (t : Ty) → t.D α → t.D α
  | .dub, x => reverseDub x
  | .sca, x => reverseSca x
  | .vec, x => reverseVec x
  | .biv, x => reverseBiv x
  | .tri, x => reverseTri x
  | .spin, x => reverseSpin x
  | .imsp, x => reverseImsp x
  | .cplx, x => reverseCplx x
  | .dplx, x => reverseDplx x
  | .mv, x => reverseMv x

/-- Overload set of `oddverse` (`g3opsUni.hpp`); there is no overload for `double`, on which the operation is taken as the identity here. -/
def oddverseTy : (t : Ty) → t.D α → t.D α
  | .dub, x => x
  | .sca, x => oddverseSca x
  | .vec, x => oddverseVec x
  | .biv, x => oddverseBiv x
  | .tri, x => oddverseTri x
  | .spin, x => oddverseSpin x
  | .imsp, x => oddverseImsp x
  | .cplx, x => oddverseCplx x
  | .dplx, x => oddverseDplx x
  | .mv, x => oddverseMv x

/-- Overload set of `dirverse` (`g3opsUni.hpp`); there is no overload for `double`, on which the operation is taken as the identity here. -/
def dirverseTy : (t : Ty) → t.D α → t.D α
  | .dub, x => x
  | .sca, x => dirverseSca x
  | .vec, x => dirverseVec x
  | .biv, x => dirverseBiv x
  | .tri, x => dirverseTri x
  | .spin, x => dirverseSpin x
  | .imsp, x => dirverseImsp x
  | .cplx, x => dirverseCplx x
  | .dplx, x => dirverseDplx x
  | .mv, x => dirverseMv x

/-- Result type of `dual`. -/
@[reducible] def dualRes : Ty → Ty
  | .dub => .tri
  | .sca => .tri
  | .vec => .biv
  | .biv => .vec
  | .tri => .sca
  | .spin => .imsp
  | .imsp => .spin
  | .cplx => .cplx
  | .dplx => .dplx
  | .mv => .mv

/-- Overload set of `dual`: `g3opsUni.hpp:545-652`. -/
def dualTy : (t : Ty) → t.D α → (dualRes t).D α
  | .dub, x => dualDub x
  | .sca, x => dualSca x
  | .vec, x => dualVec x
  | .biv, x => dualBiv x
  | .tri, x => dualTri x
  | .spin, x => dualSpin x
  | .imsp, x => dualImsp x
  | .cplx, x => dualCplx x
  | .dplx, x => dualDplx x
  | .mv, x => dualMv x

end Engabra
