import Verif.Model.Overload

/-! # `include/g3traits.hpp`: compile-time classification of the types -/

namespace Engabra

/-- `g3::is::blade<Type>::value`: `g3traits.hpp:77-93` (primary template `false_type`, four
specialisations `true_type`). -/
def isBladeTy : Ty → Bool
  | .sca => true
  | .vec => true
  | .biv => true
  | .tri => true
  | _ => false

/-- `g3::is::Scalar<Type>::value`: `g3traits.hpp:99-105`. -/
def isScalarTy : Ty → Bool
  | .sca => true
  | _ => false

/-- `g3::is::Vector<Type>::value`: `g3traits.hpp:107-113`. -/
def isVectorTy : Ty → Bool
  | .vec => true
  | _ => false

/-- `g3::is::BiVector<Type>::value`: `g3traits.hpp:115-121`. -/
def isBiVectorTy : Ty → Bool
  | .biv => true
  | _ => false

/-- `g3::is::TriVector<Type>::value`: `g3traits.hpp:123-129`. -/
def isTriVectorTy : Ty → Bool
  | .tri => true
  | _ => false

/-- `g3::is::Spinor<Type>::value`: `g3traits.hpp:131-137`. -/
def isSpinorTy : Ty → Bool
  | .spin => true
  | _ => false

/-- `g3::is::ImSpin<Type>::value`: `g3traits.hpp:139-145`. -/
def isImSpinTy : Ty → Bool
  | .imsp => true
  | _ => false

/-- `g3::is::ComPlex<Type>::value`: `g3traits.hpp:147-153`. -/
def isComPlexTy : Ty → Bool
  | .cplx => true
  | _ => false

/-- `g3::is::DirPlex<Type>::value`: `g3traits.hpp:155-161`. -/
def isDirPlexTy : Ty → Bool
  | .dplx => true
  | _ => false

/-- `g3::is::MultiVector<Type>::value`: `g3traits.hpp:163-169`. -/
def isMultiVectorTy : Ty → Bool
  | .mv => true
  | _ => false

/-- The named test for a library type (there is none for `double`). -/
def namedTestTy : Ty → Option (Ty → Bool)
  | .dub => none
  | .sca => some isScalarTy
  | .vec => some isVectorTy
  | .biv => some isBiVectorTy
  | .tri => some isTriVectorTy
  | .spin => some isSpinorTy
  | .imsp => some isImSpinTy
  | .cplx => some isComPlexTy
  | .dplx => some isDirPlexTy
  | .mv => some isMultiVectorTy

end Engabra
