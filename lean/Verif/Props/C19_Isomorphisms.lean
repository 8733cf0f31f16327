import Verif.Lemmas.Func
import Verif.Props.C01_Product
import Mathlib.Data.Complex.Basic
import Mathlib.Algebra.Quaternion

/-! # C19: ComPlex is the field of complex numbers, Spinor the quaternions -/

namespace Engabra

/-- The cast to `std::complex<double>`, read as a complex number. -/
def ComPlex.toC (z : ComPlex ℝ) : ℂ := ⟨z.toStd.1, z.toStd.2⟩
/-- `ComPlex::from`, from a complex number. -/
def ComPlex.ofC (z : ℂ) : ComPlex ℝ := ComPlex.from (z.re, z.im)

/-- Conversion to and from `std::complex` loses nothing, in either direction and for any
number type (bit for bit on doubles). -/
theorem C19_from_cast {β : Type} (z : ComPlex β) : ComPlex.from z.toStd = z := rfl
theorem C19_cast_from {β : Type} (z : β × β) : (ComPlex.from z).toStd = z := rfl

/-- **C19.** The cast is an isomorphism of rings from `ComPlex` to the complex numbers. -/
noncomputable def C19_complex : ComPlex ℝ ≃+* ℂ where
  toFun := ComPlex.toC
  invFun := ComPlex.ofC
  left_inv _ := rfl
  right_inv _ := rfl
  map_mul' z w := by
    apply Complex.ext <;> simp only [ComPlex.toC, ComPlex.toStd, Complex.mul_re, Complex.mul_im,
      engabra]
  map_add' z w := by
    apply Complex.ext <;> simp only [ComPlex.toC, ComPlex.toStd, Complex.add_re, Complex.add_im,
      engabra]

/-- The isomorphism is the API conversion. -/
theorem C19_complex_apply (z : ComPlex ℝ) :
    C19_complex z = ⟨z.toStd.1, z.toStd.2⟩ := rfl

/-- Units, subtraction, negation, reverse (conjugation) and magnitude. -/
theorem C19_complex_rest (z w : ComPlex ℝ) :
    ComPlex.toC (gone : ComPlex ℝ) = 1 ∧ ComPlex.toC (gzero : ComPlex ℝ) = 0 ∧
    ComPlex.toC (z - w) = z.toC - w.toC ∧ ComPlex.toC (-z) = -z.toC ∧
    ComPlex.toC (reverse z) = (starRingEnd ℂ) z.toC ∧ magSq z = Complex.normSq z.toC ∧
    ComPlex.toC (⟨⟨⟨0⟩⟩, e123⟩ : ComPlex ℝ) = Complex.I := by
  refine ⟨?_, ?_, ?_, ?_, ?_, ?_, ?_⟩
  any_goals
    apply Complex.ext <;> simp [ComPlex.toC, ComPlex.toStd, engabra]
  simp only [Complex.normSq_apply, ComPlex.toC, ComPlex.toStd, engabra]

open Quaternion in
/-- The quaternion of a spinor: the units are `i = -e23`, `j = -e31`, `k = -e12`. -/
def Spinor.toH (s : Spinor ℝ) : ℍ[ℝ] :=
  ⟨s.theSca.theData.d0, -s.theBiv.theData.d0, -s.theBiv.theData.d1, -s.theBiv.theData.d2⟩

theorem toH_re (s : Spinor ℝ) : s.toH.re = s.theSca.theData.d0 := rfl
theorem toH_imI (s : Spinor ℝ) : s.toH.imI = -s.theBiv.theData.d0 := rfl
theorem toH_imJ (s : Spinor ℝ) : s.toH.imJ = -s.theBiv.theData.d1 := rfl
theorem toH_imK (s : Spinor ℝ) : s.toH.imK = -s.theBiv.theData.d2 := rfl

open Quaternion in
/-- **C19.** `Spinor` is isomorphic as a ring to the real quaternions. -/
noncomputable def C19_quaternion : Spinor ℝ ≃+* ℍ[ℝ] where
  toFun := Spinor.toH
  invFun q := ⟨⟨⟨q.re⟩⟩, ⟨⟨-q.imI, -q.imJ, -q.imK⟩⟩⟩
  left_inv s := by ext <;> simp [Spinor.toH]
  right_inv q := by ext <;> simp [Spinor.toH]
  map_mul' a b := by
    ext <;> simp only [toH_re, toH_imI, toH_imJ, toH_imK, Quaternion.re_mul, Quaternion.imI_mul, Quaternion.imJ_mul,
      Quaternion.imK_mul, engabra] <;> ring
  map_add' a b := by
    ext <;> simp only [toH_re, toH_imI, toH_imJ, toH_imK, Quaternion.re_add, Quaternion.imI_add, Quaternion.imJ_add,
      Quaternion.imK_add, engabra] <;> ring

open Quaternion in
theorem C19_quaternion_apply (s : Spinor ℝ) : C19_quaternion s = s.toH := rfl

open Quaternion in
/-- Units, subtraction, negation, reverse (conjugation), magnitude. -/
theorem C19_quaternion_rest (s t : Spinor ℝ) :
    Spinor.toH (gone : Spinor ℝ) = 1 ∧ Spinor.toH (gzero : Spinor ℝ) = 0 ∧
    Spinor.toH (s - t) = s.toH - t.toH ∧ Spinor.toH (-s) = -s.toH ∧
    Spinor.toH (reverse s) = star s.toH ∧ magSq s = Quaternion.normSq s.toH := by
  refine ⟨?_, ?_, ?_, ?_, ?_, ?_⟩
  any_goals
    ext <;> simp [toH_re, toH_imI, toH_imJ, toH_imK, engabra] <;> ring
  · rw [Quaternion.normSq_def']; simp only [toH_re, toH_imI, toH_imJ, toH_imK, engabra]; ring

example : ComPlex.toC ((⟨⟨⟨1⟩⟩, ⟨⟨2⟩⟩⟩ : ComPlex ℝ) * (⟨⟨⟨3⟩⟩, ⟨⟨-1⟩⟩⟩ : ComPlex ℝ)) = ⟨5, 5⟩ := by
  apply Complex.ext <;> simp only [ComPlex.toC, ComPlex.toStd, engabra] <;> norm_num

end Engabra
