import Verif.Lemmas.Tactic
import Mathlib.Data.Real.Basic
import Mathlib.Algebra.Algebra.Defs

/-! # C01: the MultiVector product is associative, unital and bilinear

All statements are about the model's `+`, `*` on `MultiVector α` and the scaling
`double * MultiVector`, in exact arithmetic over an arbitrary commutative ring `α`
(in particular `ℝ`). -/

namespace Engabra

variable {α : Type} [CommRing α]

theorem C01_mul_assoc (A B C : MultiVector α) : (A * B) * C = A * (B * C) := by mv_ring

theorem C01_mul_add (A B C : MultiVector α) : A * (B + C) = A * B + A * C := by mv_ring

theorem C01_add_mul (A B C : MultiVector α) : (A + B) * C = A * C + B * C := by mv_ring

theorem C01_smul_mul (s : α) (A B : MultiVector α) : (s * A) * B = s * (A * B) := by mv_ring

theorem C01_mul_smul (s : α) (A B : MultiVector α) : A * (s * B) = s * (A * B) := by mv_ring

theorem C01_one_mul (A : MultiVector α) : (gone : MultiVector α) * A = A := by mv_ring

theorem C01_mul_one (A : MultiVector α) : A * (gone : MultiVector α) = A := by mv_ring

/-- The basis constant `e0`, used through the typed overload `Scalar * MultiVector`. -/
theorem C01_e0_mul (A : MultiVector α) : (e0 : Scalar α) * A = A := by mv_ring

theorem C01_mul_e0 (A : MultiVector α) : A * (e0 : Scalar α) = A := by mv_ring

theorem C01_zero_mul (A : MultiVector α) : (gzero : MultiVector α) * A = gzero := by mv_ring

theorem C01_mul_zero (A : MultiVector α) : A * (gzero : MultiVector α) = gzero := by mv_ring

/-- Non-triviality: the product is not commutative, `e1 e2 = - e2 e1 ≠ e2 e1` over `ℤ`. -/
example : (toMV (e1 : Vector Int)) * toMV (e2 : Vector Int)
    ≠ toMV (e2 : Vector Int) * toMV (e1 : Vector Int) := by decide

/-! ## Packaged as Mathlib structures

The ring and algebra operations are *the code's* operations, so Mathlib's theory
applies to the modelled code. -/

instance : Zero (MultiVector α) := ⟨gzero⟩
instance : One (MultiVector α) := ⟨gone⟩
instance : SMul α (MultiVector α) := ⟨fun s A => s * A⟩

theorem zero_def : (0 : MultiVector α) = gzero := rfl
theorem one_def : (1 : MultiVector α) = gone := rfl
theorem smul_def (s : α) (A : MultiVector α) : s • A = s * A := rfl
attribute [engabra] zero_def one_def smul_def

/-- `MultiVector` with the library operations is a ring. -/
instance instRingMV : Ring (MultiVector α) where
  add_assoc A B C := by mv_ring
  zero_add A := by mv_ring
  add_zero A := by mv_ring
  add_comm A B := by mv_ring
  neg_add_cancel A := by mv_ring
  sub_eq_add_neg A B := by mv_ring
  mul_assoc := C01_mul_assoc
  one_mul := C01_one_mul
  mul_one := C01_mul_one
  zero_mul := C01_zero_mul
  mul_zero := C01_mul_zero
  left_distrib := C01_mul_add
  right_distrib := C01_add_mul
  nsmul := nsmulRec
  zsmul := zsmulRec

/-- `MultiVector` with the library operations is an algebra; the embedding of numbers
is the constructor `MultiVector(double)`. -/
instance instAlgebraMV : Algebra α (MultiVector α) where
  algebraMap :=
    { toFun := mvOfDub
      map_one' := by mv_ring
      map_mul' := fun x y => by mv_ring
      map_zero' := by mv_ring
      map_add' := fun x y => by mv_ring }
  commutes' r A := by
    show mvOfDub r * A = A * mvOfDub r
    mv_ring
  smul_def' r A := by
    show r * A = mvOfDub r * A
    mv_ring

theorem algebraMap_def (r : α) : algebraMap α (MultiVector α) r = mvOfDub r := rfl

end Engabra
