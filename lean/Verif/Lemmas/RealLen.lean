import Verif.Props.C46_ExpAccuracy

/-! # Lengths of real multivectors and of computed ones

Bridge from the rational estimates of C45 to real numbers. -/

namespace Engabra

open F64 (Finite)

/-- The real multivector a computed object stands for. -/
noncomputable def realMV (t : Ty) (x : t.D F64) : MultiVector ℝ := promote t (realTy t x)

noncomputable def castMV (m : MultiVector ℚ) : MultiVector ℝ := mapTy (fun q : ℚ => (q : ℝ)) .mv m

theorem castMV_mul (a b : MultiVector ℚ) : castMV (a * b) = castMV a * castMV b := by
  ext <;> simp only [castMV, mapTy, engabra] <;> push_cast <;> ring

theorem castMV_sub (a b : MultiVector ℚ) : castMV (a - b) = castMV a - castMV b := by
  ext <;> simp only [castMV, mapTy, engabra] <;> push_cast <;> ring

theorem castMV_exact (t : Ty) (x : t.D F64) : castMV (exactObj ⟨t, x⟩) = realMV t x := by
  cases t <;> simp only [castMV, exactObj, realMV, realTy, valTy, mapTy, engabra, Rat.cast_zero]

theorem len_cast (m : MultiVector ℚ) : len m = length .mv (castMV m) := by
  unfold len length
  congr 1

theorem length_realMV (t : Ty) (x : t.D F64) : length .mv (realMV t x) = euclid t x := by
  rw [realMV, length_promote, length_realTy]

theorem len_exact (t : Ty) (x : t.D F64) : len (exactObj ⟨t, x⟩) = euclid t x := by
  rw [len_cast, castMV_exact, length_realMV]

/-- One product of any types, in real numbers. -/
theorem product_real (s t : Ty) (a : s.D F64) (b : t.D F64) (fa : FiniteTy s a) (fb : FiniteTy t b)
    (h : euclid s a * euclid t b ≤ 2 ^ 1022) :
    FiniteTy _ (mulTy s t a b) ∧
    length .mv (realMV _ (mulTy s t a b) - realMV s a * realMV t b)
      ≤ 27 * uR * (euclid s a * euclid t b) + 2 ^ (-1057 : ℤ) := by
  have := product_len s t a b fa fb (by rw [len_exact, len_exact]; exact h)
  rw [len_cast, castMV_sub, castMV_mul, castMV_exact, castMV_exact, castMV_exact, len_exact,
    len_exact] at this
  exact this

theorem length_mv_mul (s t : Ty) (h : s.versor = true ∨ t.versor = true) (a : s.D ℝ) (b : t.D ℝ) :
    length .mv (promote s a * promote t b) = length s a * length t b := by
  have h1 := C14_magSq_mul s t h a b
  have h2 : promote s a * promote t b = promote _ (mulTy s t a b) :=
    (C03_typed_product_agrees s t a b).symm
  rw [h2, length_promote, length_eq, length_eq, length_eq, h1, Real.sqrt_mul (C13_magSq_nonneg s a)]

theorem length_mul_left (s : Ty) (h : s.versor = true) (a : s.D ℝ) (X : MultiVector ℝ) :
    length .mv (promote s a * X) = length s a * length .mv X := length_mv_mul s .mv (Or.inl h) a X

theorem length_mul_right (t : Ty) (h : t.versor = true) (b : t.D ℝ) (X : MultiVector ℝ) :
    length .mv (X * promote t b) = length .mv X * length t b := length_mv_mul .mv t (Or.inr h) X b

theorem length_mv_sub_comm (X Y : MultiVector ℝ) : length .mv (X - Y) = length .mv (Y - X) := by
  rw [length_eq, length_eq]
  congr 1
  simp only [magSqTy, engabra]
  ring

/-- Triangle inequality through a third point. -/
theorem length_tri (X Y Z : MultiVector ℝ) :
    length .mv (X - Z) ≤ length .mv (X - Y) + length .mv (Y - Z) := by
  have h := length_mv_add (X - Y) (Y - Z)
  rwa [show X - Y + (Y - Z) = X - Z by mv_ring] at h

theorem length_le_add (X Y : MultiVector ℝ) : length .mv X ≤ length .mv (X - Y) + length .mv Y := by
  have h := length_mv_add (X - Y) Y
  rwa [show X - Y + Y = X by mv_ring] at h

end Engabra
