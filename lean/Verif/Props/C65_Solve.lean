import Verif.Props.C48_Inverse
import Verif.Props.C56_InverseProduct

/-! # C65: solving `a*x = b` and `x*a = b` with `inverse`

There is no division operator; the header's recipe (`g3type.hpp:150-151`) is to multiply by
`inverse`.  First exactly, over the reals, then in binary64. -/

namespace Engabra

/-- What a two-sided inverse does. -/
theorem solve_of_inverse {α : Type} [CommRing α] (A Y b : MultiVector α) (h1 : A * Y = gone)
    (h2 : Y * A = gone) : A * (Y * b) = b ∧ (b * Y) * A = b ∧ (∀ c, A * c = b → c = Y * b) ∧
    ∀ c, c * A = b → c = b * Y := by
  refine ⟨?_, ?_, ?_, ?_⟩
  · rw [← C01_mul_assoc, h1, C01_one_mul]
  · rw [C01_mul_assoc, h2, C01_mul_one]
  · rintro c rfl; rw [← C01_mul_assoc, h2, C01_one_mul]
  · rintro c rfl; rw [C01_mul_assoc, h1, C01_mul_one]

theorem inverseMv_lift (A : MultiVector ℝ) (h : dblMin < ‖ampC A‖ ^ 2) :
    ∃ Y, inverseMv (lift .mv A) = lift .mv Y := by
  rw [inverseMv_eq, C18_complex_inverse _ h]
  generalize (ComPlex.num (ampSq A))⁻¹ = w
  exact ⟨(⟨⟨w.re⟩⟩ : Scalar ℝ) * dirverse A + (⟨⟨w.im⟩⟩ : TriVector ℝ) * dirverse A, rfl⟩

/-- **C65.** For a non-zero blade `a` and a right-hand side `b` of any type,
`inverse(a)*b` is a solution of `a*x = b` and `b*inverse(a)` one of `x*a = b`, and in each case
there is no other solution, of any type. -/
theorem C65_solve_blade (s t : Ty) (hs : s = .sca ∨ s = .vec ∨ s = .biv ∨ s = .tri) (a : s.D ℝ)
    (h : ∃ c ∈ comps s a, c ≠ 0) (b : t.D ℝ) :
    ∃ y, inverseTy s (lift s a) = some y ∧
      promote _ (mulTy s _ (lift s a) (mulTy s t y (lift t b))) = promote t (lift t b) ∧
      promote _ (mulTy _ s (mulTy t s (lift t b) y) (lift s a)) = promote t (lift t b) ∧
      (∀ c : MultiVector ℝ, promote s a * c = promote t b →
        lift .mv c = promote _ (mulTy s t y (lift t b))) ∧
      ∀ c : MultiVector ℝ, c * promote s a = promote t b →
        lift .mv c = promote _ (mulTy t s (lift t b) y) := by
  have hm : magSqTy s a ≠ 0 := by
    intro h0
    obtain ⟨c, hc, hc0⟩ := h
    exact hc0 ((C13_magSq_eq_zero_iff s a).1 h0 c hc)
  obtain ⟨y, hy, h1, h2⟩ := C17_inverse s hs a h
  have hl := inverseTy_eq s a _ rfl hm hs
  generalize smulTy s (1 / magSqTy s a) (reverseTy s a) = Y at hl
  obtain rfl : lift s Y = y := Option.some.inj (hl.symm.trans hy)
  rw [promote_lift, promote_lift, mul_lift_mv, ← lift_one] at h1 h2
  obtain ⟨e1, e2, e3, e4⟩ := solve_of_inverse _ _ (promote t b) (lift_injective .mv h2)
    (lift_injective .mv h1)
  refine ⟨_, hy, ?_, ?_, fun c hc => ?_, fun c hc => ?_⟩
  · rw [mul_lift, mul_lift, promote_lift, promote_lift, C03_typed_product_agrees,
      C03_typed_product_agrees, e1]
  · rw [mul_lift, mul_lift, promote_lift, promote_lift, C03_typed_product_agrees,
      C03_typed_product_agrees, e2]
  · rw [mul_lift, promote_lift, C03_typed_product_agrees, e3 c hc]
  · rw [mul_lift, promote_lift, C03_typed_product_agrees, e4 c hc]

/-- **C65.** The same for a multivector whose squared amplitude passes the guard of `inverse`. -/
theorem C65_solve_mv (t : Ty) (A : MultiVector ℝ) (h : dblMin < ‖ampC A‖ ^ 2) (b : t.D ℝ) :
    promote _ (mulTy .mv _ (lift .mv A) (mulTy .mv t (inverseMv (lift .mv A)) (lift t b)))
      = promote t (lift t b) ∧
    promote _ (mulTy _ .mv (mulTy t .mv (lift t b) (inverseMv (lift .mv A))) (lift .mv A))
      = promote t (lift t b) ∧
    (∀ c : MultiVector ℝ, A * c = promote t b →
      lift .mv c = promote _ (mulTy .mv t (inverseMv (lift .mv A)) (lift t b))) ∧
    ∀ c : MultiVector ℝ, c * A = promote t b →
      lift .mv c = promote _ (mulTy t .mv (lift t b) (inverseMv (lift .mv A))) := by
  obtain ⟨h1, h2⟩ := C18_mv_inverse A h
  obtain ⟨Y, hY⟩ := inverseMv_lift A h
  rw [hY, mul_lift_mv, ← lift_one] at h1 h2
  have k1 := lift_injective .mv h1
  have k2 := lift_injective .mv h2
  have : A * Y = gone ∧ Y * A = gone := ⟨by assumption, by assumption⟩
  obtain ⟨e1, e2, e3, e4⟩ := solve_of_inverse A Y (promote t b) this.1 this.2
  rw [hY]
  refine ⟨?_, ?_, fun c hc => ?_, fun c hc => ?_⟩
  · rw [mul_lift, mul_lift, promote_lift, promote_lift, C03_typed_product_agrees,
      C03_typed_product_agrees]
    exact congrArg _ e1
  · rw [mul_lift, mul_lift, promote_lift, promote_lift, C03_typed_product_agrees,
      C03_typed_product_agrees]
    exact congrArg _ e2
  · rw [mul_lift, promote_lift, C03_typed_product_agrees, e3 c hc]; rfl
  · rw [mul_lift, promote_lift, C03_typed_product_agrees, e4 c hc]; rfl

/-- **C65.** The same for a `ComPlex` above the guard. -/
theorem C65_solve_complex (t : Ty) (z : ComPlex ℝ) (h : dblMin < ‖z.num‖ ^ 2) (b : t.D ℝ) :
    promote _ (mulTy .cplx _ (lift .cplx z) (mulTy .cplx t (inverseCplx (lift .cplx z)) (lift t b)))
      = promote t (lift t b) ∧
    promote _ (mulTy _ .cplx (mulTy t .cplx (lift t b) (inverseCplx (lift .cplx z))) (lift .cplx z))
      = promote t (lift t b) ∧
    (∀ c : MultiVector ℝ, toMV z * c = promote t b →
      lift .mv c = promote _ (mulTy .cplx t (inverseCplx (lift .cplx z)) (lift t b))) ∧
    ∀ c : MultiVector ℝ, c * toMV z = promote t b →
      lift .mv c = promote _ (mulTy t .cplx (lift t b) (inverseCplx (lift .cplx z))) := by
  obtain ⟨h1, h2⟩ := C18_complex_mul z h
  obtain ⟨Y, hY⟩ : ∃ Y : ComPlex ℝ, inverseCplx (lift .cplx z) = lift .cplx Y :=
    ⟨_, C18_complex_inverse z h⟩
  rw [hY] at h1 h2 ⊢
  have k1 : toMV z * toMV Y = gone := by
    have := congrArg toMV (lift_injective .cplx
      (show lift .cplx (z * Y) = lift .cplx (gone : ComPlex ℝ) from h2))
    exact (C03_typed_product_agrees .cplx .cplx z Y).symm.trans this
  have k2 : toMV Y * toMV z = gone := by
    have := congrArg toMV (lift_injective .cplx
      (show lift .cplx (Y * z) = lift .cplx (gone : ComPlex ℝ) from h1))
    exact (C03_typed_product_agrees .cplx .cplx Y z).symm.trans this
  obtain ⟨e1, e2, e3, e4⟩ := solve_of_inverse _ _ (promote t b) k1 k2
  refine ⟨?_, ?_, fun c hc => ?_, fun c hc => ?_⟩
  · rw [mul_lift, mul_lift, promote_lift, promote_lift, C03_typed_product_agrees,
      C03_typed_product_agrees]
    exact congrArg _ e1
  · rw [mul_lift, mul_lift, promote_lift, promote_lift, C03_typed_product_agrees,
      C03_typed_product_agrees]
    exact congrArg _ e2
  · rw [mul_lift, promote_lift, C03_typed_product_agrees, e3 c hc]; rfl
  · rw [mul_lift, promote_lift, C03_typed_product_agrees, e4 c hc]; rfl

/-- The equation `(3 e12 - e31) * x = 1 - 2 e123` is one of those. -/
example : ∃ c ∈ comps .biv (⟨⟨0, -1, 3⟩⟩ : BiVector ℝ), c ≠ 0 := ⟨3, by simp [comps], by norm_num⟩

end Engabra
