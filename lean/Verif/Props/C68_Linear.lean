import Verif.Props.C65_Solve

/-! # C68: the linear equation `A*X + X*B = C`

The README names the solution of linear equations with multivector unknowns as a feature
(`README.md:756`, `solutionOfLinear()`), for which there is no function.  The solution can be
written with `sq`, `dirverse`, `inverse`, products and sums. -/

namespace Engabra

section ring
variable {α : Type} [CommRing α]

/-- Specification: the left-hand side of the equation. -/
def lhs (A B X : MultiVector α) : MultiVector α := A * X + X * B

/-- The client's expression for the coefficient, `sq(A) + A*(B + dirverse(B)) + B*dirverse(B)`:
`g3func.hpp:106-114`, `g3opsUni.hpp:434-530`, `g3opsMul_MultiVector.hpp`,
`g3opsAdd_same.hpp`. -/
def coeff (A B : MultiVector α) : MultiVector α :=
  sq A + A * (B + dirverse B) + B * dirverse B

theorem lhs_lhs (A B X : MultiVector α) :
    lhs A B (lhs A (dirverse B) X) = coeff A B * X := by
  have h1 : X * (B + dirverse B) = (B + dirverse B) * X := by mv_ring
  have h2 : X * (dirverse B * B) = B * dirverse B * X := by
    have e : dirverse B * B = B * dirverse B := by mv_ring
    rw [e]
    mv_ring
  have h3 : X * dirverse B * B = B * dirverse B * X := by rw [C01_mul_assoc, h2]
  unfold lhs coeff sq
  simp only [mul_add, add_mul] at *
  rw [h3]
  simp only [mul_assoc] at *
  have h4 := congrArg (A * ·) h1
  simp only [mul_add] at h4
  have h5 : A * (A * X) + A * (X * dirverse B) + (A * (X * B) + B * (dirverse B * X))
      = A * (A * X) + (A * (X * B) + A * (X * dirverse B)) + B * (dirverse B * X) := by abel
  rw [h5, h4]

theorem dirverse_dirverse (B : MultiVector α) : dirverse (dirverse B) = B := by mv_ring

theorem coeff_dirverse (A B : MultiVector α) : coeff A (dirverse B) = coeff A B := by
  unfold coeff
  rw [dirverse_dirverse, add_comm (dirverse B) B]
  have e : dirverse B * B = B * dirverse B := by mv_ring
  rw [e]

theorem lhs_lhs' (A B X : MultiVector α) :
    lhs A (dirverse B) (lhs A B X) = coeff A B * X := by
  have := lhs_lhs A (dirverse B) X
  rwa [dirverse_dirverse, coeff_dirverse] at this

theorem coeff_comm (A B : MultiVector α) : A * coeff A B = coeff A B * A := by
  have h1 : A * (B + dirverse B) = (B + dirverse B) * A := by mv_ring
  have h2 : A * (B * dirverse B) = B * dirverse B * A := by mv_ring
  unfold coeff sq
  rw [mul_add, mul_add, add_mul, add_mul, h2]
  congr 1
  rw [mul_assoc, mul_assoc, h1]

theorem lhs_solve (A B C Y : MultiVector α) (h1 : coeff A B * Y = gone)
    (h2 : Y * coeff A B = gone) :
    lhs A B (Y * lhs A (dirverse B) C) = C ∧
    ∀ X, lhs A B X = C → X = Y * lhs A (dirverse B) C := by
  constructor
  · have hc : A * Y = Y * A := by
      have e : Y * (A * coeff A B) * Y = Y * (coeff A B * A) * Y := by rw [coeff_comm]
      have e1 : Y * (A * coeff A B) * Y = Y * A * (coeff A B * Y) := by simp only [mul_assoc]
      have e2 : Y * (coeff A B * A) * Y = Y * coeff A B * (A * Y) := by simp only [mul_assoc]
      rw [e1, e2, h1, h2, C01_one_mul, C01_mul_one] at e
      exact e.symm
    have e : lhs A B (Y * lhs A (dirverse B) C) = Y * lhs A B (lhs A (dirverse B) C) := by
      generalize lhs A (dirverse B) C = Z
      unfold lhs
      rw [mul_add, ← mul_assoc, ← mul_assoc, ← mul_assoc, hc]
    rw [e, lhs_lhs, ← mul_assoc, h2, C01_one_mul]
  · rintro X rfl
    rw [lhs_lhs', ← mul_assoc, h2, C01_one_mul]

end ring

/-- **C68.** If the coefficient `sq(A) + A*(B + dirverse(B)) + B*dirverse(B)` passes the guard of
`inverse`, then `inverse(coefficient) * (A*C + C*dirverse(B))` solves `A*X + X*B = C`, and nothing
else does. -/
theorem C68_solve (A B C : MultiVector ℝ) (h : dblMin < ‖ampC (coeff A B)‖ ^ 2) :
    ∃ X : MultiVector ℝ,
      inverseMv (sq (lift .mv A) + lift .mv A * (lift .mv B + dirverse (lift .mv B))
          + lift .mv B * dirverse (lift .mv B))
        * (lift .mv A * lift .mv C + lift .mv C * dirverse (lift .mv B)) = lift .mv X ∧
      A * X + X * B = C ∧ ∀ Z : MultiVector ℝ, A * Z + Z * B = C → Z = X := by
  obtain ⟨h1, h2⟩ := C18_mv_inverse _ h
  obtain ⟨Y, hY⟩ := inverseMv_lift _ h
  rw [hY, mul_lift_mv, ← lift_one] at h1 h2
  have k2 := lift_injective .mv h1
  have k1 := lift_injective .mv h2
  obtain ⟨e1, e2⟩ := lhs_solve A B C Y k1 k2
  refine ⟨Y * lhs A (dirverse B) C, ?_, e1, e2⟩
  have : sq (lift .mv A) + lift .mv A * (lift .mv B + dirverse (lift .mv B))
      + lift .mv B * dirverse (lift .mv B) = lift .mv (coeff A B) := rfl
  rw [this, hY]
  rfl

/-! ### When the equation has no unique solution -/

section ring
variable {α : Type} [CommRing α]

/-- The directed part of `B`. -/
def dirPart (B : MultiVector α) : MultiVector α := ⟨⟨⟨0⟩⟩, B.theVec, B.theBiv, ⟨⟨0⟩⟩⟩

theorem lhs_commutator (A B N y : MultiVector α) (h : lhs A (dirverse B) N = 0) :
    lhs A B (N * (dirPart B * y - y * dirPart B)) = 0 := by
  have hk : dirverse B * (dirPart B * y - y * dirPart B)
      = (dirPart B * y - y * dirPart B) * B := by unfold dirPart; mv_ring
  generalize dirPart B * y - y * dirPart B = K at *
  have h' : A * N = -(N * dirverse B) := eq_neg_of_add_eq_zero_left h
  unfold lhs
  rw [← mul_assoc, h', mul_assoc N K B, ← hk, neg_mul, mul_assoc, neg_add_cancel]

/-- `e1`, `e2`, `e3` as multivectors. -/
def ev1 : MultiVector α := toMV (e1 : Vector α)
def ev2 : MultiVector α := toMV (e2 : Vector α)
def ev3 : MultiVector α := toMV (e3 : Vector α)

theorem dirPart_frame (B : MultiVector α) :
    ev1 * dirPart B * ev1 + ev2 * dirPart B * ev2 + ev3 * dirPart B * ev3 = -dirPart B := by
  unfold ev1 ev2 ev3 dirPart
  mv_ring

theorem ev1_sq : (ev1 : MultiVector α) * ev1 = 1 := by
  show _ = (gone : MultiVector α); unfold ev1; mv_ring
theorem ev2_sq : (ev2 : MultiVector α) * ev2 = 1 := by
  show _ = (gone : MultiVector α); unfold ev2; mv_ring
theorem ev3_sq : (ev3 : MultiVector α) * ev3 = 1 := by
  show _ = (gone : MultiVector α); unfold ev3; mv_ring

/-- A number and a pseudo-number as multivector. -/
def cpx (p q : α) : MultiVector α := ⟨⟨⟨p⟩⟩, ⟨⟨0, 0, 0⟩⟩, ⟨⟨0, 0, 0⟩⟩, ⟨⟨q⟩⟩⟩

theorem anti1 (B : MultiVector α) : dirPart B * ev1 + ev1 * dirPart B
    = cpx (2 * B.theVec.theData.d0) (2 * B.theBiv.theData.d0) := by
  unfold dirPart ev1 cpx; mv_ring
theorem anti2 (B : MultiVector α) : dirPart B * ev2 + ev2 * dirPart B
    = cpx (2 * B.theVec.theData.d1) (2 * B.theBiv.theData.d1) := by
  unfold dirPart ev2 cpx; mv_ring
theorem anti3 (B : MultiVector α) : dirPart B * ev3 + ev3 * dirPart B
    = cpx (2 * B.theVec.theData.d2) (2 * B.theBiv.theData.d2) := by
  unfold dirPart ev3 cpx; mv_ring

end ring

theorem cpx_zero (N : MultiVector ℝ) (p q : ℝ) (hN : N ≠ 0) (h : N * cpx p q = 0) :
    p = 0 ∧ q = 0 := by
  by_contra hc
  have hpq : p * p + q * q ≠ 0 := by
    intro h0
    exact hc ⟨by nlinarith [mul_self_nonneg p, mul_self_nonneg q],
      by nlinarith [mul_self_nonneg p, mul_self_nonneg q]⟩
  have h2 : N * cpx p q * cpx p (-q) = (p * p + q * q) * N := by unfold cpx; mv_ring
  rw [h, zero_mul] at h2
  apply hN
  have h3 : ((p * p + q * q)⁻¹ : ℝ) * ((p * p + q * q) * N) = N := by
    have : ((p * p + q * q)⁻¹ : ℝ) * ((p * p + q * q) * N)
        = ((p * p + q * q)⁻¹ * (p * p + q * q) : ℝ) * N := by mv_ring
    rw [this, inv_mul_cancel₀ hpq]; mv_ring
  rw [← h2] at h3
  rw [← h3]
  mv_ring

/-- The two left-hand sides with `B` and `dirverse(B)` are singular together. -/
theorem lhs_kernel (A B N : MultiVector ℝ) (hN : N ≠ 0) (h : lhs A (dirverse B) N = 0) :
    ∃ X ≠ 0, lhs A B X = 0 := by
  by_contra hc
  push Not at hc
  have hz : ∀ y, N * (dirPart B * y - y * dirPart B) = 0 := fun y => by
    by_contra hy
    exact hc _ hy (lhs_commutator A B N y h)
  have hs : ∀ y, y * y = 1 → N * dirPart B = N * (y * dirPart B * y) := fun y hy => by
    have e := congrArg (· * y) (hz y)
    have e1 : N * (dirPart B * y - y * dirPart B) * y
        = N * dirPart B * (y * y) - N * (y * dirPart B * y) := by noncomm_ring
    simp only [zero_mul] at e
    rw [e1, hy, mul_one] at e
    exact sub_eq_zero.1 e
  have hb : N * dirPart B = 0 := by
    have e : N * dirPart B + N * dirPart B + N * dirPart B = -(N * dirPart B) := by
      conv_lhs => rw [hs _ ev3_sq]
      conv_lhs => lhs; lhs; rw [← hs _ ev3_sq, hs _ ev1_sq]
      conv_lhs => lhs; rhs; rw [← hs _ ev3_sq, hs _ ev2_sq]
      rw [← mul_add, ← mul_add, dirPart_frame, mul_neg]
    have e2 : (4 : ℝ) * (N * dirPart B) = N * dirPart B + N * dirPart B + N * dirPart B
        - -(N * dirPart B) := by mv_ring
    rw [e, sub_self] at e2
    have e3 : (1 / 4 : ℝ) * ((4 : ℝ) * (N * dirPart B)) = N * dirPart B := by
      have : (1 / 4 : ℝ) * ((4 : ℝ) * (N * dirPart B)) = (1 / 4 * 4 : ℝ) * (N * dirPart B) := by
        generalize N * dirPart B = W; mv_ring
      rw [this, show (1 / 4 * 4 : ℝ) = 1 by norm_num]
      generalize N * dirPart B = W; mv_ring
    rw [← e3, e2]; mv_ring
  have ha : ∀ y, N * (dirPart B * y + y * dirPart B) = 0 := fun y => by
    have e := hz y
    have e1 : N * (dirPart B * y - y * dirPart B) = N * dirPart B * y - N * (y * dirPart B) := by
      noncomm_ring
    rw [e1, hb, zero_mul, zero_sub, neg_eq_zero] at e
    rw [mul_add, e, ← mul_assoc, hb, zero_mul, add_zero]
  have h1 := ha ev1; have h2 := ha ev2; have h3 := ha ev3
  rw [anti1] at h1; rw [anti2] at h2; rw [anti3] at h3
  obtain ⟨a1, b1⟩ := cpx_zero _ _ _ hN h1
  obtain ⟨a2, b2⟩ := cpx_zero _ _ _ hN h2
  obtain ⟨a3, b3⟩ := cpx_zero _ _ _ hN h3
  have hB : dirverse B = B := by
    ext <;> simp only [engabra] <;> linarith
  rw [hB] at h
  exact hc N hN h

theorem zero_divisor (M : MultiVector ℝ) (h : ampC M = 0) : ∃ N ≠ 0, M * N = 0 := by
  have e : M * dirverse M = 0 := by
    obtain ⟨_, hz1, ha, _⟩ := C15_ampSq (α := ℝ) .mv (by decide) M
    obtain rfl := Option.some.inj hz1
    have ha : toMV (ampSq M) = M * dirverse M := ha
    rw [← ha]
    have hre := congrArg Complex.re h
    have him := congrArg Complex.im h
    unfold ampC at hre him
    generalize ampSq M = z at *
    simp only [ComPlex.num, Complex.zero_re, Complex.zero_im] at hre him
    ext <;> simp only [engabra] <;> linarith
  by_cases hM : M = 0
  · refine ⟨1, ?_, by rw [hM, zero_mul]⟩
    intro h1
    have := congrArg (fun A : MultiVector ℝ => A.theSca.theData.d0) h1
    simp only [engabra] at this
    exact one_ne_zero this
  · refine ⟨dirverse M, fun h0 => hM ?_, e⟩
    rw [← dirverse_dirverse M, h0]; mv_ring

theorem inverse_of_amp (M : MultiVector ℝ) (h : ampC M ≠ 0) :
    ∃ Y, M * Y = gone ∧ Y * M = gone := by
  generalize hw : (ampC M)⁻¹ = w
  have h1 : w * ampC M = 1 := by rw [← hw]; exact inv_mul_cancel₀ h
  obtain ⟨_, hz1, ha, hb⟩ := C15_ampSq (α := ℝ) .mv (by decide) M
  obtain rfl := Option.some.inj hz1
  have ha : toMV (ampSq M) = M * dirverse M := ha
  have hb : toMV (ampSq M) = dirverse M * M := hb
  have hc : cpx w.re w.im * toMV (ampSq M) = gone := by
    have hre := congrArg Complex.re h1
    have him := congrArg Complex.im h1
    unfold ampC at hre him
    generalize ampSq M = z at *
    simp only [ComPlex.num, Complex.mul_re, Complex.mul_im, Complex.one_re, Complex.one_im] at hre him
    unfold cpx
    ext <;> simp only [engabra] <;> linarith
  have hm : M * cpx w.re w.im = cpx w.re w.im * M := by unfold cpx; mv_ring
  refine ⟨cpx w.re w.im * dirverse M, ?_, ?_⟩
  · rw [← mul_assoc, hm, mul_assoc, ← ha, hc]
  · rw [mul_assoc, ← hb, hc]

/-- **C68.** `A*X + X*B = C` has exactly one solution for every `C` if and only if the coefficient
has a non-zero amplitude. -/
theorem C68_iff (A B : MultiVector ℝ) :
    (∀ C : MultiVector ℝ, ∃! X : MultiVector ℝ, A * X + X * B = C) ↔
      ampC (sq A + A * (B + dirverse B) + B * dirverse B) ≠ 0 := by
  constructor
  · intro h h0
    obtain ⟨N, hN, e⟩ := zero_divisor _ h0
    have hk : ∃ X ≠ 0, lhs A B X = 0 := by
      by_cases hL : lhs A (dirverse B) N = 0
      · exact lhs_kernel A B N hN hL
      · exact ⟨_, hL, (lhs_lhs A B N).trans e⟩
    obtain ⟨X, hX, e'⟩ := hk
    obtain ⟨Y, _, hY⟩ := h 0
    exact hX ((hY X e').trans (hY 0 (by simp only [mul_zero, zero_mul, add_zero])).symm)
  · intro h C
    obtain ⟨Y, h1, h2⟩ := inverse_of_amp _ h
    obtain ⟨e1, e2⟩ := lhs_solve A B C Y h1 h2
    exact ⟨_, e1, e2⟩

/-- **C68.** For vectors: `a*X + X*b = C` has exactly one solution for every `C` if and only if the
two vectors differ in length. -/
theorem C68_vectors (a b : Vector ℝ) :
    (∀ C : MultiVector ℝ, ∃! X : MultiVector ℝ, a * X + X * b = C) ↔ magSq a ≠ magSq b := by
  have e : ∀ X : MultiVector ℝ, a * X + X * b = toMV a * X + X * toMV b := fun X => by mv_ring
  simp only [e]
  rw [C68_iff, not_iff_not]
  have k : ampC (sq (toMV a) + toMV a * (toMV b + dirverse (toMV b)) + toMV b * dirverse (toMV b))
      = (((magSq a - magSq b) ^ 2 : ℝ) : ℂ) := by
    apply Complex.ext <;>
      simp only [ampC, ComPlex.num, engabra, sq, Complex.ofReal_re, Complex.ofReal_im] <;> ring
  rw [k, Complex.ofReal_eq_zero, sq_eq_zero_iff, sub_eq_zero]

/-- **C68.** With the same factor on both sides, `A*X + X*A = C` has exactly one solution for every
`C` if and only if `A` has a non-zero amplitude and a scalar or trivector part. -/
theorem C68_same (A : MultiVector ℝ) :
    (∀ C : MultiVector ℝ, ∃! X : MultiVector ℝ, A * X + X * A = C) ↔
      ampC A ≠ 0 ∧ (A.theSca.theData.d0 ≠ 0 ∨ A.theTri.theData.d0 ≠ 0) := by
  rw [C68_iff]
  have k : ampC (sq A + A * (A + dirverse A) + A * dirverse A)
      = 16 * ampC A * (⟨A.theSca.theData.d0, A.theTri.theData.d0⟩ : ℂ) ^ 2 := by
    apply Complex.ext <;>
      simp only [ampC, ComPlex.num, engabra, sq, Complex.mul_re, Complex.mul_im, pow_two,
        Complex.re_ofNat, Complex.im_ofNat] <;> ring
  have z : (⟨A.theSca.theData.d0, A.theTri.theData.d0⟩ : ℂ) ≠ 0 ↔
      (A.theSca.theData.d0 ≠ 0 ∨ A.theTri.theData.d0 ≠ 0) := by
    rw [ne_eq, Complex.ext_iff, Complex.zero_re, Complex.zero_im, not_and_or]
  rw [k, ← z]
  simp only [ne_eq, mul_eq_zero, OfNat.ofNat_ne_zero, false_or, pow_eq_zero_iff, not_or,
    not_false_eq_true]

/-- **C68.** When the coefficient does not pass the guard of `inverse`, every component of the
formula's value is NaN. -/
theorem C68_null (A B C : MultiVector ℝ) (h : ‖ampC (coeff A B)‖ ^ 2 ≤ dblMin) :
    ∀ c ∈ comps .mv (inverseMv (sq (lift .mv A) + lift .mv A * (lift .mv B + dirverse (lift .mv B))
          + lift .mv B * dirverse (lift .mv B))
        * (lift .mv A * lift .mv C + lift .mv C * dirverse (lift .mv B))), c = XR.nan := by
  have e : inverseMv (lift .mv (coeff A B))
      = mvOf8 XR.nan XR.nan XR.nan XR.nan XR.nan XR.nan XR.nan XR.nan := by
    rw [inverseMv_eq, C18_complex_null _ h]
    rfl
  have e1 : sq (lift .mv A) + lift .mv A * (lift .mv B + dirverse (lift .mv B))
      + lift .mv B * dirverse (lift .mv B) = lift .mv (coeff A B) := rfl
  rw [e1, e]
  have e2 : lift .mv A * lift .mv C + lift .mv C * dirverse (lift .mv B)
      = lift .mv (lhs A (dirverse B) C) := rfl
  rw [e2]
  generalize lhs A (dirverse B) C = Z
  intro c hc
  simp only [comps, List.mem_cons, List.not_mem_nil, or_false] at hc
  rcases hc with rfl | rfl | rfl | rfl | rfl | rfl | rfl | rfl <;> rfl

/-- `A = 2 + e1` with `B = 5 e2` meets the hypothesis of `C68_solve` (the amplitude is 384), and with
`B = 3 e2` that of `C68_null` (the amplitude is zero). -/
example : dblMin < ‖ampC (coeff (mvOf8 2 1 0 0 0 0 0 0) (mvOf8 0 0 5 0 0 0 0 0) : MultiVector ℝ)‖ ^ 2 ∧
    ‖ampC (coeff (mvOf8 2 1 0 0 0 0 0 0) (mvOf8 0 0 3 0 0 0 0 0) : MultiVector ℝ)‖ ^ 2 ≤ dblMin := by
  have h1 : ampC (coeff (mvOf8 2 1 0 0 0 0 0 0) (mvOf8 0 0 5 0 0 0 0 0) : MultiVector ℝ)
      = ((384 : ℝ) : ℂ) := by
    apply Complex.ext <;>
      simp only [ampC, ComPlex.num, engabra, coeff, sq, Complex.ofReal_re, Complex.ofReal_im] <;>
      norm_num
  have h2 : ampC (coeff (mvOf8 2 1 0 0 0 0 0 0) (mvOf8 0 0 3 0 0 0 0 0) : MultiVector ℝ) = 0 := by
    apply Complex.ext <;>
      simp only [ampC, ComPlex.num, engabra, coeff, sq, Complex.zero_re, Complex.zero_im] <;>
      norm_num
  have hd : dblMin ≤ 1 := by
    unfold dblMin; rw [div_le_one (by positivity)]; exact one_le_pow₀ (by norm_num)
  rw [h1, h2, Complex.norm_real]
  refine ⟨lt_of_le_of_lt hd (by norm_num), ?_⟩
  simpa using dblMin_pos.le

end Engabra
