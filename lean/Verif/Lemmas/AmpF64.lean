import Verif.Lemmas.InverseMvF64

/-! # `ampSq` of every type at `F64` -/

namespace Engabra

open F64 (Finite HasVal)

/-- Both parts of `ampSq`, for every type that has one. -/
def AmpNear (t : Ty) : Prop :=
  ∀ x : t.D F64, FiniteTy t x → magSqTy t (valTy t x : t.D ℚ) ≤ F64.safe →
    ∀ z, ampSqTy t x = some z → ∀ q, ampSqTy t (valTy t x : t.D ℚ) = some q →
      (z.theSca.theData.d0.Finite ∧ |z.theSca.theData.d0.value - q.theSca.theData.d0|
        ≤ ((1 + F64.uro) ^ 8 - 1) * magSqTy t (valTy t x : t.D ℚ) + 4 ^ 8 * F64.tinyErr) ∧
      (z.theTri.theData.d0.Finite ∧ |z.theTri.theData.d0.value - q.theTri.theData.d0|
        ≤ ((1 + F64.uro) ^ 8 - 1) * magSqTy t (valTy t x : t.D ℚ) + 4 ^ 8 * F64.tinyErr)

theorem zero_near {A : ℚ} (hA : 0 ≤ A) : (0 : F64).Finite ∧ |(0 : F64).value - 0|
    ≤ ((1 + F64.uro) ^ 8 - 1) * A + 4 ^ 8 * F64.tinyErr := by
  refine ⟨F64.hasVal_zero'.1, ?_⟩
  rw [F64.hasVal_zero'.2, sub_zero, abs_zero]
  have h : 1 ≤ (1 + F64.uro) ^ 8 := one_le_pow₀ (by linarith [F64.uro_pos])
  exact add_nonneg (mul_nonneg (by linarith) hA) (mul_nonneg (by norm_num) F64.tinyErr_pos.le)

theorem grow {c : F64} {q A B : ℚ} (hA : A ≤ B)
    (h : c.Finite ∧ |c.value - q| ≤ ((1 + F64.uro) ^ 8 - 1) * A + 4 ^ 8 * F64.tinyErr) :
    c.Finite ∧ |c.value - q| ≤ ((1 + F64.uro) ^ 8 - 1) * B + 4 ^ 8 * F64.tinyErr := by
  have h1 : 1 ≤ (1 + F64.uro) ^ 8 := one_le_pow₀ (by linarith [F64.uro_pos])
  exact ⟨h.1, h.2.trans (by gcongr)⟩

/-- `2 * s` is exact for an `s` whose square is far from overflow. -/
theorem two_mul_val {s : F64} (hs : s.Finite) (h : s.value * s.value ≤ F64.safe) :
    HasVal (2 * s) (2 * s.value) := by
  obtain ⟨m, k, hm, hk, hv⟩ := F64.value_rep (x := s)
  have e : F64.rnVal (2 * s.value) = 2 * s.value := by
    refine F64.rnVal_exact ⟨m, k + 1, hm, by omega, ?_⟩
    rw [hv, zpow_add_one₀ two_ne_zero]; ring
  have := F64.mul_spec two_hasVal.1 hs (by
    rw [two_hasVal.2, e]
    have h1 := F64.one_le_safe
    have h2 : |2 * s.value| ≤ 2 * F64.safe := by
      rw [abs_mul, abs_two]
      have : |s.value| ≤ F64.safe := by
        rw [← abs_mul_abs_self] at h
        nlinarith [abs_nonneg s.value]
      linarith
    refine lt_of_le_of_lt h2 ?_
    unfold F64.safe
    rw [← pow_succ']
    exact pow_lt_pow_right₀ (by norm_num) (by norm_num))
  rwa [two_hasVal.2, e] at this

theorem ampNear_sca : AmpNear .sca := by
  intro x hf
  obtain ⟨a0, a1, a2, a3, a4, a5, a6, a7⟩ := all8 hf
  simp only [cf_0, cf_1, cf_2, cf_3, cf_4, cf_5, cf_6, cf_7, engabra] at a0 a1 a2 a3 a4 a5 a6 a7
  simp only [engabra, valTy, mapTy]
  intro hs z hz q hq
  cases hz
  cases hq
  refine ⟨?_, zero_near ?_⟩
  · dsimp only
    refine fits_both (by fits) (by decide) ?_ ?_ hs
    · ring1
    · simp only [abs_mul_abs_self]
  · exact mul_self_nonneg _

theorem ampNear_vec : AmpNear .vec := by
  intro x hf
  obtain ⟨a0, a1, a2, a3, a4, a5, a6, a7⟩ := all8 hf
  simp only [cf_0, cf_1, cf_2, cf_3, cf_4, cf_5, cf_6, cf_7, engabra] at a0 a1 a2 a3 a4 a5 a6 a7
  simp only [engabra, valTy, mapTy]
  intro hs z hz q hq
  cases hz
  cases hq
  refine ⟨?_, zero_near ?_⟩
  · dsimp only
    refine fits_both (by fits) (by decide) ?_ ?_ hs
    · ring1
    · simp only [abs_mul_abs_self]
  · repeat' first | exact le_rfl | exact mul_self_nonneg _ | apply add_nonneg

theorem ampNear_biv : AmpNear .biv := by
  intro x hf
  obtain ⟨a0, a1, a2, a3, a4, a5, a6, a7⟩ := all8 hf
  simp only [cf_0, cf_1, cf_2, cf_3, cf_4, cf_5, cf_6, cf_7, engabra] at a0 a1 a2 a3 a4 a5 a6 a7
  simp only [engabra, valTy, mapTy]
  intro hs z hz q hq
  cases hz
  cases hq
  refine ⟨?_, zero_near ?_⟩
  · dsimp only
    refine fits_both (by fits) (by decide) ?_ ?_ hs
    · ring1
    · simp only [abs_mul_abs_self]
  · repeat' first | exact le_rfl | exact mul_self_nonneg _ | apply add_nonneg

theorem ampNear_tri : AmpNear .tri := by
  intro x hf
  obtain ⟨a0, a1, a2, a3, a4, a5, a6, a7⟩ := all8 hf
  simp only [cf_0, cf_1, cf_2, cf_3, cf_4, cf_5, cf_6, cf_7, engabra] at a0 a1 a2 a3 a4 a5 a6 a7
  simp only [engabra, valTy, mapTy]
  intro hs z hz q hq
  cases hz
  cases hq
  refine ⟨?_, zero_near ?_⟩
  · dsimp only
    refine fits_both (by fits) (by decide) ?_ ?_ hs
    · ring1
    · simp only [abs_mul_abs_self]
  · exact mul_self_nonneg _

theorem ampNear_spin : AmpNear .spin := by
  intro x hf
  obtain ⟨a0, a1, a2, a3, a4, a5, a6, a7⟩ := all8 hf
  simp only [cf_0, cf_1, cf_2, cf_3, cf_4, cf_5, cf_6, cf_7, engabra] at a0 a1 a2 a3 a4 a5 a6 a7
  simp only [engabra, valTy, mapTy]
  intro hs z hz q hq
  cases hz
  cases hq
  refine ⟨?_, zero_near ?_⟩
  · dsimp only
    refine fits_both (by fits) (by decide) ?_ ?_ hs
    · ring1
    · simp only [abs_mul_abs_self]
  · repeat' first | exact le_rfl | exact mul_self_nonneg _ | apply add_nonneg

theorem ampNear_imsp : AmpNear .imsp := by
  intro x hf
  obtain ⟨a0, a1, a2, a3, a4, a5, a6, a7⟩ := all8 hf
  simp only [cf_0, cf_1, cf_2, cf_3, cf_4, cf_5, cf_6, cf_7, engabra] at a0 a1 a2 a3 a4 a5 a6 a7
  simp only [engabra, valTy, mapTy]
  intro hs z hz q hq
  cases hz
  cases hq
  refine ⟨?_, zero_near ?_⟩
  · dsimp only
    refine fits_both (by fits) (by decide) ?_ ?_ hs
    · ring1
    · simp only [abs_mul_abs_self]
  · repeat' first | exact le_rfl | exact mul_self_nonneg _ | apply add_nonneg

theorem ampNear_cplx : AmpNear .cplx := by
  intro x hf
  obtain ⟨a0, a1, a2, a3, a4, a5, a6, a7⟩ := all8 hf
  simp only [cf_0, cf_1, cf_2, cf_3, cf_4, cf_5, cf_6, cf_7, engabra] at a0 a1 a2 a3 a4 a5 a6 a7
  simp only [engabra, valTy, mapTy]
  intro hs z hz q hq
  cases hz
  cases hq
  dsimp only
  have n0 := mul_self_nonneg x.theSca.theData.d0.value
  have n7 := mul_self_nonneg x.theTri.theData.d0.value
  refine ⟨?_, ?_⟩
  · refine fits_both (by fits) (by decide) ?_ ?_ hs
    · ring1
    · simp only [abs_mul_abs_self]
  · have h2 := two_mul_val a0 (le_trans (by linarith only [n7]) hs)
    have hA : |2 * x.theSca.theData.d0.value| * |x.theTri.theData.d0.value|
        ≤ x.theSca.theData.d0.value * x.theSca.theData.d0.value
          + x.theTri.theData.d0.value * x.theTri.theData.d0.value := by
      rw [← abs_mul_abs_self x.theSca.theData.d0.value, ← abs_mul_abs_self x.theTri.theData.d0.value,
        abs_mul, abs_two]
      nlinarith only [sq_nonneg (|x.theSca.theData.d0.value| - |x.theTri.theData.d0.value|)]
    refine grow hA (fits_both (F64.Fits.mul h2.1 a7) (by decide) ?_ ?_ (hA.trans hs)) <;> rw [h2.2]

theorem ampNear_dplx : AmpNear .dplx := by
  intro x hf
  obtain ⟨a0, a1, a2, a3, a4, a5, a6, a7⟩ := all8 hf
  simp only [cf_0, cf_1, cf_2, cf_3, cf_4, cf_5, cf_6, cf_7, engabra] at a0 a1 a2 a3 a4 a5 a6 a7
  simp only [engabra, valTy, mapTy]
  intro hs z hz q hq
  cases hz
  cases hq
  dsimp only
  refine ⟨?_, ?_⟩
  · refine fits_both (by fits) (by decide) ?_ ?_ hs
    · ring1
    · simp only [abs_mul_abs_self]
  · have hA : 2 * (0 + |x.theVec.theData.d0.value| * |x.theBiv.theData.d0.value|
          + |x.theVec.theData.d1.value| * |x.theBiv.theData.d1.value|
          + |x.theVec.theData.d2.value| * |x.theBiv.theData.d2.value|)
        ≤ 0 + x.theVec.theData.d0.value * x.theVec.theData.d0.value
            + x.theVec.theData.d1.value * x.theVec.theData.d1.value
            + x.theVec.theData.d2.value * x.theVec.theData.d2.value
          + (0 + x.theBiv.theData.d0.value * x.theBiv.theData.d0.value
            + x.theBiv.theData.d1.value * x.theBiv.theData.d1.value
            + x.theBiv.theData.d2.value * x.theBiv.theData.d2.value) := by
      simp only [← abs_mul_abs_self x.theVec.theData.d0.value, ← abs_mul_abs_self x.theVec.theData.d1.value,
        ← abs_mul_abs_self x.theVec.theData.d2.value, ← abs_mul_abs_self x.theBiv.theData.d0.value,
        ← abs_mul_abs_self x.theBiv.theData.d1.value, ← abs_mul_abs_self x.theBiv.theData.d2.value]
      nlinarith only [sq_nonneg (|x.theVec.theData.d0.value| - |x.theBiv.theData.d0.value|),
        sq_nonneg (|x.theVec.theData.d1.value| - |x.theBiv.theData.d1.value|),
        sq_nonneg (|x.theVec.theData.d2.value| - |x.theBiv.theData.d2.value|)]
    refine grow hA (fits_both (F64.Fits.neg (by apply fits_two; fits)) (by decide) ?_ ?_ (hA.trans hs)) <;> rfl

theorem ampNear_mv : AmpNear .mv := by
  intro x hf hs z hz q hq
  cases hz
  cases hq
  have hA := ampAbs_le (valTy .mv x : MultiVector ℚ)
  exact ⟨ampSq_sca_fits x hf hs, grow hA (ampSq_tri_fits x hf (hA.trans hs))⟩

theorem ampNear (t : Ty) : AmpNear t := by
  cases t
  · intro x _ _ z hz; cases hz
  exacts [ampNear_sca, ampNear_vec, ampNear_biv, ampNear_tri, ampNear_spin, ampNear_imsp,
    ampNear_cplx, ampNear_dplx, ampNear_mv]

end Engabra
