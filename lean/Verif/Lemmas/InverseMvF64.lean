import Verif.Lemmas.CplxF64

/-! # `ampSq(MultiVector)` and the last step of `inverse<MultiVector>` at `F64` -/

namespace Engabra

open F64 (Finite HasVal)

theorem two_hasVal : HasVal (2 : F64) 2 := by
  have := F64.lit_pow (q := 2) (e := 1) (by norm_num) (by norm_num) (by norm_num)
  rwa [zpow_one] at this

theorem approx_two {c : F64} {q A : ℚ} {n : ℕ} (h : F64.Approx c q A n) :
    F64.Approx (2 * c) (2 * q) (2 * A) (n + 1) := by
  have hA : 0 ≤ A := (abs_nonneg _).trans h.1
  refine ⟨by rw [abs_mul, abs_two]; linarith [h.1], fun hc => ?_⟩
  have fc := (F64.mul_finite hc).2
  have e : (2 * c).value = 2 * c.value := by
    rw [F64.mul_value hc, two_hasVal.2]
    obtain ⟨m, k, hm, hk, hv⟩ := F64.value_rep (x := c)
    refine F64.rnVal_exact ⟨m, k + 1, hm, by omega, ?_⟩
    rw [hv, zpow_add_one₀ two_ne_zero]; ring
  rw [e, ← mul_sub, abs_mul, abs_two]
  have h1 := h.2 fc
  have h2 : (1 + F64.uro) ^ n ≤ (1 + F64.uro) ^ (n + 1) :=
    pow_le_pow_right₀ (by linarith [F64.uro_pos]) (Nat.le_succ n)
  have h3 : (4 : ℚ) ^ (n + 1) = 4 * 4 ^ n := by rw [pow_succ]; ring
  have h4 : (0 : ℚ) < 4 ^ n := by positivity
  rw [h3]
  have h5 := mul_le_mul_of_nonneg_right h2 hA
  have h6 := mul_pos h4 F64.tinyErr_pos
  nlinarith

theorem fits_two {c : F64} {q A : ℚ} {n : ℕ} (h : F64.Fits c q A n) :
    F64.Fits (2 * c) (2 * q) (2 * A) (n + 1) := by
  have hA : 0 ≤ A := (abs_nonneg _).trans h.1.1
  refine ⟨approx_two h.1, fun hn hs => ?_⟩
  have fc := h.2 (by omega) (by linarith)
  have hb := h.1.bound (by omega) fc
  refine (F64.mul_spec two_hasVal.1 fc (F64.safe_lt ?_)).1
  rw [two_hasVal.2, abs_mul, abs_two]
  have ht : 4 ^ 8 * F64.tinyErr ≤ 1 / 4 := by
    unfold F64.tinyErr
    have h : (2 : ℚ) ^ (-1075 : ℤ) ≤ 2 ^ (-18 : ℤ) :=
      zpow_le_zpow_right₀ (by norm_num) (by norm_num)
    have h2 : (2 : ℚ) ^ (-18 : ℤ) = 1 / 262144 := by norm_num
    rw [h2] at h
    linarith
  have := F64.one_le_safe
  linarith

/-- Sum of the absolute values of the terms of the trivector part of `ampSq`. -/
def ampAbs (M : MultiVector ℚ) : ℚ :=
  2 * (|cf M 0| * |cf M 7| + (|cf M 1| * |cf M 4| + |cf M 2| * |cf M 5| + |cf M 3| * |cf M 6|))

theorem ampAbs_le (M : MultiVector ℚ) : ampAbs M ≤ magSq M := by
  have e : magSq M = ∑ k : Fin 8, |cf M k| ^ 2 := by
    simp only [sq_abs, Fin.sum_univ_eight, cf_0, cf_1, cf_2, cf_3, cf_4, cf_5, cf_6, cf_7, engabra]
    ring
  rw [e, Fin.sum_univ_eight]
  unfold ampAbs
  nlinarith [sq_nonneg (|cf M 0| - |cf M 7|), sq_nonneg (|cf M 1| - |cf M 4|),
    sq_nonneg (|cf M 2| - |cf M 5|), sq_nonneg (|cf M 3| - |cf M 6|)]

theorem fits_both {c : F64} {q A q' A' : ℚ} {n : ℕ} (h : F64.Fits c q A n) (hn : n ≤ 8)
    (hq : q = q') (hA : A = A') (hs : A' ≤ F64.safe) :
    c.Finite ∧ |c.value - q'| ≤ ((1 + F64.uro) ^ 8 - 1) * A' + 4 ^ 8 * F64.tinyErr :=
  ⟨h.use hn hA hs, h.1.use hn hq hA (h.use hn hA hs)⟩

theorem ampSq_sca_fits (M : MultiVector F64) (hf : FiniteTy .mv M)
    (hs : magSq (valTy .mv M : MultiVector ℚ) ≤ F64.safe) :
    (ampSq M).theSca.theData.d0.Finite ∧ |(ampSq M).theSca.theData.d0.value
      - (ampSq (valTy .mv M : MultiVector ℚ)).theSca.theData.d0|
      ≤ ((1 + F64.uro) ^ 8 - 1) * magSq (valTy .mv M : MultiVector ℚ) + 4 ^ 8 * F64.tinyErr := by
  obtain ⟨a0, a1, a2, a3, a4, a5, a6, a7⟩ := all8 hf
  simp only [cf_0, cf_1, cf_2, cf_3, cf_4, cf_5, cf_6, cf_7, engabra] at a0 a1 a2 a3 a4 a5 a6 a7
  revert hs
  simp only [engabra, valTy, mapTy]
  intro hs
  refine fits_both (by fits) (by decide) ?_ ?_ hs
  · ring1
  · simp only [abs_mul_abs_self]

theorem ampSq_tri_fits (M : MultiVector F64) (hf : FiniteTy .mv M)
    (hs : ampAbs (valTy .mv M : MultiVector ℚ) ≤ F64.safe) :
    (ampSq M).theTri.theData.d0.Finite ∧ |(ampSq M).theTri.theData.d0.value
      - (ampSq (valTy .mv M : MultiVector ℚ)).theTri.theData.d0|
      ≤ ((1 + F64.uro) ^ 8 - 1) * ampAbs (valTy .mv M : MultiVector ℚ) + 4 ^ 8 * F64.tinyErr := by
  obtain ⟨a0, a1, a2, a3, a4, a5, a6, a7⟩ := all8 hf
  simp only [cf_0, cf_1, cf_2, cf_3, cf_4, cf_5, cf_6, cf_7, engabra] at a0 a1 a2 a3 a4 a5 a6 a7
  revert hs
  simp only [engabra, valTy, mapTy, ampAbs, cf_0, cf_1, cf_2, cf_3, cf_4, cf_5, cf_6, cf_7]
  intro hs
  refine fits_both (by apply fits_two; fits) (by decide) ?_ ?_ hs
  · rfl
  · first | rfl | ring1

/-- The last step of `inverse<MultiVector>`: the product with a `ComPlex`, part by part. -/
theorem central_fits (w : F64 × F64) (M : MultiVector F64) (hw : Fin2 w) (hf : FiniteTy .mv M)
    (k : Fin 8)
    (hs : absMul (cf (toMV (valTy .cplx (ComPlex.from w) : ComPlex ℚ)))
      (cf (dirverse (valTy .mv M : MultiVector ℚ))) k ≤ F64.safe) :
    (cf ((ComPlex.from w).theSca * dirverse M + (ComPlex.from w).theTri * dirverse M) k).Finite ∧
    |(cf ((ComPlex.from w).theSca * dirverse M + (ComPlex.from w).theTri * dirverse M) k).value
      - cf (toMV (valTy .cplx (ComPlex.from w) : ComPlex ℚ)
          * dirverse (valTy .mv M : MultiVector ℚ)) k|
      ≤ ((1 + F64.uro) ^ 8 - 1) * absMul (cf (toMV (valTy .cplx (ComPlex.from w) : ComPlex ℚ)))
          (cf (dirverse (valTy .mv M : MultiVector ℚ))) k + 4 ^ 8 * F64.tinyErr := by
  obtain ⟨a0, a1, a2, a3, a4, a5, a6, a7⟩ := all8 hf
  obtain ⟨b0, b1⟩ := hw
  simp only [cf_0, cf_1, cf_2, cf_3, cf_4, cf_5, cf_6, cf_7, engabra] at a0 a1 a2 a3 a4 a5 a6 a7
  revert k
  apply forall_fin8
  all_goals
    simp only [cf_0, cf_1, cf_2, cf_3, cf_4, cf_5, cf_6, cf_7, engabra, valTy, mapTy, absMul_0,
      absMul_1, absMul_2, absMul_3, absMul_4, absMul_5, absMul_6, absMul_7, ComPlex.from]
    intro hs
    refine fits_both (by fits) (by decide) ?_ ?_ hs
    · first | ring1 | (simp only [F64.value_neg]; ring1)
    · abs_sum

theorem u8_le {A : ℚ} (hA : 0 ≤ A) : ((1 + F64.uro) ^ 8 - 1) * A + 4 ^ 8 * F64.tinyErr
    ≤ 9 * 2 ^ (-53 : ℤ) * A + 2 ^ (-1059 : ℤ) := by
  refine add_le_add ?_ ?_
  · refine mul_le_mul_of_nonneg_right ?_ hA
    unfold F64.uro; norm_num
  · unfold F64.tinyErr
    rw [show (-1059 : ℤ) = 16 + -1075 from by norm_num only, zpow_add₀ (by norm_num)]
    refine le_of_eq (congrArg (· * (2 : ℚ) ^ (-1075 : ℤ)) ?_)
    norm_num

end Engabra
