import Verif.Lemmas.RigidEst

/-! # `S * v * reverse(S)` for spinors of any length -/

namespace Engabra

open F64 (Finite HasVal)

theorem length_rev (R : Spinor ℝ) : length .spin (reverse R) = length .spin R := by
  rw [length_eq, length_eq]
  congr 1
  simp only [magSqTy, engabra]; ring

theorem finite_rev {S : Spinor F64} (fS : FiniteTy .spin S) : FiniteTy .spin (reverse S) := by
  apply finiteTy_of
  intro c hc
  have f := fun k => fS k
  have f0 := f 0; have f4 := f 4; have f5 := f 5; have f6 := f 6
  simp only [cf_0, cf_4, cf_5, cf_6, engabra] at f0 f4 f5 f6
  simp only [comps, engabra, List.mem_cons, List.not_mem_nil, or_false] at hc
  rcases hc with rfl | rfl | rfl | rfl
  · exact f0
  · exact F64.neg_finite f4
  · exact F64.neg_finite f5
  · exact F64.neg_finite f6

/-- `S * v * reverse(S)` with `S` near an exact spinor of length `r`. -/
theorem sandwich_scaled (t : Ty) {S : Spinor F64} {R : Spinor ℝ} (v : t.D F64) (fS : FiniteTy .spin S)
    (fv : FiniteTy t v) {r D : ℝ} (hR : length .spin R = r)
    (hS : length .mv (realMV .spin S - promote .spin R) ≤ D * r) (hD0 : 0 ≤ D) (hD : D ≤ 1 / 100)
    (hr : r ≤ 2 ^ 300) (hv : euclid t v ≤ 2 ^ 300) :
    FiniteTy _ (mulTy (mulRes .spin t) .spin (mulTy .spin t S v) (reverse S)) ∧
    length .mv (realMV _ (mulTy (mulRes .spin t) .spin (mulTy .spin t S v) (reverse S))
        - promote .spin R * realMV t v * promote .spin (reverse R))
      ≤ ((1 + D) ^ 2 * (1 + 27 * uR) ^ 2 - 1) * (r ^ 2 * euclid t v) + 2 ^ (-700 : ℤ) := by
  have hr0 : 0 ≤ r := hR ▸ length_nonneg _ _
  have hv0 : 0 ≤ euclid t v := Real.sqrt_nonneg _
  have hu0 := uR_nonneg
  have hu1 := uR_small
  have hu27 : 27 * uR ≤ 1 := by
    revert hu1
    generalize uR = u
    intro h
    linarith only [h]
  have hS0 : 0 ≤ euclid .spin S := Real.sqrt_nonneg _
  have lS : euclid .spin S ≤ (1 + D) * r := by
    have := length_le_add (realMV .spin S) (promote .spin R)
    rw [length_realMV, length_promote, hR] at this
    linarith
  have hrev : length .mv (realMV .spin (reverse S) - promote .spin (reverse R)) ≤ D * r := by
    rw [length_reverse_sub]; exact hS
  have hrR : length .spin (reverse R) = r := by rw [length_rev, hR]
  have lr : euclid .spin (reverse S) ≤ (1 + D) * r := by
    have := length_le_add (realMV .spin (reverse S)) (promote .spin (reverse R))
    rw [length_realMV, length_promote, hrR] at this
    linarith
  have hr0' : 0 ≤ euclid .spin (reverse S) := Real.sqrt_nonneg _
  have fr := finite_rev fS
  have hDr : (1 + D) * r ≤ 2 * r := mul_le_mul_of_nonneg_right (by linarith) hr0
  have hDr0 : 0 ≤ (1 + D) * r := mul_nonneg (by linarith) hr0
  have h1v : euclid .spin S * euclid t v ≤ (1 + D) * r * euclid t v :=
    mul_le_mul_of_nonneg_right lS hv0
  have hrv : r * euclid t v ≤ 2 ^ 600 := by
    refine (mul_le_mul hr hv hv0 (by positivity)).trans_eq ?_
    rw [← pow_add, show 300 + 300 = 600 by norm_num]
  have hT0 : (0 : ℝ) ≤ 2 ^ (-1057 : ℤ) := (F64.two_zpow_pos _).le
  have hTT : (2 : ℝ) ^ (-1057 : ℤ) ≤ 1 := zpow_le_one_of_nonpos₀ one_le_two (by norm_num)
  have hone : (1 : ℝ) ≤ 2 ^ 600 := one_le_pow₀ one_le_two
  have hb1 : (2 : ℝ) ^ 603 = 8 * 2 ^ 600 := by
    rw [show 603 = 3 + 600 by norm_num, pow_add]; norm_num
  have hb2 : (2 : ℝ) ^ 603 ≤ 2 ^ 1022 := pow_le_pow_right₀ one_le_two (by norm_num)
  have hDrv : (1 + D) * r * euclid t v ≤ 2 * 2 ^ 600 := by
    have h := mul_le_mul_of_nonneg_right hDr hv0
    linarith only [h, hrv]
  obtain ⟨f1, g1⟩ := product_real .spin t S v fS fv (by
    generalize (2 : ℝ) ^ 600 = a at *
    generalize (2 : ℝ) ^ 603 = b at *
    generalize (2 : ℝ) ^ 1022 = e at *
    linarith only [h1v, hDrv, hb1, hb2, hone])
  have lw : euclid _ (mulTy .spin t S v)
      ≤ (1 + 27 * uR) * ((1 + D) * r * euclid t v) + 2 ^ (-1057 : ℤ) := by
    have := length_le_add (realMV _ (mulTy .spin t S v)) (realMV .spin S * realMV t v)
    rw [length_realMV, show length .mv (realMV .spin S * realMV t v) = euclid .spin S * euclid t v by
      rw [realMV, length_mul_left .spin rfl, length_realTy, length_realMV]] at this
    have h3 := mul_le_mul_of_nonneg_left h1v (by linarith : 0 ≤ 27 * uR)
    linarith only [this, h3, g1, h1v]
  generalize hw : mulTy .spin t S v = w at *
  have hw0 : 0 ≤ euclid _ w := Real.sqrt_nonneg _
  have hwr : euclid _ w * euclid .spin (reverse S) ≤ euclid _ w * ((1 + D) * r) :=
    mul_le_mul_of_nonneg_left lr hw0
  obtain ⟨f2, g2⟩ := product_real _ .spin w (reverse S) f1 fr (by
    refine hwr.trans ?_
    have h6 : (1 + 27 * uR) * ((1 + D) * r * euclid t v) ≤ 2 * (2 * 2 ^ 600) :=
      mul_le_mul (by linarith only [hu27]) hDrv (mul_nonneg hDr0 hv0) (by norm_num)
    have h7 : euclid _ w ≤ 8 * 2 ^ 600 := by
      generalize (2 : ℝ) ^ (-1057 : ℤ) = T at *
      generalize (2 : ℝ) ^ 600 = a at *
      linarith only [lw, h6, hTT, hone]
    have h8 : (1 + D) * r ≤ 2 * 2 ^ 300 := hDr.trans (by linarith only [hr])
    refine (mul_le_mul h7 h8 hDr0 (by positivity)).trans ?_
    rw [show (8 : ℝ) * 2 ^ 600 * (2 * 2 ^ 300) = 2 ^ (3 + 600 + (1 + 300)) by
      simp only [pow_add]; norm_num only]
    exact pow_le_pow_right₀ one_le_two (by norm_num))
  refine ⟨f2, ?_⟩
  have h2 := length_tri (realMV _ (mulTy _ .spin w (reverse S))) (realMV _ w * realMV .spin (reverse S))
    (promote .spin R * realMV t v * promote .spin (reverse R))
  have h3 := length_tri (realMV _ w * realMV .spin (reverse S))
    (promote .spin R * realMV t v * realMV .spin (reverse S))
    (promote .spin R * realMV t v * promote .spin (reverse R))
  have e1 : length .mv (realMV _ w * realMV .spin (reverse S)
        - promote .spin R * realMV t v * realMV .spin (reverse S))
      ≤ (27 * uR * ((1 + D) * r * euclid t v) + 2 ^ (-1057 : ℤ) + D * r * euclid t v) * ((1 + D) * r) := by
    rw [show realMV _ w * realMV .spin (reverse S)
        - promote .spin R * realMV t v * realMV .spin (reverse S)
      = (realMV _ w - promote .spin R * realMV t v) * promote .spin (realTy .spin (reverse S)) by
        generalize realMV _ w = X; generalize realMV t v = Y; unfold realMV; mv_ring,
      length_mul_right .spin rfl, length_realTy]
    refine mul_le_mul ?_ lr hr0' (by positivity)
    have h4 := length_tri (realMV _ w) (realMV .spin S * realMV t v) (promote .spin R * realMV t v)
    rw [show realMV .spin S * realMV t v - promote .spin R * realMV t v
      = (realMV .spin S - promote .spin R) * realMV t v by
        generalize realMV t v = Y; unfold realMV; mv_ring] at h4
    have h5 : length .mv ((realMV .spin S - promote .spin R) * realMV t v) ≤ D * r * euclid t v := by
      have : realMV .spin S - promote .spin R = promote .spin (realTy .spin S - R) := by
        unfold realMV; mv_ring
      rw [this] at hS ⊢
      rw [length_mul_left .spin rfl, length_realMV, ← length_promote]
      exact mul_le_mul_of_nonneg_right hS hv0
    have h6 := mul_le_mul_of_nonneg_left h1v (by linarith : 0 ≤ 27 * uR)
    linarith only [h4, h5, h6, g1]
  have e2 : length .mv (promote .spin R * realMV t v * realMV .spin (reverse S)
        - promote .spin R * realMV t v * promote .spin (reverse R)) ≤ r * (D * r * euclid t v) := by
    have : realMV .spin (reverse S) - promote .spin (reverse R)
        = promote .spin (realTy .spin (reverse S) - reverse R) := by
      unfold realMV; mv_ring
    rw [show promote .spin R * realMV t v * realMV .spin (reverse S)
        - promote .spin R * realMV t v * promote .spin (reverse R)
      = promote .spin R * (realMV t v * promote .spin (realTy .spin (reverse S) - reverse R)) by
        generalize realMV t v = Y; unfold realMV; mv_ring,
      length_mul_left .spin rfl, hR, length_mul_right .spin rfl, length_realMV,
      ← length_promote, ← this, mul_comm (euclid t v)]
    exact mul_le_mul_of_nonneg_left (mul_le_mul_of_nonneg_right hrev hv0) hr0
  have g2' : length .mv (realMV _ (mulTy _ .spin w (reverse S)) - realMV _ w * realMV .spin (reverse S))
      ≤ 27 * uR * (((1 + 27 * uR) * ((1 + D) * r * euclid t v) + 2 ^ (-1057 : ℤ)) * ((1 + D) * r))
        + 2 ^ (-1057 : ℤ) := by
    refine g2.trans (add_le_add (mul_le_mul_of_nonneg_left (hwr.trans ?_) (by linarith)) le_rfl)
    exact mul_le_mul_of_nonneg_right lw hDr0
  have hfin := h2.trans (add_le_add g2' (h3.trans (add_le_add e1 e2)))
  refine hfin.trans ?_
  have hTr : (2 : ℝ) ^ (-1057 : ℤ) * ((1 + D) * r) ≤ 2 ^ (-756 : ℤ) := by
    refine (mul_le_mul_of_nonneg_left (hDr.trans (by linarith only [hr] : 2 * r ≤ 2 * 2 ^ 300)) hT0).trans_eq ?_
    rw [← pow_succ', ← zpow_natCast, ← zpow_add₀ two_ne_zero]
    norm_num
  have hT1 : (2 : ℝ) ^ (-1057 : ℤ) ≤ 2 ^ (-756 : ℤ) := zpow_le_zpow_right₀ one_le_two (by norm_num)
  have hT2 : 4 * (2 : ℝ) ^ (-756 : ℤ) ≤ 2 ^ (-700 : ℤ) := by
    rw [show (4 : ℝ) = 2 ^ (2 : ℤ) by norm_num, ← zpow_add₀ two_ne_zero]
    exact zpow_le_zpow_right₀ one_le_two (by norm_num)
  have hTr0 : 0 ≤ (2 : ℝ) ^ (-1057 : ℤ) * ((1 + D) * r) := mul_nonneg hT0 hDr0
  have h7 : 27 * uR * ((2 : ℝ) ^ (-1057 : ℤ) * ((1 + D) * r)) ≤ 1 * ((2 : ℝ) ^ (-1057 : ℤ) * ((1 + D) * r)) :=
    mul_le_mul_of_nonneg_right hu27 hTr0
  generalize (2 : ℝ) ^ (-1057 : ℤ) = T at *
  generalize (2 : ℝ) ^ (-756 : ℤ) = T' at *
  generalize (2 : ℝ) ^ (-700 : ℤ) = T'' at *
  generalize uR = u at *
  generalize euclid t v = V at *
  linear_combination h7 + 2 * hTr + hT1 + hT2 + (hTr0.trans hTr)

end Engabra
