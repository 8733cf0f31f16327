import Verif.Props.C46_ExpAccuracy
import Verif.Props.C17_C18_Inverse

/-! # Complex arithmetic of the C++ library at `F64`, and `inverse<ComPlex>` -/

namespace Engabra

open F64 (Finite HasVal)

/-- Both parts are finite. -/
def Fin2 (z : F64 × F64) : Prop := z.1.Finite ∧ z.2.Finite

/-- The complex number a pair stands for. -/
def cval (z : F64 × F64) : ℂ := ⟨z.1.value, z.2.value⟩

/-- Specification: `operator*`, `operator/(double, ·)` and `std::abs` of `std::complex<double>`
are accurate to `ε` relative to the norm of the result, as long as the exact result (and for
`/` and `abs` the operand) has a norm between `2^-900` and `2^900`; zero times anything is zero
and the norm of zero is zero. -/
structure LibcOk [LibM F64] (ε : ℝ) : Prop where
  mul_zero : ∀ z w, Fin2 z → Fin2 w → cval z * cval w = 0 →
    Fin2 (LibM.cmul z w) ∧ cval (LibM.cmul z w) = 0
  mul : ∀ z w, Fin2 z → Fin2 w → (2 : ℝ) ^ (-900 : ℤ) ≤ ‖cval z * cval w‖ →
    ‖cval z * cval w‖ ≤ 2 ^ (900 : ℤ) →
    Fin2 (LibM.cmul z w) ∧ ‖cval (LibM.cmul z w) - cval z * cval w‖ ≤ ε * ‖cval z * cval w‖
  recip : ∀ z, Fin2 z → (2 : ℝ) ^ (-900 : ℤ) ≤ ‖cval z‖ → ‖cval z‖ ≤ 2 ^ (900 : ℤ) →
    Fin2 (LibM.cdiv 1 z) ∧ ‖cval (LibM.cdiv 1 z) - (cval z)⁻¹‖ ≤ ε * ‖(cval z)⁻¹‖
  abs_zero : ∀ z, Fin2 z → cval z = 0 → HasVal (LibM.cabs z) 0
  abs : ∀ z, Fin2 z → (2 : ℝ) ^ (-900 : ℤ) ≤ ‖cval z‖ → ‖cval z‖ ≤ 2 ^ (900 : ℤ) →
    (LibM.cabs z).Finite ∧ |((LibM.cabs z).value : ℝ) - ‖cval z‖| ≤ ε * ‖cval z‖

theorem cval_conj (z : F64 × F64) : cval (z.1, -z.2) = (starRingEnd ℂ) (cval z) := by
  apply Complex.ext
  · rfl
  · simp [cval, F64.value_neg]

theorem norm_bounds {a b : ℂ} {ε : ℝ} (h : ‖a - b‖ ≤ ε * ‖b‖) :
    (1 - ε) * ‖b‖ ≤ ‖a‖ ∧ ‖a‖ ≤ (1 + ε) * ‖b‖ := by
  have h1 := norm_sub_norm_le b a
  have h2 := norm_sub_norm_le a b
  rw [norm_sub_rev] at h1
  constructor <;> linarith

theorem pow_split (a b : ℤ) : (2 : ℝ) ^ (a + b) = 2 ^ a * 2 ^ b := zpow_add₀ two_ne_zero a b

/-- The arithmetic of `inverse<ComPlex>` in terms of norms. -/
theorem recip_norms {Z a r w : ℂ} {ε : ℝ} (h0 : 0 ≤ ε) (h1 : ε ≤ 1 / 100) (hZ : Z ≠ 0)
    (ha : ‖a - Z * (starRingEnd ℂ) Z‖ ≤ ε * ‖Z * (starRingEnd ℂ) Z‖)
    (hr : ‖r - a⁻¹‖ ≤ ε * ‖a⁻¹‖)
    (hw : ‖w - (starRingEnd ℂ) Z * r‖ ≤ ε * ‖(starRingEnd ℂ) Z * r‖) :
    ‖w - Z⁻¹‖ ≤ 4 * ε * ‖Z⁻¹‖ := by
  have hn : 0 < ‖Z‖ := norm_pos_iff.2 hZ
  have hC : (starRingEnd ℂ) Z ≠ 0 := by
    intro h; apply hZ; simpa using h
  set C := (starRingEnd ℂ) Z with hCdef
  have hCn : ‖C‖ = ‖Z‖ := Complex.norm_conj Z
  have hn2 : ‖Z * C‖ = ‖Z‖ ^ 2 := by rw [norm_mul, hCn]; ring
  obtain ⟨ha1, ha2⟩ := norm_bounds ha
  rw [hn2] at ha ha1 ha2
  have hap : 0 < ‖a‖ := lt_of_lt_of_le (mul_pos (by linarith) (by positivity)) ha1
  have ha0 : a ≠ 0 := norm_pos_iff.1 hap
  obtain ⟨-, hr2⟩ := norm_bounds hr
  rw [norm_inv] at hr hr2
  have key : w - Z⁻¹ = (w - C * r) + C * ((r - a⁻¹) + (Z * C - a) * (a⁻¹ * (Z * C)⁻¹)) := by
    field_simp
    ring
  have n1 : ‖w - C * r‖ ≤ ε * (‖Z‖ * ((1 + ε) * ‖a‖⁻¹)) := by
    refine hw.trans (mul_le_mul_of_nonneg_left ?_ h0)
    rw [norm_mul, hCn]
    exact mul_le_mul_of_nonneg_left hr2 hn.le
  have n2 : ‖(Z * C - a) * (a⁻¹ * (Z * C)⁻¹)‖ ≤ ε * ‖a‖⁻¹ := by
    rw [norm_mul, norm_mul, norm_inv, norm_inv, hn2, norm_sub_rev]
    calc ‖a - Z * C‖ * (‖a‖⁻¹ * (‖Z‖ ^ 2)⁻¹) ≤ ε * ‖Z‖ ^ 2 * (‖a‖⁻¹ * (‖Z‖ ^ 2)⁻¹) :=
          mul_le_mul_of_nonneg_right ha (by positivity)
      _ = ε * ‖a‖⁻¹ := by field_simp
  have n3 : ‖C * ((r - a⁻¹) + (Z * C - a) * (a⁻¹ * (Z * C)⁻¹))‖ ≤ ‖Z‖ * (2 * (ε * ‖a‖⁻¹)) := by
    rw [norm_mul, hCn]
    refine mul_le_mul_of_nonneg_left ((norm_add_le _ _).trans ?_) hn.le
    linarith
  have n4 : ‖a‖⁻¹ ≤ ((1 - ε) * ‖Z‖ ^ 2)⁻¹ := inv_anti₀ (mul_pos (by linarith) (by positivity)) ha1
  have n5 : (3 + ε) * (1 - ε)⁻¹ ≤ 4 := by
    rw [← div_eq_mul_inv, div_le_iff₀ (by linarith)]; linarith
  rw [key]
  calc _ ≤ ε * (‖Z‖ * ((1 + ε) * ‖a‖⁻¹)) + ‖Z‖ * (2 * (ε * ‖a‖⁻¹)) :=
        (norm_add_le _ _).trans (add_le_add n1 n3)
    _ = (ε * ‖Z‖ * (3 + ε)) * ‖a‖⁻¹ := by ring
    _ ≤ (ε * ‖Z‖ * (3 + ε)) * ((1 - ε) * ‖Z‖ ^ 2)⁻¹ :=
        mul_le_mul_of_nonneg_left n4 (by positivity)
    _ = ε * ((3 + ε) * (1 - ε)⁻¹) * ‖Z‖⁻¹ := by rw [mul_inv]; field_simp
    _ ≤ ε * 4 * ‖Z‖⁻¹ := by
        refine mul_le_mul_of_nonneg_right (mul_le_mul_of_nonneg_left n5 h0) (by positivity)
    _ = 4 * ε * ‖Z⁻¹‖ := by rw [norm_inv]; ring

/-- `inverse<ComPlex>` with a complex library of accuracy `ε`. -/
theorem inverseCplx_est [LibM F64] {ε : ℝ} (h0 : 0 ≤ ε) (h1 : ε ≤ 1 / 100) (hl : LibcOk ε)
    (z : F64 × F64) (hz : Fin2 z) (hz1 : (2 : ℝ) ^ (-400 : ℤ) ≤ ‖cval z‖)
    (hz2 : ‖cval z‖ ≤ 2 ^ (400 : ℤ)) :
    ∃ w : F64 × F64, inverseCplx (ComPlex.from z) = ComPlex.from w ∧ Fin2 w ∧
      ‖cval w - (cval z)⁻¹‖ ≤ 4 * ε * ‖(cval z)⁻¹‖ := by
  have hp : (0 : ℝ) < 2 ^ (-400 : ℤ) := F64.two_zpow_pos _
  have hzc : Fin2 (z.1, -z.2) := ⟨hz.1, F64.neg_finite_iff.2 hz.2⟩
  set Z := cval z with hZ
  have hn : 0 < ‖Z‖ := hp.trans_le hz1
  have hn2 : ‖cval z * cval (z.1, -z.2)‖ = ‖Z‖ ^ 2 := by
    rw [norm_mul, cval_conj, Complex.norm_conj]; ring
  obtain ⟨L, hL⟩ : ∃ L : ℝ, L = 2 ^ (-400 : ℤ) := ⟨_, rfl⟩
  obtain ⟨U, hU⟩ : ∃ U : ℝ, U = 2 ^ (400 : ℤ) := ⟨_, rfl⟩
  rw [← hL] at hz1 hp
  rw [← hU] at hz2
  have hLU : L⁻¹ = U := by rw [hL, hU, ← zpow_neg]; norm_num only
  have hUp : 0 < U := by rw [hU]; exact F64.two_zpow_pos _
  have hUL : U⁻¹ = L := by rw [← hLU, inv_inv]
  have hU1 : 4 ≤ U := by
    rw [hU]
    calc (4 : ℝ) = 2 ^ (2 : ℤ) := by norm_num
      _ ≤ 2 ^ (400 : ℤ) := zpow_le_zpow_right₀ one_le_two (by norm_num)
  have g1 : ∀ x : ℝ, L ^ 2 / 4 ≤ x → (2 : ℝ) ^ (-900 : ℤ) ≤ x := fun x hx => by
    refine le_trans ?_ hx
    rw [le_div_iff₀ (by norm_num), hL, pow_two, ← pow_split,
      show (4 : ℝ) = 2 ^ (2 : ℤ) by norm_num, ← pow_split]
    exact zpow_le_zpow_right₀ one_le_two (by norm_num)
  have g2 : ∀ x : ℝ, x ≤ U ^ 2 * 4 → x ≤ (2 : ℝ) ^ (900 : ℤ) := fun x hx => by
    refine le_trans hx ?_
    rw [hU, pow_two, ← pow_split, show (4 : ℝ) = 2 ^ (2 : ℤ) by norm_num, ← pow_split]
    exact zpow_le_zpow_right₀ one_le_two (by norm_num)
  have g3 : ∀ x : ℝ, L ^ 2 / 4 ≤ x → (2 : ℝ) ^ (-1022 : ℤ) < x := fun x hx =>
    (zpow_lt_zpow_right₀ one_lt_two (by norm_num)).trans_le (g1 x hx)
  clear hL hU
  have b1 : L ^ 2 ≤ ‖Z‖ ^ 2 := pow_le_pow_left₀ hp.le hz1 2
  have b2 : ‖Z‖ ^ 2 ≤ U ^ 2 := pow_le_pow_left₀ hn.le hz2 2
  have q1 : 0 < L ^ 2 := by positivity
  have q2 : 0 < U ^ 2 := by positivity
  obtain ⟨fa, ha⟩ := hl.mul z (z.1, -z.2) hz hzc (g1 _ (by rw [hn2]; linarith))
    (g2 _ (by rw [hn2]; linarith))
  obtain ⟨ha1, ha2⟩ := norm_bounds ha
  rw [hn2] at ha1 ha2
  set a := LibM.cmul z (z.1, -z.2) with hadef
  have a1 : L ^ 2 / 2 ≤ ‖cval a‖ := by nlinarith
  have a2 : ‖cval a‖ ≤ U ^ 2 * 2 := by nlinarith
  obtain ⟨fb, hb⟩ := hl.abs a fa (g1 _ (by linarith)) (g2 _ (by linarith))
  have hlt : Dbl.lt (Dbl.minDub F64) (LibM.cabs a) = true := by
    rw [F64.minDub_val.flt (HasVal.of fb), decide_eq_true_eq]
    have hb' := (abs_le.1 hb).1
    have c1 : L ^ 2 / 4 ≤ ((LibM.cabs a).value : ℝ) := by
      nlinarith [norm_nonneg (cval a)]
    have c3 : (((2 : ℚ) ^ (-1022 : ℤ) : ℚ) : ℝ) < ((LibM.cabs a).value : ℝ) := by
      rw [cast_zpow]; exact g3 _ c1
    exact_mod_cast c3
  obtain ⟨fr, hr⟩ := hl.recip a fa (g1 _ (by linarith)) (g2 _ (by linarith))
  obtain ⟨hr1, hr2⟩ := norm_bounds hr
  set r := LibM.cdiv 1 a with hrdef
  have hap : 0 < ‖cval a‖ := by linarith
  have hcr : ‖cval (z.1, -z.2) * cval r‖ = ‖Z‖ * ‖cval r‖ := by
    rw [norm_mul, cval_conj, Complex.norm_conj]
  have r1 : L ^ 2 / 4 ≤ ‖Z‖ * ‖cval r‖ := by
    have e : ‖Z‖ * ‖cval r‖ ≥ ‖Z‖ * ((1 - ε) * ‖(cval a)⁻¹‖) := mul_le_mul_of_nonneg_left hr1 hn.le
    have e2 : ‖(cval a)⁻¹‖ ≥ ((1 + ε) * ‖Z‖ ^ 2)⁻¹ := by
      rw [norm_inv]; exact inv_anti₀ hap ha2
    have e3 : ‖Z‖ * ((1 - ε) * ((1 + ε) * ‖Z‖ ^ 2)⁻¹) = (1 - ε) / (1 + ε) * ‖Z‖⁻¹ := by
      field_simp
    have e4 : (1 / 2 : ℝ) ≤ (1 - ε) / (1 + ε) := by
      rw [le_div_iff₀ (by linarith)]; linarith
    have e5 : L ≤ ‖Z‖⁻¹ := by rw [← hUL]; exact inv_anti₀ hn hz2
    have e6 : L ≤ 1 := by rw [← hUL]; exact inv_le_one_of_one_le₀ (by linarith)
    have e7 : ‖Z‖ * ((1 - ε) * ((1 + ε) * ‖Z‖ ^ 2)⁻¹) ≤ ‖Z‖ * ((1 - ε) * ‖(cval a)⁻¹‖) :=
      mul_le_mul_of_nonneg_left (mul_le_mul_of_nonneg_left e2 (by linarith)) hn.le
    have e8 : 1 / 2 * ‖Z‖⁻¹ ≤ (1 - ε) / (1 + ε) * ‖Z‖⁻¹ :=
      mul_le_mul_of_nonneg_right e4 (by positivity)
    nlinarith
  have r2 : ‖Z‖ * ‖cval r‖ ≤ U ^ 2 * 4 := by
    have e : ‖Z‖ * ‖cval r‖ ≤ ‖Z‖ * ((1 + ε) * ‖(cval a)⁻¹‖) := mul_le_mul_of_nonneg_left hr2 hn.le
    have e2 : ‖(cval a)⁻¹‖ ≤ ((1 - ε) * ‖Z‖ ^ 2)⁻¹ := by
      rw [norm_inv]; exact inv_anti₀ (mul_pos (by linarith) (by positivity)) ha1
    have h1e : (1 - ε) ≠ 0 := by linarith
    have e3 : ‖Z‖ * ((1 + ε) * ((1 - ε) * ‖Z‖ ^ 2)⁻¹) = (1 + ε) / (1 - ε) * ‖Z‖⁻¹ := by
      field_simp
    have e4 : (1 + ε) / (1 - ε) ≤ 2 := by
      rw [div_le_iff₀ (by linarith)]; linarith
    have e5 : ‖Z‖⁻¹ ≤ U := by rw [← hLU]; exact inv_anti₀ hp hz1
    have e7 : ‖Z‖ * ((1 + ε) * ‖(cval a)⁻¹‖) ≤ ‖Z‖ * ((1 + ε) * ((1 - ε) * ‖Z‖ ^ 2)⁻¹) :=
      mul_le_mul_of_nonneg_left (mul_le_mul_of_nonneg_left e2 (by linarith)) hn.le
    have e8 : (1 + ε) / (1 - ε) * ‖Z‖⁻¹ ≤ 2 * ‖Z‖⁻¹ :=
      mul_le_mul_of_nonneg_right e4 (by positivity)
    nlinarith
  obtain ⟨fw, hw⟩ := hl.mul (z.1, -z.2) r hzc fr (g1 _ (by rw [hcr]; exact r1))
    (g2 _ (by rw [hcr]; exact r2))
  refine ⟨LibM.cmul (z.1, -z.2) r, ?_, fw, ?_⟩
  · exact if_pos hlt
  · rw [cval_conj] at ha hw
    exact recip_norms h0 h1 (norm_pos_iff.1 hn) ha hr hw

end Engabra
