import Verif.Model.F64
import Mathlib.Tactic.NormNum
import Mathlib.Analysis.Normed.Field.Lemmas

/-! Rounding lemmas for binary64. -/

namespace Engabra
namespace F64

variable {K : Type} [Field K] [LinearOrder K] [IsStrictOrderedRing K] [FloorRing K]

theorem log_eq {x : K} {n : ℤ} (h1 : (2 : K) ^ n ≤ x) (h2 : x < (2 : K) ^ (n + 1)) :
    Int.log 2 x = n := by
  have hx : 0 < x := lt_of_lt_of_le (two_zpow_pos n) h1
  apply le_antisymm
  · have := (Int.lt_zpow_iff_log_lt (b := 2) (by norm_num) (x := n + 1) hx).1 (by push_cast; exact h2)
    omega
  · exact (Int.zpow_le_iff_le_log (b := 2) (by norm_num) hx).1 (by push_cast; exact h1)

theorem log_ratCast (q : ℚ) (hq : 0 < q) : Int.log 2 (q : K) = Int.log 2 q := by
  apply log_eq
  · have := Int.zpow_log_le_self (b := 2) (r := q) (by norm_num) hq
    push_cast at this
    have h : (((2 : ℚ) ^ Int.log 2 q : ℚ) : K) ≤ (q : K) := by exact_mod_cast this
    rwa [Rat.cast_zpow, Rat.cast_ofNat] at h
  · have := Int.lt_zpow_succ_log_self (b := 2) (by norm_num) q
    push_cast at this
    have h : (q : K) < (((2 : ℚ) ^ (Int.log 2 q + 1) : ℚ) : K) := by exact_mod_cast this
    rwa [Rat.cast_zpow, Rat.cast_ofNat] at h

theorem ulpExp_ratCast (q : ℚ) (hq : q ≠ 0) : ulpExp (q : K) = ulpExp q := by
  unfold ulpExp
  rw [← Rat.cast_abs, log_ratCast _ (abs_pos.2 hq)]

/-- Rounding does not depend on the field in which a rational is given. -/
theorem rnVal_ratCast (q : ℚ) (hq : q ≠ 0) : rnVal (q : K) = rnVal q := by
  unfold rnVal
  rw [ulpExp_ratCast q hq]
  have : (q : K) / (2 : K) ^ ulpExp q = ((q / (2 : ℚ) ^ ulpExp q : ℚ) : K) := by
    rw [Rat.cast_div, Rat.cast_zpow, Rat.cast_ofNat]
  rw [this, rhe_ratCast]

omit [IsStrictOrderedRing K] in
theorem ulpExp_neg (x : K) : ulpExp (-x) = ulpExp x := by
  unfold ulpExp; rw [abs_neg]

theorem rnVal_neg (x : K) : rnVal (-x) = -rnVal x := by
  unfold rnVal
  rw [ulpExp_neg, neg_div, rhe_neg]
  push_cast; ring

theorem rnVal_zero : rnVal (0 : K) = 0 := by
  unfold rnVal
  rw [zero_div]
  have := rhe_int (K := K) 0
  rw [Int.cast_zero] at this
  rw [this]; simp

theorem ulpExp_le_of_lt {x : K} {e : ℤ} (hx : x ≠ 0) (he : -1074 ≤ e)
    (h : |x| < (2 : K) ^ (e + 53)) : ulpExp x ≤ e := by
  unfold ulpExp
  apply max_le _ he
  have := (Int.lt_zpow_iff_log_lt (b := 2) (by norm_num) (x := e + 53) (abs_pos.2 hx)).1
    (by push_cast; exact h)
  omega

/-- A dyadic number with at most 53 significant bits (exponent unbounded above). -/
def Rep (v : ℚ) : Prop := ∃ m e : ℤ, |m| ≤ 2 ^ 53 ∧ -1074 ≤ e ∧ v = m * (2 : ℚ) ^ e

theorem rnVal_exact_lt {v : ℚ} {m e : ℤ} (hm : |m| < 2 ^ 53) (he : -1074 ≤ e)
    (hv : v = m * (2 : ℚ) ^ e) : rnVal v = v := by
  by_cases h0 : v = 0
  · rw [h0, rnVal_zero]
  have hlt : |v| < (2 : ℚ) ^ (e + 53) := by
    have hp : |(2 : ℚ) ^ e| = (2 : ℚ) ^ e := abs_of_pos (two_zpow_pos _)
    rw [hv, abs_mul, hp, zpow_add₀ (by norm_num), mul_comm]
    apply mul_lt_mul_of_pos_left _ (two_zpow_pos _)
    rw [← Int.cast_abs]
    exact_mod_cast hm
  have hu := ulpExp_le_of_lt h0 he hlt
  unfold rnVal
  obtain ⟨k, hk⟩ := Int.eq_ofNat_of_zero_le (sub_nonneg.2 hu)
  have e1 : v / (2 : ℚ) ^ ulpExp v = ((m * 2 ^ k : ℤ) : ℚ) := by
    rw [div_eq_iff (two_zpow_pos _).ne']
    have e2 : e = (k : ℤ) + ulpExp v := by omega
    conv_lhs => rw [hv, e2]
    rw [zpow_add₀ (by norm_num), zpow_natCast]
    push_cast; ring
  rw [e1, rhe_int, ← e1, div_mul_cancel₀ _ (two_zpow_pos _).ne']

theorem rnVal_exact {v : ℚ} (h : Rep v) : rnVal v = v := by
  obtain ⟨m, e, hm, he, hv⟩ := h
  rcases lt_or_eq_of_le hm with h | h
  · exact rnVal_exact_lt h he hv
  · have e2 : (2 : ℚ) ^ (e + 1) = (2 : ℚ) ^ e * 2 := by
      rw [zpow_add₀ (by norm_num), zpow_one]
    rcases abs_choice m with h' | h' <;> rw [h'] at h
    · refine rnVal_exact_lt (m := 2 ^ 52) (e := e + 1) (by norm_num) (by omega) ?_
      rw [hv, h, e2]; push_cast; ring
    · have h2 : m = -2 ^ 53 := by omega
      refine rnVal_exact_lt (m := -2 ^ 52) (e := e + 1) (by norm_num) (by omega) ?_
      rw [hv, h2, e2]; push_cast; ring

theorem IsFin.rep {v : ℚ} (h : IsFin v) : Rep v := by
  obtain ⟨-, m, e, hm, h1, -, hv⟩ := h
  exact ⟨m, e, hm.le, h1, hv⟩

theorem IsFin.neg {v : ℚ} (h : IsFin v) : IsFin (-v) := by
  obtain ⟨h0, m, e, hm, h1, h2, hv⟩ := h
  exact ⟨neg_ne_zero.2 h0, -m, e, by rwa [abs_neg], h1, h2, by rw [hv]; push_cast; ring⟩

theorem IsFin.lt {v : ℚ} (h : IsFin v) : |v| < 2 ^ 1024 := by
  obtain ⟨h0, m, e, hm, h1, h2, hv⟩ := h
  have hp : |(2 : ℚ) ^ e| = (2 : ℚ) ^ e := abs_of_pos (two_zpow_pos _)
  rw [hv, abs_mul, hp, two_pow_split (a := 53) (b := 971) rfl]
  have hm' : |(m : ℚ)| < 2 ^ 53 := by
    rw [← Int.cast_abs]; exact_mod_cast hm
  exact mul_lt_mul hm' (zpow_le_zpow_right₀ (by norm_num) (by push_cast; exact h2))
    (two_zpow_pos _) (by positivity)

theorem IsFin.ge {v : ℚ} (h : IsFin v) : (2 : ℚ) ^ (-1074 : ℤ) ≤ |v| := by
  obtain ⟨h0, m, e, hm, h1, h2, hv⟩ := h
  have hp : |(2 : ℚ) ^ e| = (2 : ℚ) ^ e := abs_of_pos (two_zpow_pos _)
  rw [hv, abs_mul, hp]
  have hm0 : m ≠ 0 := by rintro rfl; apply h0; rw [hv]; simp
  have hm1 : (1 : ℚ) ≤ |(m : ℚ)| := by
    rw [← Int.cast_abs]; exact_mod_cast Int.one_le_abs hm0
  calc (2 : ℚ) ^ (-1074 : ℤ) ≤ (2 : ℚ) ^ e := zpow_le_zpow_right₀ (by norm_num) h1
    _ = 1 * (2 : ℚ) ^ e := (one_mul _).symm
    _ ≤ _ := mul_le_mul_of_nonneg_right hm1 (two_zpow_pos _).le

/-- Absolute error: half a unit in the last place. -/
theorem rnVal_err (x : K) : |(rnVal x : K) - x| ≤ (2 : K) ^ ulpExp x / 2 := by
  have h := rhe_err (x / (2 : K) ^ ulpExp x)
  have hp := two_zpow_pos (K := K) (ulpExp x)
  unfold rnVal
  have hpa : |(2 : K) ^ ulpExp x| = (2 : K) ^ ulpExp x := abs_of_pos hp
  have e : (((rhe (x / (2 : K) ^ ulpExp x) : ℚ) * (2 : ℚ) ^ ulpExp x : ℚ) : K) - x
      = -(x / (2 : K) ^ ulpExp x - rhe (x / (2 : K) ^ ulpExp x)) * (2 : K) ^ ulpExp x := by
    rw [Rat.cast_mul, Rat.cast_zpow, Rat.cast_ofNat, Rat.cast_intCast]
    field_simp
    ring
  rw [e, abs_mul, abs_neg, hpa]
  calc _ ≤ 1 / 2 * (2 : K) ^ ulpExp x := mul_le_mul_of_nonneg_right h hp.le
    _ = _ := by ring

theorem ulp_bound (x : K) (hx : x ≠ 0) :
    (2 : K) ^ ulpExp x ≤ max ((2 : K) ^ (-52 : ℤ) * |x|) ((2 : K) ^ (-1074 : ℤ)) := by
  rcases lt_or_eq_of_le (ulpExp_ge x) with h | h
  · apply le_max_of_le_left
    have := ulp_le_abs x hx h
    calc (2 : K) ^ ulpExp x = (2 : K) ^ (-52 : ℤ) * (2 : K) ^ (ulpExp x + 52) := by
          rw [← zpow_add₀ (by norm_num)]; congr 1; ring
      _ ≤ _ := mul_le_mul_of_nonneg_left this (two_zpow_pos _).le
  · rw [← h]; exact le_max_right _ _

/-- Error of one rounding: relative `2^-53`, or absolute `2^-1075` in the subnormal range. -/
theorem rnVal_err_rel (x : K) :
    |(rnVal x : K) - x| ≤ max ((2 : K) ^ (-53 : ℤ) * |x|) ((2 : K) ^ (-1075 : ℤ)) := by
  by_cases hx : x = 0
  · rw [hx, rnVal_zero, Rat.cast_zero, sub_zero, abs_zero, mul_zero]
    exact le_max_of_le_right (two_zpow_pos _).le
  have h1 := rnVal_err x
  have h2 := ulp_bound x hx
  have e1 : (2 : K) ^ (-52 : ℤ) = 2 * (2 : K) ^ (-53 : ℤ) := by
    rw [← zpow_one_add₀ (by norm_num)]; congr 1
  have e2 : (2 : K) ^ (-1074 : ℤ) = 2 * (2 : K) ^ (-1075 : ℤ) := by
    rw [← zpow_one_add₀ (by norm_num)]; congr 1
  rw [e1, e2] at h2
  rcases le_max_iff.1 h2 with h | h
  · apply le_max_of_le_left; linarith
  · apply le_max_of_le_right; linarith

theorem rnVal_nonneg {x : K} (h : 0 ≤ x) : 0 ≤ rnVal x := by
  unfold rnVal
  apply mul_nonneg _ (two_zpow_pos _).le
  have : (0 : ℤ) ≤ rhe (x / (2 : K) ^ ulpExp x) := by
    apply le_rhe_of_le
    rw [Int.cast_zero]
    exact div_nonneg h (two_zpow_pos _).le
  exact_mod_cast this

theorem rnVal_nonpos {x : K} (h : x ≤ 0) : rnVal x ≤ 0 := by
  have := rnVal_nonneg (x := -x) (by linarith)
  rw [rnVal_neg] at this
  linarith

theorem rnVal_mono_pos {x y : K} (hx : 0 < x) (h : x ≤ y) : rnVal x ≤ rnVal y := by
  have hy : 0 < y := lt_of_lt_of_le hx h
  have hue : ulpExp x ≤ ulpExp y := by
    unfold ulpExp
    apply max_le_max _ le_rfl
    rw [abs_of_pos hx, abs_of_pos hy]
    have := Int.log_mono_right (b := 2) hx h
    omega
  rcases eq_or_lt_of_le hue with he | hlt
  · unfold rnVal
    rw [he]
    apply mul_le_mul_of_nonneg_right _ (two_zpow_pos _).le
    have : rhe (x / (2 : K) ^ ulpExp y) ≤ rhe (y / (2 : K) ^ ulpExp y) :=
      rhe_mono (div_le_div_of_nonneg_right h (two_zpow_pos _).le)
    exact_mod_cast this
  · have h1 : rnVal x ≤ 2 ^ 53 * (2 : ℚ) ^ ulpExp x := by
      unfold rnVal
      apply mul_le_mul_of_nonneg_right _ (two_zpow_pos _).le
      exact_mod_cast (le_abs_self _).trans (rhe_scaled_abs x)
    have h2 : 2 ^ 52 * (2 : ℚ) ^ ulpExp y ≤ rnVal y := by
      unfold rnVal
      apply mul_le_mul_of_nonneg_right _ (two_zpow_pos _).le
      have h3 := rhe_scaled_ge y hy.ne' (lt_of_le_of_lt (ulpExp_ge x) hlt)
      have h4 : (0 : ℤ) ≤ rhe (y / (2 : K) ^ ulpExp y) := by
        apply le_rhe_of_le
        rw [Int.cast_zero]
        exact div_nonneg hy.le (two_zpow_pos _).le
      rw [abs_of_nonneg h4] at h3
      exact_mod_cast h3
    have h3 : (2 : ℚ) ^ 53 * (2 : ℚ) ^ ulpExp x ≤ 2 ^ 52 * (2 : ℚ) ^ ulpExp y := by
      have : (2 : ℚ) ^ (ulpExp x + 1) ≤ (2 : ℚ) ^ ulpExp y :=
        zpow_le_zpow_right₀ (by norm_num) (by omega)
      rw [zpow_add₀ (by norm_num), zpow_one] at this
      linarith
    linarith

/-- Rounding is monotone. -/
theorem rnVal_mono {x y : K} (h : x ≤ y) : rnVal x ≤ rnVal y := by
  rcases lt_trichotomy x 0 with hx | hx | hx
  · rcases lt_or_ge y 0 with hy | hy
    · have := rnVal_mono_pos (x := -y) (y := -x) (by linarith) (by linarith)
      rw [rnVal_neg, rnVal_neg] at this
      linarith
    · exact (rnVal_nonpos hx.le).trans (rnVal_nonneg hy)
  · rw [hx, rnVal_zero]; rw [hx] at h; exact rnVal_nonneg h
  · exact rnVal_mono_pos hx h

theorem rnVal_abs (x : K) : rnVal |x| = |rnVal x| := by
  rcases le_total 0 x with h | h
  · rw [abs_of_nonneg h, abs_of_nonneg (rnVal_nonneg h)]
  · rw [abs_of_nonpos h, abs_of_nonpos (rnVal_nonpos h), rnVal_neg]

theorem rnVal_ratCast' (q : ℚ) : rnVal (q : K) = rnVal q := by
  by_cases h : q = 0
  · rw [h, Rat.cast_zero, rnVal_zero, rnVal_zero]
  · exact rnVal_ratCast q h

/-- Rounding stays on the same side of a representable number. -/
theorem rnVal_le_rep {x : K} {v : ℚ} (hv : Rep v) (h : x ≤ (v : K)) : rnVal x ≤ v := by
  have := rnVal_mono h
  rwa [rnVal_ratCast', rnVal_exact hv] at this

theorem rep_le_rnVal {x : K} {v : ℚ} (hv : Rep v) (h : (v : K) ≤ x) : v ≤ rnVal x := by
  have := rnVal_mono h
  rwa [rnVal_ratCast', rnVal_exact hv] at this

theorem rep_pow (e : ℤ) (he : -1074 ≤ e) : Rep ((2 : ℚ) ^ e) :=
  ⟨1, e, by norm_num, he, by rw [Int.cast_one, one_mul]⟩

theorem rep_int (n : ℤ) (h : |n| ≤ 2 ^ 53) : Rep (n : ℚ) :=
  ⟨n, 0, h, by norm_num, by rw [zpow_zero, mul_one]⟩

theorem rep_zero : Rep 0 := ⟨0, 0, by norm_num, by norm_num, by simp⟩

theorem rhe_nearest (t : K) (n : ℤ) : |(rhe t : K) - t| ≤ |(n : K) - t| := by
  by_contra hlt
  rw [not_le] at hlt
  have h1 := rhe_err t
  rw [abs_sub_comm] at h1
  have h2 : |(n : K) - rhe t| < 1 := by
    have : (n : K) - rhe t = (n - t) - (rhe t - t) := by ring
    rw [this]
    refine lt_of_le_of_lt (abs_sub _ _) ?_
    linarith
  have h3 : |n - rhe t| < 1 := by exact_mod_cast h2
  have h4 : n = rhe t := by
    rw [Int.abs_lt_one_iff] at h3; omega
  rw [h4] at hlt
  exact lt_irrefl _ hlt

/-- The rounded value is a nearest one among the multiples of the unit in the last place. -/
theorem rnVal_nearest_mul (x : K) (n : ℤ) :
    |(rnVal x : K) - x| ≤ |(n : K) * (2 : K) ^ ulpExp x - x| := by
  have hp := two_zpow_pos (K := K) (ulpExp x)
  have hpa : |(2 : K) ^ ulpExp x| = (2 : K) ^ ulpExp x := abs_of_pos hp
  have key : ∀ m : ℤ, |(m : K) * (2 : K) ^ ulpExp x - x|
      = |(m : K) - x / (2 : K) ^ ulpExp x| * (2 : K) ^ ulpExp x := by
    intro m
    conv_rhs => rw [← hpa, ← abs_mul, hpa, sub_mul, div_mul_cancel₀ _ hp.ne']
  have e : (rnVal x : K) = (rhe (x / (2 : K) ^ ulpExp x) : K) * (2 : K) ^ ulpExp x := by
    unfold rnVal
    rw [Rat.cast_mul, Rat.cast_zpow, Rat.cast_ofNat, Rat.cast_intCast]
  rw [e, key, key]
  exact mul_le_mul_of_nonneg_right (rhe_nearest _ n) hp.le

/-- **Round to nearest**: no representable number is nearer than the rounded value. -/
theorem rnVal_nearest (x : K) {v : ℚ} (hv : Rep v) : |(rnVal x : K) - x| ≤ |(v : K) - x| := by
  by_cases hx : x = 0
  · rw [hx, rnVal_zero, Rat.cast_zero, sub_self, abs_zero]; exact abs_nonneg _
  obtain ⟨m, f, hm, hf, hv⟩ := hv
  rcases le_or_gt (ulpExp x) f with hle | hlt
  · obtain ⟨k, hk⟩ := Int.eq_ofNat_of_zero_le (sub_nonneg.2 hle)
    have e : (v : K) = ((m * 2 ^ k : ℤ) : K) * (2 : K) ^ ulpExp x := by
      have e2 : f = (k : ℤ) + ulpExp x := by omega
      rw [hv, Rat.cast_mul, Rat.cast_zpow, Rat.cast_ofNat, Rat.cast_intCast, e2,
        zpow_add₀ (by norm_num), zpow_natCast]
      push_cast; ring
    rw [e]; exact rnVal_nearest_mul x _
  · have hu := ulp_le_abs x hx (by omega)
    have hb : |(v : K)| ≤ (2 : K) ^ (ulpExp x + 52) := by
      have hp : |(2 : K) ^ f| = (2 : K) ^ f := abs_of_pos (two_zpow_pos _)
      rw [hv, Rat.cast_mul, Rat.cast_zpow, Rat.cast_ofNat, Rat.cast_intCast, abs_mul, hp]
      calc |(m : K)| * (2 : K) ^ f ≤ (2 : K) ^ (53 : ℤ) * (2 : K) ^ f := by
            apply mul_le_mul_of_nonneg_right _ (two_zpow_pos _).le
            rw [← Int.cast_abs]
            exact_mod_cast hm
        _ = (2 : K) ^ (53 + f) := (zpow_add₀ (by norm_num) _ _).symm
        _ ≤ _ := zpow_le_zpow_right₀ (by norm_num) (by omega)
    have e52 : (2 : K) ^ (ulpExp x + 52) = ((2 ^ 52 : ℤ) : K) * (2 : K) ^ ulpExp x := by
      rw [zpow_add₀ (by norm_num), mul_comm]; norm_num
    rw [abs_le] at hb
    rcases le_total 0 x with h0 | h0
    · rw [abs_of_nonneg h0] at hu
      have h1 := rnVal_nearest_mul x (2 ^ 52)
      rw [← e52, abs_of_nonpos (by linarith : (2 : K) ^ (ulpExp x + 52) - x ≤ 0)] at h1
      rw [abs_of_nonpos (by linarith : (v : K) - x ≤ 0)]
      linarith
    · rw [abs_of_nonpos h0] at hu
      have h1 := rnVal_nearest_mul x (-2 ^ 52)
      have e53 : ((-2 ^ 52 : ℤ) : K) * (2 : K) ^ ulpExp x = -(2 : K) ^ (ulpExp x + 52) := by
        rw [e52]; push_cast; ring
      rw [e53, abs_of_nonneg (by linarith : 0 ≤ -(2 : K) ^ (ulpExp x + 52) - x)] at h1
      rw [abs_of_nonneg (by linarith : 0 ≤ (v : K) - x)]
      linarith

/-- The rounded value is representable. -/
theorem rnVal_rep (x : K) : Rep (rnVal x) :=
  ⟨_, ulpExp x, rhe_scaled_abs x, ulpExp_ge x, rfl⟩

/-! ## `roundTo` -/

theorem roundTo_fin {v : ℚ} (h : IsFin v) : roundTo v = fin v h := by
  have he := rnVal_exact h.rep
  unfold roundTo
  rw [dif_neg h.1, dif_neg (by rw [he]; exact h.1), dif_pos (by rw [he]; exact h.lt)]
  congr 1

theorem roundTo_of_fin {x : K} {v : ℚ} (hx : x ≠ 0) (hv : rnVal x = v) (h : IsFin v) :
    roundTo x = fin v h := by
  subst hv
  unfold roundTo
  rw [dif_neg hx, dif_neg h.1, dif_pos h.lt]

theorem roundTo_overflow {x : K} (hx : 2 ^ 1024 ≤ x) : roundTo x = inf false := by
  have hp : (0 : K) < 2 ^ 1024 := by positivity
  have hx0 : 0 < x := lt_of_lt_of_le hp hx
  have hr : (2 : ℚ) ^ 1024 ≤ rnVal x := by
    have h := rep_pow ((1024 : ℕ) : ℤ) (by norm_num)
    rw [zpow_natCast] at h
    apply rep_le_rnVal h
    rw [Rat.cast_pow, Rat.cast_ofNat]; exact hx
  have hr0 : (0 : ℚ) < rnVal x := lt_of_lt_of_le (by positivity) hr
  unfold roundTo
  rw [dif_neg hx0.ne', dif_neg hr0.ne', dif_neg, decide_eq_false (not_lt.2 hx0.le)]
  rw [abs_of_pos hr0]; exact not_lt.2 hr

theorem roundTo_underflow {x : K} (h0 : x ≠ 0) (hx : |x| ≤ (2 : K) ^ (-1075 : ℤ)) :
    roundTo x = zero (decide (x < 0)) := by
  have hu : ulpExp x = -1074 := by
    apply le_antisymm _ (ulpExp_ge x)
    apply ulpExp_le_of_lt h0 le_rfl
    refine lt_of_le_of_lt hx ?_
    apply zpow_lt_zpow_right₀ (by norm_num) (by norm_num)
  have hz : rnVal x = 0 := by
    unfold rnVal
    rw [hu]
    have : rhe (x / (2 : K) ^ (-1074 : ℤ)) = 0 := by
      apply rhe_eq
      rw [Int.cast_zero, sub_zero]
      have hp : |(2 : K) ^ (-1074 : ℤ)| = (2 : K) ^ (-1074 : ℤ) := abs_of_pos (two_zpow_pos _)
      have hle : |x / (2 : K) ^ (-1074 : ℤ)| ≤ 1 / 2 := by
        rw [abs_div, hp, div_le_iff₀ (two_zpow_pos _)]
        refine hx.trans (le_of_eq ?_)
        have e2 : (2 : K) ^ (-1074 : ℤ) = 2 * (2 : K) ^ (-1075 : ℤ) := by
          rw [← zpow_one_add₀ (by norm_num)]; congr 1
        rw [e2]; ring
      rcases lt_or_eq_of_le hle with h | h
      · exact Or.inl h
      · exact Or.inr ⟨h, by decide⟩
    rw [this]; simp
  unfold roundTo
  rw [dif_neg h0, dif_pos hz]

theorem roundTo_ratCast (q : ℚ) (h0 : q ≠ 0) : roundTo (q : K) = roundTo q := by
  unfold roundTo
  have h0' : (q : K) ≠ 0 := by exact_mod_cast h0
  have hs : decide ((q : K) < 0) = decide (q < 0) := by
    congr 1; rw [← Rat.cast_zero (α := K), Rat.cast_lt]
  rw [dif_neg h0, dif_neg h0', hs]
  simp only [rnVal_ratCast q h0]

/-- Finite data. -/
def Finite (x : F64) : Prop := match x with
  | nan => False
  | inf _ => False
  | _ => True

instance (x : F64) : Decidable x.Finite := by
  cases x <;> unfold Finite <;> infer_instance

theorem value_rep {x : F64} : Rep x.value := by
  cases x with
  | fin v h => exact h.rep
  | _ => exact rep_zero

theorem roundTo_value {x : K} (h : |rnVal x| < 2 ^ 1024) :
    (roundTo x).Finite ∧ (roundTo x).value = rnVal x := by
  unfold roundTo
  by_cases hx : x = 0
  · rw [dif_pos hx, hx, rnVal_zero]; exact ⟨trivial, rfl⟩
  · rw [dif_neg hx]
    by_cases h0 : rnVal x = 0
    · rw [dif_pos h0, h0]; exact ⟨trivial, rfl⟩
    · rw [dif_neg h0, dif_pos h]; exact ⟨trivial, rfl⟩

theorem roundTo_not_nan (x : K) : roundTo x ≠ nan := by
  unfold roundTo
  split_ifs <;> intro h <;> cases h

theorem neg_value (x : F64) : (neg x).value = -x.value := by
  cases x <;> simp [neg, value]

theorem neg_finite {x : F64} (h : x.Finite) : (neg x).Finite := by
  cases x <;> exact h

theorem neg_neg' (x : F64) : neg (neg x) = x := by
  cases x <;> simp [neg]

theorem add_spec {x y : F64} (hx : x.Finite) (hy : y.Finite)
    (h : |rnVal (x.value + y.value)| < 2 ^ 1024) :
    (add x y).Finite ∧ (add x y).value = rnVal (x.value + y.value) := by
  have key : add x y = addFin x y := by
    cases x <;> cases y <;> first | rfl | exact absurd hx id | exact absurd hy id
  rw [key]
  unfold addFin
  by_cases h0 : x.value + y.value = 0
  · rw [if_pos h0, h0, rnVal_zero]; exact ⟨trivial, rfl⟩
  · rw [if_neg h0]; exact roundTo_value h

theorem mul_spec {x y : F64} (hx : x.Finite) (hy : y.Finite)
    (h : |rnVal (x.value * y.value)| < 2 ^ 1024) :
    (mul x y).Finite ∧ (mul x y).value = rnVal (x.value * y.value) := by
  have key : mul x y = mulFin x y := by
    cases x <;> cases y <;> first | rfl | exact absurd hx id | exact absurd hy id
  rw [key]
  unfold mulFin
  by_cases h0 : x.value * y.value = 0
  · rw [if_pos h0, h0, rnVal_zero]; exact ⟨trivial, rfl⟩
  · rw [if_neg h0]; exact roundTo_value h

end F64
end Engabra
