import Verif.Lemmas.Text

/-! Decimal rounding: accuracy of the printed digits, and recovery of a binary64 value from
17 significant digits. -/

namespace Engabra

open F64 (rhe rnVal ulpExp Rep IsFin)

/-- A binary64 value is recovered by rounding any number within a relative distance
`10^-16 / 2` of it. -/
theorem rnVal_near {v w : ℚ} (hv : Rep v) (h0 : v ≠ 0) (h : |w - v| ≤ |v| / (2 * 10 ^ 16)) :
    rnVal w = v := by
  have hvk : |v| < (2 : ℚ) ^ (ulpExp v + 53) := F64.abs_lt_ulp v
  have hwj : |w| < (2 : ℚ) ^ (ulpExp w + 53) := F64.abs_lt_ulp w
  have hvpos : 0 < |v| := abs_pos.2 h0
  have hvm : v = (rhe (v / (2 : ℚ) ^ ulpExp v) : ℚ) * (2 : ℚ) ^ ulpExp v := by
    have := F64.rnVal_exact hv
    rw [rnVal] at this
    exact this.symm
  have hw1 : |w| ≤ |v| + |v| / (2 * 10 ^ 16) := by
    have : |w| ≤ |w - v| + |v| := by
      have := abs_add_le (w - v) v
      rwa [sub_add_cancel] at this
    linarith
  have hw2 : |v| ≤ |w| + |v| / (2 * 10 ^ 16) := by
    have : |v| ≤ |v - w| + |w| := by
      have := abs_add_le (v - w) w
      rwa [sub_add_cancel] at this
    rw [abs_sub_comm] at this
    linarith
  have hwne : w ≠ 0 := by
    rintro rfl
    rw [abs_zero] at hw2
    linarith
  have hkge := F64.ulpExp_ge v
  -- the exponent of `w` is at most that of `v`
  have hjk : ulpExp w ≤ ulpExp v := by
    apply F64.ulpExp_le_of_lt hwne hkge
    set k := ulpExp v
    set m := rhe (v / (2 : ℚ) ^ k)
    have hP : (0 : ℚ) < (2 : ℚ) ^ k := F64.two_zpow_pos k
    rw [zpow_add₀ (by norm_num)] at hvk ⊢
    have habs : |v| = |(m : ℚ)| * (2 : ℚ) ^ k := by
      conv_lhs => rw [hvm]
      rw [abs_mul, abs_of_pos hP]
    have hm : |(m : ℚ)| < 2 ^ 53 := by
      rw [habs, mul_comm ((2 : ℚ) ^ k)] at hvk
      have := lt_of_mul_lt_mul_right hvk hP.le
      exact_mod_cast this
    have hm' : |(m : ℚ)| ≤ 2 ^ 53 - 1 := by
      rw [← Int.cast_abs] at hm ⊢
      have h1 : |m| < 2 ^ 53 := by exact_mod_cast hm
      have h2 : |m| ≤ 2 ^ 53 - 1 := by omega
      exact_mod_cast h2
    generalize (2 : ℚ) ^ k = P at *
    have h53 : (2 : ℚ) ^ (53 : ℤ) = 9007199254740992 := by norm_num
    rw [h53] at hvk ⊢
    norm_num at hm'
    have : |v| ≤ 9007199254740991 * P := by
      rw [habs]; exact mul_le_mul_of_nonneg_right hm' hP.le
    linarith
  -- distance below half a unit of `w`
  have hdist : |w - v| < (2 : ℚ) ^ ulpExp w / 2 := by
    have hP : (0 : ℚ) < (2 : ℚ) ^ ulpExp w := F64.two_zpow_pos _
    rw [zpow_add₀ (by norm_num), show (2 : ℚ) ^ (53 : ℤ) = 9007199254740992 by norm_num] at hwj
    generalize (2 : ℚ) ^ ulpExp w = P at *
    linarith
  obtain ⟨d, hd⟩ := Int.le.dest hjk
  unfold rnVal
  set j := ulpExp w
  have hP : (0 : ℚ) < (2 : ℚ) ^ j := F64.two_zpow_pos j
  have hvj : v = ((rhe (v / (2 : ℚ) ^ ulpExp v) * 2 ^ d : ℤ) : ℚ) * (2 : ℚ) ^ j := by
    have e : (2 : ℚ) ^ ulpExp v = (2 : ℚ) ^ j * 2 ^ d := by
      rw [← hd, zpow_add₀ (by norm_num), zpow_natCast]
    generalize rhe (v / (2 : ℚ) ^ ulpExp v) = m at hvm ⊢
    rw [hvm, e]
    push_cast; ring
  generalize (rhe (v / (2 : ℚ) ^ ulpExp v) * 2 ^ d : ℤ) = M at hvj
  have hrhe : rhe (w / (2 : ℚ) ^ j) = M := by
    apply F64.rhe_eq
    left
    have e : w / (2 : ℚ) ^ j - (M : ℚ) = (w - v) / (2 : ℚ) ^ j := by
      rw [hvj]; field_simp
    rw [e, abs_div, abs_of_pos hP, div_lt_iff₀ hP]
    linarith
  rw [hrhe, ← hvj]

/-! ## Printed digits -/

theorem toNat_rhe {x : ℚ} (h : 0 ≤ x) : (((rhe x).toNat : ℕ) : ℤ) = rhe x := by
  apply Int.toNat_of_nonneg
  exact F64.le_rhe_of_le (by simpa using h)

/-- The significand printed by `%.{p}e` has `p + 1` digits and the printed number is within
half a unit of its last place. -/
theorem sciParts_spec (p : ℕ) {v : ℚ} (hv : 0 < v) :
    10 ^ p ≤ (sciParts p v).1 ∧ (sciParts p v).1 < 10 ^ (p + 1) ∧
      |((sciParts p v).1 : ℚ) * (10 : ℚ) ^ ((sciParts p v).2 - (p : ℤ)) - v| ≤ v / (2 * 10 ^ p) := by
  have hlo : (10 : ℚ) ^ Int.log 10 v ≤ v := by
    have := Int.zpow_log_le_self (b := 10) (r := v) (by norm_num) hv
    exact_mod_cast this
  have hhi : v < (10 : ℚ) ^ (Int.log 10 v + 1) := by
    have := Int.lt_zpow_succ_log_self (b := 10) (by norm_num) v
    exact_mod_cast this
  unfold sciParts
  dsimp only
  set e := Int.log 10 v
  have hU : (0 : ℚ) < (10 : ℚ) ^ (e - (p : ℤ)) := zpow_pos (by norm_num) _
  have hE : (10 : ℚ) ^ e = 10 ^ p * (10 : ℚ) ^ (e - (p : ℤ)) := by
    rw [← zpow_natCast, ← zpow_add₀ (by norm_num)]; congr 1; ring
  have hE1 : (10 : ℚ) ^ (e + 1) = 10 ^ (p + 1) * (10 : ℚ) ^ (e - (p : ℤ)) := by
    rw [← zpow_natCast, ← zpow_add₀ (by norm_num)]; congr 1; push_cast; ring
  have hn := toNat_rhe (x := v / (10 : ℚ) ^ (e - (p : ℤ))) (by positivity)
  have herr := F64.rhe_err (v / (10 : ℚ) ^ (e - (p : ℤ)))
  have h1 : ((10 ^ p : ℤ)) ≤ rhe (v / (10 : ℚ) ^ (e - (p : ℤ))) := by
    apply F64.le_rhe_of_le
    rw [le_div_iff₀ hU]; push_cast; linarith
  have h2 : rhe (v / (10 : ℚ) ^ (e - (p : ℤ))) ≤ ((10 ^ (p + 1) : ℤ)) := by
    apply F64.rhe_le_of_le
    rw [div_le_iff₀ hU]; push_cast; linarith
  set r := rhe (v / (10 : ℚ) ^ (e - (p : ℤ)))
  have hnr : ((r.toNat : ℕ) : ℚ) = (r : ℚ) := by exact_mod_cast congrArg (Int.cast (R := ℚ)) hn
  have hdist : |(r : ℚ) * (10 : ℚ) ^ (e - (p : ℤ)) - v| ≤ v / (2 * 10 ^ p) := by
    have e1 : (r : ℚ) * (10 : ℚ) ^ (e - (p : ℤ)) - v =
        -(v / (10 : ℚ) ^ (e - (p : ℤ)) - r) * (10 : ℚ) ^ (e - (p : ℤ)) := by field_simp; ring
    rw [e1, abs_mul, abs_neg, abs_of_pos hU]
    have h3 : |v / (10 : ℚ) ^ (e - (p : ℤ)) - r| * (10 : ℚ) ^ (e - (p : ℤ)) ≤
        1 / 2 * (10 : ℚ) ^ (e - (p : ℤ)) := mul_le_mul_of_nonneg_right herr hU.le
    refine h3.trans ?_
    rw [le_div_iff₀ (by positivity)]
    rw [hE] at hlo
    nlinarith
  have h1' : 10 ^ p ≤ r.toNat := by
    have : ((10 ^ p : ℕ) : ℤ) ≤ ((r.toNat : ℕ) : ℤ) := by rw [hn]; push_cast; exact h1
    exact_mod_cast this
  have h2' : r.toNat ≤ 10 ^ (p + 1) := by
    have : ((r.toNat : ℕ) : ℤ) ≤ ((10 ^ (p + 1) : ℕ) : ℤ) := by rw [hn]; push_cast; exact h2
    exact_mod_cast this
  split
  · rename_i heq
    refine ⟨le_rfl, Nat.pow_lt_pow_right (by norm_num) (by omega), ?_⟩
    dsimp only
    have e2 : ((10 ^ p : ℕ) : ℚ) * (10 : ℚ) ^ (e + 1 - (p : ℤ)) = (r : ℚ) * (10 : ℚ) ^ (e - (p : ℤ)) := by
      rw [← hnr, heq]
      push_cast
      rw [show e + 1 - (p : ℤ) = (e - p) + 1 by ring, zpow_add₀ (by norm_num), zpow_one, pow_succ]
      ring
    rw [e2]; exact hdist
  · rename_i hne
    refine ⟨h1', lt_of_le_of_ne h2' hne, ?_⟩
    dsimp only
    rw [hnr]; exact hdist

/-- The number printed by `%.{p}f` is within half a unit of the last place. -/
theorem fixed_spec (p : ℕ) {v : ℚ} (hv : 0 ≤ v) :
    |((rhe (v * 10 ^ p)).toNat : ℚ) * (10 : ℚ) ^ (-(p : ℤ)) - v| ≤ 1 / (2 * 10 ^ p) := by
  have hn := toNat_rhe (x := v * 10 ^ p) (by positivity)
  have hnr : (((rhe (v * 10 ^ p)).toNat : ℕ) : ℚ) = (rhe (v * 10 ^ p) : ℚ) := by
    exact_mod_cast congrArg (Int.cast (R := ℚ)) hn
  have herr := F64.rhe_err (v * 10 ^ p)
  rw [hnr, zpow_neg, zpow_natCast]
  have hP : (0 : ℚ) < 10 ^ p := by positivity
  have e1 : (rhe (v * 10 ^ p) : ℚ) * (10 ^ p : ℚ)⁻¹ - v = -(v * 10 ^ p - rhe (v * 10 ^ p)) / 10 ^ p := by
    field_simp; ring
  rw [e1, abs_div, abs_neg, abs_of_pos hP, div_le_div_iff₀ hP (by positivity)]
  nlinarith

end Engabra
