import Verif.Props.C46_ExpAccuracy
import Verif.Props.C47_ExpMvMeaning
import Verif.Props.C34_Everywhere
import Verif.Lemmas.NearlyRange
import Verif.Lemmas.ScaleF64

/-! Rounding errors of `exp(MultiVector)`: `priv::sync`, the terms, the sums. -/

namespace Engabra

open F64 (Finite HasVal)
open Spec

/-! ## One operation, in the reals -/

theorem rat_le_of_real {q : ℚ} {n : ℕ} (h : |(q : ℝ)| ≤ 2 ^ n) : |q| ≤ 2 ^ n := by
  have : ((|q| : ℚ) : ℝ) ≤ ((2 ^ n : ℚ) : ℝ) := by
    rw [Rat.cast_abs, Rat.cast_pow, Rat.cast_ofNat]; exact h
  exact Rat.cast_le.1 this

theorem safe_of_real {q : ℚ} (h : |(q : ℝ)| ≤ 2 ^ 1022) : |F64.rnVal q| < 2 ^ 1024 :=
  F64.safe_lt ((rat_le_of_real h).trans (by
    change F64.safe ≤ 2 * F64.safe
    linarith [F64.one_le_safe]))

/-- One sum, in the reals: no underflow. -/
theorem add_real {a b : F64} (fa : a.Finite) (fb : b.Finite)
    (h : |(a.value : ℝ) + b.value| ≤ 2 ^ 1022) : (a + b).Finite ∧
    |((a + b).value : ℝ) - (a.value + b.value)| ≤ uR * |(a.value : ℝ) + b.value| := by
  have hs := F64.add_spec fa fb (safe_of_real (by rw [Rat.cast_add]; exact h))
  have e : a - -b = a + b := by
    rw [F64.sub_def, ← F64.neg_def, F64.neg_neg'']; rfl
  refine ⟨hs.1, ?_⟩
  have h1 := F64.sub_rel (x := a) (y := -b) (by rw [e]; exact hs.1)
  rw [e, F64.value_neg, sub_neg_eq_add] at h1
  have h6 := (Rat.cast_le (K := ℝ)).2 h1
  rw [Rat.cast_abs, Rat.cast_sub, Rat.cast_add, Rat.cast_mul, cast_zpow, Rat.cast_abs,
    Rat.cast_add] at h6
  exact h6

theorem sub_real {a b : F64} (fa : a.Finite) (fb : b.Finite)
    (h : |(a.value : ℝ) - b.value| ≤ 2 ^ 1022) : (a - b).Finite ∧
    |((a - b).value : ℝ) - (a.value - b.value)| ≤ uR * |(a.value : ℝ) - b.value| := by
  have := add_real fa (F64.neg_finite_iff.2 fb) (by
    rw [F64.value_neg, Rat.cast_neg, ← sub_eq_add_neg]; exact h)
  rw [F64.value_neg, Rat.cast_neg, ← sub_eq_add_neg] at this
  exact this

theorem div_real {a b : F64} (fa : a.Finite) (fb : b.Finite) (hb : b.value ≠ 0)
    (h : |(a.value : ℝ) / b.value| ≤ 2 ^ 1022) : (a / b).Finite ∧
    |((a / b).value : ℝ) - a.value / b.value|
      ≤ uR * |(a.value : ℝ) / b.value| + 2 ^ (-1075 : ℤ) := by
  have hs := F64.div_spec fa fb hb (safe_of_real (by rw [Rat.cast_div]; exact h))
  refine ⟨hs.1, ?_⟩
  have h6 := (Rat.cast_le (K := ℝ)).2 (F64.rn_err (a.value / b.value))
  rw [← hs.2, Rat.cast_abs, Rat.cast_sub, Rat.cast_add, Rat.cast_mul, Rat.cast_div, cast_zpow,
    cast_zpow, Rat.cast_abs, Rat.cast_div] at h6
  exact h6

/-- Products and quotients of moderate size, with a coarse bound for the underflow. -/
theorem mul_coarse {a b : F64} {M : ℝ} (fa : a.Finite) (fb : b.Finite)
    (h : |(a.value : ℝ) * b.value| ≤ M) (hM : M ≤ 2 ^ 1022) : (a * b).Finite ∧
    |((a * b).value : ℝ) - a.value * b.value| ≤ uR * M + 1 / 1000 * uR := by
  obtain ⟨g, k⟩ := mul_real fa fb (h.trans hM)
  refine ⟨g, k.trans ?_⟩
  have h1 := mul_le_mul_of_nonneg_left h uR_nonneg
  have h2 := tiny_le_uR
  change uR * _ + _ ≤ _
  exact add_le_add h1 h2

theorem div_coarse {a b : F64} {M : ℝ} (fa : a.Finite) (fb : b.Finite) (hb : b.value ≠ 0)
    (h : |(a.value : ℝ) / b.value| ≤ M) (hM : M ≤ 2 ^ 1022) : (a / b).Finite ∧
    |((a / b).value : ℝ) - a.value / b.value| ≤ uR * M + 1 / 1000 * uR := by
  obtain ⟨g, k⟩ := div_real fa fb hb (h.trans hM)
  exact ⟨g, k.trans (add_le_add (mul_le_mul_of_nonneg_left h uR_nonneg) tiny_le_uR)⟩

theorem add_coarse {a b : F64} {M : ℝ} (fa : a.Finite) (fb : b.Finite)
    (h : |(a.value : ℝ) + b.value| ≤ M) (hM : M ≤ 2 ^ 1022) : (a + b).Finite ∧
    |((a + b).value : ℝ) - (a.value + b.value)| ≤ uR * M := by
  obtain ⟨g, k⟩ := add_real fa fb (h.trans hM)
  exact ⟨g, k.trans (mul_le_mul_of_nonneg_left h uR_nonneg)⟩

theorem sub_coarse {a b : F64} {M : ℝ} (fa : a.Finite) (fb : b.Finite)
    (h : |(a.value : ℝ) - b.value| ≤ M) (hM : M ≤ 2 ^ 1022) : (a - b).Finite ∧
    |((a - b).value : ℝ) - (a.value - b.value)| ≤ uR * M := by
  obtain ⟨g, k⟩ := sub_real fa fb (h.trans hM)
  exact ⟨g, k.trans (mul_le_mul_of_nonneg_left h uR_nonneg)⟩

theorem litval {q : ℚ} (h : F64.Rep q) (h2 : |q| ≤ 2 ^ 60) : HasVal (Dbl.lit q : F64) q := by
  have e := F64.roundTo_value (x := q) (by
    rw [F64.rnVal_exact h]
    exact lt_of_le_of_lt h2 (pow_lt_pow_right₀ (by norm_num) (by norm_num)))
  rw [F64.rnVal_exact h] at e
  exact e

/-! ## `priv::sync` -/

/-- The literal `1.e-4` and what it compares with. -/
theorem below_lit {a : F64} (fa : a.Finite) :
    (Dbl.lt a (Dbl.lit (1 / 10000) : F64) = true → (a.value : ℝ) < 1 / 10000) ∧
    (¬ Dbl.lt a (Dbl.lit (1 / 10000) : F64) = true → (99 / 1000000 : ℝ) ≤ a.value) := by
  have e := F64.roundTo_value (x := (1 / 10000 : ℚ)) (safe_of_real (by
    push_cast
    rw [abs_of_pos (by norm_num)]
    exact small_le_pow (by norm_num)))
  have h := HasVal.flt (x := a) (y := (Dbl.lit (1 / 10000) : F64)) ⟨fa, rfl⟩ e
  rw [h, decide_eq_true_eq]
  constructor
  · intro h1
    have : a.value < 1 / 10000 := by
      by_contra hc
      exact absurd h1 (not_lt.2 (F64.rnVal_le_rep (K := ℚ) (HasVal.of fa).rep (by
        rw [Rat.cast_id]; exact not_lt.1 hc)))
    have h2 := (Rat.cast_lt (K := ℝ)).2 this
    push_cast at h2
    exact h2
  · intro h1
    have h3 := F64.rn_err (1 / 10000 : ℚ)
    have h4 : (2 : ℚ) ^ (-1075 : ℤ) ≤ 2 ^ (-53 : ℤ) := zpow_le_zpow_right₀ (by norm_num) (by norm_num)
    have h5 : (99 / 1000000 : ℚ) ≤ a.value := by
      have h6 := (abs_le.1 h3).1
      generalize (2 : ℚ) ^ (-1075 : ℤ) = t at *
      rw [abs_of_pos (by norm_num)] at h6
      norm_num at h4 h6
      linarith [not_lt.1 h1]
    have h2 := (Rat.cast_le (K := ℝ)).2 h5
    push_cast at h2
    exact h2

theorem lit_int (n : ℤ) (h : |n| ≤ 2 ^ 53) : HasVal (Dbl.lit (n : ℚ) : F64) n := by
  refine litval (F64.rep_int n h) ?_
  have : |(n : ℚ)| ≤ 2 ^ 53 := by exact_mod_cast h
  exact this.trans (pow_le_pow_right₀ (by norm_num) (by norm_num))

/-- `sin E` against `E` times the quotient `sin q / q` (read as one at zero). -/
theorem sin_quot {q E : ℝ} (hq : 0 ≤ q) :
    |E * (if q = 0 then 1 else Real.sin q / q) - Real.sin E| ≤ 2 * |q - E| := by
  rcases hq.eq_or_lt with h | h
  · rw [if_pos h.symm, ← h, mul_one, zero_sub, abs_neg]
    have h1 : |Real.sin E| ≤ |E| := Real.abs_sin_le_abs
    have := abs_sub E (Real.sin E)
    linarith
  · rw [if_neg h.ne']
    have h1 : |Real.sin q| ≤ q := by
      have := Real.abs_sin_le_abs (x := q)
      rwa [abs_of_pos h] at this
    have h2 := Real.abs_sin_sub_sin_le q E
    have e : E * (Real.sin q / q) - Real.sin E
        = (Real.sin q - Real.sin E) + (E - q) * (Real.sin q / q) := by
      field_simp; ring
    rw [e]
    have h3 : |Real.sin q / q| ≤ 1 := by rw [abs_div, abs_of_pos h, div_le_one h]; exact h1
    have h4 := mul_le_mul_of_nonneg_left h3 (abs_nonneg (E - q))
    rw [mul_one, ← abs_mul, abs_sub_comm E q] at h4
    have := abs_add_le (Real.sin q - Real.sin E) ((E - q) * (Real.sin q / q))
    linarith

theorem uR_ge : 1 / 10 ^ 17 ≤ uR := by unfold uR; norm_num

/-- The polynomial branch of `sync`. -/
theorem sync_small [LibM F64] {a : F64} (fa : a.Finite) (h0 : 0 ≤ (a.value : ℝ))
    (h1 : (a.value : ℝ) < 1 / 10000) :
    let s : F64 := sq (sq a) / Dbl.lit 120 - sq a / Dbl.lit 6 + 1
    s.Finite ∧ |(s.value : ℝ) - (if (a.value : ℝ) = 0 then 1 else Real.sin a.value / a.value)|
      ≤ 101 / 100 * uR := by
  have hu := uR_le
  have hu0 := uR_nonneg
  have hug := uR_ge
  have l120 := lit_int 120 (by norm_num)
  have l6 := lit_int 6 (by norm_num)
  push_cast at l120 l6
  have p1 : (1 : F64).value = 1 := F64.hasVal_one.2
  have f1 : (1 : F64).Finite := F64.hasVal_one.1
  simp only [sq]
  generalize hq : (a.value : ℝ) = q at *
  have hq2 : q * q ≤ 1 / 100000000 := by nlinarith
  have hq2' : 0 ≤ q * q := mul_self_nonneg q
  have hser : |1 - q * q / 6 + q * q * (q * q) / 120 - (if q = 0 then 1 else Real.sin q / q)|
      ≤ 1 / 1000 * uR := by
    rcases h0.eq_or_lt with hz | hz
    · rw [if_pos hz.symm, ← hz]; norm_num
    · rw [if_neg hz.ne']
      have := syncR_error q hz h1
      rw [syncR, if_pos h1] at this
      have e : q * q * (q * q) / 120 - q * q / 6 + 1 = 1 - q * q / 6 + q * q * (q * q) / 120 := by ring
      rw [e] at this
      have h6 : q ^ 6 ≤ (1 / 10000) ^ 6 := pow_le_pow_left₀ h0 h1.le 6
      refine this.trans ?_
      have : (1 / 10000 : ℝ) ^ 6 / 4410 ≤ 1 / 1000 * (1 / 10 ^ 17) := by norm_num
      have h7 := div_le_div_of_nonneg_right h6 (by norm_num : (0 : ℝ) ≤ 4410)
      linarith
  generalize (if q = 0 then 1 else Real.sin q / q) = S at *
  have big : ∀ {x : ℝ}, x ≤ 2 → x ≤ 2 ^ 1022 := small_le_pow
  -- a * a
  obtain ⟨g1, k1⟩ := mul_coarse fa fa (M := 1 / 100000000) (by
    rw [hq, abs_of_nonneg hq2']; exact hq2) (big (by norm_num))
  rw [hq] at k1
  generalize a * a = A at *
  have hA1 : |(A.value : ℝ) - q * q| ≤ 1 / 900 * uR := by linarith
  obtain ⟨hA2, hA3⟩ := abs_le.1 hA1
  have hAabs : |(A.value : ℝ)| ≤ 2 / 100000000 := by
    rw [abs_le]; constructor <;> linarith
  -- A * A
  have hAA : |(A.value : ℝ) * A.value| ≤ 1 / 10 ^ 15 := by
    rw [abs_mul]
    refine (mul_le_mul hAabs hAabs (abs_nonneg _) (by norm_num)).trans (by norm_num)
  obtain ⟨g2, k2⟩ := mul_coarse g1 g1 hAA (big (by norm_num))
  generalize A * A = B at *
  have hB1 : |(B.value : ℝ) - q * q * (q * q)| ≤ 1 / 800 * uR := by
    refine (abs_sub_le _ ((A.value : ℝ) * A.value) _).trans ?_
    have e : (A.value : ℝ) * A.value - q * q * (q * q) = (A.value - q * q) * (A.value + q * q) := by ring
    rw [e, abs_mul]
    have h2 : |(A.value : ℝ) + q * q| ≤ 4 / 100000000 :=
      (abs_add_le _ _).trans (by rw [abs_of_nonneg hq2']; linarith)
    have h3 := mul_le_mul hA1 h2 (abs_nonneg _) (by positivity)
    linarith
  have hq4 : q * q * (q * q) ≤ 1 / 10 ^ 15 := by nlinarith
  have hq4' : 0 ≤ q * q * (q * q) := by positivity
  obtain ⟨hB2, hB3⟩ := abs_le.1 hB1
  have hBabs : |(B.value : ℝ)| ≤ 1 / 10 ^ 6 := by
    rw [abs_le]; constructor <;> linarith
  -- the quotients
  have v120 : ((Dbl.lit 120 : F64).value : ℝ) = 120 := by rw [l120.2]; norm_num
  have v6 : ((Dbl.lit 6 : F64).value : ℝ) = 6 := by rw [l6.2]; norm_num
  obtain ⟨g3, k3⟩ := div_coarse g2 l120.1 (M := 1 / 10 ^ 6) (by rw [l120.2]; norm_num) (by
    rw [v120, abs_div, abs_of_pos (by norm_num : (0 : ℝ) < 120)]
    linarith [abs_nonneg (B.value : ℝ)]) (big (by norm_num))
  obtain ⟨g4, k4⟩ := div_coarse g1 l6.1 (M := 1 / 10 ^ 6) (by rw [l6.2]; norm_num) (by
    rw [v6, abs_div, abs_of_pos (by norm_num : (0 : ℝ) < 6)]
    linarith [abs_nonneg (A.value : ℝ)]) (big (by norm_num))
  rw [v120] at k3
  rw [v6] at k4
  generalize B / (Dbl.lit 120 : F64) = C at *
  generalize A / (Dbl.lit 6 : F64) = D at *
  have hC : |(C.value : ℝ) - q * q * (q * q) / 120| ≤ 1 / 400 * uR := by
    rw [abs_le] at *; constructor <;> linarith [k3.1, k3.2]
  have hD : |(D.value : ℝ) - q * q / 6| ≤ 1 / 400 * uR := by
    rw [abs_le] at *; constructor <;> linarith [k4.1, k4.2]
  obtain ⟨hC2, hC3⟩ := abs_le.1 hC
  obtain ⟨hD2, hD3⟩ := abs_le.1 hD
  obtain ⟨g5, k5⟩ := sub_coarse g3 g4 (M := 1 / 10 ^ 6) (by
    rw [abs_le]; constructor <;> linarith) (big (by norm_num))
  generalize C - D = X at *
  obtain ⟨k5a, k5b⟩ := abs_le.1 k5
  obtain ⟨g6, k6⟩ := add_coarse g5 f1 (M := 1001 / 1000) (by
    rw [p1]; push_cast; rw [abs_le]; constructor <;> linarith) (big (by norm_num))
  rw [p1] at k6
  push_cast at k6
  refine ⟨g6, ?_⟩
  obtain ⟨k6a, k6b⟩ := abs_le.1 k6
  obtain ⟨s1, s2⟩ := abs_le.1 hser
  rw [abs_le]; constructor <;> linarith

/-- How far a computed length may be from the length `E`. -/
def NearLen (a : F64) (E : ℝ) : Prop :=
  a.Finite ∧ 0 ≤ (a.value : ℝ) ∧ 0 ≤ E ∧ E ≤ 2 ^ 510 ∧ |(a.value : ℝ) - E| ≤ 9 * uR * E + 1 / 1000 * uR

/-- What is used of the computed `sync`. -/
def SyncOk (s : F64) (E ε : ℝ) : Prop :=
  s.Finite ∧ |(s.value : ℝ)| ≤ 11000 ∧ E * |(s.value : ℝ)| ≤ 104 / 100 ∧
    |E * s.value - Real.sin E| ≤ 102 / 100 * ε + (3 + 19 * E) * uR

/-- `sync` of a computed length. -/
theorem sync_near [LibM F64] {ε E : ℝ} (hε0 : 0 ≤ ε) (hε : ε ≤ 1 / 100) (hlib : LibmOk ε) {a : F64}
    (h : NearLen a E) : SyncOk (sync a) E ε := by
  obtain ⟨fa, h0, hE0, hE, ha⟩ := h
  have hu := uR_le
  have hu0 := uR_nonneg
  obtain ⟨b1, b2⟩ := below_lit fa
  have hq := sin_quot (q := (a.value : ℝ)) (E := E) h0
  obtain ⟨a1, a2⟩ := abs_le.1 ha
  have hEu : 0 ≤ E * uR := mul_nonneg hE0 hu0
  unfold sync
  by_cases hc : Dbl.lt a (Dbl.lit (1 / 10000) : F64) = true
  · rw [if_pos hc]
    have hs := b1 hc
    obtain ⟨g, k⟩ := sync_small fa h0 hs
    generalize (sq (sq a) / Dbl.lit 120 - sq a / Dbl.lit 6 + 1 : F64) = s at *
    have hEs : E ≤ 11 / 100000 := by
      have : E * uR ≤ E * (1 / 1000000) := mul_le_mul_of_nonneg_left hu hE0
      linarith
    generalize hQ : (if (a.value : ℝ) = 0 then 1 else Real.sin a.value / a.value) = Q at *
    have hQ1 : |Q| ≤ 1 := by
      rw [← hQ]
      split
      · rw [abs_one]
      · rename_i hne
        have hp : 0 < (a.value : ℝ) := lt_of_le_of_ne h0 (Ne.symm hne)
        have := Real.abs_sin_le_abs (x := (a.value : ℝ))
        rw [abs_div, div_le_one (abs_pos.2 hne)]; exact this
    have hs1 : |(s.value : ℝ)| ≤ 11 / 10 := by
      have := abs_sub_abs_le_abs_sub (s.value : ℝ) Q
      linarith
    refine ⟨g, by linarith, ?_, ?_⟩
    · have := mul_le_mul hEs hs1 (abs_nonneg _) (by norm_num)
      linarith
    · have e : E * (s.value : ℝ) - Real.sin E = E * (s.value - Q) + (E * Q - Real.sin E) := by ring
      rw [e]
      refine (abs_add_le _ _).trans ?_
      rw [abs_mul, abs_of_nonneg hE0]
      have := mul_le_mul hEs k (abs_nonneg _) (by norm_num)
      linarith
  · rw [if_neg hc]
    have hs := b2 hc
    obtain ⟨⟨fs, es⟩, -⟩ := hlib a fa
    generalize (LibM.sin a : F64) = σ at *
    generalize hqq : (a.value : ℝ) = q at *
    have hq0 : 0 < q := by linarith
    have hne : a.value ≠ 0 := by
      intro h; rw [h, Rat.cast_zero] at hqq; linarith
    have hσ : |(σ.value : ℝ)| ≤ 101 / 100 := by
      have := abs_sub_abs_le_abs_sub (σ.value : ℝ) (Real.sin q)
      have := Real.abs_sin_le_one q
      linarith
    have hσq : |(σ.value : ℝ) / q| ≤ 10300 := by
      rw [abs_div, abs_of_pos hq0, div_le_iff₀ hq0]; linarith
    obtain ⟨g, k⟩ := div_real fs fa hne (by
      rw [hqq]; exact hσq.trans ((by norm_num : (10300 : ℝ) ≤ 2 ^ 14).trans
        (pow_le_pow_right₀ (by norm_num) (by norm_num))))
    rw [hqq] at k
    generalize σ / a = s at *
    -- E against q
    have hEq : E ≤ 1001 / 1000 * q := by
      have : E * uR ≤ E * (1 / 1000000) := mul_le_mul_of_nonneg_left hu hE0
      linarith
    have hEs : E * |(σ.value : ℝ) / q| ≤ 1012 / 1000 := by
      rw [abs_div, abs_of_pos hq0, mul_div_assoc', div_le_iff₀ hq0]
      have := mul_le_mul hEq hσ (abs_nonneg _) (by linarith)
      linarith
    have hEt : E * (2 : ℝ) ^ (-1075 : ℤ) ≤ 1 / 1000 * uR := by
      have h1 := mul_le_mul_of_nonneg_right hE (F64.two_zpow_pos (K := ℝ) (-1075)).le
      refine h1.trans ?_
      unfold uR
      rw [← zpow_natCast, ← zpow_add₀ (by norm_num)]
      calc (2 : ℝ) ^ (((510 : ℕ) : ℤ) + -1075) ≤ 2 ^ (-10 + -53 : ℤ) :=
            zpow_le_zpow_right₀ (by norm_num) (by norm_num)
        _ = 2 ^ (-10 : ℤ) * 2 ^ (-53 : ℤ) := zpow_add₀ (by norm_num) _ _
        _ ≤ 1 / 1000 * 2 ^ (-53 : ℤ) :=
            mul_le_mul_of_nonneg_right (by norm_num) (F64.two_zpow_pos _).le
    have ht := tiny_le_uR
    generalize (2 : ℝ) ^ (-1075 : ℤ) = t at *
    have hEk : E * |(s.value : ℝ) - σ.value / q| ≤ 102 / 100 * uR := by
      have h1 := mul_le_mul_of_nonneg_left k hE0
      have h2 := mul_le_mul_of_nonneg_left hEs hu0
      have e : E * (uR * |(σ.value : ℝ) / q| + t) = uR * (E * |(σ.value : ℝ) / q|) + E * t := by ring
      rw [e] at h1
      linarith
    refine ⟨g, ?_, ?_, ?_⟩
    · have h1 := abs_sub_abs_le_abs_sub (s.value : ℝ) ((σ.value : ℝ) / q)
      have h2 := mul_le_mul_of_nonneg_left hσq hu0
      linarith
    · have h1 := abs_sub_abs_le_abs_sub (s.value : ℝ) ((σ.value : ℝ) / q)
      have h2 := mul_le_mul_of_nonneg_left h1 hE0
      rw [mul_sub] at h2
      linarith
    · rw [if_neg hq0.ne'] at hq
      have e : E * (s.value : ℝ) - Real.sin E = E * (s.value - σ.value / q)
          + E / q * (σ.value - Real.sin q) + (E * (Real.sin q / q) - Real.sin E) := by
        field_simp; ring
      rw [e]
      refine (abs_add_le _ _).trans ((add_le_add_left (abs_add_le _ _) _).trans ?_)
      have h3 : |E / q * ((σ.value : ℝ) - Real.sin q)| ≤ 1001 / 1000 * ε := by
        rw [abs_mul, abs_div, abs_of_nonneg hE0, abs_of_pos hq0]
        refine mul_le_mul ?_ es (abs_nonneg _) (by norm_num)
        rw [div_le_iff₀ hq0]; exact hEq
      rw [abs_mul E, abs_of_nonneg hE0]
      linarith

/-! ## Terms -/

/-- A computed exponential. -/
def NearExp (e : F64) (X ε : ℝ) : Prop :=
  e.Finite ∧ (2 : ℝ) ^ (-500 : ℤ) ≤ X ∧ X ≤ 2 ^ (500 : ℤ) ∧ |(e.value : ℝ) - X| ≤ ε * X

theorem NearExp.pos {e : F64} {X ε : ℝ} (h : NearExp e X ε) : 0 < X :=
  lt_of_lt_of_le (F64.two_zpow_pos _) h.2.1

theorem NearExp.tiny {e : F64} {X ε : ℝ} (h : NearExp e X ε) :
    12000 * (2 : ℝ) ^ (-1075 : ℤ) ≤ 1 / 1000 * (X * uR) := by
  have h1 := mul_le_mul_of_nonneg_right h.2.1 uR_nonneg
  have h2 : 12000000 * (2 : ℝ) ^ (-1075 : ℤ) ≤ (2 : ℝ) ^ (-500 : ℤ) * uR := by
    unfold uR
    rw [← zpow_add₀ (by norm_num)]
    calc (12000000 : ℝ) * 2 ^ (-1075 : ℤ) ≤ 2 ^ (24 : ℤ) * 2 ^ (-1075 : ℤ) :=
          mul_le_mul_of_nonneg_right (by norm_num) (F64.two_zpow_pos _).le
      _ = 2 ^ (24 + -1075 : ℤ) := (zpow_add₀ (by norm_num) _ _).symm
      _ ≤ _ := zpow_le_zpow_right₀ (by norm_num) (by norm_num)
  have h3 := h2.trans h1
  generalize (2 : ℝ) ^ (-1075 : ℤ) = t at *
  generalize X * uR = w at *
  linarith only [h3]

theorem term_near {e x s : F64} {X ξ E ε : ℝ} (hε0 : 0 ≤ ε) (hε : ε ≤ 1 / 100) (he : NearExp e X ε)
    (fx : x.Finite) (hx : |(x.value : ℝ) - ξ| ≤ uR * |ξ|) (hξ : |ξ| ≤ E) (hE : E ≤ 2 ^ 510)
    (hs : SyncOk s E ε) :
    (e * x * s).Finite ∧ |((e * x * s).value : ℝ)| ≤ 108 / 100 * X ∧
    |((e * x * s).value : ℝ) - X * (Real.sin E / E * ξ)| ≤ X * (22 / 10 * ε + (8 + 19 * E) * uR) := by
  have hu := uR_le
  have hu0 := uR_nonneg
  have ht := he.tiny
  have hX := he.pos
  obtain ⟨fe, -, hX2, hee⟩ := he
  obtain ⟨fs, hs1, hs2, hs3⟩ := hs
  obtain ⟨u, hud⟩ : ∃ u, u = uR := ⟨_, rfl⟩
  rw [← hud] at hu hu0 ht hs3 hx ⊢
  have hE0 : 0 ≤ E := (abs_nonneg _).trans hξ
  have hXu : 0 ≤ X * u := mul_nonneg hX.le hu0
  have hXε : 0 ≤ X * ε := mul_nonneg hX.le hε0
  have heX : |(e.value : ℝ)| ≤ 101 / 100 * X := by
    have h1 := abs_sub_abs_le_abs_sub (e.value : ℝ) X
    rw [abs_of_pos hX] at h1
    have := mul_le_mul_of_nonneg_right hε hX.le
    linarith
  have hxE : |(x.value : ℝ)| ≤ 1001 / 1000 * E := by
    have h1 := abs_sub_abs_le_abs_sub (x.value : ℝ) ξ
    have h2 := mul_le_mul_of_nonneg_right hu (abs_nonneg ξ)
    linarith only [h1, h2, hx, hξ, hE0]
  have hex : |(e.value : ℝ) * x.value| ≤ 102 / 100 * (X * E) := by
    rw [abs_mul]
    have h1 := mul_le_mul heX hxE (abs_nonneg _) (by linarith)
    have h2 : 0 ≤ X * E := mul_nonneg hX.le hE0
    linarith
  have hbig : (102 / 100 : ℝ) * (X * E) ≤ 2 ^ 1022 := by
    have h1 := mul_le_mul hX2 hE hE0 (F64.two_zpow_pos _).le
    have h2 : (2 : ℝ) ^ (500 : ℤ) * 2 ^ 510 * 2 ^ 12 = 2 ^ 1022 := by
      rw [show (2 : ℝ) ^ (500 : ℤ) = 2 ^ (500 : ℕ) from zpow_natCast _ _, ← pow_add, ← pow_add]
    have h3 : (0 : ℝ) ≤ (2 : ℝ) ^ (500 : ℤ) * 2 ^ 510 := by positivity
    rw [← h2]
    generalize (2 : ℝ) ^ (500 : ℤ) * 2 ^ 510 = P at *
    linarith only [h1, h3]
  obtain ⟨fy, ky⟩ := mul_real fe fx (hex.trans hbig)
  change _ ≤ uR * _ + _ at ky; rw [← hud] at ky
  generalize hy : e * x = y at *
  have t0 : (0 : ℝ) < 2 ^ (-1075 : ℤ) := F64.two_zpow_pos _
  generalize hee' : (e.value : ℝ) * x.value = ex at *
  -- e x s
  have hexs : |ex| * |(s.value : ℝ)| ≤ 1055 / 1000 * X := by
    rw [← hee', abs_mul]
    have h1 : |(x.value : ℝ)| * |(s.value : ℝ)| ≤ 1001 / 1000 * (104 / 100) := by
      have := mul_le_mul_of_nonneg_right hxE (abs_nonneg (s.value : ℝ))
      linarith
    have h2 := mul_le_mul heX h1 (by positivity) (by linarith)
    linarith
  have hr1 : |(y.value : ℝ) - ex| * |(s.value : ℝ)| ≤ 107 / 100 * (X * u) := by
    have h1 := mul_le_mul_of_nonneg_right ky (abs_nonneg (s.value : ℝ))
    have h2 := mul_le_mul_of_nonneg_left hexs hu0
    have h3 := mul_le_mul_of_nonneg_left hs1 t0.le
    generalize (2 : ℝ) ^ (-1075 : ℤ) = t at *
    have e1 : (u * |ex| + t) * |(s.value : ℝ)| = u * (|ex| * |(s.value : ℝ)|) + t * |(s.value : ℝ)| := by
      ring
    rw [e1] at h1
    linarith only [h1, h2, h3, ht, t0, hXu]
  have hXu1 : X * u ≤ 1 / 1000000 * X := by
    have := mul_le_mul_of_nonneg_left hu hX.le
    linarith
  have hys : |(y.value : ℝ) * s.value| ≤ 106 / 100 * X := by
    rw [show (y.value : ℝ) * s.value = (y.value - ex) * s.value + ex * s.value by ring]
    refine (abs_add_le _ _).trans ?_
    rw [abs_mul, abs_mul]
    linarith
  obtain ⟨fp, kp⟩ := mul_real fy fs (hys.trans (by
    have h1 : X ≤ 2 ^ 501 := hX2.trans (by
      rw [← zpow_natCast]; exact zpow_le_zpow_right₀ one_le_two (by norm_num))
    have h2 : (2 : ℝ) ^ 501 * 2 ≤ 2 ^ 1022 := by
      rw [← pow_succ]; exact pow_le_pow_right₀ one_le_two (by norm_num)
    refine le_trans ?_ h2
    generalize (2 : ℝ) ^ 501 = P at *
    linarith only [h1, hX]))
  change _ ≤ uR * _ + _ at kp; rw [← hud] at kp
  generalize y * s = p at *
  have kp' : |(p.value : ℝ) - y.value * s.value| ≤ 107 / 100 * (X * u) := by
    refine kp.trans ?_
    have h1 := mul_le_mul_of_nonneg_left hys hu0
    generalize (2 : ℝ) ^ (-1075 : ℤ) = t at *
    linarith only [h1, ht, t0, hXu]
  refine ⟨fp, ?_, ?_⟩
  · have := abs_sub_abs_le_abs_sub (p.value : ℝ) ((y.value : ℝ) * s.value)
    linarith
  -- ξ (s - sin E / E)
  have hq : |ξ * (s.value - Real.sin E / E)| ≤ 102 / 100 * ε + (3 + 19 * E) * u := by
    refine le_trans ?_ hs3
    rcases hE0.eq_or_lt with hz | hz
    · rw [← hz] at hξ ⊢
      rw [abs_eq_zero.1 (le_antisymm hξ (abs_nonneg _))]
      simp
    · rw [show E * (s.value : ℝ) - Real.sin E = E * (s.value - Real.sin E / E) by field_simp,
        abs_mul, abs_mul, abs_of_pos hz]
      exact mul_le_mul_of_nonneg_right hξ (abs_nonneg _)
  have hd : |ex - X * ξ| * |(s.value : ℝ)| ≤ X * (105 / 100 * ε + 12 / 10 * u) := by
    have h1 : |ex - X * ξ| ≤ X * (ε + 102 / 100 * u) * E := by
      rw [← hee', show (e.value : ℝ) * x.value - X * ξ = (e.value - X) * ξ + e.value * (x.value - ξ) by ring]
      refine (abs_add_le _ _).trans ?_
      rw [abs_mul, abs_mul]
      have h2 := mul_le_mul hee hξ (abs_nonneg _) (by positivity)
      have h3 := mul_le_mul heX (hx.trans (mul_le_mul_of_nonneg_left hξ hu0)) (abs_nonneg _) (by linarith)
      have h4 : 0 ≤ X * u * E := mul_nonneg hXu hE0
      linarith only [h2, h3, h4]
    have h5 := mul_le_mul_of_nonneg_right h1 (abs_nonneg (s.value : ℝ))
    have h6 := mul_le_mul_of_nonneg_left hs2 (show 0 ≤ X * (ε + 102 / 100 * u) by positivity)
    linarith only [h5, h6, hXu, hXε]
  have e1 : (p.value : ℝ) - X * (Real.sin E / E * ξ) = (p.value - y.value * s.value)
      + ((y.value - ex) * s.value + ((ex - X * ξ) * s.value + X * (ξ * (s.value - Real.sin E / E)))) := by
    ring
  rw [e1]
  refine (abs_add_le _ _).trans ((add_le_add_right (abs_add_le _ _) _).trans
    ((add_le_add_right (add_le_add_right (abs_add_le _ _) _) _).trans ?_))
  rw [abs_mul, abs_mul, abs_mul X, abs_of_pos hX]
  have h7 := mul_le_mul_of_nonneg_left hq hX.le
  linarith only [h7, hd, hr1, kp', hXu, hXε]

/-- A computed term against `X * S`. -/
def TermOk (p : F64) (X S L ε : ℝ) : Prop :=
  p.Finite ∧ |(p.value : ℝ)| ≤ 108 / 100 * X ∧
    |(p.value : ℝ) - X * S| ≤ X * (22 / 10 * ε + (8 + 19 * L) * uR)

theorem TermOk.neg {p : F64} {X S L ε : ℝ} (h : TermOk p X S L ε) : TermOk (-p) X (-S) L ε := by
  refine ⟨F64.neg_finite_iff.2 h.1, ?_, ?_⟩
  · rw [F64.value_neg, Rat.cast_neg, abs_neg]; exact h.2.1
  · rw [F64.value_neg, Rat.cast_neg, show -(p.value : ℝ) - X * -S = -(p.value - X * S) by ring, abs_neg]
    exact h.2.2

theorem TermOk.mono {p : F64} {X S L L' ε : ℝ} (h : TermOk p X S L ε) (hX : 0 ≤ X) (hL : L ≤ L') :
    TermOk p X S L' ε := by
  refine ⟨h.1, h.2.1, h.2.2.trans (mul_le_mul_of_nonneg_left ?_ hX)⟩
  have := mul_le_mul_of_nonneg_right hL uR_nonneg
  generalize uR = u at *
  linarith only [this]

/-- The scalar and trivector terms. -/
theorem cos_near [LibM F64] {ε E : ℝ} (hε0 : 0 ≤ ε) (hε : ε ≤ 1 / 100) (hlib : LibmOk ε) {e a : F64}
    {X : ℝ} (he : NearExp e X ε) (h : NearLen a E) :
    TermOk (e * LibM.cos a) X (Real.cos E) E ε := by
  have hX := he.pos
  have ht := he.tiny
  have hu := uR_le
  have hu0 := uR_nonneg
  have hXu : 0 ≤ X * uR := mul_nonneg hX.le hu0
  have hXε : 0 ≤ X * ε := mul_nonneg hX.le hε0
  have hXu1 : X * uR ≤ X * (1 / 1000000) := mul_le_mul_of_nonneg_left hu hX.le
  obtain ⟨fa, -, hE0, -, ha⟩ := h
  obtain ⟨fe, -, hX2, hee⟩ := he
  obtain ⟨-, fc, hc⟩ := hlib a fa
  have hc1 : |((LibM.cos a : F64).value : ℝ)| ≤ 101 / 100 := by
    have h1 := abs_sub_abs_le_abs_sub ((LibM.cos a : F64).value : ℝ) (Real.cos a.value)
    have h2 := Real.abs_cos_le_one (a.value : ℝ)
    linarith only [h1, h2, hc, hε]
  have hd : |((LibM.cos a : F64).value : ℝ) - Real.cos E| ≤ ε + (9 * uR * E + 1 / 1000 * uR) := by
    refine (abs_sub_le _ (Real.cos a.value) _).trans (add_le_add hc ?_)
    exact (Real.abs_cos_sub_cos_le _ _).trans ha
  obtain ⟨f, k⟩ := smul_comp hε0 hε fe fc hX (hX2.trans (zpow_le_zpow_right₀ (by norm_num) (by norm_num)))
    hee (hc1.trans (by norm_num)) hd
  have hEu : 0 ≤ X * (E * uR) := mul_nonneg hX.le (mul_nonneg hE0 hu0)
  refine ⟨f, ?_, ?_⟩
  · have heX : |(e.value : ℝ)| ≤ 101 / 100 * X := by
      have h1 := abs_sub_abs_le_abs_sub (e.value : ℝ) X
      rw [abs_of_pos hX] at h1
      have := mul_le_mul_of_nonneg_right hε hX.le
      linarith only [h1, this, hee]
    have hp : |(e.value : ℝ) * (LibM.cos a : F64).value| ≤ 1021 / 1000 * X := by
      rw [abs_mul]
      have h1 := mul_le_mul heX hc1 (abs_nonneg _) (by linarith only [hX])
      linarith only [h1, hX]
    have hbig : |(e.value : ℝ) * (LibM.cos a : F64).value| ≤ 2 ^ 1022 := by
      refine hp.trans ((mul_le_mul_of_nonneg_left hX2 (by norm_num)).trans ?_)
      calc (1021 / 1000 : ℝ) * 2 ^ (500 : ℤ) ≤ 2 ^ (522 : ℤ) * 2 ^ (500 : ℤ) :=
            mul_le_mul_of_nonneg_right ((by norm_num : (1021 / 1000 : ℝ) ≤ 2 ^ (1 : ℤ)).trans
              (zpow_le_zpow_right₀ (by norm_num) (by norm_num))) (F64.two_zpow_pos _).le
        _ = 2 ^ 1022 := by rw [← zpow_add₀ (by norm_num), ← zpow_natCast]; norm_num only
    obtain ⟨-, kr⟩ := mul_real fe fc hbig
    change _ ≤ uR * _ + _ at kr
    have h1 := abs_sub_abs_le_abs_sub ((e * (LibM.cos a : F64)).value : ℝ) ((e.value : ℝ) * (LibM.cos a : F64).value)
    have h2 := mul_le_mul_of_nonneg_left hp hu0
    have t0 : (0 : ℝ) < 2 ^ (-1075 : ℤ) := F64.two_zpow_pos _
    generalize (2 : ℝ) ^ (-1075 : ℤ) = t at *
    generalize uR = u at *
    linarith only [h1, h2, hp, kr, ht, hXu1, hX, t0]
  · refine k.trans ?_
    have t0 : (0 : ℝ) < 2 ^ (-1075 : ℤ) := F64.two_zpow_pos _
    generalize (2 : ℝ) ^ (-1075 : ℤ) = t at *
    generalize uR = u at *
    linarith only [ht, hXu, hXε, hEu, t0]

/-- The sum of two terms, times the factor in front. -/
theorem sum_near {h p q : F64} {H X Y S T L ε : ℝ} (hε0 : 0 ≤ ε) (hε : ε ≤ 1 / 100)
    (fh : h.Finite) (hH0 : 0 < H) (hH : H ≤ 2 ^ 500) (hH2 : (2 : ℝ) ^ (-501 : ℤ) ≤ H)
    (hh : |(h.value : ℝ) - H| ≤ (ε + 102 / 100 * uR) * H)
    (hX : 1 ≤ X ∨ 1 ≤ Y) (hX0 : 0 < X) (hY0 : 0 < Y)
    (hX2 : X ≤ 2 ^ (500 : ℤ)) (hY2 : Y ≤ 2 ^ (500 : ℤ))
    (hp : TermOk p X S L ε) (hq : TermOk q Y T L ε) :
    (h * (p + q)).Finite ∧ |((h * (p + q)).value : ℝ) - H * (X * S + Y * T)|
      ≤ H * (X + Y) * (33 / 10 * ε + (12 + 19 * L) * uR) := by
  have hu := uR_le
  have hu0 := uR_nonneg
  obtain ⟨fp, p1, p2⟩ := hp
  obtain ⟨fq, q1, q2⟩ := hq
  generalize hZ : X + Y = Z
  have hZ1 : 1 ≤ Z := by rcases hX with h | h <;> linarith
  have hZ2 : Z ≤ 2 ^ 501 := by
    rw [← hZ, pow_succ, ← zpow_natCast]
    push_cast
    generalize (2 : ℝ) ^ (500 : ℤ) = P at *
    linarith only [hX2, hY2]
  have hs : |(p.value : ℝ) + q.value| ≤ 108 / 100 * Z := by
    refine (abs_add_le _ _).trans ?_
    rw [← hZ]
    linarith only [p1, q1]
  have hbig : (109 / 100 : ℝ) * Z ≤ 2 ^ 520 := by
    calc (109 / 100 : ℝ) * Z ≤ 2 ^ 19 * 2 ^ 501 :=
          mul_le_mul (by norm_num) hZ2 (by linarith) (by positivity)
      _ = 2 ^ 520 := (pow_add _ _ _).symm
  obtain ⟨fr, kr⟩ := add_coarse fp fq hs (by
    refine le_trans ?_ (hbig.trans (pow_le_pow_right₀ (by norm_num) (by norm_num)))
    linarith only [hZ1])
  generalize p + q = r at *
  have hHZ : 0 < H * Z := mul_pos hH0 (by linarith)
  have ht : 12000 * (2 : ℝ) ^ (-1075 : ℤ) ≤ H * Z * uR := by
    have h1 : 12000 * (2 : ℝ) ^ (-1075 : ℤ) ≤ (2 : ℝ) ^ (-501 : ℤ) * uR := by
      unfold uR
      rw [← zpow_add₀ (by norm_num)]
      calc (12000 : ℝ) * 2 ^ (-1075 : ℤ) ≤ 2 ^ (24 : ℤ) * 2 ^ (-1075 : ℤ) :=
            mul_le_mul_of_nonneg_right (by norm_num) (F64.two_zpow_pos _).le
        _ = 2 ^ (24 + -1075 : ℤ) := (zpow_add₀ (by norm_num) _ _).symm
        _ ≤ _ := zpow_le_zpow_right₀ (by norm_num) (by norm_num)
    refine h1.trans (mul_le_mul_of_nonneg_right ?_ hu0)
    exact hH2.trans (le_mul_of_one_le_right hH0.le hZ1)
  have hZu : 0 ≤ Z * uR := mul_nonneg (by linarith) hu0
  have hZu1 : Z * uR ≤ Z * (1 / 1000000) := mul_le_mul_of_nonneg_left hu (by linarith)
  have hr : |(r.value : ℝ)| ≤ 1081 / 1000 * Z := by
    have h1 := abs_sub_abs_le_abs_sub (r.value : ℝ) (p.value + q.value)
    generalize uR = u at *
    linarith only [h1, kr, hs, hZu1, hZ1]
  have hhH : |(h.value : ℝ)| ≤ 1011 / 1000 * H := by
    have h1 := abs_sub_abs_le_abs_sub (h.value : ℝ) H
    rw [abs_of_pos hH0] at h1
    have h2 : (ε + 102 / 100 * uR) * H ≤ 1011 / 100000 * H :=
      mul_le_mul_of_nonneg_right (by linarith) hH0.le
    linarith only [h1, h2, hh, hH0]
  have hhr : |(h.value : ℝ) * r.value| ≤ 11 / 10 * (H * Z) := by
    rw [abs_mul]
    have := mul_le_mul hhH hr (abs_nonneg _) (by linarith)
    linarith only [this, hHZ]
  have hbig2 : |(h.value : ℝ) * r.value| ≤ 2 ^ 1022 := by
    refine hhr.trans ?_
    calc (11 / 10 : ℝ) * (H * Z) ≤ 2 ^ 21 * (2 ^ 500 * 2 ^ 501) :=
          mul_le_mul (by norm_num) (mul_le_mul hH hZ2 (by linarith) (by positivity)) hHZ.le (by positivity)
      _ = 2 ^ 1022 := by rw [← pow_add, ← pow_add]
  obtain ⟨fm, km⟩ := mul_real fh fr hbig2
  refine ⟨fm, ?_⟩
  change _ ≤ uR * _ + _ at km
  generalize h * r = m at *
  have hR : |(r.value : ℝ) - (X * S + Y * T)| ≤ Z * (22 / 10 * ε + (91 / 10 + 19 * L) * uR) := by
    rw [show (r.value : ℝ) - (X * S + Y * T) = (r.value - (p.value + q.value))
      + ((p.value - X * S) + (q.value - Y * T)) by ring]
    refine (abs_add_le _ _).trans ((add_le_add_right (abs_add_le _ _) _).trans ?_)
    generalize uR = u at *
    rw [← hZ] at kr hZu ⊢
    linarith only [kr, p2, q2, hZu]
  have hd : |(h.value : ℝ) * r.value - H * (X * S + Y * T)|
      ≤ (ε + 102 / 100 * uR) * (1081 / 1000) * (H * Z)
        + H * Z * (22 / 10 * ε + (91 / 10 + 19 * L) * uR) := by
    rw [show (h.value : ℝ) * r.value - H * (X * S + Y * T) = (h.value - H) * r.value
      + H * (r.value - (X * S + Y * T)) by ring]
    refine (abs_add_le _ _).trans ?_
    rw [abs_mul, abs_mul, abs_of_pos hH0]
    have h1 := mul_le_mul hh hr (abs_nonneg _) (by positivity)
    have h2 := mul_le_mul_of_nonneg_left hR hH0.le
    generalize uR = u at *
    linarith only [h1, h2]
  refine (abs_sub_le _ ((h.value : ℝ) * r.value) _).trans ?_
  have h3 := mul_le_mul_of_nonneg_left hhr hu0
  have h4 : 0 ≤ H * Z * uR := mul_nonneg hHZ.le hu0
  have h5 : 0 ≤ H * Z * ε := mul_nonneg hHZ.le hε0
  have t0 : (0 : ℝ) < 2 ^ (-1075 : ℤ) := F64.two_zpow_pos _
  generalize (2 : ℝ) ^ (-1075 : ℤ) = t at *
  generalize uR = u at *
  linarith only [km, hd, h3, h4, h5, ht, t0]

/-! ## The two lengths -/

theorem near_sq {x ξ u : ℝ} (hu0 : 0 ≤ u) (hu : u ≤ 1) (h : |x - ξ| ≤ u * |ξ|) :
    ((1 - u) * ξ) ^ 2 ≤ x ^ 2 ∧ x ^ 2 ≤ ((1 + u) * ξ) ^ 2 := by
  have h1 := abs_sub_abs_le_abs_sub x ξ
  have h2 := abs_sub_abs_le_abs_sub ξ x
  rw [abs_sub_comm] at h2
  constructor
  · rw [sq_le_sq, abs_mul, abs_of_nonneg (by linarith : 0 ≤ 1 - u)]; linarith
  · rw [sq_le_sq, abs_mul, abs_of_nonneg (by linarith : 0 ≤ 1 + u)]; linarith

theorem near_len3 {x y z ξ η ζ u : ℝ} (hu0 : 0 ≤ u) (hu : u ≤ 1) (hx : |x - ξ| ≤ u * |ξ|)
    (hy : |y - η| ≤ u * |η|) (hz : |z - ζ| ≤ u * |ζ|) :
    |√(x ^ 2 + (y ^ 2 + z ^ 2)) - √(ξ ^ 2 + (η ^ 2 + ζ ^ 2))| ≤ u * √(ξ ^ 2 + (η ^ 2 + ζ ^ 2)) := by
  obtain ⟨x1, x2⟩ := near_sq hu0 hu hx
  obtain ⟨y1, y2⟩ := near_sq hu0 hu hy
  obtain ⟨z1, z2⟩ := near_sq hu0 hu hz
  have e : ∀ c : ℝ, 0 ≤ c → √((c * ξ) ^ 2 + ((c * η) ^ 2 + (c * ζ) ^ 2))
      = c * √(ξ ^ 2 + (η ^ 2 + ζ ^ 2)) := by
    intro c hc
    rw [show (c * ξ) ^ 2 + ((c * η) ^ 2 + (c * ζ) ^ 2) = c ^ 2 * (ξ ^ 2 + (η ^ 2 + ζ ^ 2)) by ring,
      Real.sqrt_mul (sq_nonneg c), Real.sqrt_sq hc]
  have h1 := Real.sqrt_le_sqrt (add_le_add x1 (add_le_add y1 z1))
  have h2 := Real.sqrt_le_sqrt (add_le_add x2 (add_le_add y2 z2))
  rw [e _ (by linarith)] at h1 h2
  rw [abs_le]; constructor <;> linarith

theorem zero_add_sq {x : F64} (fx : x.Finite) : (0 : F64) + x * x = x * x := by
  have hs := mul_signbit fx fx
  rw [F64.add_comm', F64.add_zero' _ ?_]
  intro h
  rw [h, Bool.xor_self, decide_eq_false (not_lt.2 (mul_self_nonneg _)), ite_self] at hs
  exact absurd hs (by decide)

theorem sqrt_value_nonneg {a : F64} (h : (Dbl.sqrt a).Finite) : 0 ≤ ((Dbl.sqrt a).value : ℝ) := by
  have : 0 ≤ (Dbl.sqrt a).value := by
    cases a with
    | nan => exact absurd h id
    | inf s => cases s <;> exact absurd h id
    | zero s => exact le_refl _
    | fin v hv =>
      by_cases hn : v < 0
      · have e : (Dbl.sqrt (F64.fin v hv) : F64) = F64.nan := by
          rw [F64.sqrt_def]; exact if_pos hn
        rw [e] at h
        exact absurd h id
      · exact (F64.sqrt_est (q := F64.fin v hv) trivial (not_lt.1 hn)).2.1
  exact_mod_cast this

theorem len_near {x y z : F64} {ξ η ζ : ℝ} (fx : x.Finite) (fy : y.Finite) (fz : z.Finite)
    (hx : |(x.value : ℝ) - ξ| ≤ uR * |ξ|) (hy : |(y.value : ℝ) - η| ≤ uR * |η|)
    (hz : |(z.value : ℝ) - ζ| ≤ uR * |ζ|)
    (bx : |ξ| ≤ 2 ^ 501) (by' : |η| ≤ 2 ^ 501) (bz : |ζ| ≤ 2 ^ 501) :
    NearLen (Dbl.sqrt (sq x + sq y + sq z)) √(ξ ^ 2 + (η ^ 2 + ζ ^ 2)) := by
  have hu := uR_le
  have hu0 := uR_nonneg
  have hl := near_len3 hu0 (hu.trans (by norm_num)) hx hy hz
  have sb : ∀ {a : ℝ}, |a| ≤ 2 ^ 501 → a ^ 2 ≤ 2 ^ 1002 := by
    intro a ha
    rw [← sq_abs]
    exact (pow_le_pow_left₀ (abs_nonneg _) ha 2).trans_eq (pow_mul _ _ _).symm
  have hW : ξ ^ 2 + (η ^ 2 + ζ ^ 2) ≤ 2 ^ 1004 := by
    have h1 := sb bx
    have h2 := sb by'
    have h3 := sb bz
    rw [show (2 : ℝ) ^ 1004 = 2 ^ 1002 * 2 ^ 2 from pow_add 2 1002 2]
    have h4 : (0 : ℝ) ≤ 2 ^ 1002 := by positivity
    generalize (2 : ℝ) ^ 1002 = P at *
    linarith only [h1, h2, h3, h4]
  have hE : √(ξ ^ 2 + (η ^ 2 + ζ ^ 2)) ≤ 2 ^ 502 :=
    Real.sqrt_le_iff.2 ⟨by positivity, hW.trans_eq (pow_mul 2 502 2)⟩
  have eS : ((sqSum .vec (⟨⟨x, y, z⟩⟩ : Vector F64) : ℚ) : ℝ)
      = (x.value : ℝ) ^ 2 + ((y.value : ℝ) ^ 2 + (z.value : ℝ) ^ 2) := by
    simp only [sqSum, comps, List.map_cons, List.map_nil, List.sum_cons, List.sum_nil]
    push_cast; ring
  have eE : euclid .vec (⟨⟨x, y, z⟩⟩ : Vector F64)
      = √((x.value : ℝ) ^ 2 + ((y.value : ℝ) ^ 2 + (z.value : ℝ) ^ 2)) := by
    unfold euclid; rw [eS]
  have hE0 := Real.sqrt_nonneg (ξ ^ 2 + (η ^ 2 + ζ ^ 2))
  generalize √(ξ ^ 2 + (η ^ 2 + ζ ^ 2)) = E at *
  have hS : sqSum .vec (⟨⟨x, y, z⟩⟩ : Vector F64) ≤ 2 ^ 1022 := by
    have h1 : √((x.value : ℝ) ^ 2 + ((y.value : ℝ) ^ 2 + (z.value : ℝ) ^ 2)) ≤ 2 ^ 511 := by
      have h2 := (abs_le.1 hl).2
      have h3 : uR * E ≤ 1 * E := mul_le_mul_of_nonneg_right (hu.trans (by norm_num)) hE0
      have h4 : (2 : ℝ) ^ 511 = 2 ^ 502 * 2 ^ 9 := pow_add 2 502 9
      have h5 : (0 : ℝ) ≤ 2 ^ 502 := by positivity
      rw [h4]
      generalize (2 : ℝ) ^ 502 = P at *
      generalize uR = u at *
      linarith only [h2, h3, hE, h5]
    have h6 := (Real.sqrt_le_iff.1 h1).2
    rw [← pow_mul, ← eS] at h6
    have : ((sqSum .vec (⟨⟨x, y, z⟩⟩ : Vector F64) : ℚ) : ℝ) ≤ ((2 ^ 1022 : ℚ) : ℝ) := by
      rw [Rat.cast_pow, Rat.cast_ofNat]; exact h6
    exact Rat.cast_le.1 this
  obtain ⟨f, k⟩ := C34_magnitude_wide .vec (⟨⟨x, y, z⟩⟩ : Vector F64) (by
    simp only [comps, List.mem_cons, List.not_mem_nil, or_false]
    rintro c (rfl | rfl | rfl) <;> assumption) hS
  have em : magnitudeTy .vec (⟨⟨x, y, z⟩⟩ : Vector F64) = Dbl.sqrt (sq x + sq y + sq z) := by
    change Dbl.sqrt ((0 : F64) + x * x + y * y + z * z) = _
    rw [zero_add_sq fx]
    rfl
  rw [em] at f k
  refine ⟨f, ?_, hE0, hE.trans (pow_le_pow_right₀ (by norm_num) (by norm_num)), ?_⟩
  · exact sqrt_value_nonneg f
  · change _ ≤ 7 * uR * _ + _ at k
    rw [eE] at k
    have ht : (2 : ℝ) ^ (-529 : ℤ) ≤ 1 / 1000 * uR := by
      unfold uR
      rw [show (-529 : ℤ) = -476 + -53 from by norm_num only, zpow_add₀ (by norm_num)]
      refine mul_le_mul_of_nonneg_right ?_ uR_nonneg
      calc (2 : ℝ) ^ (-476 : ℤ) ≤ (2 : ℝ) ^ (-10 : ℤ) :=
            zpow_le_zpow_right₀ (by norm_num) (by norm_num)
        _ ≤ _ := by norm_num
    refine (abs_sub_le _ _ _).trans (add_le_add k hl |>.trans ?_)
    generalize √((x.value : ℝ) ^ 2 + ((y.value : ℝ) ^ 2 + (z.value : ℝ) ^ 2)) = G at *
    have h1 := mul_le_mul_of_nonneg_left (abs_le.1 hl).2 hu0
    have h2 : uR * (uR * E) ≤ 1 / 1000000 * (uR * E) :=
      mul_le_mul_of_nonneg_right hu (mul_nonneg hu0 hE0)
    have h3 := mul_nonneg hu0 hE0
    generalize (2 : ℝ) ^ (-529 : ℤ) = t at *
    generalize uR = u at *
    linarith only [h1, h2, h3, ht]

end Engabra
