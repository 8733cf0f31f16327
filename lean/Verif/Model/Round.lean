import Mathlib.Data.Int.Log
import Mathlib.Data.Rat.Floor
import Mathlib.Tactic.Linarith
import Mathlib.Tactic.Ring
import Mathlib.Tactic.FieldSimp
import Mathlib.Tactic.Positivity
import Mathlib.Tactic.Zify

/-! # Rounding to binary64 (IEEE-754 roundTiesToEven)

Generic in an ordered field with floor, so that the same rounding is used for rationals
(sum, product, quotient, literals) and for reals (square root).  This file has the
definitions, and the proof that a rounded value which does not overflow is a binary64
value, which the definition of `F64` needs. -/

namespace Engabra
namespace F64

variable {K : Type} [Field K] [LinearOrder K] [IsStrictOrderedRing K] [FloorRing K]

/-- Nearest integer, ties to even. -/
def rhe (x : K) : ℤ :=
  if x - ⌊x⌋ < 1 / 2 then ⌊x⌋
  else if 1 / 2 < x - ⌊x⌋ then ⌊x⌋ + 1
  else if Even ⌊x⌋ then ⌊x⌋ else ⌊x⌋ + 1

/-- Exponent of the unit in the last place of a binary64 number of the size of `x`. -/
def ulpExp (x : K) : ℤ := max (Int.log 2 |x| - 52) (-1074)

/-- The rounded value, before overflow is considered (exponent range unbounded above). -/
def rnVal (x : K) : ℚ := (rhe (x / (2 : K) ^ ulpExp x) : ℚ) * (2 : ℚ) ^ ulpExp x

/-- Finite non-zero binary64 values: `m 2^e` with `|m| < 2^53`, `-1074 ≤ e ≤ 971`. -/
def IsFin (v : ℚ) : Prop :=
  v ≠ 0 ∧ ∃ m e : ℤ, |m| < 2 ^ 53 ∧ -1074 ≤ e ∧ e ≤ 971 ∧ v = m * (2 : ℚ) ^ e

/-! ## Properties of `rhe` -/

theorem rhe_cases (x : K) :
    |x - rhe x| < 1 / 2 ∨ (|x - rhe x| = 1 / 2 ∧ Even (rhe x)) := by
  have h0 : (⌊x⌋ : K) ≤ x := Int.floor_le x
  have h1 : x < ⌊x⌋ + 1 := Int.lt_floor_add_one x
  unfold rhe
  split_ifs with ha hb hc
  · left; rw [abs_of_nonneg (by linarith)]; exact ha
  · left; push_cast; rw [abs_of_nonpos (by linarith)]; linarith
  · right
    refine ⟨?_, hc⟩
    rw [abs_of_nonneg (by linarith)]; linarith
  · right
    refine ⟨?_, ?_⟩
    · push_cast; rw [abs_of_nonpos (by linarith)]; linarith
    · rw [Int.not_even_iff_odd] at hc
      exact hc.add_one

theorem rhe_unique {x : K} {m n : ℤ} (hm : |x - m| < 1 / 2 ∨ (|x - m| = 1 / 2 ∧ Even m))
    (hn : |x - n| < 1 / 2 ∨ (|x - n| = 1 / 2 ∧ Even n)) : m = n := by
  have hm1 : |x - m| ≤ 1 / 2 := by rcases hm with h | h; exacts [h.le, h.1.le]
  have hn1 : |x - n| ≤ 1 / 2 := by rcases hn with h | h; exacts [h.le, h.1.le]
  rw [abs_le] at hm1 hn1
  have h1 : (m : K) ≤ n + 1 := by linarith
  have h2 : (n : K) ≤ m + 1 := by linarith
  have h1' : m ≤ n + 1 := by exact_mod_cast h1
  have h2' : n ≤ m + 1 := by exact_mod_cast h2
  by_contra hne
  have : m = n + 1 ∨ n = m + 1 := by omega
  have hev : Even m ∧ Even n := by
    have hx : |x - m| = 1 / 2 ∧ |x - n| = 1 / 2 := by
      rcases this with h | h
      · have hk : (m : K) = n + 1 := by rw [h]; push_cast; ring
        have e : x - m = -(1 / 2) := by linarith
        have e' : x - n = 1 / 2 := by linarith
        rw [e, e', abs_neg, abs_of_pos (by norm_num)]; exact ⟨rfl, rfl⟩
      · have hk : (n : K) = m + 1 := by rw [h]; push_cast; ring
        have e : x - n = -(1 / 2) := by linarith
        have e' : x - m = 1 / 2 := by linarith
        rw [e, e', abs_neg, abs_of_pos (by norm_num)]; exact ⟨rfl, rfl⟩
    constructor
    · rcases hm with h | h
      · exact absurd hx.1 h.ne
      · exact h.2
    · rcases hn with h | h
      · exact absurd hx.2 h.ne
      · exact h.2
  rcases this with h | h
  · rw [h, Int.even_add_one] at hev
    exact hev.1 hev.2
  · rw [h, Int.even_add_one] at hev
    exact hev.2 hev.1

theorem rhe_eq {x : K} {n : ℤ} (h : |x - n| < 1 / 2 ∨ (|x - n| = 1 / 2 ∧ Even n)) : rhe x = n :=
  rhe_unique (rhe_cases x) h

theorem rhe_err (x : K) : |x - rhe x| ≤ 1 / 2 := by
  rcases rhe_cases x with h | h
  exacts [h.le, h.1.le]

theorem rhe_int (n : ℤ) : rhe (n : K) = n :=
  rhe_eq (Or.inl (by rw [sub_self, abs_zero]; norm_num))

theorem rhe_neg (x : K) : rhe (-x) = -rhe x := by
  apply rhe_eq
  have e : -x - ((-rhe x : ℤ) : K) = -(x - rhe x) := by push_cast; ring
  rw [e, abs_neg, even_neg]
  exact rhe_cases x

theorem rhe_mono {x y : K} (h : x ≤ y) : rhe x ≤ rhe y := by
  by_contra hlt
  have hx := abs_le.1 (rhe_err x)
  have hy := abs_le.1 (rhe_err y)
  have h1 : rhe y + 1 ≤ rhe x := by omega
  have h2 : ((rhe y : ℤ) : K) + 1 ≤ rhe x := by exact_mod_cast h1
  have hxy : x = y := by linarith
  rw [hxy] at hlt
  exact hlt le_rfl

theorem rhe_le_of_le {x : K} {n : ℤ} (h : x ≤ n) : rhe x ≤ n := by
  rw [← rhe_int (K := K) n]; exact rhe_mono h

theorem le_rhe_of_le {x : K} {n : ℤ} (h : n ≤ x) : n ≤ rhe x := by
  rw [← rhe_int (K := K) n]; exact rhe_mono h

theorem rhe_ratCast (q : ℚ) : rhe (q : K) = rhe q := by
  apply rhe_eq
  have e : (q : K) - ((rhe q : ℤ) : K) = ((q - rhe q : ℚ) : K) := by push_cast; ring
  have e2 : (1 / 2 : K) = ((1 / 2 : ℚ) : K) := by push_cast; ring
  rw [e, ← Rat.cast_abs, e2, Rat.cast_lt, Rat.cast_inj]
  exact rhe_cases q

/-! ## Size of the scaled value -/

theorem two_zpow_pos (e : ℤ) : (0 : K) < (2 : K) ^ e := zpow_pos (by norm_num) e

theorem abs_lt_ulp (x : K) : |x| < (2 : K) ^ (ulpExp x + 53) := by
  have h : |x| < ((2 : ℕ) : K) ^ (Int.log 2 |x| + 1) := Int.lt_zpow_succ_log_self (by norm_num) _
  refine lt_of_lt_of_le h ?_
  push_cast
  apply zpow_le_zpow_right₀ (by norm_num)
  unfold ulpExp
  have := le_max_left (Int.log 2 |x| - 52) (-1074)
  omega

theorem ulp_le_abs (x : K) (hx : x ≠ 0) (h : -1074 < ulpExp x) : (2 : K) ^ (ulpExp x + 52) ≤ |x| := by
  have h1 : ulpExp x = Int.log 2 |x| - 52 := by
    unfold ulpExp at *
    rcases le_total (Int.log 2 |x| - 52) (-1074) with h2 | h2
    · rw [max_eq_right h2] at h; omega
    · rw [max_eq_left h2]
  rw [h1]
  have e : Int.log 2 |x| - 52 + 52 = Int.log 2 |x| := by ring
  rw [e]
  have := Int.zpow_log_le_self (b := 2) (r := |x|) (by norm_num) (abs_pos.2 hx)
  push_cast at this
  exact this

omit [IsStrictOrderedRing K] in
theorem ulpExp_ge (x : K) : -1074 ≤ ulpExp x := le_max_right _ _

theorem scaled_abs (x : K) : |x / (2 : K) ^ ulpExp x| < 2 ^ 53 := by
  have hp : |(2 : K) ^ ulpExp x| = (2 : K) ^ ulpExp x := abs_of_pos (two_zpow_pos _)
  rw [abs_div, hp, div_lt_iff₀ (two_zpow_pos _)]
  have := abs_lt_ulp x
  rw [zpow_add₀ (by norm_num), mul_comm] at this
  exact_mod_cast this

theorem rhe_scaled_abs (x : K) : |rhe (x / (2 : K) ^ ulpExp x)| ≤ 2 ^ 53 := by
  have h := abs_lt.1 (scaled_abs x)
  rw [abs_le]
  constructor
  · apply le_rhe_of_le
    have := h.1.le
    norm_num at this ⊢
    exact this
  · apply rhe_le_of_le
    have := h.2.le
    norm_num at this ⊢
    exact this

theorem rhe_scaled_ge (x : K) (hx : x ≠ 0) (h : -1074 < ulpExp x) :
    2 ^ 52 ≤ |rhe (x / (2 : K) ^ ulpExp x)| := by
  have h1 : (2 : K) ^ 52 ≤ |x / (2 : K) ^ ulpExp x| := by
    have hp : |(2 : K) ^ ulpExp x| = (2 : K) ^ ulpExp x := abs_of_pos (two_zpow_pos _)
    rw [abs_div, hp, le_div_iff₀ (two_zpow_pos _)]
    have := ulp_le_abs x hx h
    rw [zpow_add₀ (by norm_num), mul_comm] at this
    exact_mod_cast this
  rcases le_abs.1 h1 with h2 | h2
  · have : (2 ^ 52 : ℤ) ≤ rhe (x / (2 : K) ^ ulpExp x) := le_rhe_of_le (by norm_num at h2 ⊢; exact h2)
    exact this.trans (le_abs_self _)
  · have : rhe (x / (2 : K) ^ ulpExp x) ≤ -(2 ^ 52 : ℤ) := rhe_le_of_le (by norm_num at h2 ⊢; linarith)
    have h3 := neg_abs_le (rhe (x / (2 : K) ^ ulpExp x))
    omega

theorem two_pow_split {a b c : ℕ} (h : a + b = c) : (2 : ℚ) ^ c = 2 ^ a * (2 : ℚ) ^ (b : ℤ) := by
  rw [zpow_natCast, ← pow_add, h]

/-- A rounded value below `2^1024` is a binary64 value. -/
theorem rnVal_isFin (x : K) (hx : x ≠ 0) (h0 : rnVal x ≠ 0) (h1 : |rnVal x| < 2 ^ 1024) :
    IsFin (rnVal x) := by
  refine ⟨h0, ?_⟩
  have hm := rhe_scaled_abs x
  have hge := ulpExp_ge x
  have habs : |rnVal x| = |(rhe (x / (2 : K) ^ ulpExp x) : ℚ)| * (2 : ℚ) ^ ulpExp x := by
    unfold rnVal
    rw [abs_mul, abs_of_pos (two_zpow_pos (K := ℚ) _)]
  rcases lt_or_eq_of_le hm with hlt | heq
  · refine ⟨_, ulpExp x, hlt, hge, ?_, rfl⟩
    by_contra hbig
    have hbig' : (972 : ℤ) ≤ ulpExp x := by omega
    have h52 := rhe_scaled_ge x hx (by omega)
    have : (2 : ℚ) ^ 1024 ≤ |rnVal x| := by
      rw [habs]
      have e : (2 : ℚ) ^ 1024 = 2 ^ 52 * (2 : ℚ) ^ ((972 : ℕ) : ℤ) := two_pow_split rfl
      rw [e]
      apply mul_le_mul _ (zpow_le_zpow_right₀ (by norm_num) (by push_cast; exact hbig')) (zpow_pos (by norm_num) _).le (abs_nonneg _)
      rw [← Int.cast_abs]
      exact_mod_cast h52
    exact absurd h1 (not_lt.2 this)
  · have hsgn : rhe (x / (2 : K) ^ ulpExp x) = 2 ^ 53 ∨ rhe (x / (2 : K) ^ ulpExp x) = -2 ^ 53 := by
      rcases abs_choice (rhe (x / (2 : K) ^ ulpExp x)) with h | h <;> rw [h] at heq
      · left; exact heq
      · right; omega
    have hle : ulpExp x + 1 ≤ 971 := by
      by_contra hbig
      have hbig' : (971 : ℤ) ≤ ulpExp x := by omega
      have : (2 : ℚ) ^ 1024 ≤ |rnVal x| := by
        rw [habs, ← Int.cast_abs, heq]
        have e : (2 : ℚ) ^ 1024 = 2 ^ 53 * (2 : ℚ) ^ ((971 : ℕ) : ℤ) := two_pow_split rfl
        rw [e]
        apply mul_le_mul _ (zpow_le_zpow_right₀ (by norm_num) (by push_cast; exact hbig')) (zpow_pos (by norm_num) _).le (by positivity)
        norm_num
      exact absurd h1 (not_lt.2 this)
    have e2 : (2 : ℚ) ^ (ulpExp x + 1) = (2 : ℚ) ^ ulpExp x * 2 := by
      rw [zpow_add₀ (by norm_num), zpow_one]
    rcases hsgn with h | h
    · refine ⟨2 ^ 52, ulpExp x + 1, by norm_num, by omega, hle, ?_⟩
      unfold rnVal
      rw [h, e2]; push_cast; ring
    · refine ⟨-2 ^ 52, ulpExp x + 1, by norm_num, by omega, hle, ?_⟩
      unfold rnVal
      rw [h, e2]; push_cast; ring

end F64
end Engabra
