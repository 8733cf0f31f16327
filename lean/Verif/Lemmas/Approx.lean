import Verif.Lemmas.F64Ops
import Mathlib.Tactic.Ring
import Mathlib.Tactic.Linarith

/-! Rounding error of expressions built from products, sums, differences and negations. -/

namespace Engabra
namespace F64

/-- unit roundoff `2^-53` -/
def uro : ℚ := (2 : ℚ) ^ (-53 : ℤ)
/-- half of the smallest positive number -/
def tinyErr : ℚ := (2 : ℚ) ^ (-1075 : ℤ)

theorem uro_pos : 0 < uro := two_zpow_pos _
theorem tinyErr_pos : 0 < tinyErr := two_zpow_pos _

theorem uro_eq : uro = 1 / 2 ^ 53 := by unfold uro; rw [zpow_neg, one_div]; rfl

theorem rn_err' (x : ℚ) : |rnVal x - x| ≤ uro * |x| + tinyErr := by
  have h := rnVal_err_rel (K := ℚ) x
  rw [Rat.cast_id] at h
  refine h.trans (max_le ?_ ?_)
  · exact le_add_of_nonneg_right tinyErr_pos.le
  · exact le_add_of_nonneg_left (mul_nonneg uro_pos.le (abs_nonneg x))

/-- `c` is a computed value of the exact quantity `q` whose terms have absolute sum `A`, obtained
with at most `n` roundings per term. -/
def Approx (c : F64) (q A : ℚ) (n : ℕ) : Prop :=
  |q| ≤ A ∧ (c.Finite → |c.value - q| ≤ ((1 + uro) ^ n - 1) * A + 4 ^ n * tinyErr)

theorem one_le_pow_uro (n : ℕ) : 1 ≤ (1 + uro) ^ n :=
  one_le_pow₀ (by linarith [uro_pos])

theorem Approx.mono {c : F64} {q A : ℚ} {n m : ℕ} (h : Approx c q A n) (hn : n ≤ m) :
    Approx c q A m := by
  refine ⟨h.1, fun hc => (h.2 hc).trans ?_⟩
  have hA : 0 ≤ A := (abs_nonneg q).trans h.1
  have h1 : (1 + uro) ^ n ≤ (1 + uro) ^ m := pow_le_pow_right₀ (by linarith [uro_pos]) hn
  have h2 : (4 : ℚ) ^ n ≤ 4 ^ m := pow_le_pow_right₀ (by norm_num) hn
  have h3 := mul_le_mul_of_nonneg_right h1 hA
  have h4 := mul_le_mul_of_nonneg_right h2 tinyErr_pos.le
  linarith

theorem Approx.zero : Approx 0 0 0 0 :=
  ⟨by rw [abs_zero], fun _ => by
    rw [hasVal_zero'.2, sub_self, abs_zero, mul_zero, zero_add, pow_zero, one_mul]
    exact tinyErr_pos.le⟩

theorem Approx.neg {c : F64} {q A : ℚ} {n : ℕ} (h : Approx c q A n) : Approx (-c) (-q) A n := by
  refine ⟨by rw [abs_neg]; exact h.1, fun hc => ?_⟩
  rw [neg_finite_iff] at hc
  have e : (-c : F64).value - -q = -(c.value - q) := by rw [neg_def, neg_value]; ring
  rw [e, abs_neg]; exact h.2 hc

theorem Approx.mul (a b : F64) :
    Approx (a * b) (a.value * b.value) (|a.value| * |b.value|) 1 := by
  refine ⟨by rw [abs_mul], fun hc => ?_⟩
  rw [mul_value hc, ← abs_mul]
  refine (rn_err' _).trans ?_
  rw [pow_one, pow_one, add_sub_cancel_left]
  linarith [tinyErr_pos]

theorem Approx.add {c d : F64} {q r A B : ℚ} {n m : ℕ} (h : Approx c q A n) (k : Approx d r B m) :
    Approx (c + d) (q + r) (A + B) (max n m + 1) := by
  have h' := h.mono (le_max_left n m)
  have k' := k.mono (le_max_right n m)
  generalize max n m = N at *
  refine ⟨(abs_add_le q r).trans (add_le_add h.1 k.1), fun hc => ?_⟩
  obtain ⟨fc, fd⟩ := add_finite hc
  have e1 := h'.2 fc
  have e2 := k'.2 fd
  rw [add_value hc]
  have e3 := rn_err' (c.value + d.value)
  have hs : |c.value + d.value - (q + r)| ≤ |c.value - q| + |d.value - r| := by
    rw [add_sub_add_comm]; exact abs_add_le _ _
  have hq : |q + r| ≤ A + B := (abs_add_le q r).trans (add_le_add h.1 k.1)
  have ht : |c.value + d.value| ≤ |c.value + d.value - (q + r)| + |q + r| := by
    have := abs_add_le (c.value + d.value - (q + r)) (q + r)
    rwa [sub_add_cancel] at this
  have hz : |rnVal (c.value + d.value) - (q + r)|
      ≤ |rnVal (c.value + d.value) - (c.value + d.value)| + |c.value + d.value - (q + r)| :=
    abs_sub_le _ _ _
  have hu := uro_pos
  have hu1 : uro ≤ 1 / 2 := by rw [uro_eq]; norm_num
  have hη := tinyErr_pos
  have hP := one_le_pow_uro N
  have hF : (1 : ℚ) ≤ 4 ^ N := one_le_pow₀ (by norm_num)
  generalize |rnVal (c.value + d.value) - (q + r)| = X at *
  generalize |rnVal (c.value + d.value) - (c.value + d.value)| = Y at *
  generalize |c.value + d.value - (q + r)| = Z at *
  generalize |c.value + d.value| = W at *
  generalize |q + r| = V at *
  rw [pow_succ, pow_succ]
  generalize (1 + uro) ^ N = P at *
  generalize (4 : ℚ) ^ N = F at *
  generalize tinyErr = η at *
  generalize uro = u at *
  generalize |c.value - q| = E1 at *
  generalize |d.value - r| = E2 at *
  have hFη : η ≤ F * η := le_mul_of_one_le_left hη.le hF
  -- Z ≤ (P-1)(A+B) + 2Fη =: G ; X ≤ Z + u (Z + (A+B)) + η
  have hZ : Z ≤ (P - 1) * (A + B) + 2 * (F * η) := by
    have : (P - 1) * (A + B) = (P - 1) * A + (P - 1) * B := by ring
    linarith
  have hW : W ≤ Z + (A + B) := by linarith
  have huW : u * W ≤ u * (Z + (A + B)) := mul_le_mul_of_nonneg_left hW hu.le
  have huZ : u * Z ≤ u * ((P - 1) * (A + B) + 2 * (F * η)) := mul_le_mul_of_nonneg_left hZ hu.le
  have huF : u * (F * η) ≤ 1 / 2 * (F * η) :=
    mul_le_mul_of_nonneg_right hu1 (by positivity)
  nlinarith

theorem Approx.sub {c d : F64} {q r A B : ℚ} {n m : ℕ} (h : Approx c q A n) (k : Approx d r B m) :
    Approx (c - d) (q - r) (A + B) (max n m + 1) := by
  rw [sub_eq_add_neg]
  exact h.add k.neg

theorem Approx.use {c : F64} {q A q' A' : ℚ} {n : ℕ} (h : Approx c q A n) (hn : n ≤ 8)
    (hq : q = q') (hA : A = A') (hc : c.Finite) :
    |c.value - q'| ≤ ((1 + uro) ^ 8 - 1) * A' + 4 ^ 8 * tinyErr := by
  subst hq hA
  exact (h.mono hn).2 hc

theorem value_neg (x : F64) : (-x : F64).value = -x.value := neg_value x

/-! ## Absence of overflow -/

theorem uro_pow_le : (1 + uro) ^ 8 ≤ 3 / 2 := by
  unfold uro; norm_num

/-- The size below which no operation of a product can overflow. -/
def safe : ℚ := 2 ^ 1022

theorem one_le_safe : 1 ≤ safe := one_le_pow₀ (by norm_num)

theorem safe_lt {x : ℚ} (h : |x| ≤ 2 * safe) : |rnVal x| < 2 ^ 1024 := by
  have e : (2 : ℚ) * safe = 2 ^ 1023 := (pow_succ' 2 1022).symm
  rw [e] at h
  have hr := rep_pow ((1023 : ℕ) : ℤ) (by norm_num)
  rw [zpow_natCast] at hr
  rw [← rnVal_abs]
  have h3 := rnVal_le_rep (K := ℚ) hr (x := |x|) (by exact h)
  exact lt_of_le_of_lt h3 (pow_lt_pow_right₀ (by norm_num) (by norm_num))

/-- `Approx`, and `c` is finite when `A` is not too large. -/
def Fits (c : F64) (q A : ℚ) (n : ℕ) : Prop :=
  Approx c q A n ∧ (n ≤ 8 → A ≤ safe → c.Finite)

theorem Fits.zero : Fits 0 0 0 0 := ⟨Approx.zero, fun _ _ => hasVal_zero'.1⟩

theorem Fits.neg {c : F64} {q A : ℚ} {n : ℕ} (h : Fits c q A n) : Fits (-c) (-q) A n :=
  ⟨h.1.neg, fun hn hA => neg_finite_iff.2 (h.2 hn hA)⟩

theorem Fits.mul {a b : F64} (ha : a.Finite) (hb : b.Finite) :
    Fits (a * b) (a.value * b.value) (|a.value| * |b.value|) 1 := by
  refine ⟨Approx.mul a b, fun _ hA => ?_⟩
  refine (mul_spec ha hb (safe_lt ?_)).1
  rw [abs_mul]
  linarith [one_le_safe]

theorem Approx.bound {c : F64} {q A : ℚ} {n : ℕ} (h : Approx c q A n) (hn : n ≤ 8) (hc : c.Finite) :
    |c.value| ≤ 3 / 2 * A + 4 ^ 8 * tinyErr := by
  have h1 := (h.mono hn).2 hc
  have h2 : |c.value| ≤ |c.value - q| + |q| := by
    have := abs_add_le (c.value - q) q
    rwa [sub_add_cancel] at this
  have hA : 0 ≤ A := (abs_nonneg q).trans h.1
  have h3 := mul_le_mul_of_nonneg_right uro_pow_le hA
  have h4 := h.1
  linarith

theorem Fits.add {c d : F64} {q r A B : ℚ} {n m : ℕ} (h : Fits c q A n) (k : Fits d r B m) :
    Fits (c + d) (q + r) (A + B) (max n m + 1) := by
  refine ⟨h.1.add k.1, fun hn hA => ?_⟩
  have hA0 : 0 ≤ A := (abs_nonneg q).trans h.1.1
  have hB0 : 0 ≤ B := (abs_nonneg r).trans k.1.1
  have hn1 : n ≤ 8 := by have := le_max_left n m; omega
  have hm1 : m ≤ 8 := by have := le_max_right n m; omega
  have fc := h.2 hn1 (by linarith)
  have fd := k.2 hm1 (by linarith)
  refine (add_spec fc fd (safe_lt ?_)).1
  have b1 := h.1.bound hn1 fc
  have b2 := k.1.bound hm1 fd
  have ht : 4 ^ 8 * tinyErr ≤ 1 / 4 := by
    unfold tinyErr
    have h : (2 : ℚ) ^ (-1075 : ℤ) ≤ 2 ^ (-18 : ℤ) :=
      zpow_le_zpow_right₀ (by norm_num) (by norm_num)
    have h2 : (2 : ℚ) ^ (-18 : ℤ) = 1 / 262144 := by norm_num
    rw [h2] at h
    linarith
  have := abs_add_le c.value d.value
  linarith [one_le_safe]

theorem Fits.sub {c d : F64} {q r A B : ℚ} {n m : ℕ} (h : Fits c q A n) (k : Fits d r B m) :
    Fits (c - d) (q - r) (A + B) (max n m + 1) := by
  rw [sub_eq_add_neg]
  exact h.add k.neg

theorem Fits.use {c : F64} {q A A' : ℚ} {n : ℕ} (h : Fits c q A n) (hn : n ≤ 8)
    (hA : A = A') (hs : A' ≤ safe) : c.Finite := h.2 hn (hA ▸ hs)

end F64
end Engabra
