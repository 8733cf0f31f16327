import Verif.Lemmas.F64

/-! Facts about the binary64 operations, stated for the notation used by the model. -/

namespace Engabra
namespace F64

theorem add_def (x y : F64) : x + y = add x y := rfl
theorem sub_def (x y : F64) : x - y = add x (neg y) := rfl
theorem mul_def (x y : F64) : x * y = mul x y := rfl
theorem neg_def (x : F64) : -x = neg x := rfl
theorem div_def (x y : F64) : x / y = div x y := rfl
theorem zero_def : (0 : F64) = zero false := rfl
theorem one_def : (1 : F64) = roundTo (1 : ℚ) := rfl
theorem lit_def (q : ℚ) : (Dbl.lit q : F64) = roundTo q := rfl
theorem nan_def : (Dbl.nan : F64) = nan := rfl
theorem lt_def (x y : F64) : Dbl.lt x y = lt x y := rfl
theorem feq_def (x y : F64) : Dbl.feq x y = feq x y := rfl
theorem isnormal_def (x : F64) : Dbl.isnormal x = isnormal x := rfl
theorem sqrt_def (x : F64) : Dbl.sqrt x = sqrt x := rfl
theorem abs_def (x : F64) : Dbl.abs x = abs x := rfl

theorem isFin_one : IsFin 1 :=
  ⟨one_ne_zero, 1, 0, by norm_num, by norm_num, by norm_num, by norm_num⟩

theorem one_eq : (1 : F64) = fin 1 isFin_one := roundTo_fin isFin_one

theorem fin_add_fin {v w : ℚ} (hv : IsFin v) (hw : IsFin w) (h : v + w ≠ 0) :
    fin v hv + fin w hw = roundTo (v + w) := if_neg h

theorem fin_mul_fin {v w : ℚ} (hv : IsFin v) (hw : IsFin w) :
    fin v hv * fin w hw = roundTo (v * w) := if_neg (mul_ne_zero hv.1 hw.1)

theorem fin_feq_fin {v w : ℚ} (hv : IsFin v) (hw : IsFin w) :
    feq (fin v hv) (fin w hw) = true ↔ v = w := decide_eq_true_iff

theorem addFin_comm (x y : F64) : addFin x y = addFin y x := by
  unfold addFin; rw [add_comm, Bool.and_comm]

theorem mulFin_comm (x y : F64) : mulFin x y = mulFin y x := by
  unfold mulFin; rw [mul_comm, Bool.xor_comm]

/-- IEEE addition is commutative, bit for bit. -/
theorem add_comm' (x y : F64) : x + y = y + x := by
  simp only [add_def]
  cases x <;> cases y <;> simp only [add, addFin_comm]
  rename_i s t
  cases s <;> cases t <;> rfl

/-- IEEE multiplication is commutative, bit for bit. -/
theorem mul_comm' (x y : F64) : x * y = y * x := by
  simp only [mul_def]
  cases x <;> cases y <;> simp only [mul, mulFin_comm, signbit, Bool.xor_comm]

theorem nan_add (x : F64) : nan + x = nan := by rw [add_def]; cases x <;> rfl
theorem add_nan (x : F64) : x + nan = nan := by rw [add_comm', nan_add]
theorem nan_mul (x : F64) : nan * x = nan := by rw [mul_def]; cases x <;> rfl
theorem mul_nan (x : F64) : x * nan = nan := by rw [mul_comm', nan_mul]
theorem neg_nan : -nan = nan := rfl
theorem nan_sub (x : F64) : nan - x = nan := by rw [sub_def, ← add_def, nan_add]
theorem sub_nan (x : F64) : x - nan = nan := by rw [sub_def]; exact add_nan x

/-! ## Finiteness of results implies finiteness of operands -/

theorem add_finite {x y : F64} (h : (x + y).Finite) : x.Finite ∧ y.Finite := by
  rw [add_def] at h
  cases x <;> cases y <;> simp only [add] at h <;>
    first
    | exact ⟨trivial, trivial⟩
    | exact absurd h id
    | (split_ifs at h <;> exact absurd h id)

theorem sub_finite {x y : F64} (h : (x - y).Finite) : x.Finite ∧ y.Finite := by
  have := add_finite (x := x) (y := neg y) h
  refine ⟨this.1, ?_⟩
  have h2 := neg_finite this.2
  rwa [neg_neg'] at h2

theorem mul_finite {x y : F64} (h : (x * y).Finite) : x.Finite ∧ y.Finite := by
  rw [mul_def] at h
  cases x <;> cases y <;> simp only [mul] at h <;>
    first
    | exact ⟨trivial, trivial⟩
    | exact absurd h id

theorem neg_finite_iff {x : F64} : (-x).Finite ↔ x.Finite := by
  rw [neg_def]
  cases x <;> exact Iff.rfl

theorem roundTo_finite {K : Type} [Field K] [LinearOrder K] [IsStrictOrderedRing K] [FloorRing K]
    {x : K} (h : (roundTo x).Finite) : |rnVal x| < 2 ^ 1024 := by
  unfold roundTo at h
  by_cases hx : x = 0
  · rw [hx, rnVal_zero, abs_zero]; positivity
  · rw [dif_neg hx] at h
    by_cases h0 : rnVal x = 0
    · rw [h0, abs_zero]; positivity
    · rw [dif_neg h0] at h
      by_cases h1 : |rnVal x| < 2 ^ 1024
      · exact h1
      · rw [dif_neg h1] at h; exact absurd h id

/-- A finite sum is the correctly rounded sum. -/
theorem add_value {x y : F64} (h : (x + y).Finite) :
    (x + y).value = rnVal (x.value + y.value) := by
  obtain ⟨hx, hy⟩ := add_finite h
  have key : x + y = addFin x y := by
    rw [add_def]
    cases x <;> cases y <;> first | rfl | exact absurd hx id | exact absurd hy id
  rw [key] at h ⊢
  unfold addFin at h ⊢
  by_cases h0 : x.value + y.value = 0
  · rw [if_pos h0, h0, rnVal_zero]; rfl
  · rw [if_neg h0] at h ⊢; exact (roundTo_value (roundTo_finite h)).2

theorem sub_value {x y : F64} (h : (x - y).Finite) :
    (x - y).value = rnVal (x.value - y.value) := by
  have := add_value (x := x) (y := neg y) h
  rw [neg_value, ← sub_eq_add_neg] at this
  exact this

theorem mul_value {x y : F64} (h : (x * y).Finite) :
    (x * y).value = rnVal (x.value * y.value) := by
  obtain ⟨hx, hy⟩ := mul_finite h
  have key : x * y = mulFin x y := by
    rw [mul_def]
    cases x <;> cases y <;> first | rfl | exact absurd hx id | exact absurd hy id
  rw [key] at h ⊢
  unfold mulFin at h ⊢
  by_cases h0 : x.value * y.value = 0
  · rw [if_pos h0, h0, rnVal_zero]; rfl
  · rw [if_neg h0] at h ⊢; exact (roundTo_value (roundTo_finite h)).2

theorem value_lt {x : F64} : |x.value| < 2 ^ 1024 := by
  cases x with
  | fin v h => exact h.lt
  | _ => unfold value; rw [abs_zero]; positivity

/-! ## Exact results -/

/-- `x` is a finite datum with value `q`. -/
def HasVal (x : F64) (q : ℚ) : Prop := x.Finite ∧ x.value = q

theorem HasVal.of {x : F64} (h : x.Finite) : HasVal x x.value := ⟨h, rfl⟩
theorem hasVal_zero (s : Bool) : HasVal (zero s) 0 := ⟨trivial, rfl⟩
theorem hasVal_zero' : HasVal 0 0 := ⟨trivial, rfl⟩
theorem hasVal_one : HasVal 1 1 := by rw [one_eq]; exact ⟨trivial, rfl⟩
theorem hasVal_fin {v : ℚ} (h : IsFin v) : HasVal (fin v h) v := ⟨trivial, rfl⟩

theorem HasVal.neg {x : F64} {p : ℚ} (hx : HasVal x p) : HasVal (-x) (-p) :=
  ⟨neg_finite hx.1, by rw [neg_def, neg_value, hx.2]⟩

theorem HasVal.add {x y : F64} {p q : ℚ} (hx : HasVal x p) (hy : HasVal y q)
    (hr : Rep (p + q)) (hb : |p + q| < 2 ^ 1024) : HasVal (x + y) (p + q) := by
  have e := rnVal_exact hr
  have := add_spec hx.1 hy.1 (by rw [hx.2, hy.2, e]; exact hb)
  exact ⟨this.1, by rw [add_def, this.2, hx.2, hy.2, e]⟩

theorem HasVal.sub {x y : F64} {p q : ℚ} (hx : HasVal x p) (hy : HasVal y q)
    (hr : Rep (p - q)) (hb : |p - q| < 2 ^ 1024) : HasVal (x - y) (p - q) := by
  rw [sub_eq_add_neg] at hr hb ⊢
  exact HasVal.add hx hy.neg hr hb

theorem HasVal.mul {x y : F64} {p q : ℚ} (hx : HasVal x p) (hy : HasVal y q)
    (hr : Rep (p * q)) (hb : |p * q| < 2 ^ 1024) : HasVal (x * y) (p * q) := by
  have e := rnVal_exact hr
  have := mul_spec hx.1 hy.1 (by rw [hx.2, hy.2, e]; exact hb)
  exact ⟨this.1, by rw [mul_def, this.2, hx.2, hy.2, e]⟩

theorem HasVal.rep {x : F64} {p : ℚ} (hx : HasVal x p) : Rep p := by
  rw [← hx.2]; exact value_rep

theorem HasVal.lt {x : F64} {p : ℚ} (hx : HasVal x p) : |p| < 2 ^ 1024 := by
  rw [← hx.2]; exact value_lt

theorem HasVal.add_zero {x y : F64} {p : ℚ} (hx : HasVal x p) (hy : HasVal y 0) :
    HasVal (x + y) p := by
  have := hx.add hy (by rw [_root_.add_zero]; exact hx.rep) (by rw [_root_.add_zero]; exact hx.lt)
  rwa [_root_.add_zero] at this

theorem HasVal.zero_add {x y : F64} {p : ℚ} (hx : HasVal x 0) (hy : HasVal y p) :
    HasVal (x + y) p := by
  rw [add_comm']; exact hy.add_zero hx

theorem HasVal.sub_zero {x y : F64} {p : ℚ} (hx : HasVal x p) (hy : HasVal y 0) :
    HasVal (x - y) p := by
  have h := hy.neg
  rw [neg_zero] at h
  exact hx.add_zero h

theorem HasVal.zero_sub {x y : F64} {p : ℚ} (hx : HasVal x 0) (hy : HasVal y (-p)) :
    HasVal (x - y) p := by
  have h := hy.neg
  rw [neg_neg] at h
  exact hx.zero_add h

theorem HasVal.one_mul {x y : F64} {p : ℚ} (hx : HasVal x 1) (hy : HasVal y p) :
    HasVal (x * y) p := by
  have := hx.mul hy (by rw [_root_.one_mul]; exact hy.rep) (by rw [_root_.one_mul]; exact hy.lt)
  rwa [_root_.one_mul] at this

theorem HasVal.mul_one {x y : F64} {p : ℚ} (hx : HasVal x p) (hy : HasVal y 1) :
    HasVal (x * y) p := by
  rw [mul_comm']; exact hy.one_mul hx

theorem HasVal.zero_mul {x y : F64} {p : ℚ} (hx : HasVal x 0) (hy : HasVal y p) :
    HasVal (x * y) 0 := by
  have := hx.mul hy (by rw [MulZeroClass.zero_mul]; exact rep_zero)
    (by rw [MulZeroClass.zero_mul, abs_zero]; positivity)
  rwa [MulZeroClass.zero_mul] at this

theorem HasVal.mul_zero {x y : F64} {p : ℚ} (hx : HasVal x p) (hy : HasVal y 0) :
    HasVal (x * y) 0 := by
  rw [mul_comm']; exact hy.zero_mul hx

theorem hasVal_zero_mul {y : F64} (hy : y.Finite) : HasVal (0 * y) 0 :=
  hasVal_zero'.zero_mul (HasVal.of hy)

theorem hasVal_mul_zero {y : F64} (hy : y.Finite) : HasVal (y * 0) 0 :=
  (HasVal.of hy).mul_zero hasVal_zero'

/-- `==` on finite data compares values. -/
theorem HasVal.feq {x y : F64} {p q : ℚ} (hx : HasVal x p) (hy : HasVal y q) :
    Dbl.feq x y = decide (p = q) := by
  obtain ⟨hx1, rfl⟩ := hx
  obtain ⟨hy1, rfl⟩ := hy
  rw [feq_def]
  cases x <;> cases y <;> first | rfl | exact absurd hx1 id | exact absurd hy1 id

/-- `<` on finite data compares values. -/
theorem HasVal.flt {x y : F64} {p q : ℚ} (hx : HasVal x p) (hy : HasVal y q) :
    Dbl.lt x y = decide (p < q) := by
  obtain ⟨hx1, rfl⟩ := hx
  obtain ⟨hy1, rfl⟩ := hy
  rw [lt_def]
  cases x <;> cases y <;> first | rfl | exact absurd hx1 id | exact absurd hy1 id

theorem HasVal.abs {x : F64} {p : ℚ} (hx : HasVal x p) : HasVal (Dbl.abs x) |p| := by
  obtain ⟨hx1, rfl⟩ := hx
  rw [abs_def]
  cases x with
  | nan => exact absurd hx1 id
  | inf _ => exact absurd hx1 id
  | zero s => cases s <;> exact ⟨trivial, by simp [F64.abs, signbit, F64.neg, value]⟩
  | fin v h =>
    unfold F64.abs signbit
    by_cases hv : v < 0
    · simp only [hv, decide_true, if_true]
      exact ⟨trivial, by simp only [F64.neg, value, abs_of_neg hv]⟩
    · simp only [hv, decide_false, Bool.false_eq_true, if_false]
      exact ⟨trivial, by simp only [value, abs_of_nonneg (not_lt.1 hv)]⟩

end F64
end Engabra
