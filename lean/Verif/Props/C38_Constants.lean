import Verif.Model.Angle
import Verif.Lemmas.F64Ops
import Verif.Props.C13_C15_Norms
import Mathlib.Analysis.Real.Pi.Bounds
import Mathlib.Tactic.NormNum
import Mathlib.Tactic.Linarith

/-! # C38: the angle constants

`g3::pi` is the double nearest to π, and the other constants are the doubles nearest to
π/2, π/4, 2π; the relations between them are exact. -/

namespace Engabra

open F64 (HasVal)

/-- Significand of the double nearest to π: `884279719003555 / 2^48`. -/
def piNum : ℤ := 7074237752028440

theorem rnVal_of {K : Type} [Field K] [LinearOrder K] [IsStrictOrderedRing K] [FloorRing K]
    {x : K} {e n : ℤ} (he : -1074 ≤ e) (h1 : (2 : K) ^ (e + 52) ≤ x) (h2 : x < (2 : K) ^ (e + 53))
    (hn : |x / (2 : K) ^ e - n| < 1 / 2) : F64.rnVal x = n * (2 : ℚ) ^ e := by
  have hx : 0 < x := lt_of_lt_of_le (F64.two_zpow_pos _) h1
  have hu : F64.ulpExp x = e := by
    unfold F64.ulpExp
    rw [abs_of_pos hx, F64.log_eq (n := e + 52) h1 (by rwa [show e + 52 + 1 = e + 53 by ring])]
    rw [add_sub_cancel_right]
    exact max_eq_left he
  unfold F64.rnVal
  rw [hu, F64.rhe_eq (Or.inl hn)]

theorem rnVal_real_pi : F64.rnVal Real.pi = piNum * (2 : ℚ) ^ (-51 : ℤ) := by
  have h1 := Real.pi_gt_d20
  have h2 := Real.pi_lt_d20
  apply rnVal_of (by norm_num)
  · norm_num; linarith
  · norm_num; linarith
  · rw [abs_lt, piNum]
    constructor <;> norm_num <;> linarith

theorem pi_isFin : F64.IsFin (piNum * (2 : ℚ) ^ (-51 : ℤ)) := by
  refine ⟨by norm_num [piNum], piNum, -51, by norm_num [piNum], by norm_num, by norm_num, rfl⟩

theorem pi_eq : Dbl.pi F64 = .fin _ pi_isFin := by
  unfold Dbl.pi
  rw [F64.lit_def]
  apply F64.roundTo_of_fin (by norm_num)
  apply rnVal_of (by norm_num)
  · norm_num
  · norm_num
  · rw [abs_lt, piNum]; constructor <;> norm_num

/-- `g3::pi` is π, correctly rounded. -/
theorem C38_pi_rounded : Dbl.pi F64 = F64.roundTo Real.pi := by
  rw [pi_eq, F64.roundTo_of_fin Real.pi_ne_zero rnVal_real_pi pi_isFin]

/-- `g3::pi` is a double and no double is nearer to π. -/
theorem C38_pi_nearest (v : F64) (_hv : v.Finite) :
    |((Dbl.pi F64).value : ℝ) - Real.pi| ≤ |(v.value : ℝ) - Real.pi| := by
  have := F64.rnVal_nearest Real.pi (v := v.value) F64.value_rep
  rw [rnVal_real_pi] at this
  rw [pi_eq]
  exact this

/-! ## The other angles -/

theorem rnVal_scaled {x : ℝ} {e : ℤ} (he : -1074 ≤ e) (c : ℝ) (hc : 0 < c)
    (hce : (2 : ℝ) ^ e = c * (2 : ℝ) ^ (-51 : ℤ)) (hx : x = c * Real.pi) :
    F64.rnVal x = piNum * (2 : ℚ) ^ e := by
  have h1 := Real.pi_gt_d20
  have h2 := Real.pi_lt_d20
  have e52 : (2 : ℝ) ^ (e + 52) = c * 2 := by
    rw [zpow_add₀ (by norm_num), hce, mul_assoc, ← zpow_add₀ (by norm_num)]; norm_num
  have e53 : (2 : ℝ) ^ (e + 53) = c * 4 := by
    rw [zpow_add₀ (by norm_num), hce, mul_assoc, ← zpow_add₀ (by norm_num)]; norm_num
  apply rnVal_of he
  · rw [e52, hx]; exact mul_le_mul_of_nonneg_left (by linarith) hc.le
  · rw [e53, hx]; exact mul_lt_mul_of_pos_left (by linarith) hc
  · rw [hce, hx, mul_div_mul_left _ _ hc.ne', abs_lt, piNum]
    constructor <;> norm_num <;> linarith

theorem piScaled_isFin {e : ℤ} (h1 : -1074 ≤ e) (h2 : e ≤ 971) :
    F64.IsFin (piNum * (2 : ℚ) ^ e) :=
  ⟨mul_ne_zero (by norm_num [piNum]) (zpow_ne_zero _ (by norm_num)), piNum, e,
    by norm_num [piNum], h1, h2, rfl⟩

/-- Multiplying the double `piNum * 2^e` by a power of two is exact. -/
theorem lit_mul_pi {q : ℚ} {e k : ℤ} (hq : F64.IsFin q) (hk : q = (2 : ℚ) ^ k)
    (h1 : -1074 ≤ e) (h2 : e ≤ 971) (h3 : -1074 ≤ e + k) (h4 : e + k ≤ 971) :
    (Dbl.lit q : F64) * F64.fin _ (piScaled_isFin h1 h2) = F64.fin _ (piScaled_isFin h3 h4) := by
  rw [F64.lit_def, F64.roundTo_fin hq, F64.fin_mul_fin]
  have : q * (piNum * (2 : ℚ) ^ e) = piNum * (2 : ℚ) ^ (e + k) := by
    rw [hk, zpow_add₀ (by norm_num)]; ring
  rw [this, F64.roundTo_fin (piScaled_isFin h3 h4)]

theorem half_isFin : F64.IsFin (1 / 2 : ℚ) :=
  ⟨by norm_num, 1, -1, by norm_num, by norm_num, by norm_num, by norm_num⟩
theorem two_isFin : F64.IsFin (2 : ℚ) :=
  ⟨by norm_num, 2, 0, by norm_num, by norm_num, by norm_num, by norm_num⟩

theorem piHalf_eq : Dbl.piHalf F64 = .fin _ (piScaled_isFin (e := -52) (by norm_num) (by norm_num)) := by
  unfold Dbl.piHalf
  rw [pi_eq]
  exact lit_mul_pi (e := -51) (k := -1) half_isFin (by norm_num) (by norm_num) (by norm_num) (by norm_num)
    (by norm_num)

theorem piQtr_eq : Dbl.piQtr F64 = .fin _ (piScaled_isFin (e := -53) (by norm_num) (by norm_num)) := by
  unfold Dbl.piQtr
  rw [piHalf_eq]
  exact lit_mul_pi (e := -52) (k := -1) half_isFin (by norm_num) (by norm_num) (by norm_num) (by norm_num)
    (by norm_num)

theorem turnFull_eq :
    Dbl.turnFull F64 = .fin _ (piScaled_isFin (e := -50) (by norm_num) (by norm_num)) := by
  unfold Dbl.turnFull
  rw [pi_eq]
  exact lit_mul_pi (k := 1) two_isFin (by norm_num) (by norm_num) (by norm_num) (by norm_num)
    (by norm_num)

/-- Every angle constant is the mathematical angle, correctly rounded to binary64: the
roundings in `.5 * pi`, `.5 * piHalf` and `2.*pi` add no error. -/
theorem C38_angles_rounded :
    Dbl.piHalf F64 = F64.roundTo (Real.pi / 2) ∧
    Dbl.piQtr F64 = F64.roundTo (Real.pi / 4) ∧
    Dbl.turnFull F64 = F64.roundTo (2 * Real.pi) ∧
    Dbl.turnHalf F64 = F64.roundTo Real.pi ∧
    Dbl.turnQtr F64 = F64.roundTo (Real.pi / 2) := by
  have hp := Real.pi_pos
  have hh : Dbl.piHalf F64 = F64.roundTo (Real.pi / 2) := by
    rw [piHalf_eq]
    exact (F64.roundTo_of_fin (by positivity) (rnVal_scaled (by norm_num) (1 / 2) (by norm_num)
      (by norm_num) (by ring)) _).symm
  refine ⟨hh, ?_, ?_, C38_pi_rounded, hh⟩
  · rw [piQtr_eq]
    exact (F64.roundTo_of_fin (by positivity) (rnVal_scaled (by norm_num) (1 / 4) (by norm_num)
      (by norm_num) (by ring)) _).symm
  · rw [turnFull_eq]
    exact (F64.roundTo_of_fin (by positivity) (rnVal_scaled (by norm_num) 2 (by norm_num)
      (by norm_num) (by ring)) _).symm

/-- The relations between the constants hold exactly, as values: two half turns or four
quarter turns make a full turn, and so on. -/
theorem C38_angles_exact :
    (Dbl.turnFull F64).value = 2 * (Dbl.turnHalf F64).value ∧
    (Dbl.turnFull F64).value = 4 * (Dbl.turnQtr F64).value ∧
    (Dbl.pi F64).value = 2 * (Dbl.piHalf F64).value ∧
    (Dbl.pi F64).value = 4 * (Dbl.piQtr F64).value := by
  have hT : Dbl.turnHalf F64 = Dbl.pi F64 := rfl
  have hQ : Dbl.turnQtr F64 = Dbl.piHalf F64 := rfl
  rw [hT, hQ, turnFull_eq, piHalf_eq, piQtr_eq, pi_eq]
  refine ⟨?_, ?_, ?_, ?_⟩ <;> · simp only [F64.value]; norm_num [piNum]

/-- `g3::pi` is below π: the sum of the angles of a half turn falls short of π, by less
than `2^-52`. -/
theorem C38_pi_below : ((Dbl.pi F64).value : ℝ) < Real.pi ∧
    Real.pi < ((Dbl.pi F64).value : ℝ) + (2 : ℝ) ^ (-52 : ℤ) := by
  have h1 := Real.pi_gt_d20
  have h2 := Real.pi_lt_d20
  rw [pi_eq]
  simp only [F64.value, piNum]
  constructor
  · norm_num; linarith
  · norm_num; linarith

/-! ## The documented relations between the basis elements (`g3const.hpp:55-74`) -/

section basis
variable {α : Type} [CommRing α]

/-- Each basis vector squares to 1, each basis bivector and the unit trivector to -1. -/
theorem C38_basis_squares :
    ((e1 : Vector α) * (e1 : Vector α) : Spinor α) = ⟨e0, gzero⟩ ∧ ((e2 : Vector α) * (e2 : Vector α) : Spinor α) = ⟨e0, gzero⟩ ∧
    ((e3 : Vector α) * (e3 : Vector α) : Spinor α) = ⟨e0, gzero⟩ ∧
    ((e23 : BiVector α) * (e23 : BiVector α) : Spinor α) = ⟨-e0, gzero⟩ ∧ ((e31 : BiVector α) * (e31 : BiVector α) : Spinor α) = ⟨-e0, gzero⟩ ∧
    ((e12 : BiVector α) * (e12 : BiVector α) : Spinor α) = ⟨-e0, gzero⟩ ∧ ((e123 : TriVector α) * (e123 : TriVector α) : Scalar α) = -e0 := by
  refine ⟨?_, ?_, ?_, ?_, ?_, ?_, ?_⟩ <;> mv_ring

/-- `e123` is the product of the basis vectors in any cyclic order. -/
theorem C38_basis_volume :
    ((e1 : Vector α) * ((e2 : Vector α) * (e3 : Vector α) : Spinor α) : ImSpin α) = ⟨gzero, e123⟩ ∧
    ((e2 : Vector α) * ((e3 : Vector α) * (e1 : Vector α) : Spinor α) : ImSpin α) = ⟨gzero, e123⟩ ∧
    ((e3 : Vector α) * ((e1 : Vector α) * (e2 : Vector α) : Spinor α) : ImSpin α) = ⟨gzero, e123⟩ := by
  refine ⟨?_, ?_, ?_⟩ <;> mv_ring

/-- `e23*e31*e12 = e31*e12*e23 = e12*e23*e31 = 1`. -/
theorem C38_basis_bivectors :
    (((e23 : BiVector α) * (e31 : BiVector α) : Spinor α) * (e12 : BiVector α) : Spinor α) = ⟨e0, gzero⟩ ∧
    (((e31 : BiVector α) * (e12 : BiVector α) : Spinor α) * (e23 : BiVector α) : Spinor α) = ⟨e0, gzero⟩ ∧
    (((e12 : BiVector α) * (e23 : BiVector α) : Spinor α) * (e31 : BiVector α) : Spinor α) = ⟨e0, gzero⟩ := by
  refine ⟨?_, ?_, ?_⟩ <;> mv_ring

/-- The bivector basis is the dual of the vector basis. -/
theorem C38_basis_dual :
    (e23 : BiVector α) = dual (e1 : Vector α) ∧ (e31 : BiVector α) = dual (e2 : Vector α) ∧
    (e12 : BiVector α) = dual (e3 : Vector α) ∧ (e123 : TriVector α) = dual (e0 : Scalar α) := by
  refine ⟨?_, ?_, ?_, ?_⟩ <;> mv_ring

/-- The eight elements span: every MultiVector is its components times the basis. -/
theorem C38_basis_span (A : MultiVector α) :
    A = A.theSca.theData.d0 • toMV (e0 : Scalar α)
      + A.theVec.theData.d0 • toMV (e1 : Vector α) + A.theVec.theData.d1 • toMV (e2 : Vector α)
      + A.theVec.theData.d2 • toMV (e3 : Vector α)
      + A.theBiv.theData.d0 • toMV (e23 : BiVector α)
      + A.theBiv.theData.d1 • toMV (e31 : BiVector α)
      + A.theBiv.theData.d2 • toMV (e12 : BiVector α)
      + A.theTri.theData.d0 • toMV (e123 : TriVector α) := by
  mv_ring

end basis

end Engabra
