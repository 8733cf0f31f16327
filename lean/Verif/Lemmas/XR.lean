import Verif.Model.XR
import Verif.Model.Template

/-! Evaluation of the model on finite values of ideal arithmetic. -/

namespace Engabra
open XR

namespace XR
theorem val_add (a b : ℝ) : val a + val b = val (a + b) := rfl
theorem val_sub (a b : ℝ) : val a - val b = val (a - b) := rfl
theorem val_mul (a b : ℝ) : val a * val b = val (a * b) := rfl
theorem val_neg (a : ℝ) : -val a = val (-a) := rfl
theorem zero_def : (0 : XR) = val 0 := rfl
theorem one_def : (1 : XR) = val 1 := rfl
theorem val_div (a b : ℝ) (h : b ≠ 0) : val a / val b = val (a / b) := by
  change (if b = 0 then nan else val (a / b)) = _
  rw [if_neg h]
theorem div_zero (a : ℝ) : val a / val 0 = nan := by
  change (if (0 : ℝ) = 0 then nan else val (a / 0)) = _
  rw [if_pos rfl]
theorem sqrt_val (a : ℝ) (h : 0 ≤ a) : Dbl.sqrt (val a) = val (√a) := by
  change (if a < 0 then nan else val (√a)) = _
  rw [if_neg (not_lt.2 h)]
theorem abs_val (a : ℝ) : Dbl.abs (val a) = val |a| := rfl
theorem lt_val (a b : ℝ) : Dbl.lt (val a) (val b) = true ↔ a < b := by
  change decide (a < b) = true ↔ _
  simp
theorem feq_val (a b : ℝ) : Dbl.feq (val a) (val b) = true ↔ a = b := by
  change decide (a = b) = true ↔ _
  simp
theorem lit_def (q : ℚ) : (Dbl.lit q : XR) = val q := rfl
theorem denormMin_def : Dbl.denormMin XR = val (1 / 2 ^ 1074) := by
  simp [Dbl.denormMin, lit_def]
theorem minDub_def : Dbl.minDub XR = val (1 / 2 ^ 1022) := by
  simp [Dbl.minDub, lit_def]
theorem epsilon_def : Dbl.epsilon XR = val (1 / 2 ^ 52) := by
  simp [Dbl.epsilon, lit_def]
theorem nan_def : (Dbl.nan : XR) = nan := rfl
theorem two_def : (2 : XR) = val 2 := by
  change val ((2 : ℚ) : ℝ) = _
  norm_num
theorem nan_mul (x : XR) : nan * x = nan := by cases x <;> rfl
theorem mul_nan (x : XR) : x * nan = nan := by cases x <;> rfl
theorem nan_add (x : XR) : nan + x = nan := by cases x <;> rfl
theorem add_nan (x : XR) : x + nan = nan := by cases x <;> rfl
theorem val_inj {a b : ℝ} : val a = val b ↔ a = b := ⟨fun h => by injection h, fun h => by rw [h]⟩
theorem val_ne_nan (a : ℝ) : val a ≠ nan := by intro h; cases h

/-- A real number is valid (as a double would be) if it is zero or in the normal range. -/
def Valid (a : ℝ) : Prop := a = 0 ∨ ((1 : ℝ) / 2 ^ 1022 ≤ |a| ∧ |a| < 2 ^ 1024)

theorem isValidDub_val (a : ℝ) : isValidDub (val a) = true ↔ Valid a := by
  have h1 : Dbl.isnormal (val a) = true ↔ ((1 : ℝ) / 2 ^ 1022 ≤ |a| ∧ |a| < 2 ^ 1024) := by
    change decide _ = true ↔ _
    simp
  unfold isValidDub
  rw [Bool.or_eq_true, h1, zero_def, feq_val]
  unfold Valid
  constructor
  · rintro (h | h)
    · exact Or.inr h
    · exact Or.inl h.symm
  · rintro (h | h)
    · exact Or.inr h.symm
    · exact Or.inl h

theorem isValidDub_nan : isValidDub (nan : XR) = false := by
  rfl

theorem sin_val (a : ℝ) : LibM.sin (val a) = val (Real.sin a) := rfl
theorem cos_val (a : ℝ) : LibM.cos (val a) = val (Real.cos a) := rfl
theorem exp_val (a : ℝ) : LibM.exp (val a) = val (Real.exp a) := rfl
theorem log_val (a : ℝ) (h : 0 < a) : LibM.log (val a) = val (Real.log a) := by
  change (if 0 < a then val (Real.log a) else nan) = _
  rw [if_pos h]
theorem atan2_val (y x : ℝ) : LibM.atan2 (val y) (val x) = val (Complex.arg ⟨x, y⟩) := rfl
theorem cmul_val (a b c d : ℝ) : LibM.cmul (val a, val b) (val c, val d)
    = (val (a * c - b * d), val (a * d + b * c)) := rfl
theorem cabs_val (a b : ℝ) : LibM.cabs (val a, val b) = val ‖(⟨a, b⟩ : ℂ)‖ := rfl
theorem cdiv_val (a : ℝ) (z : ℂ) (h : z ≠ 0) :
    LibM.cdiv (val a) (val z.re, val z.im) = (val ((a : ℂ) / z).re, val ((a : ℂ) / z).im) := by
  change (if (⟨z.re, z.im⟩ : ℂ) = 0 then (nan, nan) else ofC ((a : ℂ) / ⟨z.re, z.im⟩)) = _
  rw [if_neg h]; rfl
end XR

/-- The finite value with the given real components. -/
abbrev lift (t : Ty) (x : t.D ℝ) : t.D XR := mapTy val t x

theorem magSq_lift (t : Ty) (x : t.D ℝ) : magSqTy t (lift t x) = val (magSqTy t x) := by
  cases t <;> rfl
theorem smul_lift (t : Ty) (s : ℝ) (x : t.D ℝ) :
    smulTy t (val s) (lift t x) = lift t (smulTy t s x) := by
  cases t <;> rfl
theorem mul_lift (s t : Ty) (x : s.D ℝ) (y : t.D ℝ) :
    mulTy s t (lift s x) (lift t y) = lift _ (mulTy s t x y) := by
  cases s <;> cases t <;> rfl
theorem promote_lift (t : Ty) (x : t.D ℝ) : promote t (lift t x) = lift .mv (promote t x) := by
  cases t <;> rfl
theorem reverse_lift (t : Ty) (x : t.D ℝ) : reverseTy t (lift t x) = lift t (reverseTy t x) := by
  cases t <;> rfl
theorem dirverse_lift (t : Ty) (x : t.D ℝ) : dirverseTy t (lift t x) = lift t (dirverseTy t x) := by
  cases t <;> rfl
theorem oddverse_lift (t : Ty) (x : t.D ℝ) : oddverseTy t (lift t x) = lift t (oddverseTy t x) := by
  cases t <;> rfl
theorem neg_lift (t : Ty) (x : t.D ℝ) : negTy t (lift t x) = lift t (negTy t x) := by
  cases t <;> rfl
theorem add_lift_mv (x y : MultiVector ℝ) : lift .mv x + lift .mv y = lift .mv (x + y) := rfl
theorem mul_lift_mv (x y : MultiVector ℝ) : lift .mv x * lift .mv y = lift .mv (x * y) := rfl
theorem lift_injective (t : Ty) : Function.Injective (lift t) := by
  intro x y h
  cases t
  case dub => exact val_inj.1 h
  all_goals
    simp only [lift, mapTy, A1.mk.injEq, A3.mk.injEq, Scalar.mk.injEq, Vector.mk.injEq,
      BiVector.mk.injEq, TriVector.mk.injEq, Spinor.mk.injEq, ImSpin.mk.injEq, ComPlex.mk.injEq,
      DirPlex.mk.injEq, MultiVector.mk.injEq, XR.val.injEq] at h
    ext <;> simp only [h]

end Engabra
