import Verif.Props.C46_ExpAccuracy
import Verif.Props.C23_C24_LogSqrt
import Mathlib.Analysis.SpecialFunctions.Trigonometric.Bounds

/-! Real estimates used for `logG2` and `sqrtG2` in binary64. -/

namespace Engabra

/-- Length of a perturbed triple. -/
theorem norm3_est {x0 x1 x2 y0 y1 y2 c η : ℝ} (hc : 0 ≤ c) (hη : 0 ≤ η)
    (h0 : |x0 - y0| ≤ c * |y0| + η) (h1 : |x1 - y1| ≤ c * |y1| + η)
    (h2 : |x2 - y2| ≤ c * |y2| + η) :
    |√(x0 ^ 2 + x1 ^ 2 + x2 ^ 2) - √(y0 ^ 2 + y1 ^ 2 + y2 ^ 2)|
      ≤ c * √(y0 ^ 2 + y1 ^ 2 + y2 ^ 2) + 2 * η := by
  have hX : √(x0 ^ 2 + x1 ^ 2 + x2 ^ 2) = ‖(!₂[x0, x1, x2] : EuclideanSpace ℝ (Fin 3))‖ := by
    rw [EuclideanSpace.norm_eq, Fin.sum_univ_three]; simp
  have hY : √(y0 ^ 2 + y1 ^ 2 + y2 ^ 2) = ‖(!₂[y0, y1, y2] : EuclideanSpace ℝ (Fin 3))‖ := by
    rw [EuclideanSpace.norm_eq, Fin.sum_univ_three]; simp
  have hD : ‖(!₂[x0, x1, x2] : EuclideanSpace ℝ (Fin 3)) - !₂[y0, y1, y2]‖
      = √((x0 - y0) ^ 2 + (x1 - y1) ^ 2 + (x2 - y2) ^ 2) := by
    rw [EuclideanSpace.norm_eq, Fin.sum_univ_three]; simp
  have ht := abs_norm_sub_norm_le (!₂[x0, x1, x2] : EuclideanSpace ℝ (Fin 3)) !₂[y0, y1, y2]
  rw [← hX, ← hY, hD] at ht
  refine ht.trans ?_
  set Y := √(y0 ^ 2 + y1 ^ 2 + y2 ^ 2) with hYd
  have hY0 : 0 ≤ Y := Real.sqrt_nonneg _
  have hYs : Y ^ 2 = y0 ^ 2 + y1 ^ 2 + y2 ^ 2 := Real.sq_sqrt (by positivity)
  apply Real.sqrt_le_iff.2
  refine ⟨by positivity, ?_⟩
  have sq : ∀ {d y : ℝ}, |d| ≤ c * |y| + η → d ^ 2 ≤ c ^ 2 * y ^ 2 + 2 * c * η * |y| + η ^ 2 := by
    intro d y h
    have := pow_le_pow_left₀ (abs_nonneg d) h 2
    rw [sq_abs] at this
    have e : (c * |y| + η) ^ 2 = c ^ 2 * y ^ 2 + 2 * c * η * |y| + η ^ 2 := by
      rw [add_pow_two, mul_pow, sq_abs]; ring
    linarith
  have hs : |y0| + |y1| + |y2| ≤ 2 * Y := by
    refine (abs_le_of_sq_le_sq' ?_ (by positivity)).2
    rw [mul_pow, hYs, ← sq_abs y0, ← sq_abs y1, ← sq_abs y2]
    nlinarith [sq_nonneg (|y0| - |y1|), sq_nonneg (|y1| - |y2|), sq_nonneg (|y0| - |y2|),
      sq_nonneg (|y0|), sq_nonneg (|y1|), sq_nonneg (|y2|)]
  have a0 := sq h0
  have a1 := sq h1
  have a2 := sq h2
  have hm := mul_le_mul_of_nonneg_left hs (by positivity : 0 ≤ 2 * c * η)
  have e : (c * Y + 2 * η) ^ 2 = c ^ 2 * (y0 ^ 2 + y1 ^ 2 + y2 ^ 2) + 4 * c * η * Y + 4 * η ^ 2 := by
    rw [← hYs]; ring
  rw [e]
  nlinarith [sq_nonneg η]

theorem arg_sub_le {θ θ' s : ℝ} (p1 : 0 ≤ θ') (p2 : 0 ≤ θ) (q1 : θ' ≤ Real.pi) (q2 : θ ≤ Real.pi)
    (hcp : 0 < Real.cos (θ' - θ)) (hsb : |Real.sin (θ' - θ)| ≤ s) :
    |θ' - θ| ≤ 63 / 40 * s := by
  rw [← Real.cos_abs] at hcp
  have hab : |θ' - θ| ≤ Real.pi := by rw [abs_le]; constructor <;> linarith
  have hlt2 : |θ' - θ| ≤ Real.pi / 2 := by
    by_contra hcon
    rw [not_le] at hcon
    have := Real.cos_nonpos_of_pi_div_two_le_of_le hcon.le (by linarith [Real.pi_pos])
    linarith
  have hj := Real.mul_le_sin (abs_nonneg (θ' - θ)) hlt2
  have hsa : Real.sin |θ' - θ| ≤ |Real.sin (θ' - θ)| := by
    rcases abs_cases (θ' - θ) with ⟨h, _⟩ | ⟨h, _⟩ <;> rw [h]
    · exact le_abs_self _
    · rw [Real.sin_neg]; exact neg_le_abs _
  have hpi := Real.pi_pos
  have h6 : 2 / Real.pi * |θ' - θ| ≤ s := by linarith
  rw [div_mul_eq_mul_div, div_le_iff₀ hpi] at h6
  have h8 : Real.pi ≤ 3.15 := Real.pi_lt_d2.le
  have h9 := mul_le_mul_of_nonneg_left h8 ((abs_nonneg _).trans hsb)
  linarith

theorem unit_norm {W V : ℝ} (hWV : W ^ 2 + V ^ 2 = 1) : ‖(⟨W, V⟩ : ℂ)‖ = 1 := by
  have h1 : ‖(⟨W, V⟩ : ℂ)‖ ^ 2 = 1 := by
    rw [← Complex.normSq_eq_norm_sq, Complex.normSq_mk]; linarith
  exact (pow_eq_one_iff_of_nonneg (norm_nonneg _) two_ne_zero).1 h1

/-- The angle of a perturbed point of the unit circle, relative to the angle itself. -/
theorem angle_est {W V C M a c η : ℝ} (hWV : W ^ 2 + V ^ 2 = 1) (hV : 0 < V) (ha0 : 0 ≤ a)
    (ha : a ≤ 1 / 1000) (hc0 : 0 ≤ c) (hc : c ≤ 1 / 1000) (hη0 : 0 ≤ η) (hη : η ≤ 1 / 1000)
    (hC : |C - W| ≤ c * |W| + η) (hM : |M - V| ≤ a * V) :
    |Complex.arg ⟨C, M⟩ - Complex.arg ⟨W, V⟩| ≤ 8 / 5 * (a + c + η) * V ∧
    V ≤ Complex.arg ⟨W, V⟩ ∧ Complex.arg ⟨W, V⟩ < Real.pi := by
  have hW1 : |W| ≤ 1 := by
    rw [← sq_le_one_iff_abs_le_one]; nlinarith
  have hV1 : V ≤ 1 := (abs_le_one_iff_mul_self_le_one.2 (by nlinarith [sq_nonneg W]) |> abs_le.1).2
  have hn1 := unit_norm hWV
  have hMp : 0 < M := by
    have h1 := (abs_le.1 hM).1
    have h2 := mul_le_mul_of_nonneg_right ha hV.le
    linarith
  set r := ‖(⟨C, M⟩ : ℂ)‖ with hr
  have hrs : r ^ 2 = C ^ 2 + M ^ 2 := by
    rw [hr, ← Complex.normSq_eq_norm_sq, Complex.normSq_mk]; ring
  have hCW : |C * W + M * V - 1| ≤ 3 / 1000 := by
    have e : C * W + M * V - 1 = (C - W) * W + (M - V) * V := by rw [← hWV]; ring
    rw [e]
    refine (abs_add_le _ _).trans ?_
    rw [abs_mul, abs_mul, abs_of_pos hV]
    have h1 : |C - W| ≤ 2 / 1000 := by
      have := mul_le_mul hc hW1 (abs_nonneg _) (by norm_num)
      linarith
    have h2 : |M - V| ≤ 1 / 1000 := by
      have := mul_le_mul ha hV1 hV.le (by norm_num)
      linarith
    have h3 := mul_le_mul h1 hW1 (abs_nonneg _) (by norm_num)
    have h4 := mul_le_mul h2 hV1 hV.le (by norm_num)
    linarith
  have hCW' := abs_le.1 hCW
  have hr0 : 0 ≤ r := norm_nonneg _
  have hr1 : 99 / 100 ≤ r := by
    have h1 : (C * W + M * V) ^ 2 ≤ r ^ 2 := by
      have e : r ^ 2 = (C * W + M * V) ^ 2 + (C * V - M * W) ^ 2 := by
        rw [hrs, ← mul_one (C ^ 2 + M ^ 2), ← hWV]; ring
      rw [e]
      exact le_add_of_nonneg_right (sq_nonneg _)
    have h2 := (abs_le_of_sq_le_sq' h1 hr0).2
    linarith
  have hrp : 0 < r := by linarith
  have hz1 : (⟨C, M⟩ : ℂ) ≠ 0 := fun h => by
    have : M = 0 := congrArg Complex.im h
    linarith
  have hz2 : (⟨W, V⟩ : ℂ) ≠ 0 := fun h => by
    have : V = 0 := congrArg Complex.im h
    linarith
  have s1 : Real.sin (Complex.arg ⟨C, M⟩) = M / r := Complex.sin_arg _
  have c1 : Real.cos (Complex.arg ⟨C, M⟩) = C / r := Complex.cos_arg hz1
  have s2 : Real.sin (Complex.arg ⟨W, V⟩) = V := by rw [Complex.sin_arg, hn1, div_one]
  have c2 : Real.cos (Complex.arg ⟨W, V⟩) = W := by rw [Complex.cos_arg hz2, hn1, div_one]
  have p1 : 0 ≤ Complex.arg ⟨C, M⟩ := Complex.arg_nonneg_iff.2 hMp.le
  have p2 : 0 ≤ Complex.arg ⟨W, V⟩ := Complex.arg_nonneg_iff.2 hV.le
  have q1 := Complex.arg_le_pi (⟨C, M⟩ : ℂ)
  have q2 := Complex.arg_le_pi (⟨W, V⟩ : ℂ)
  generalize Complex.arg ⟨C, M⟩ = θ' at *
  generalize Complex.arg ⟨W, V⟩ = θ at *
  have hlt : θ < Real.pi := by
    rcases lt_or_eq_of_le q2 with h | h
    · exact h
    · rw [h, Real.sin_pi] at s2; linarith
  refine ⟨?_, by rw [← s2]; exact Real.sin_le p2, hlt⟩
  have hs : Real.sin (θ' - θ) = (M * W - C * V) / r := by
    rw [Real.sin_sub, s1, c1, s2, c2]; ring
  have hcs : Real.cos (θ' - θ) = (C * W + M * V) / r := by
    rw [Real.cos_sub, s1, c1, s2, c2]; ring
  have hcp : 0 < Real.cos (θ' - θ) := by
    rw [hcs]
    exact div_pos (by linarith) hrp
  have hnum : |M * W - C * V| ≤ (a + c + η) * V := by
    rw [show M * W - C * V = (M - V) * W - (C - W) * V by ring]
    refine (abs_sub _ _).trans ?_
    rw [abs_mul, abs_mul, abs_of_pos hV]
    have h1 := mul_le_mul hM hW1 (abs_nonneg _) (by positivity)
    have h2 : |C - W| ≤ c + η := by
      have := mul_le_mul_of_nonneg_left hW1 hc0
      linarith
    have h3 := mul_le_mul_of_nonneg_right h2 hV.le
    linarith
  have hsb : |Real.sin (θ' - θ)| ≤ 100 / 99 * ((a + c + η) * V) := by
    rw [hs, abs_div, abs_of_pos hrp, div_le_iff₀ hrp]
    have h5 : 0 ≤ (a + c + η) * V := by positivity
    have h6 := mul_le_mul_of_nonneg_left hr1 h5
    linarith
  refine (arg_sub_le p1 p2 q1 q2 hcp hsb).trans ?_
  have h7 : 0 ≤ (a + c + η) * V := by positivity
  linarith

/-- Components of the unit direction of a perturbed triple. -/
theorem unit_est {x y X Y c η : ℝ} (hY : 0 < Y) (hc0 : 0 ≤ c) (hc : c ≤ 1 / 1000) (hη : 0 ≤ η)
    (hηY : η ≤ Y / 1000) (hx : |x - y| ≤ c * |y| + η) (hX : |X - Y| ≤ c * Y + 2 * η) :
    |x / X - y / Y| ≤ 21 / 10 * c * |y / Y| + 11 / 10 * η / Y * (1 + 2 * |y / Y|) := by
  have hXb := abs_le.1 hX
  have hcY : c * Y ≤ 1 / 1000 * Y := mul_le_mul_of_nonneg_right hc hY.le
  have hXp : 99 / 100 * Y ≤ X := by linarith
  have hX0 : 0 < X := by linarith
  have e : x / X - y / Y = ((x - y) - (X - Y) * (y / Y)) / X := by field_simp; ring
  rw [e, abs_div, abs_of_pos hX0, div_le_iff₀ hX0]
  have h1 : |(x - y) - (X - Y) * (y / Y)| ≤ (c * |y| + η) + (c * Y + 2 * η) * |y / Y| := by
    refine (abs_sub _ _).trans ?_
    rw [abs_mul]
    have := mul_le_mul_of_nonneg_right hX (abs_nonneg (y / Y))
    linarith
  have e2 : |y| = Y * |y / Y| := by rw [abs_div, abs_of_pos hY]; field_simp
  rw [e2] at h1
  refine h1.trans ?_
  set n := |y / Y|
  have hn : 0 ≤ n := abs_nonneg _
  have h2 : (21 / 10 * c * n + 11 / 10 * η / Y * (1 + 2 * n)) * (99 / 100 * Y)
      ≤ (21 / 10 * c * n + 11 / 10 * η / Y * (1 + 2 * n)) * X :=
    mul_le_mul_of_nonneg_left hXp (by positivity)
  have e3 : (21 / 10 * c * n + 11 / 10 * η / Y * (1 + 2 * n)) * (99 / 100 * Y)
      = 2079 / 1000 * c * n * Y + 1089 / 1000 * η * (1 + 2 * n) := by field_simp; ring
  have h4 : 0 ≤ c * n * Y := by positivity
  have h5 : 0 ≤ η * n := by positivity
  nlinarith

theorem log_est {m E u : ℝ} (hE : 0 < E) (hu0 : 0 ≤ u) (hu : u ≤ 1 / 1000000)
    (h : |m - E| ≤ 52 / 10 * u * E) : |Real.log m - Real.log E| ≤ 53 / 10 * u := by
  have hb := abs_le.1 h
  have huE : u * E ≤ 1 / 1000000 * E := mul_le_mul_of_nonneg_right hu hE.le
  have hm : 0 < m := by nlinarith
  rw [← Real.log_div hm.ne' hE.ne']
  have hq : |m / E - 1| ≤ 52 / 10 * u := by
    rw [show m / E - 1 = (m - E) / E by field_simp, abs_div, abs_of_pos hE, div_le_iff₀ hE]
    exact h
  have hqb := abs_le.1 hq
  have hq0 : 0 < m / E := div_pos hm hE
  generalize m / E = q at *
  have h1 := Real.log_le_sub_one_of_pos hq0
  have h2 := Real.one_sub_inv_le_log_of_pos hq0
  have h3 : 1 - q⁻¹ = (q - 1) / q := by field_simp
  rw [h3] at h2
  rw [abs_le]
  constructor
  · refine le_trans ?_ h2
    rw [le_div_iff₀ hq0]
    nlinarith
  · linarith

end Engabra
