import Verif.Props.C65_Solve

/-! # C65, continued: the same recipe in binary64 -/

namespace Engabra

open F64 (Finite HasVal)

/-- The exact inverse of a blade, as a value of the same type. -/
def bladeInv (t : Ty) (x : t.D ℚ) : t.D ℚ := smulTy t (1 / magSqTy t x) (reverseTy t x)

theorem bladeInv_mul (t : Ty) (ht : t = .sca ∨ t = .vec ∨ t = .biv ∨ t = .tri) (x : t.D ℚ)
    (hm : magSqTy t x ≠ 0) :
    promote t x * promote t (bladeInv t x) = gone ∧ promote t (bladeInv t x) * promote t x = gone := by
  have hv : t.versor = true := by rcases ht with rfl | rfl | rfl | rfl <;> rfl
  obtain ⟨h1, h2⟩ := rev_mul_self t hv x
  have hp : promote t (bladeInv t x) = (1 / magSqTy t x : ℚ) * reverse (promote t x) := by
    rw [← promote_reverse]
    unfold bladeInv
    generalize 1 / magSqTy t x = r
    rcases ht with rfl | rfl | rfl | rfl <;> mv_ring
  have h3 : (1 / magSqTy t x : ℚ) * (mvOfDub (magSqTy t x) : MultiVector ℚ) = gone := by
    generalize magSqTy t x = m at hm
    ext <;> simp only [engabra]
    · field_simp
    all_goals simp
  rw [hp]
  exact ⟨by rw [C01_mul_smul, h2, h3], by rw [C01_smul_mul, h1, h3]⟩

theorem magSq_val (t : Ty) (x : t.D F64) : magSqTy t (valTy t x) = sqSum t x := by
  rw [sqSum_cf, ← magSq_promote, Fin.sum_univ_eight]
  generalize promote t (valTy t x) = m
  simp only [cf_0, cf_1, cf_2, cf_3, cf_4, cf_5, cf_6, cf_7, engabra]
  ring

theorem cf_bladeInv (t : Ty) (ht : t = .sca ∨ t = .vec ∨ t = .biv ∨ t = .tri) (x : t.D ℚ) (k : Fin 8) :
    cf (promote t (bladeInv t x)) k = revSign t * cf (promote t x) k / magSqTy t x := by
  have h : ∀ r : ℚ, cf (promote t (smulTy t r (reverseTy t x))) k = r * (revSign t * cf (promote t x) k) := by
    intro r
    revert k
    rcases ht with rfl | rfl | rfl | rfl <;> apply forall_fin8 <;>
      simp only [cf_0, cf_1, cf_2, cf_3, cf_4, cf_5, cf_6, cf_7, engabra, revSign] <;> ring
  unfold bladeInv
  rw [h]; ring

theorem promote_sub (t : Ty) (x y : t.D ℚ) : ∃ z : t.D ℚ, promote t z = promote t x - promote t y := by
  cases t
  case dub => exact ⟨(show ℚ from x) - (show ℚ from y), by mv_ring⟩
  case sca => exact ⟨(show Scalar ℚ from x) - (show Scalar ℚ from y), by mv_ring⟩
  case vec => exact ⟨(show Vector ℚ from x) - (show Vector ℚ from y), by mv_ring⟩
  case biv => exact ⟨(show BiVector ℚ from x) - (show BiVector ℚ from y), by mv_ring⟩
  case tri => exact ⟨(show TriVector ℚ from x) - (show TriVector ℚ from y), by mv_ring⟩
  case spin => exact ⟨(show Spinor ℚ from x) - (show Spinor ℚ from y), by mv_ring⟩
  case imsp => exact ⟨(show ImSpin ℚ from x) - (show ImSpin ℚ from y), by mv_ring⟩
  case cplx => exact ⟨(show ComPlex ℚ from x) - (show ComPlex ℚ from y), by mv_ring⟩
  case dplx => exact ⟨(show DirPlex ℚ from x) - (show DirPlex ℚ from y), by mv_ring⟩
  case mv => exact ⟨(show MultiVector ℚ from x) - (show MultiVector ℚ from y), by mv_ring⟩

theorem len_mono (X Y : MultiVector ℚ) {c : ℝ} (hc : 0 ≤ c)
    (h : ∀ k, |((cf X k : ℚ) : ℝ)| ≤ c * |((cf Y k : ℚ) : ℝ)|) : len X ≤ c * len Y := by
  rw [← Real.sqrt_sq (mul_nonneg hc (len_nonneg Y))]
  refine Real.sqrt_le_sqrt ?_
  rw [mul_pow, len_sq, Finset.mul_sum]
  refine Finset.sum_le_sum fun k _ => ?_
  rw [← sq_abs, ← sq_abs ((cf Y k : ℚ) : ℝ), ← mul_pow]
  exact pow_le_pow_left₀ (abs_nonneg _) (h k) 2

/-- The length of a difference, from componentwise relative and absolute bounds. -/
theorem len_diff_le (Y B : MultiVector ℚ) {c d : ℚ} (hc : 0 ≤ c) (hd : 0 ≤ d)
    (h : ∀ k, |cf Y k - cf B k| ≤ c * |cf B k| + d) : len (Y - B) ≤ c * len B + 3 * d := by
  -- split the difference into a part bounded relatively and a part bounded by `d`
  have hs : ∀ k, ∃ p q : ℚ, cf Y k - cf B k = p + q ∧ |p| ≤ c * |cf B k| ∧ |q| ≤ d := by
    intro k
    have hk := h k
    generalize cf Y k - cf B k = e at *
    have hb := mul_nonneg hc (abs_nonneg (cf B k))
    generalize c * |cf B k| = m at *
    rcases le_total |e| m with h1 | h1
    · exact ⟨e, 0, by ring, h1, by simpa using hd⟩
    · rcases le_total 0 e with h0 | h0
      · rw [abs_of_nonneg h0] at hk h1
        exact ⟨m, e - m, by ring, (abs_of_nonneg hb).le, by rw [abs_of_nonneg (by linarith)]; linarith⟩
      · rw [abs_of_nonpos h0] at hk h1
        exact ⟨-m, e + m, by ring, by rw [abs_neg]; exact (abs_of_nonneg hb).le,
          by rw [abs_of_nonpos (by linarith)]; linarith⟩
  choose p q hpq hp hq using hs
  obtain ⟨P, hP⟩ : ∃ P : MultiVector ℚ, ∀ k, cf P k = p k :=
    ⟨⟨⟨⟨p 0⟩⟩, ⟨⟨p 1, p 2, p 3⟩⟩, ⟨⟨p 4, p 5, p 6⟩⟩, ⟨⟨p 7⟩⟩⟩, by apply forall_fin8 <;> rfl⟩
  obtain ⟨Q, hQ⟩ : ∃ Q : MultiVector ℚ, ∀ k, cf Q k = q k :=
    ⟨⟨⟨⟨q 0⟩⟩, ⟨⟨q 1, q 2, q 3⟩⟩, ⟨⟨q 4, q 5, q 6⟩⟩, ⟨⟨q 7⟩⟩⟩, by apply forall_fin8 <;> rfl⟩
  have e : len (Y - B) = len (P + Q) := len_congr fun k => by
    rw [cf_sub, cf_add, hP, hQ, hpq]
  rw [e]
  refine (len_add_le _ _).trans (add_le_add ?_ ?_)
  · refine len_mono P B (by exact_mod_cast hc) fun k => ?_
    rw [hP]; exact_mod_cast hp k
  · refine len_le Q (by exact_mod_cast hd) fun k => ?_
    rw [hQ]; exact_mod_cast hq k

/-- The computed inverse of a blade against the exact one, by length. -/
theorem inverse_len (t : Ty) (ht : t = .sca ∨ t = .vec ∨ t = .biv ∨ t = .tri) (x : t.D F64)
    (h : Central t x) : ∃ y : t.D F64, inverseTy t x = some y ∧ FiniteTy t y ∧
      len (exactObj ⟨t, y⟩ - promote t (bladeInv t (valTy t x)))
        ≤ 12 * 2 ^ (-53 : ℤ) * len (promote t (bladeInv t (valTy t x))) ∧
      len (exactObj ⟨t, x⟩) * len (promote t (bladeInv t (valTy t x))) = 1 ∧
      (2 : ℝ) ^ (-500 : ℤ) ≤ len (exactObj ⟨t, x⟩) ∧ len (exactObj ⟨t, x⟩) ≤ 2 ^ (502 : ℤ) := by
  obtain ⟨y, hy, hc⟩ := inverse_cf t ht x h
  obtain ⟨hS1, hS2⟩ := central_sqSum h
  have hS : 0 < sqSum t x := (F64.two_zpow_pos _).trans_le hS1
  have hv : t.versor = true := by rcases ht with rfl | rfl | rfl | rfl <;> rfl
  have hm : magSqTy t (valTy t x) ≠ 0 := by rw [magSq_val]; exact hS.ne'
  obtain ⟨hAB, -⟩ := bladeInv_mul t ht (valTy t x) hm
  have hlen : len (exactObj ⟨t, x⟩) * len (promote t (bladeInv t (valTy t x))) = 1 := by
    show len (promote t (valTy t x)) * _ = 1
    rw [← len_mul_left t _ hv, hAB]
    unfold len
    rw [Fin.sum_univ_eight]
    simp [cf_0, cf_1, cf_2, cf_3, cf_4, cf_5, cf_6, cf_7, engabra]
  have hsq : len (exactObj ⟨t, x⟩) ^ 2 = ((sqSum t x : ℚ) : ℝ) := by
    rw [← magSq_len, ← magSq_val, ← magSq_promote]; rfl
  have hA0 := len_nonneg (exactObj ⟨t, x⟩)
  have hlo : (2 : ℝ) ^ (-500 : ℤ) ≤ len (exactObj ⟨t, x⟩) := by
    refine (pow_le_pow_iff_left₀ (F64.two_zpow_pos _).le hA0 two_ne_zero).1 ?_
    rw [hsq, ← zpow_natCast, ← zpow_mul]
    have := (Rat.cast_le (K := ℝ)).2 hS1
    push_cast at this
    refine le_trans (zpow_le_zpow_right₀ one_le_two (by norm_num)) this
  have hhi : len (exactObj ⟨t, x⟩) ≤ 2 ^ (502 : ℤ) := by
    refine (pow_le_pow_iff_left₀ hA0 (F64.two_zpow_pos _).le two_ne_zero).1 ?_
    rw [hsq, ← zpow_natCast, ← zpow_mul]
    have := (Rat.cast_le (K := ℝ)).2 hS2
    push_cast at this
    exact this.trans (zpow_le_zpow_right₀ one_le_two (by norm_num))
  refine ⟨y, hy, fun k => (hc k).1, ?_, hlen, hlo, hhi⟩
  have hu : (0 : ℚ) ≤ 11 * 2 ^ (-53 : ℤ) := mul_nonneg (by norm_num) (F64.two_zpow_pos _).le
  have hsgn : |revSign t| = 1 := by
    rcases ht with rfl | rfl | rfl | rfl <;> simp [revSign]
  have key := len_diff_le (promote t (valTy t y)) (promote t (bladeInv t (valTy t x))) hu
    (F64.two_zpow_pos (-1075)).le (fun k => by
      refine ((le_of_eq ?_).trans (hc k).2).trans (le_of_eq ?_)
      · rw [cf_bladeInv t ht, magSq_val]
      · rw [cf_bladeInv t ht, magSq_val, abs_div, abs_div, abs_mul, hsgn, one_mul])
  refine key.trans ?_
  have hB : (2 : ℝ) ^ (-502 : ℤ) ≤ len (promote t (bladeInv t (valTy t x))) := by
    have hB0 := len_nonneg (promote t (bladeInv t (valTy t x)))
    have e := mul_le_mul_of_nonneg_right hhi hB0
    rw [hlen] at e
    have e2 := mul_le_mul_of_nonneg_left e (F64.two_zpow_pos (-502)).le (α := ℝ)
    rw [← mul_assoc, ← zpow_add₀ two_ne_zero, mul_one] at e2
    simpa using e2
  have hη : 3 * (2 : ℝ) ^ (-1075 : ℤ) ≤ 2 ^ (-53 : ℤ) * 2 ^ (-502 : ℤ) := by
    rw [← zpow_add₀ two_ne_zero]
    calc 3 * (2 : ℝ) ^ (-1075 : ℤ) ≤ 2 ^ (2 : ℤ) * 2 ^ (-1075 : ℤ) :=
          mul_le_mul_of_nonneg_right (by norm_num) (F64.two_zpow_pos _).le
      _ = 2 ^ (-1073 : ℤ) := by rw [← zpow_add₀ two_ne_zero]; norm_num only
      _ ≤ _ := zpow_le_zpow_right₀ one_le_two (by norm_num)
  have h3 := mul_le_mul_of_nonneg_left hB (F64.two_zpow_pos (-53)).le (α := ℝ)
  push_cast
  generalize (2 : ℝ) ^ (-1075 : ℤ) = a at *
  generalize (2 : ℝ) ^ (-502 : ℤ) = b at *
  generalize (2 : ℝ) ^ (-53 : ℤ) = u at *
  linarith only [hη, h3]

/-- The arithmetic of the bounds: `r` is the residual, `p` the rounding of the product. -/
theorem solve_num {u A B Y b p t r : ℝ} (hu : 0 ≤ u) (hu1 : u ≤ 1 / 1000000) (hA : 0 ≤ A)
    (hb : 0 ≤ b) (hAB : A * B = 1) (hY : Y ≤ (1 + 12 * u) * B) (hp : p ≤ 27 * u * (Y * b) + t)
    (ht : A * t ≤ u * b) (hr : r ≤ A * p + A * (12 * u * B * b)) : r ≤ 41 * u * b := by
  have h1 := mul_le_mul_of_nonneg_left hp hA
  have h2 := mul_le_mul_of_nonneg_left (mul_le_mul_of_nonneg_right hY hb)
    (by positivity : 0 ≤ 27 * u * A)
  have e1 : 27 * u * A * ((1 + 12 * u) * B * b) = 27 * u * (1 + 12 * u) * b * (A * B) := by ring
  have e2 : A * (12 * u * B * b) = 12 * u * b * (A * B) := by ring
  rw [e1, hAB] at h2
  rw [e2, hAB] at hr
  have h3 : u * (u * b) ≤ 1 / 1000000 * (u * b) :=
    mul_le_mul_of_nonneg_right hu1 (mul_nonneg hu hb)
  nlinarith only [h1, h2, hr, ht, h3, mul_nonneg hu hb]

theorem mul_sub_mv (α x y : MultiVector ℚ) : α * x - α * y = α * (x - y) := by mv_ring
theorem sub_mul_mv (α x y : MultiVector ℚ) : x * α - y * α = (x - y) * α := by mv_ring
theorem tele (x y z : MultiVector ℚ) : x - z = (x - y) + (y - z) := by mv_ring
theorem mul_add_mv (α x y : MultiVector ℚ) : α * (x + y) = α * x + α * y := by mv_ring
theorem add_mul_mv (α x y : MultiVector ℚ) : (x + y) * α = x * α + y * α := by mv_ring

/-- What both quotients use. -/
theorem solve_setup (s t : Ty) (hs : s = .sca ∨ s = .vec ∨ s = .biv ∨ s = .tri)
    (a : s.D F64) (h : Central s a) (b : t.D F64)
    (hb1 : (2 : ℝ) ^ (-400 : ℤ) ≤ len (exactObj ⟨t, b⟩))
    (hb2 : len (exactObj ⟨t, b⟩) ≤ 2 ^ (400 : ℤ)) :
    ∃ (y : s.D F64) (B z : s.D ℚ), inverseTy s a = some y ∧ FiniteTy s y ∧
      exactObj ⟨s, a⟩ * promote s B = gone ∧ promote s B * exactObj ⟨s, a⟩ = gone ∧
      promote s z = exactObj ⟨s, y⟩ - promote s B ∧
      len (promote s z) ≤ 12 * 2 ^ (-53 : ℤ) * len (promote s B) ∧
      len (exactObj ⟨s, a⟩) * len (promote s B) = 1 ∧ 0 < len (exactObj ⟨s, a⟩) ∧
      len (exactObj ⟨s, y⟩) ≤ (1 + 12 * 2 ^ (-53 : ℤ)) * len (promote s B) ∧
      len (exactObj ⟨s, y⟩) * len (exactObj ⟨t, b⟩) ≤ 2 ^ 1022 ∧
      len (exactObj ⟨s, a⟩) * 2 ^ (-1057 : ℤ) ≤ 2 ^ (-53 : ℤ) * len (exactObj ⟨t, b⟩) := by
  obtain ⟨y, hy, fy, hd, hAB, hlo, hhi⟩ := inverse_len s hs a h
  have hm : magSqTy s (valTy s a) ≠ 0 := by
    rw [magSq_val]; exact ((F64.two_zpow_pos _).trans_le (central_sqSum h).1).ne'
  obtain ⟨i1, i2⟩ := bladeInv_mul s hs (valTy s a) hm
  obtain ⟨z, hz⟩ := promote_sub s (valTy s y) (bladeInv s (valTy s a))
  generalize bladeInv s (valTy s a) = B at *
  have hB0 := len_nonneg (promote s B)
  have hb0 := len_nonneg (exactObj ⟨t, b⟩)
  have hu : (0 : ℝ) ≤ 2 ^ (-53 : ℤ) := (F64.two_zpow_pos _).le
  have hYl : len (exactObj ⟨s, y⟩) ≤ (1 + 12 * 2 ^ (-53 : ℤ)) * len (promote s B) := by
    have := len_sub_add (exactObj ⟨s, y⟩) (promote s B)
    linarith only [this, hd]
  have hBhi : len (promote s B) ≤ 2 ^ (500 : ℤ) := by
    have e := mul_le_mul_of_nonneg_right hlo hB0
    rw [hAB] at e
    have e2 := mul_le_mul_of_nonneg_left e (F64.two_zpow_pos 500).le (α := ℝ)
    rw [← mul_assoc, ← zpow_add₀ two_ne_zero, mul_one] at e2
    simpa using e2
  refine ⟨y, B, z, hy, fy, i1, i2, hz, hz ▸ hd, hAB, (F64.two_zpow_pos _).trans_le hlo, hYl, ?_, ?_⟩
  · have e1 : len (exactObj ⟨s, y⟩) ≤ 2 * 2 ^ (500 : ℤ) := by
      refine hYl.trans ?_
      have : (1 + 12 * (2 : ℝ) ^ (-53 : ℤ)) ≤ 2 := by norm_num
      exact mul_le_mul this hBhi hB0 (by norm_num)
    refine (mul_le_mul e1 hb2 hb0 (by positivity)).trans ?_
    rw [mul_assoc, ← zpow_add₀ two_ne_zero, ← zpow_one_add₀ two_ne_zero, ← zpow_natCast]
    exact zpow_le_zpow_right₀ one_le_two (by norm_num)
  · calc len (exactObj ⟨s, a⟩) * 2 ^ (-1057 : ℤ) ≤ 2 ^ (502 : ℤ) * 2 ^ (-1057 : ℤ) :=
          mul_le_mul_of_nonneg_right hhi (F64.two_zpow_pos _).le
      _ = 2 ^ (-555 : ℤ) := by rw [← zpow_add₀ two_ne_zero]; norm_num only
      _ ≤ 2 ^ (-53 + -400 : ℤ) := zpow_le_zpow_right₀ one_le_two (by norm_num)
      _ = 2 ^ (-53 : ℤ) * 2 ^ (-400 : ℤ) := zpow_add₀ two_ne_zero _ _
      _ ≤ _ := mul_le_mul_of_nonneg_left hb1 hu

theorem small_u : (2 : ℝ) ^ (-53 : ℤ) ≤ 1 / 1000000 := by norm_num

/-- **C65.** In binary64, for a blade `a` in the central range and a right-hand side `b` of any
type: the computed `inverse(a)*b` is finite, satisfies `a*x = b` up to `41 u` relative to the
length of `b`, and is within `41 u` of the exact solution relative to the length of that. -/
theorem C65_left_binary64 (s t : Ty) (hs : s = .sca ∨ s = .vec ∨ s = .biv ∨ s = .tri)
    (a : s.D F64) (h : Central s a) (b : t.D F64) (hb : ∀ c ∈ comps t b, c.Finite)
    (hb1 : (2 : ℝ) ^ (-400 : ℤ) ≤ len (exactObj ⟨t, b⟩))
    (hb2 : len (exactObj ⟨t, b⟩) ≤ 2 ^ (400 : ℤ)) :
    ∃ y : s.D F64, inverseTy s a = some y ∧
      (∀ k, (cf (promote _ (mulTy s t y b)) k).Finite) ∧
      len (exactObj ⟨s, a⟩ * exactObj ⟨_, mulTy s t y b⟩ - exactObj ⟨t, b⟩)
        ≤ 41 * 2 ^ (-53 : ℤ) * len (exactObj ⟨t, b⟩) ∧
      ∀ x : MultiVector ℚ, exactObj ⟨s, a⟩ * x = exactObj ⟨t, b⟩ →
        len x = len (exactObj ⟨t, b⟩) / len (exactObj ⟨s, a⟩) ∧
        len (exactObj ⟨_, mulTy s t y b⟩ - x) ≤ 41 * 2 ^ (-53 : ℤ) * len x := by
  obtain ⟨y, B, z, hy, fy, i1, i2, hz, hd, hAB, hApos, hYl, hbig, htiny⟩ :=
    solve_setup s t hs a h b hb1 hb2
  have hv : s.versor = true := by rcases hs with rfl | rfl | rfl | rfl <;> rfl
  have hb0 := len_nonneg (exactObj ⟨t, b⟩)
  obtain ⟨fq, hq⟩ := product_len s t y b fy (finiteTy_of _ _ hb) hbig
  have hres : len (exactObj ⟨s, a⟩ * exactObj ⟨_, mulTy s t y b⟩ - exactObj ⟨t, b⟩)
      ≤ 41 * 2 ^ (-53 : ℤ) * len (exactObj ⟨t, b⟩) := by
    refine solve_num (F64.two_zpow_pos _).le small_u hApos.le hb0 hAB hYl hq htiny ?_
    have e : exactObj ⟨s, a⟩ * exactObj ⟨_, mulTy s t y b⟩ - exactObj ⟨t, b⟩
        = exactObj ⟨s, a⟩ * (exactObj ⟨_, mulTy s t y b⟩ - exactObj ⟨s, y⟩ * exactObj ⟨t, b⟩)
          + exactObj ⟨s, a⟩ * (promote s z * exactObj ⟨t, b⟩) := by
      have := (solve_of_inverse (exactObj ⟨s, a⟩) _ (exactObj ⟨t, b⟩) i1 i2).1
      rw [hz, ← mul_add_mv, ← sub_mul_mv, ← tele, ← mul_sub_mv, this]
    rw [e]
    refine (len_add_le _ _).trans ?_
    rw [len_obj_left _ ⟨s, a⟩ hv, len_obj_left _ ⟨s, a⟩ hv, mul_comm _ (len (exactObj ⟨s, a⟩)),
      mul_comm _ (len (exactObj ⟨s, a⟩)), len_mul_left s _ hv]
    exact add_le_add le_rfl (mul_le_mul_of_nonneg_left (mul_le_mul_of_nonneg_right hd hb0) hApos.le)
  refine ⟨y, hy, fq, hres, fun x hx => ?_⟩
  have hlx : len (exactObj ⟨s, a⟩) * len x = len (exactObj ⟨t, b⟩) := by
    rw [← hx, len_obj_left _ ⟨s, a⟩ hv, mul_comm]
  refine ⟨by rw [← hlx]; field_simp, ?_⟩
  rw [← hx, mul_sub_mv, len_obj_left _ ⟨s, a⟩ hv, len_obj_left _ ⟨s, a⟩ hv, ← mul_assoc] at hres
  exact le_of_mul_le_mul_right hres hApos

/-- **C65.** The same for `b*inverse(a)` and the equation `x*a = b`. -/
theorem C65_right_binary64 (s t : Ty) (hs : s = .sca ∨ s = .vec ∨ s = .biv ∨ s = .tri)
    (a : s.D F64) (h : Central s a) (b : t.D F64) (hb : ∀ c ∈ comps t b, c.Finite)
    (hb1 : (2 : ℝ) ^ (-400 : ℤ) ≤ len (exactObj ⟨t, b⟩))
    (hb2 : len (exactObj ⟨t, b⟩) ≤ 2 ^ (400 : ℤ)) :
    ∃ y : s.D F64, inverseTy s a = some y ∧
      (∀ k, (cf (promote _ (mulTy t s b y)) k).Finite) ∧
      len (exactObj ⟨_, mulTy t s b y⟩ * exactObj ⟨s, a⟩ - exactObj ⟨t, b⟩)
        ≤ 41 * 2 ^ (-53 : ℤ) * len (exactObj ⟨t, b⟩) ∧
      ∀ x : MultiVector ℚ, x * exactObj ⟨s, a⟩ = exactObj ⟨t, b⟩ →
        len x = len (exactObj ⟨t, b⟩) / len (exactObj ⟨s, a⟩) ∧
        len (exactObj ⟨_, mulTy t s b y⟩ - x) ≤ 41 * 2 ^ (-53 : ℤ) * len x := by
  obtain ⟨y, B, z, hy, fy, i1, i2, hz, hd, hAB, hApos, hYl, hbig, htiny⟩ :=
    solve_setup s t hs a h b hb1 hb2
  have hv : s.versor = true := by rcases hs with rfl | rfl | rfl | rfl <;> rfl
  have hb0 := len_nonneg (exactObj ⟨t, b⟩)
  obtain ⟨fq, hq⟩ := product_len t s b y (finiteTy_of _ _ hb) fy (by rw [mul_comm]; exact hbig)
  rw [mul_comm (len (exactObj ⟨t, b⟩))] at hq
  have hres : len (exactObj ⟨_, mulTy t s b y⟩ * exactObj ⟨s, a⟩ - exactObj ⟨t, b⟩)
      ≤ 41 * 2 ^ (-53 : ℤ) * len (exactObj ⟨t, b⟩) := by
    refine solve_num (F64.two_zpow_pos _).le small_u hApos.le hb0 hAB hYl hq htiny ?_
    have e : exactObj ⟨_, mulTy t s b y⟩ * exactObj ⟨s, a⟩ - exactObj ⟨t, b⟩
        = (exactObj ⟨_, mulTy t s b y⟩ - exactObj ⟨t, b⟩ * exactObj ⟨s, y⟩) * exactObj ⟨s, a⟩
          + (exactObj ⟨t, b⟩ * promote s z) * exactObj ⟨s, a⟩ := by
      have := (solve_of_inverse (exactObj ⟨s, a⟩) _ (exactObj ⟨t, b⟩) i1 i2).2.1
      rw [hz, ← add_mul_mv, ← mul_sub_mv, ← tele, ← sub_mul_mv, this]
    rw [e]
    refine (len_add_le _ _).trans ?_
    rw [len_obj_right _ ⟨s, a⟩ hv, len_obj_right _ ⟨s, a⟩ hv, mul_comm _ (len (exactObj ⟨s, a⟩)),
      mul_comm _ (len (exactObj ⟨s, a⟩)), len_mul_right _ s hv, mul_comm (len (exactObj ⟨t, b⟩))]
    exact add_le_add le_rfl (mul_le_mul_of_nonneg_left (mul_le_mul_of_nonneg_right hd hb0) hApos.le)
  refine ⟨y, hy, fq, hres, fun x hx => ?_⟩
  have hlx : len (exactObj ⟨s, a⟩) * len x = len (exactObj ⟨t, b⟩) := by
    rw [← hx, len_obj_right _ ⟨s, a⟩ hv, mul_comm]
  refine ⟨by rw [← hlx]; field_simp, ?_⟩
  rw [← hx, sub_mul_mv, len_obj_right _ ⟨s, a⟩ hv, len_obj_right _ ⟨s, a⟩ hv, ← mul_assoc] at hres
  exact le_of_mul_le_mul_right hres hApos

theorem check_num {u A q b t f r : ℝ} (hu : 0 ≤ u) (hu1 : u ≤ 1 / 1000000) (hb : 0 ≤ b)
    (hq : A * q ≤ r + b) (hr : r ≤ 41 * u * b) (hf : f ≤ 27 * u * (A * q) + t)
    (ht : t ≤ u * b / 2) : f + r ≤ 69 * u * b := by
  have h1 := mul_le_mul_of_nonneg_left (hq.trans (add_le_add hr le_rfl)) hu
  have h3 : u * (u * b) ≤ 1 / 1000000 * (u * b) :=
    mul_le_mul_of_nonneg_right hu1 (mul_nonneg hu hb)
  nlinarith only [h1, h3, hf, hr, ht, mul_nonneg hu hb]

theorem tiny_half {b : ℝ} (h : (2 : ℝ) ^ (-400 : ℤ) ≤ b) :
    (2 : ℝ) ^ (-1057 : ℤ) ≤ 2 ^ (-53 : ℤ) * b / 2 := by
  rw [le_div_iff₀ two_pos]
  calc (2 : ℝ) ^ (-1057 : ℤ) * 2 = 2 ^ (-1056 : ℤ) := by
        rw [← zpow_add_one₀ two_ne_zero]; norm_num only
    _ ≤ 2 ^ (-53 + -400 : ℤ) := zpow_le_zpow_right₀ one_le_two (by norm_num)
    _ = 2 ^ (-53 : ℤ) * 2 ^ (-400 : ℤ) := zpow_add₀ two_ne_zero _ _
    _ ≤ _ := mul_le_mul_of_nonneg_left h (F64.two_zpow_pos _).le

theorem big_of {P b r : ℝ} (h : P ≤ r + b) (hr : r ≤ 41 * 2 ^ (-53 : ℤ) * b)
    (hb : b ≤ 2 ^ (400 : ℤ)) (hb0 : 0 ≤ b) : P ≤ 2 ^ 1022 := by
  have e : 41 * (2 : ℝ) ^ (-53 : ℤ) * b ≤ 1 * b :=
    mul_le_mul_of_nonneg_right (by norm_num) hb0
  calc P ≤ 2 * b := by linarith only [h, hr, e]
    _ ≤ 2 * 2 ^ (400 : ℤ) := mul_le_mul_of_nonneg_left hb (by norm_num)
    _ = 2 ^ (401 : ℤ) := by rw [← zpow_one_add₀ two_ne_zero]; norm_num only
    _ ≤ 2 ^ 1022 := by rw [← zpow_natCast]; exact zpow_le_zpow_right₀ one_le_two (by norm_num)

/-- **C65.** Putting the computed solution back, with every operation in binary64: `a*(inverse(a)*b)`
and `(b*inverse(a))*a` return `b` to within `69 u` of the length of `b`. -/
theorem C65_put_back (s t : Ty) (hs : s = .sca ∨ s = .vec ∨ s = .biv ∨ s = .tri)
    (a : s.D F64) (h : Central s a) (b : t.D F64) (hb : ∀ c ∈ comps t b, c.Finite)
    (hb1 : (2 : ℝ) ^ (-400 : ℤ) ≤ len (exactObj ⟨t, b⟩))
    (hb2 : len (exactObj ⟨t, b⟩) ≤ 2 ^ (400 : ℤ)) :
    ∃ y : s.D F64, inverseTy s a = some y ∧
      ((∀ k, (cf (promote _ (mulTy s _ a (mulTy s t y b))) k).Finite) ∧
        len (exactObj ⟨_, mulTy s _ a (mulTy s t y b)⟩ - exactObj ⟨t, b⟩)
          ≤ 69 * 2 ^ (-53 : ℤ) * len (exactObj ⟨t, b⟩)) ∧
      (∀ k, (cf (promote _ (mulTy _ s (mulTy t s b y) a)) k).Finite) ∧
        len (exactObj ⟨_, mulTy _ s (mulTy t s b y) a⟩ - exactObj ⟨t, b⟩)
          ≤ 69 * 2 ^ (-53 : ℤ) * len (exactObj ⟨t, b⟩) := by
  obtain ⟨y, hy, fl, rl, -⟩ := C65_left_binary64 s t hs a h b hb hb1 hb2
  obtain ⟨y', hy', fr, rr, -⟩ := C65_right_binary64 s t hs a h b hb hb1 hb2
  obtain rfl : y = y' := Option.some.inj (hy.symm.trans hy')
  have hv : s.versor = true := by rcases hs with rfl | rfl | rfl | rfl <;> rfl
  have hb0 := len_nonneg (exactObj ⟨t, b⟩)
  have fa : FiniteTy s a := finiteTy_of _ _ fun c hc => (h.1 c hc).1
  have split : ∀ x y z : MultiVector ℚ, len (x - z) ≤ len (x - y) + len (y - z) := fun x y z => by
    have := len_add_le (x - y) (y - z)
    rwa [show x - y + (y - z) = x - z by mv_ring] at this
  refine ⟨y, hy, ?_, ?_⟩
  · generalize mulTy s t y b = q at *
    have hq : len (exactObj ⟨s, a⟩) * len (exactObj ⟨_, q⟩)
        ≤ len (exactObj ⟨s, a⟩ * exactObj ⟨_, q⟩ - exactObj ⟨t, b⟩) + len (exactObj ⟨t, b⟩) := by
      rw [mul_comm, ← len_obj_left _ ⟨s, a⟩ hv]
      exact len_sub_add _ _
    obtain ⟨f, e⟩ := product_len s _ a q fa fl (big_of hq rl hb2 hb0)
    exact ⟨f, (split _ _ _).trans (check_num (F64.two_zpow_pos _).le small_u hb0 hq rl e (tiny_half hb1))⟩
  · generalize mulTy t s b y = q at *
    have hq : len (exactObj ⟨_, q⟩) * len (exactObj ⟨s, a⟩)
        ≤ len (exactObj ⟨_, q⟩ * exactObj ⟨s, a⟩ - exactObj ⟨t, b⟩) + len (exactObj ⟨t, b⟩) := by
      rw [← len_obj_right _ ⟨s, a⟩ hv]
      exact len_sub_add _ _
    obtain ⟨f, e⟩ := product_len _ s q a fr fa (big_of hq rr hb2 hb0)
    exact ⟨f, (split _ _ _).trans (check_num (F64.two_zpow_pos _).le small_u hb0 hq rr e (tiny_half hb1))⟩

end Engabra
