import Verif.Props.C65_SolveF64
import Verif.Lemmas.ExpMvF64

/-! # C65, continued: a general multivector coefficient in binary64, and the header's examples -/

namespace Engabra

open F64 (Finite HasVal)

/-- The length of a product is at most three times the product of the lengths; there is equality
without the three when one factor is of a versor type (`len_mul`). -/
theorem len_mul_three (X Y : MultiVector ℚ) : len (X * Y) ≤ 3 * (len X * len Y) := by
  refine len_le _ (mul_nonneg (len_nonneg _) (len_nonneg _)) fun k => ?_
  have := ((Rat.cast_le (K := ℝ)).2 (cf_mul_le X Y k)).trans (absMul_le X Y k)
  rwa [Rat.cast_abs] at this

/-- The factor by which a product with a value of type `t` can exceed the product of lengths. -/
def excess (t : Ty) : ℝ := if t.versor = true then 1 else 3

theorem excess_ge (t : Ty) : 1 ≤ excess t := by unfold excess; split <;> norm_num

theorem len_mul_excess (t : Ty) (X : MultiVector ℚ) (b : t.D ℚ) :
    len (X * promote t b) ≤ excess t * (len X * len (promote t b)) ∧
    len (promote t b * X) ≤ excess t * (len X * len (promote t b)) := by
  unfold excess
  split
  · rename_i h
    rw [len_mul_right X t h, len_mul_left t X h, one_mul, mul_comm (len (promote t b))]
    exact ⟨le_rfl, le_rfl⟩
  · refine ⟨len_mul_three _ _, (len_mul_three _ _).trans_eq ?_⟩
    ring

theorem solve_mv_num {u ε κ Y B b p t g d : ℝ} (hu : 0 ≤ u) (hκ : 1 ≤ κ) (hg : 1 ≤ g) (hB : 0 ≤ B)
    (hb : 0 ≤ b) (hY : Y ≤ 13 / 10 * B) (hp : p ≤ 27 * u * (Y * b) + t) (ht : t ≤ u * (B * b))
    (hd : d ≤ g * ((5 * ε + 53 * u * κ) * B * b)) : p + d ≤ g * (5 * ε + 90 * u * κ) * (B * b) := by
  have hw := mul_nonneg hB hb
  have h1 := mul_le_mul_of_nonneg_left (mul_le_mul_of_nonneg_right hY hb) (by positivity : 0 ≤ 27 * u)
  have h2 : u * (B * b) ≤ u * κ * (B * b) :=
    mul_le_mul_of_nonneg_right (le_mul_of_one_le_right hu hκ) hw
  have h3 : u * κ * (B * b) ≤ g * (u * κ * (B * b)) :=
    le_mul_of_one_le_left (by positivity) hg
  have h4 : 0 ≤ g * (u * κ * (B * b)) := by positivity
  nlinarith only [h1, h2, h3, h4, hp, hd, ht]

/-- **C65.** In binary64, for an invertible multivector `M` of condition number
`κ = |M| |M⁻¹| ≤ 2^45` and a right-hand side `b` of any type, `inverse(M)*b` and `b*inverse(M)` are
finite and within `5 ε + 90 u κ` of the exact solutions, relative to `|M⁻¹| |b|` (times three when
`b` is a `DirPlex` or a `MultiVector`).  `ε` is the accuracy of the complex division. -/
theorem C65_mv_binary64 [LibM F64] (ε : ℝ) (h0 : 0 ≤ ε) (h1 : ε ≤ 1 / 100) (hl : LibcOk ε)
    (M : MultiVector F64) (hf : FiniteTy .mv M) (B : MultiVector ℚ)
    (hB : exactObj ⟨.mv, M⟩ * B = gone)
    (hN1 : (2 : ℝ) ^ (-100 : ℤ) ≤ len (exactObj ⟨.mv, M⟩))
    (hN2 : len (exactObj ⟨.mv, M⟩) ≤ 2 ^ (100 : ℤ))
    (κ : ℝ) (hκd : κ = len (exactObj ⟨.mv, M⟩) * len B) (hκ : κ ≤ 2 ^ (45 : ℤ))
    (t : Ty) (b : t.D F64) (hb : ∀ c ∈ comps t b, c.Finite)
    (hb1 : (2 : ℝ) ^ (-400 : ℤ) ≤ len (exactObj ⟨t, b⟩))
    (hb2 : len (exactObj ⟨t, b⟩) ≤ 2 ^ (400 : ℤ)) :
    ((∀ k, (cf (promote _ (mulTy .mv t (inverseMv M) b)) k).Finite) ∧
      ∀ x, exactObj ⟨.mv, M⟩ * x = exactObj ⟨t, b⟩ →
        len (exactObj ⟨_, mulTy .mv t (inverseMv M) b⟩ - x)
          ≤ excess t * (5 * ε + 90 * 2 ^ (-53 : ℤ) * κ) * (len B * len (exactObj ⟨t, b⟩))) ∧
    (∀ k, (cf (promote _ (mulTy t .mv b (inverseMv M))) k).Finite) ∧
      ∀ x, x * exactObj ⟨.mv, M⟩ = exactObj ⟨t, b⟩ →
        len (exactObj ⟨_, mulTy t .mv b (inverseMv M)⟩ - x)
          ≤ excess t * (5 * ε + 90 * 2 ^ (-53 : ℤ) * κ) * (len B * len (exactObj ⟨t, b⟩)) := by
  obtain ⟨hF, hE⟩ := C56_inverse_mv ε h0 h1 hl M hf B hB hN1 hN2 (hκd ▸ hκ)
  have hκ1 := cond_ge_one _ _ hB
  have hBl := left_inverse _ _ hB
  generalize inverseMv M = R at *
  rw [← hκd] at hκ1 hE
  have hu : (0 : ℝ) < 2 ^ (-53 : ℤ) := F64.two_zpow_pos _
  have hBp : 0 ≤ len B := len_nonneg _
  have hNp : 0 < len (exactObj ⟨.mv, M⟩) := lt_of_lt_of_le (F64.two_zpow_pos _) hN1
  have hb0 := len_nonneg (exactObj ⟨t, b⟩)
  have hδ : 53 * (2 : ℝ) ^ (-53 : ℤ) * κ ≤ 53 / 256 := by
    have e := mul_le_mul_of_nonneg_left hκ hu.le
    rw [← zpow_add₀ two_ne_zero, show (-53 + 45 : ℤ) = -8 by norm_num] at e
    have : (2 : ℝ) ^ (-8 : ℤ) = 1 / 256 := by norm_num
    rw [this] at e
    linarith only [e]
  have hRl : len (exactObj ⟨.mv, R⟩) ≤ 13 / 10 * len B := by
    have e := len_sub_add (exactObj ⟨.mv, R⟩) B
    have e1 : 5 * ε + 53 * 2 ^ (-53 : ℤ) * κ ≤ 3 / 10 := by linarith only [h1, hδ]
    have e2 := mul_le_mul_of_nonneg_right e1 hBp
    refine (e.trans (add_le_add (hE.trans e2) le_rfl)).trans_eq ?_
    ring
  -- `|B|` lies between `2^-100` and `2^145`
  have hBlo : (2 : ℝ) ^ (-100 : ℤ) ≤ len B := by
    have e := hκ1.trans (hκd.le.trans (mul_le_mul_of_nonneg_right hN2 hBp))
    have e2 := mul_le_mul_of_nonneg_left e (F64.two_zpow_pos (-100)).le (α := ℝ)
    rw [← mul_assoc, ← zpow_add₀ two_ne_zero, mul_one] at e2
    simpa using e2
  have hBhi : len B ≤ 2 ^ (145 : ℤ) := by
    have e := (mul_le_mul_of_nonneg_right hN1 hBp).trans (hκd.symm.le.trans hκ)
    have e2 := mul_le_mul_of_nonneg_left e (F64.two_zpow_pos 100).le (α := ℝ)
    rw [← mul_assoc, ← zpow_add₀ two_ne_zero, ← zpow_add₀ two_ne_zero] at e2
    rwa [show (100 + -100 : ℤ) = 0 by norm_num, show (100 + 45 : ℤ) = 145 by norm_num, zpow_zero,
      one_mul] at e2
  have hbig : len (exactObj ⟨.mv, R⟩) * len (exactObj ⟨t, b⟩) ≤ 2 ^ 1022 := by
    have e1 : len (exactObj ⟨.mv, R⟩) ≤ 2 * 2 ^ (145 : ℤ) :=
      hRl.trans (mul_le_mul (by norm_num) hBhi hBp (by norm_num))
    refine (mul_le_mul e1 hb2 hb0 (by positivity)).trans ?_
    rw [mul_assoc, ← zpow_add₀ two_ne_zero, ← zpow_one_add₀ two_ne_zero, ← zpow_natCast]
    exact zpow_le_zpow_right₀ one_le_two (by norm_num)
  have htiny : (2 : ℝ) ^ (-1057 : ℤ) ≤ 2 ^ (-53 : ℤ) * (len B * len (exactObj ⟨t, b⟩)) := by
    calc (2 : ℝ) ^ (-1057 : ℤ) ≤ 2 ^ (-53 + (-100 + -400) : ℤ) :=
          zpow_le_zpow_right₀ one_le_two (by norm_num)
      _ = 2 ^ (-53 : ℤ) * (2 ^ (-100 : ℤ) * 2 ^ (-400 : ℤ)) := by
          rw [zpow_add₀ two_ne_zero, zpow_add₀ two_ne_zero]
      _ ≤ _ := mul_le_mul_of_nonneg_left
          (mul_le_mul hBlo hb1 (F64.two_zpow_pos _).le hBp) hu.le
  have hEb := mul_le_mul_of_nonneg_left (mul_le_mul_of_nonneg_right hE hb0)
    (zero_le_one.trans (excess_ge t))
  obtain ⟨p1, p2⟩ := product_len .mv t R b hF (finiteTy_of _ _ hb) hbig
  obtain ⟨q1, q2⟩ := product_len t .mv b R (finiteTy_of _ _ hb) hF (by rw [mul_comm]; exact hbig)
  rw [mul_comm (len (exactObj ⟨t, b⟩))] at q2
  refine ⟨⟨p1, fun x hx => ?_⟩, q1, fun x hx => ?_⟩
  · obtain rfl := (solve_of_inverse _ _ _ hB hBl).2.2.1 x hx
    rw [tele _ (exactObj ⟨.mv, R⟩ * exactObj ⟨t, b⟩), sub_mul_mv]
    exact (len_add_le _ _).trans (solve_mv_num hu.le hκ1 (excess_ge t) hBp hb0 hRl p2 htiny
      ((len_mul_excess t _ (valTy t b)).1.trans hEb))
  · obtain rfl := (solve_of_inverse _ _ _ hB hBl).2.2.2 x hx
    rw [tele _ (exactObj ⟨t, b⟩ * exactObj ⟨.mv, R⟩), mul_sub_mv]
    exact (len_add_le _ _).trans (solve_mv_num hu.le hκ1 (excess_ge t) hBp hb0 hRl q2 htiny
      ((len_mul_excess t _ (valTy t b)).2.trans hEb))

/-! ## The two examples in the header (`g3type.hpp:146-151`) -/

theorem small_lit (n : ℤ) (h : |n| ≤ 2 ^ 53) : HasVal (Dbl.lit (n : ℚ) : F64) n := lit_int n h

/-- **C65, violated by the documentation.** The header says that
`Scalar{7.} * (Scalar{3.} + Scalar{5.})` is `Scalar{21.}`; it is 56. -/
theorem C65_header_product_fails :
    HasVal ((⟨⟨Dbl.lit (7 : ℤ)⟩⟩ * (⟨⟨Dbl.lit (3 : ℤ)⟩⟩ + ⟨⟨Dbl.lit (5 : ℤ)⟩⟩) : Scalar F64).theData.d0) 56 ∧
    (⟨⟨Dbl.lit (7 : ℤ)⟩⟩ * (⟨⟨Dbl.lit (3 : ℤ)⟩⟩ + ⟨⟨Dbl.lit (5 : ℤ)⟩⟩) : Scalar F64)
      ≠ ⟨⟨Dbl.lit (21 : ℤ)⟩⟩ := by
  have h3 := small_lit 3 (by norm_num)
  have h5 := small_lit 5 (by norm_num)
  have h7 := small_lit 7 (by norm_num)
  have h21 := small_lit 21 (by norm_num)
  have a := h3.add h5 (by rw [show ((3 : ℤ) : ℚ) + (5 : ℤ) = ((8 : ℤ) : ℚ) by norm_num]
                          exact F64.rep_int 8 (by norm_num)) (lt_sixty (by norm_num))
  have b := h7.mul a (by rw [show ((7 : ℤ) : ℚ) * ((3 : ℤ) + (5 : ℤ)) = ((56 : ℤ) : ℚ) by norm_num]
                         exact F64.rep_int 56 (by norm_num)) (lt_sixty (by norm_num))
  rw [show ((7 : ℤ) : ℚ) * ((3 : ℤ) + (5 : ℤ)) = 56 by norm_num] at b
  refine ⟨b, fun e => ?_⟩
  have e1 := congrArg (fun x : Scalar F64 => x.theData.d0.value) e
  have e2 : (56 : ℚ) = ((21 : ℤ) : ℚ) := b.2.symm.trans (e1.trans h21.2)
  norm_num at e2

/-- **C65.** The header's equation `10 x + 5 = 7`, solved as it says with
`x = inverse(10.) * (7. - 5.)`: the computed `x` is the double nearest to `1/5`, and it satisfies
the equation exactly when put back in binary64. -/
theorem C65_header_equation (x : Scalar F64)
    (hx : x = inverseBlade (⟨⟨Dbl.lit (10 : ℤ)⟩⟩ : Scalar F64)
      * ((⟨⟨Dbl.lit (7 : ℤ)⟩⟩ : Scalar F64) - ⟨⟨Dbl.lit (5 : ℤ)⟩⟩)) :
    HasVal x.theData.d0 (F64.rnVal (1 / 5 : ℚ)) ∧
    HasVal ((⟨⟨Dbl.lit (10 : ℤ)⟩⟩ : Scalar F64) * x + ⟨⟨Dbl.lit (5 : ℤ)⟩⟩).theData.d0 7 := by
  have h10 := small_lit 10 (by norm_num)
  have h5 := small_lit 5 (by norm_num)
  have h7 := small_lit 7 (by norm_num)
  have h1 : HasVal (Dbl.lit (10 : ℤ) * Dbl.lit (10 : ℤ) : F64) ((100 : ℤ) : ℚ) := by
    have e := h10.mul h10 (by rw [show ((10 : ℤ) : ℚ) * (10 : ℤ) = ((100 : ℤ) : ℚ) by norm_num]
                              exact F64.rep_int 100 (by norm_num)) (lt_sixty (by norm_num))
    rwa [show ((10 : ℤ) : ℚ) * (10 : ℤ) = ((100 : ℤ) : ℚ) by norm_num] at e
  have h2 : HasVal (1 / (Dbl.lit (10 : ℤ) * Dbl.lit (10 : ℤ)) : F64)
      ((5764607523034235 : ℤ) * (2 : ℚ) ^ (-59 : ℤ)) :=
    F64.hasVal_one.divR h1 (by norm_num) (rnVal_of (by norm_num) (by norm_num) (by norm_num)
      (by rw [abs_lt]; norm_num)) (by rw [abs_le]; norm_num)
  have h3 : HasVal (1 / (Dbl.lit (10 : ℤ) * Dbl.lit (10 : ℤ)) * Dbl.lit (10 : ℤ) : F64)
      ((7205759403792794 : ℤ) * (2 : ℚ) ^ (-56 : ℤ)) :=
    h2.mulR h10 (rnVal_of (by norm_num) (by norm_num) (by norm_num)
      (by rw [abs_lt]; norm_num)) (by rw [abs_le]; norm_num)
  have h4 : HasVal (Dbl.lit (7 : ℤ) - Dbl.lit (5 : ℤ) : F64) ((2 : ℤ) : ℚ) := by
    have e := h7.sub h5 (by rw [show ((7 : ℤ) : ℚ) - (5 : ℤ) = ((2 : ℤ) : ℚ) by norm_num]
                            exact F64.rep_int 2 (by norm_num)) (lt_sixty (by norm_num))
    rwa [show ((7 : ℤ) : ℚ) - (5 : ℤ) = ((2 : ℤ) : ℚ) by norm_num] at e
  have h6 : HasVal (1 / (Dbl.lit (10 : ℤ) * Dbl.lit (10 : ℤ)) * Dbl.lit (10 : ℤ)
      * (Dbl.lit (7 : ℤ) - Dbl.lit (5 : ℤ)) : F64) ((7205759403792794 : ℤ) * (2 : ℚ) ^ (-55 : ℤ)) :=
    h3.mulR h4 (rnVal_of (by norm_num) (by norm_num) (by norm_num)
      (by rw [abs_lt]; norm_num)) (by rw [abs_le]; norm_num)
  have h8 : F64.rnVal (1 / 5 : ℚ) = (7205759403792794 : ℤ) * (2 : ℚ) ^ (-55 : ℤ) :=
    rnVal_of (by norm_num) (by norm_num) (by norm_num) (by rw [abs_lt]; norm_num)
  have ex : x.theData.d0 = 1 / (Dbl.lit (10 : ℤ) * Dbl.lit (10 : ℤ)) * Dbl.lit (10 : ℤ)
      * (Dbl.lit (7 : ℤ) - Dbl.lit (5 : ℤ)) := by rw [hx]; rfl
  rw [← ex] at h6
  refine ⟨h8 ▸ h6, ?_⟩
  have h9 : HasVal (Dbl.lit (10 : ℤ) * x.theData.d0) ((4503599627370496 : ℤ) * (2 : ℚ) ^ (-51 : ℤ)) :=
    h10.mulR h6 (rnVal_of (by norm_num) (by norm_num) (by norm_num)
      (by rw [abs_lt]; norm_num)) (by rw [abs_le]; norm_num)
  rw [show ((4503599627370496 : ℤ) : ℚ) * (2 : ℚ) ^ (-51 : ℤ) = ((2 : ℤ) : ℚ) by norm_num] at h9
  have e := h9.add h5 (by rw [show ((2 : ℤ) : ℚ) + (5 : ℤ) = ((7 : ℤ) : ℚ) by norm_num]
                          exact F64.rep_int 7 (by norm_num)) (lt_sixty (by norm_num))
  rwa [show ((2 : ℤ) : ℚ) + (5 : ℤ) = 7 by norm_num] at e

/-- The vector `3 e1 - 4 e3`. -/
noncomputable def exCoef : Vector F64 := ⟨⟨Dbl.lit (3 : ℤ), Dbl.lit (0 : ℤ), Dbl.lit (-4 : ℤ)⟩⟩
/-- The spinor `2 + 5 e12`. -/
noncomputable def exRight : Spinor F64 :=
  ⟨⟨⟨Dbl.lit (2 : ℤ)⟩⟩, ⟨⟨Dbl.lit (0 : ℤ), Dbl.lit (0 : ℤ), Dbl.lit (5 : ℤ)⟩⟩⟩

/-- The equation `(3 e1 - 4 e3) x = 2 + 5 e12` meets the hypotheses of the binary64 theorems. -/
example : Central .vec exCoef ∧ (∀ c ∈ comps .spin exRight, c.Finite) ∧
    (2 : ℝ) ^ (-400 : ℤ) ≤ len (exactObj ⟨.spin, exRight⟩) ∧
    len (exactObj ⟨.spin, exRight⟩) ≤ 2 ^ (400 : ℤ) := by
  have h0 := small_lit 0 (by norm_num)
  have h2 := small_lit 2 (by norm_num)
  have h3 := small_lit 3 (by norm_num)
  have h4 := small_lit (-4) (by norm_num)
  have h5 := small_lit 5 (by norm_num)
  have hl : len (exactObj ⟨.spin, exRight⟩) = √29 := by
    unfold len
    refine congrArg Real.sqrt ?_
    rw [Fin.sum_univ_eight]
    simp only [exactObj, cf_val]
    simp only [cf_0, cf_1, cf_2, cf_3, cf_4, cf_5, cf_6, cf_7, engabra, exRight, h0.2, h2.2, h5.2,
      F64.hasVal_zero'.2]
    norm_num
  have big : (4 : ℚ) ≤ 2 ^ (500 : ℤ) := by
    have e : (2 : ℚ) ^ (2 : ℤ) = 4 := by norm_num
    have := zpow_le_zpow_right₀ (one_le_two : (1 : ℚ) ≤ 2) (by norm_num : (2 : ℤ) ≤ 500)
    rwa [e] at this
  have low : (2 : ℚ) ^ (-500 : ℤ) ≤ 1 := by
    have := zpow_le_zpow_right₀ (one_le_two : (1 : ℚ) ≤ 2) (by norm_num : (-500 : ℤ) ≤ 0)
    rwa [zpow_zero] at this
  have k : ∀ c ∈ comps .vec exCoef, c.Finite ∧ |c.value| ≤ 4 := by
    simp only [comps, exCoef, List.forall_mem_cons, List.not_mem_nil, false_imp_iff, implies_true,
      and_true, h3.2, h0.2, h4.2]
    exact ⟨⟨h3.1, by norm_num⟩, ⟨h0.1, by norm_num⟩, h4.1, by norm_num⟩
  refine ⟨⟨fun c hc => ⟨(k c hc).1, (k c hc).2.trans big⟩, ?_⟩, ?_, ?_, ?_⟩
  · refine ⟨Dbl.lit (3 : ℤ), by simp [comps, exCoef], ?_⟩
    rw [h3.2]; exact low.trans (by norm_num)
  · simp only [comps, exRight, List.forall_mem_cons, List.not_mem_nil, false_imp_iff, implies_true,
      and_true]
    exact ⟨h2.1, h0.1, h0.1, h5.1⟩
  · rw [hl]
    have : (1 : ℝ) ≤ √29 := Real.one_le_sqrt.2 (by norm_num)
    exact ((zpow_le_zpow_right₀ one_le_two (by norm_num : (-400 : ℤ) ≤ 0)).trans_eq (zpow_zero _)).trans this
  · rw [hl]
    have : √29 ≤ 8 := by rw [Real.sqrt_le_left (by norm_num)]; norm_num
    refine this.trans ?_
    calc (8 : ℝ) = 2 ^ (3 : ℤ) := by norm_num
      _ ≤ 2 ^ (400 : ℤ) := zpow_le_zpow_right₀ one_le_two (by norm_num)

end Engabra
