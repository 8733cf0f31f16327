import Verif.Props.C56_GeneralInverse
import Verif.Props.C38_Constants

/-! # C56, continued: a multivector times its computed inverse, and the cancelling amplitude -/

namespace Engabra

open F64 (Finite HasVal)

theorem left_inverse (M B : MultiVector ℚ) (h : M * B = gone) : B * M = gone := by
  obtain ⟨-, hB, -⟩ := inverse_form M B h
  obtain ⟨_, hz1, ha, hb⟩ := C15_ampSq (α := ℚ) .mv (by decide) M
  obtain rfl := Option.some.inj hz1
  have ha : toMV (ampSq M) = M * dirverse M := ha
  have hb : toMV (ampSq M) = dirverse M * M := hb
  rw [hB, C01_mul_assoc, ← hb, ha]
  rw [hB] at h
  rw [← h, ← C01_mul_assoc, ← C01_mul_assoc]
  congr 1
  simp only [cinv]
  mv_ring

theorem cf_one (k : Fin 8) : (cf (gone : MultiVector ℚ) k) = if k = 0 then 1 else 0 := by
  revert k; decide

/-- One product of two multivectors against one, from the length of an error. -/
theorem near_unit (X Y E : MultiVector ℚ) (P : MultiVector F64) (hP : FiniteTy .mv P) {a b : ℝ}
    (h1 : len (exactObj ⟨.mv, P⟩ - X * Y) ≤ a) (hE : X * Y = gone + E)
    (h2 : ∀ k, ((|cf E k| : ℚ) : ℝ) ≤ b) (k : Fin 8) :
    (cf P k).Finite ∧ |((cf P k).value : ℝ) - (if k = 0 then 1 else 0)| ≤ a + b := by
  refine ⟨hP k, ?_⟩
  have e1 := (cf_le_len (exactObj ⟨.mv, P⟩ - X * Y) k).trans h1
  rw [cf_sub, show cf (exactObj ⟨.mv, P⟩) k = (cf P k).value from cf_val .mv _ k, hE, cf_add,
    cf_one] at e1
  have e3 := h2 k
  rw [Rat.cast_abs] at e3
  have e4 : ((cf P k).value : ℝ) - (if k = 0 then 1 else 0)
      = (((cf P k).value - ((if k = 0 then 1 else 0) + cf E k) : ℚ) : ℝ) + ((cf E k : ℚ) : ℝ) := by
    split <;> push_cast <;> ring
  rw [e4]
  exact (abs_add_le _ _).trans (add_le_add e1 e3)

/-- **C56.** In both orders, the product of `M` and `inverse(M)` is one up to the error of the
library and rounding times the condition number, all times the condition number. -/
theorem C56_product [LibM F64] (ε : ℝ) (h0 : 0 ≤ ε) (h1 : ε ≤ 1 / 100) (hl : LibcOk ε)
    (M : MultiVector F64) (hf : FiniteTy .mv M) (B : MultiVector ℚ)
    (hB : exactObj ⟨.mv, M⟩ * B = gone)
    (hN1 : (2 : ℝ) ^ (-100 : ℤ) ≤ len (exactObj ⟨.mv, M⟩))
    (hN2 : len (exactObj ⟨.mv, M⟩) ≤ 2 ^ (100 : ℤ))
    (κ : ℝ) (hκd : κ = len (exactObj ⟨.mv, M⟩) * len B) (hκ : κ ≤ 2 ^ (45 : ℤ)) (k : Fin 8) :
    ((cf (M * inverseMv M) k).Finite ∧
      |((cf (M * inverseMv M) k).value : ℝ) - (if k = 0 then 1 else 0)|
        ≤ (5 * ε + 90 * 2 ^ (-53 : ℤ) * κ) * κ) ∧
    ((cf (inverseMv M * M) k).Finite ∧
      |((cf (inverseMv M * M) k).value : ℝ) - (if k = 0 then 1 else 0)|
        ≤ (5 * ε + 90 * 2 ^ (-53 : ℤ) * κ) * κ) := by
  obtain ⟨hF, hE⟩ := C56_inverse_mv ε h0 h1 hl M hf B hB hN1 hN2 (hκd ▸ hκ)
  have hκ1 := cond_ge_one _ _ hB
  have hBl := left_inverse _ _ hB
  generalize hR : inverseMv M = R at *
  rw [← hκd] at hκ1 hE
  have eM : exactObj ⟨.mv, M⟩ = (valTy .mv M : MultiVector ℚ) := rfl
  have eR : exactObj ⟨.mv, R⟩ = (valTy .mv R : MultiVector ℚ) := rfl
  have hu : (0 : ℝ) < 2 ^ (-53 : ℤ) := F64.two_zpow_pos _
  have hBp : 0 ≤ len B := Real.sqrt_nonneg _
  have hNp : 0 < len (exactObj ⟨.mv, M⟩) := lt_of_lt_of_le (F64.two_zpow_pos _) hN1
  have hδ : 53 * (2 : ℝ) ^ (-53 : ℤ) * κ ≤ 53 / 256 := by
    have e := mul_le_mul_of_nonneg_left hκ hu.le
    rw [← pow_split, show (-53 + 45 : ℤ) = -8 by norm_num] at e
    have : (2 : ℝ) ^ (-8 : ℤ) = 1 / 256 := by norm_num
    rw [this] at e
    linarith only [e]
  have hRl : len (exactObj ⟨.mv, R⟩) ≤ 13 / 10 * len B := by
    have e := len_add_le (exactObj ⟨.mv, R⟩ - B) B
    rw [show exactObj ⟨.mv, R⟩ - B + B = exactObj ⟨.mv, R⟩ by
      generalize exactObj ⟨.mv, R⟩ = r; mv_ring] at e
    have e1 : 5 * ε + 53 * 2 ^ (-53 : ℤ) * κ ≤ 3 / 10 := by linarith only [h1, hδ]
    have e2 := mul_le_mul_of_nonneg_right e1 hBp
    refine (e.trans (add_le_add (hE.trans e2) le_rfl)).trans_eq ?_
    ring
  have hMR : len (exactObj ⟨.mv, M⟩) * len (exactObj ⟨.mv, R⟩) ≤ 13 / 10 * κ := by
    have := mul_le_mul_of_nonneg_left hRl hNp.le
    rw [hκd]; linarith only [this]
  have big : 13 / 10 * κ ≤ 2 ^ 1022 := by
    rw [← zpow_natCast]
    calc 13 / 10 * κ ≤ 2 ^ (1 : ℤ) * 2 ^ (45 : ℤ) :=
          mul_le_mul (by norm_num) hκ (by linarith only [hκ1]) (by norm_num)
      _ = 2 ^ (46 : ℤ) := by rw [← pow_split]; norm_num only
      _ ≤ _ := zpow_le_zpow_right₀ one_le_two (by norm_num)
  have tiny : (2 : ℝ) ^ (-1057 : ℤ) ≤ 2 ^ (-53 : ℤ) * κ := by
    calc (2 : ℝ) ^ (-1057 : ℤ) ≤ 2 ^ (-53 : ℤ) := zpow_le_zpow_right₀ one_le_two (by norm_num)
      _ ≤ 2 ^ (-53 : ℤ) * κ := le_mul_of_one_le_right hu.le hκ1
  have hEN : len (exactObj ⟨.mv, M⟩) * len (exactObj ⟨.mv, R⟩ - B)
      ≤ (5 * ε + 53 * 2 ^ (-53 : ℤ) * κ) * κ := by
    have := mul_le_mul_of_nonneg_left hE hNp.le
    refine this.trans_eq ?_
    rw [hκd]; ring
  have fin : (27 * 2 ^ (-53 : ℤ) * (13 / 10 * κ) + 2 ^ (-1057 : ℤ))
      + (5 * ε + 53 * 2 ^ (-53 : ℤ) * κ) * κ ≤ (5 * ε + 90 * 2 ^ (-53 : ℤ) * κ) * κ := by
    have t : (2 : ℝ) ^ (-53 : ℤ) * κ ≤ 2 ^ (-53 : ℤ) * κ * κ :=
      le_mul_of_one_le_right (by positivity) hκ1
    have t2 : (0 : ℝ) ≤ 2 ^ (-53 : ℤ) * κ * κ := by positivity
    generalize (2 : ℝ) ^ (-1057 : ℤ) = x at *
    generalize (2 : ℝ) ^ (-53 : ℤ) = u at *
    nlinarith only [t, t2, tiny]
  obtain ⟨p1, p2⟩ := product_len .mv .mv M R hf hF (hMR.trans big)
  obtain ⟨q1, q2⟩ := product_len .mv .mv R M hF hf (by rw [mul_comm]; exact hMR.trans big)
  rw [mul_comm (len (exactObj ⟨.mv, R⟩))] at q2
  have lift : 27 * (2 : ℝ) ^ (-53 : ℤ) * (len (exactObj ⟨.mv, M⟩) * len (exactObj ⟨.mv, R⟩))
      + 2 ^ (-1057 : ℤ) ≤ 27 * 2 ^ (-53 : ℤ) * (13 / 10 * κ) + 2 ^ (-1057 : ℤ) :=
    add_le_add (mul_le_mul_of_nonneg_left hMR (by positivity)) le_rfl
  constructor
  · obtain ⟨a, b⟩ := near_unit (b := (5 * ε + 53 * 2 ^ (-53 : ℤ) * κ) * κ) (exactObj ⟨.mv, M⟩) (exactObj ⟨.mv, R⟩)
      (exactObj ⟨.mv, M⟩ * (exactObj ⟨.mv, R⟩ - B)) (M * R) p1 (p2.trans lift)
      (by rw [← hB]; generalize exactObj ⟨.mv, R⟩ = r; generalize exactObj ⟨.mv, M⟩ = m; mv_ring)
      (fun k => ((Rat.cast_le (K := ℝ)).2 (cf_mul_le _ _ k)).trans
        ((absMul_le _ _ k).trans hEN)) k
    exact ⟨a, b.trans fin⟩
  · obtain ⟨a, b⟩ := near_unit (b := (5 * ε + 53 * 2 ^ (-53 : ℤ) * κ) * κ) (exactObj ⟨.mv, R⟩) (exactObj ⟨.mv, M⟩)
      ((exactObj ⟨.mv, R⟩ - B) * exactObj ⟨.mv, M⟩) (R * M) q1 (q2.trans lift)
      (by rw [← hBl]; generalize exactObj ⟨.mv, R⟩ = r; generalize exactObj ⟨.mv, M⟩ = m; mv_ring)
      (fun k => ((Rat.cast_le (K := ℝ)).2 (cf_mul_le _ _ k)).trans
        ((absMul_le _ _ k).trans (by rw [mul_comm]; exact hEN))) k
    exact ⟨a, b.trans fin⟩

/-- The multivector `(2^27 + 1) + 2^27 e1 + 2^14 e2`. -/
noncomputable def nearNull : MultiVector F64 :=
  ⟨⟨⟨F64.pow2 27 + 1⟩⟩, ⟨⟨F64.pow2 27, F64.pow2 14, 0⟩⟩, ⟨⟨0, 0, 0⟩⟩, ⟨⟨0⟩⟩⟩

theorem lt_sixty {q : ℚ} (h : |q| ≤ 2 ^ 60) : |q| < 2 ^ 1024 :=
  h.trans_lt (pow_lt_pow_right₀ (by norm_num) (by norm_num))

theorem nearNull_vals : HasVal (F64.pow2 27 + 1) (2 ^ 27 + 1) ∧ HasVal (F64.pow2 27) (2 ^ 27) ∧
    HasVal (F64.pow2 14) (2 ^ 14) := by
  have b := F64.pow2_val (e := 27) (by norm_num) (by norm_num)
  have c := F64.pow2_val (e := 14) (by norm_num) (by norm_num)
  have b' : HasVal (F64.pow2 27) (2 ^ 27) := by exact_mod_cast b
  have c' : HasVal (F64.pow2 14) (2 ^ 14) := by exact_mod_cast c
  refine ⟨b'.add F64.hasVal_one ?_ (lt_sixty (by norm_num)), b', c'⟩
  exact ⟨2 ^ 27 + 1, 0, by norm_num, by norm_num, by norm_num⟩

theorem nearNull_exact : exactObj ⟨.mv, nearNull⟩
    = ⟨⟨⟨2 ^ 27 + 1⟩⟩, ⟨⟨2 ^ 27, 2 ^ 14, 0⟩⟩, ⟨⟨0, 0, 0⟩⟩, ⟨⟨0⟩⟩⟩ := by
  obtain ⟨a, b, c⟩ := nearNull_vals
  have z : (0 : F64).value = 0 := rfl
  simp only [exactObj, promote, valTy, mapTy, nearNull, a.2, b.2, c.2, z]

theorem nearNull_ampSq : ∃ x y : F64, ampSq nearNull = ⟨⟨⟨x⟩⟩, ⟨⟨y⟩⟩⟩ ∧ HasVal x 0 ∧ HasVal y 0 := by
  obtain ⟨a, b, c⟩ := nearNull_vals
  unfold nearNull
  generalize F64.pow2 27 + 1 = s at *
  generalize F64.pow2 27 = v at *
  generalize F64.pow2 14 = w at *
  have z := F64.hasVal_zero'
  have zz := z.zero_mul z
  simp only [engabra]
  refine ⟨_, _, rfl, ?_, ?_⟩
  · have aa : HasVal (s * s) (2 ^ 54 + 2 ^ 28) := by
      have e : F64.rnVal (s.value * s.value) = 2 ^ 54 + 2 ^ 28 := by
        rw [a.2, rnVal_of (e := 2) (n := 2 ^ 52 + 2 ^ 26) (by norm_num) (by norm_num) (by norm_num)
          (by norm_num)]
        norm_num
      have h := F64.mul_spec a.1 a.1 (by rw [e]; exact lt_sixty (by norm_num))
      exact ⟨h.1, h.2.trans e⟩
    have bb : HasVal (v * v) (2 ^ 27 * 2 ^ 27) :=
      b.mul b ⟨1, 54, by norm_num, by norm_num, by norm_num⟩ (lt_sixty (by norm_num))
    have cc : HasVal (w * w) (2 ^ 14 * 2 ^ 14) :=
      c.mul c ⟨1, 28, by norm_num, by norm_num, by norm_num⟩ (lt_sixty (by norm_num))
    have bc : HasVal (0 + v * v + w * w + 0 * 0) (2 ^ 27 * 2 ^ 27 + 2 ^ 14 * 2 ^ 14) :=
      ((z.zero_add bb).add cc ⟨2 ^ 26 + 1, 28, by norm_num, by norm_num, by norm_num⟩
        (lt_sixty (by norm_num))).add_zero zz
    have d := aa.sub bc (by norm_num; exact F64.rep_zero) (lt_sixty (by norm_num))
    rw [show (2 ^ 54 + 2 ^ 28 - (2 ^ 27 * 2 ^ 27 + 2 ^ 14 * 2 ^ 14) : ℚ) = 0 by norm_num] at d
    have n : HasVal (-(0 + 0 * 0 + 0 * 0 + 0 * 0 : F64)) 0 := by
      have := (((z.zero_add zz).add_zero zz).add_zero zz).neg
      rwa [neg_zero] at this
    have m : HasVal (-(0 * 0 : F64)) 0 := by
      have := zz.neg
      rwa [neg_zero] at this
    exact (d.sub_zero n).add_zero m
  · exact two_hasVal.mul_zero ((a.mul_zero z).sub_zero
      (((z.zero_add (b.mul_zero z)).add_zero (c.mul_zero z)).add_zero zz))

/-- **C56, the claim without the bound on the condition number fails.** The multivector
`(2^27 + 1) + 2^27 e1 + 2^14 e2` has the exact inverse `(2^27 + 1) - 2^27 e1 - 2^14 e2`, with a
condition number below `2^56`; the cancellation in `ampSq` makes the amplitude zero, and every
component of `inverse<MultiVector>` is NaN. -/
theorem C56_fails_cancellation [LibM F64] (ε : ℝ) (hl : LibcOk ε) :
    ∃ (M : MultiVector F64) (B : MultiVector ℚ), FiniteTy .mv M ∧
      exactObj ⟨.mv, M⟩ * B = gone ∧ len (exactObj ⟨.mv, M⟩) * len B ≤ 2 ^ 56 ∧
      ∀ k, cf (inverseMv M) k = .nan := by
  refine ⟨nearNull, ⟨⟨⟨2 ^ 27 + 1⟩⟩, ⟨⟨-2 ^ 27, -2 ^ 14, 0⟩⟩, ⟨⟨0, 0, 0⟩⟩, ⟨⟨0⟩⟩⟩, ?_, ?_, ?_, ?_⟩
  · obtain ⟨a, b, c⟩ := nearNull_vals
    have z := F64.hasVal_zero'
    apply forall_fin8
    exacts [a.1, b.1, c.1, z.1, z.1, z.1, z.1, z.1]
  · rw [nearNull_exact]
    simp only [engabra]
    norm_num
  · have e : ∀ q : ℚ, len (⟨⟨⟨2 ^ 27 + 1⟩⟩, ⟨⟨2 ^ 27, 2 ^ 14, 0⟩⟩, ⟨⟨0, 0, 0⟩⟩, ⟨⟨0⟩⟩⟩ : MultiVector ℚ) ≤ 2 ^ 28 ∧
      len (⟨⟨⟨2 ^ 27 + 1⟩⟩, ⟨⟨-2 ^ 27, -2 ^ 14, 0⟩⟩, ⟨⟨0, 0, 0⟩⟩, ⟨⟨0⟩⟩⟩ : MultiVector ℚ) ≤ 2 ^ 28 := by
      intro q
      constructor <;>
      · unfold len
        rw [Fin.sum_univ_eight]
        simp only [cf_0, cf_1, cf_2, cf_3, cf_4, cf_5, cf_6, cf_7]
        refine Real.sqrt_le_iff.2 ⟨by norm_num, ?_⟩
        norm_num
    rw [nearNull_exact]
    refine (mul_le_mul (e 0).1 (e 0).2 (Real.sqrt_nonneg _) (by positivity)).trans_eq (by norm_num)
  · obtain ⟨x, y, h, hx, hy⟩ := nearNull_ampSq
    have hy' := hy.neg
    rw [neg_zero] at hy'
    have h0 : cval (x, y) = 0 := by
      apply Complex.ext <;> simp [cval, hx.2, hy.2]
    obtain ⟨f1, f2⟩ := hl.mul_zero (x, y) (x, -y) ⟨hx.1, hy.1⟩ ⟨hx.1, hy'.1⟩ (by rw [h0, zero_mul])
    have f3 := hl.abs_zero _ f1 f2
    have hi : inverseCplx (ampSq nearNull) = ⟨⟨⟨F64.nan⟩⟩, ⟨⟨F64.nan⟩⟩⟩ := by
      rw [h]
      refine (if_neg ?_).trans rfl
      rw [F64.minDub_val.flt f3, decide_eq_true_eq, not_lt]
      exact (F64.two_zpow_pos _).le
    intro k
    unfold inverseMv
    simp only
    rw [hi]
    generalize nearNull = M
    revert k
    apply forall_fin8
    all_goals
      simp only [cf_0, cf_1, cf_2, cf_3, cf_4, cf_5, cf_6, cf_7, engabra, F64.nan_mul,
        F64.neg_nan, F64.add_nan]

/-- A complex library: products by the schoolbook formula with four rounded products, quotients and
norms correctly rounded. -/
@[instance_reducible] noncomputable def refLibC : LibM F64 :=
  { refLibM with
    cmul := fun z w => (z.1 * w.1 - z.2 * w.2, z.1 * w.2 + z.2 * w.1)
    cdiv := fun x z => (F64.roundTo ((x.value : ℂ) / cval z).re, F64.roundTo ((x.value : ℂ) / cval z).im)
    cabs := fun z => F64.roundTo ‖cval z‖ }

theorem cauchy2 (a b c d : ℝ) : |a| * |c| + |b| * |d| ≤ √(a ^ 2 + b ^ 2) * √(c ^ 2 + d ^ 2) := by
  rw [← Real.sqrt_mul (by positivity)]
  apply Real.le_sqrt_of_sq_le
  rw [← sq_abs a, ← sq_abs b, ← sq_abs c, ← sq_abs d]
  nlinarith [sq_nonneg (|a| * |d| - |b| * |c|)]

theorem round_parts {x N : ℝ} (h1 : |x| ≤ N) (hl : (2 : ℝ) ^ (-900 : ℤ) ≤ N)
    (hu : N ≤ 2 ^ (900 : ℤ)) :
    (F64.roundTo x).Finite ∧ |((F64.roundTo x).value : ℝ) - x| ≤ 2 ^ (-53 : ℤ) * N := by
  have h3 := F64.roundTo_value (x := x) (F64.safe_lt_real (h1.trans (hu.trans (by
    rw [← zpow_natCast]; exact zpow_le_zpow_right₀ one_le_two (by norm_num)))))
  refine ⟨h3.1, ?_⟩
  rw [h3.2]
  refine (F64.rnVal_err_rel (K := ℝ) x).trans (max_le ?_ ?_)
  · exact mul_le_mul_of_nonneg_left h1 (F64.two_zpow_pos _).le
  · calc (2 : ℝ) ^ (-1075 : ℤ) ≤ 2 ^ (-53 + -900 : ℤ) := zpow_le_zpow_right₀ one_le_two (by norm_num)
      _ = 2 ^ (-53 : ℤ) * 2 ^ (-900 : ℤ) := pow_split _ _
      _ ≤ _ := mul_le_mul_of_nonneg_left hl (F64.two_zpow_pos _).le

theorem refLibC_ok : @LibcOk refLibC (2 ^ (-48 : ℤ)) := by
  let _ := refLibC
  have hu : (0 : ℝ) < 2 ^ (-53 : ℤ) := F64.two_zpow_pos _
  have h48 : (2 : ℝ) ^ (-48 : ℤ) = 32 * 2 ^ (-53 : ℤ) := by norm_num
  refine ⟨?_, ?_, ?_, ?_, ?_⟩
  · rintro ⟨a, b⟩ ⟨c, d⟩ ⟨fa, fb⟩ ⟨fc, fd⟩ h
    have ha := HasVal.of fa
    have hb := HasVal.of fb
    have hc := HasVal.of fc
    have hd := HasVal.of fd
    have key : HasVal (a * c - b * d) 0 ∧ HasVal (a * d + b * c) 0 := by
      rcases mul_eq_zero.1 h with h | h
      · have e1 : a.value = 0 := by have := congrArg Complex.re h; simpa [cval] using this
        have e2 : b.value = 0 := by have := congrArg Complex.im h; simpa [cval] using this
        rw [e1] at ha
        rw [e2] at hb
        exact ⟨(ha.zero_mul hc).sub_zero (hb.zero_mul hd), (ha.zero_mul hd).add_zero (hb.zero_mul hc)⟩
      · have e1 : c.value = 0 := by have := congrArg Complex.re h; simpa [cval] using this
        have e2 : d.value = 0 := by have := congrArg Complex.im h; simpa [cval] using this
        rw [e1] at hc
        rw [e2] at hd
        exact ⟨(ha.mul_zero hc).sub_zero (hb.mul_zero hd), (ha.mul_zero hd).add_zero (hb.mul_zero hc)⟩
    refine ⟨⟨key.1.1, key.2.1⟩, ?_⟩
    apply Complex.ext
    · change (((a * c - b * d).value : ℚ) : ℝ) = 0
      rw [key.1.2, Rat.cast_zero]
    · change (((a * d + b * c).value : ℚ) : ℝ) = 0
      rw [key.2.2, Rat.cast_zero]
  · rintro ⟨a, b⟩ ⟨c, d⟩ ⟨fa, fb⟩ ⟨fc, fd⟩ h1 h2
    have e1 := cauchy2 a.value b.value c.value d.value
    have e2 := cauchy2 a.value b.value d.value c.value
    have hN : ‖cval (a, b) * cval (c, d)‖ = √((a.value : ℝ) ^ 2 + (b.value : ℝ) ^ 2)
        * √((c.value : ℝ) ^ 2 + (d.value : ℝ) ^ 2) := by
      rw [norm_mul, Complex.norm_eq_sqrt_sq_add_sq, Complex.norm_eq_sqrt_sq_add_sq]; rfl
    rw [add_comm ((d.value : ℝ) ^ 2)] at e2
    rw [← hN] at e1 e2
    generalize hNN : ‖cval (a, b) * cval (c, d)‖ = N at *
    have safe : ∀ q : ℚ, (q : ℝ) ≤ N → q ≤ F64.safe := fun q hq => by
      have : (q : ℝ) ≤ ((F64.safe : ℚ) : ℝ) := by
        refine (hq.trans h2).trans ?_
        unfold F64.safe
        rw [Rat.cast_pow, Rat.cast_ofNat, ← zpow_natCast]
        exact zpow_le_zpow_right₀ one_le_two (by norm_num)
      exact_mod_cast this
    have use : ∀ {c : F64} {q A : ℚ}, 0 ≤ A → (A : ℝ) ≤ N → (c.Finite ∧ |c.value - q|
        ≤ ((1 + F64.uro) ^ 8 - 1) * A + 4 ^ 8 * F64.tinyErr) →
        c.Finite ∧ |(c.value : ℝ) - q| ≤ 10 * 2 ^ (-53 : ℤ) * N := by
      rintro c q A hA hAN ⟨f, h⟩
      refine ⟨f, ?_⟩
      have b := (Rat.cast_le (K := ℝ)).2 (h.trans (u8_le hA))
      rw [Rat.cast_abs, Rat.cast_add, Rat.cast_mul, Rat.cast_mul, cast_zpow, cast_zpow,
        Rat.cast_ofNat, Rat.cast_sub] at b
      refine b.trans ?_
      have t : (2 : ℝ) ^ (-1059 : ℤ) ≤ 2 ^ (-53 : ℤ) * N :=
        calc (2 : ℝ) ^ (-1059 : ℤ) ≤ 2 ^ (-53 + -900 : ℤ) := zpow_le_zpow_right₀ one_le_two (by norm_num)
          _ = 2 ^ (-53 : ℤ) * 2 ^ (-900 : ℤ) := pow_split _ _
          _ ≤ _ := mul_le_mul_of_nonneg_left h1 hu.le
      have t2 := mul_le_mul_of_nonneg_left hAN hu.le
      generalize (2 : ℝ) ^ (-1059 : ℤ) = x at *
      generalize (2 : ℝ) ^ (-53 : ℤ) = u at *
      linarith only [t, t2]
    have A1 : ((|a.value| * |c.value| + |b.value| * |d.value| : ℚ) : ℝ) ≤ N := by
      push_cast; exact e1
    have A2 : ((|a.value| * |d.value| + |b.value| * |c.value| : ℚ) : ℝ) ≤ N := by
      push_cast; exact e2
    obtain ⟨f1, p1⟩ := use (c := a * c - b * d) (q := a.value * c.value - b.value * d.value)
      (by positivity) A1 (by refine fits_both (by fits) (by decide) ?_ ?_ (safe _ A1) <;> rfl)
    obtain ⟨f2, p2⟩ := use (c := a * d + b * c) (q := a.value * d.value + b.value * c.value)
      (by positivity) A2 (by refine fits_both (by fits) (by decide) ?_ ?_ (safe _ A2) <;> rfl)
    refine ⟨⟨f1, f2⟩, ?_⟩
    refine (Complex.norm_le_abs_re_add_abs_im _).trans ?_
    have q1 : (cval (LibM.cmul (a, b) (c, d)) - cval (a, b) * cval (c, d)).re
        = ((a * c - b * d).value : ℝ) - ((a.value * c.value - b.value * d.value : ℚ) : ℝ) := by
      rw [Complex.sub_re, Complex.mul_re]; push_cast; rfl
    have q2 : (cval (LibM.cmul (a, b) (c, d)) - cval (a, b) * cval (c, d)).im
        = ((a * d + b * c).value : ℝ) - ((a.value * d.value + b.value * c.value : ℚ) : ℝ) := by
      rw [Complex.sub_im, Complex.mul_im]; push_cast; rfl
    rw [q1, q2, h48]
    have hNp : 0 < N := lt_of_lt_of_le (F64.two_zpow_pos _) h1
    have := mul_pos hu hNp
    linarith only [p1, p2, this]
  · intro z hz h1 h2
    have hp : 0 < ‖cval z‖ := lt_of_lt_of_le (F64.two_zpow_pos _) h1
    have hone : (((1 : F64).value : ℚ) : ℂ) / cval z = (cval z)⁻¹ := by
      rw [F64.hasVal_one.2, Rat.cast_one, one_div]
    have hN1 : (2 : ℝ) ^ (-900 : ℤ) ≤ ‖(cval z)⁻¹‖ := by
      rw [norm_inv, zpow_neg]
      exact inv_anti₀ hp h2
    have hN2 : ‖(cval z)⁻¹‖ ≤ (2 : ℝ) ^ (900 : ℤ) := by
      rw [norm_inv, ← inv_inv ((2 : ℝ) ^ (900 : ℤ)), ← zpow_neg]
      exact inv_anti₀ (F64.two_zpow_pos _) h1
    have hc : LibM.cdiv 1 z = (F64.roundTo ((cval z)⁻¹).re, F64.roundTo ((cval z)⁻¹).im) := by
      rw [← hone]; rfl
    rw [hc]
    obtain ⟨f1, p1⟩ := round_parts (Complex.abs_re_le_norm (cval z)⁻¹) hN1 hN2
    obtain ⟨f2, p2⟩ := round_parts (Complex.abs_im_le_norm (cval z)⁻¹) hN1 hN2
    refine ⟨⟨f1, f2⟩, (Complex.norm_le_abs_re_add_abs_im _).trans ?_⟩
    rw [Complex.sub_re, Complex.sub_im, h48]
    have := mul_pos hu (lt_of_lt_of_le (F64.two_zpow_pos _) hN1)
    refine (add_le_add p1 p2).trans ?_
    linarith only [this]
  · intro z hz h
    have e : LibM.cabs z = F64.roundTo ‖cval z‖ := rfl
    rw [e, h, norm_zero]
    have := F64.roundTo_value (x := (0 : ℝ)) (by rw [F64.rnVal_zero, abs_zero]; positivity)
    rw [F64.rnVal_zero] at this
    exact this
  · intro z hz h1 h2
    have e : LibM.cabs z = F64.roundTo ‖cval z‖ := rfl
    rw [e]
    obtain ⟨f, p⟩ := round_parts (abs_of_nonneg (norm_nonneg (cval z))).le h1 h2
    refine ⟨f, p.trans (mul_le_mul_of_nonneg_right ?_ (norm_nonneg _))⟩
    exact zpow_le_zpow_right₀ one_le_two (by norm_num)

theorem pow_range (x : ℝ) (h1 : 1 ≤ x) (h2 : x ≤ 4) (n : ℕ) (hn : 2 ≤ n) :
    (2 : ℝ) ^ (-n : ℤ) ≤ x ∧ x ≤ 2 ^ (n : ℤ) := by
  refine ⟨(zpow_le_one_of_nonpos₀ one_le_two (by omega)).trans h1, h2.trans ?_⟩
  calc (4 : ℝ) = 2 ^ (2 : ℤ) := by norm_num
    _ ≤ 2 ^ (n : ℤ) := zpow_le_zpow_right₀ one_le_two (by omega)

/-- `inverse<ComPlex>(1 + 2i)` with this library. -/
example : letI := refLibC
    ∃ w : F64 × F64, inverseCplx (ComPlex.from ((1 : F64), (2 : F64))) = ComPlex.from w ∧ Fin2 w ∧
      ‖cval w - (⟨1, 2⟩ : ℂ)⁻¹‖ ≤ 2 ^ (-46 : ℤ) := by
  let _ := refLibC
  have hv : cval ((1 : F64), (2 : F64)) = ⟨1, 2⟩ := by
    apply Complex.ext <;> simp [cval, F64.hasVal_one.2, two_hasVal.2]
  have hn : ‖(⟨1, 2⟩ : ℂ)‖ = √5 := by
    rw [Complex.norm_eq_sqrt_sq_add_sq]; norm_num
  have h1 : 1 ≤ √5 := Real.le_sqrt_of_sq_le (by norm_num)
  have h2 : √5 ≤ 4 := Real.sqrt_le_iff.2 ⟨by norm_num, by norm_num⟩
  obtain ⟨r1, r2⟩ := pow_range _ h1 h2 400 (by norm_num)
  obtain ⟨w, e, f, b⟩ := C56_inverse_complex (2 ^ (-48 : ℤ)) (by positivity) (by norm_num) refLibC_ok
    (1, 2) ⟨F64.hasVal_one.1, two_hasVal.1⟩ (by rw [hv, hn]; exact r1) (by rw [hv, hn]; exact r2)
  refine ⟨w, e, f, ?_⟩
  rw [hv] at b
  refine b.trans ?_
  rw [norm_inv, hn]
  have := inv_le_one_of_one_le₀ h1
  refine (mul_le_mul_of_nonneg_left this (by positivity)).trans_eq (by norm_num)

/-- `2 + e1` and its inverse `(2 - e1)/3`. -/
example : letI := refLibC
    let M : MultiVector F64 := ⟨⟨⟨2⟩⟩, ⟨⟨1, 0, 0⟩⟩, ⟨⟨0, 0, 0⟩⟩, ⟨⟨0⟩⟩⟩
    FiniteTy .mv (inverseMv M) ∧
    len (exactObj ⟨.mv, inverseMv M⟩ - ⟨⟨⟨2 / 3⟩⟩, ⟨⟨-1 / 3, 0, 0⟩⟩, ⟨⟨0, 0, 0⟩⟩, ⟨⟨0⟩⟩⟩) ≤ 2 ^ (-44 : ℤ) ∧
    ∀ k, |((cf (M * inverseMv M) k).value : ℝ) - (if k = 0 then 1 else 0)| ≤ 2 ^ (-41 : ℤ) := by
  let _ := refLibC
  intro M
  have z := F64.hasVal_zero'
  have hf : FiniteTy .mv M := by
    apply forall_fin8
    exacts [two_hasVal.1, F64.hasVal_one.1, z.1, z.1, z.1, z.1, z.1, z.1]
  have hM : exactObj ⟨.mv, M⟩ = ⟨⟨⟨2⟩⟩, ⟨⟨1, 0, 0⟩⟩, ⟨⟨0, 0, 0⟩⟩, ⟨⟨0⟩⟩⟩ := by
    simp only [exactObj, promote, valTy, mapTy, M, F64.hasVal_one.2, two_hasVal.2, z.2]
  obtain ⟨B, hBd⟩ : ∃ B : MultiVector ℚ, B = ⟨⟨⟨2 / 3⟩⟩, ⟨⟨-1 / 3, 0, 0⟩⟩, ⟨⟨0, 0, 0⟩⟩, ⟨⟨0⟩⟩⟩ := ⟨_, rfl⟩
  rw [← hBd]
  have hB : exactObj ⟨.mv, M⟩ * B = gone := by
    rw [hM, hBd]
    simp only [engabra]
    norm_num
  have lM : len (exactObj ⟨.mv, M⟩) = √5 := by
    rw [hM]
    unfold len
    rw [Fin.sum_univ_eight]
    simp only [cf_0, cf_1, cf_2, cf_3, cf_4, cf_5, cf_6, cf_7]
    norm_num
  have lB : len B ≤ 1 := by
    rw [hBd]
    unfold len
    rw [Fin.sum_univ_eight]
    simp only [cf_0, cf_1, cf_2, cf_3, cf_4, cf_5, cf_6, cf_7]
    refine Real.sqrt_le_iff.2 ⟨by norm_num, ?_⟩
    norm_num
  have h1 : 1 ≤ √5 := Real.le_sqrt_of_sq_le (by norm_num)
  have h2 : √5 ≤ 4 := Real.sqrt_le_iff.2 ⟨by norm_num, by norm_num⟩
  have hB0 : 0 ≤ len B := Real.sqrt_nonneg _
  obtain ⟨κ, hκ⟩ : ∃ κ, κ = len (exactObj ⟨.mv, M⟩) * len B := ⟨_, rfl⟩
  have hκ4 : κ ≤ 4 := by
    rw [hκ, lM]
    refine (mul_le_mul h2 lB hB0 (by norm_num)).trans_eq (by norm_num)
  have hκ0 : 0 ≤ κ := by rw [hκ, lM]; positivity
  obtain ⟨r1, r2⟩ := pow_range _ h1 h2 100 (by norm_num)
  rw [← lM] at r1 r2
  have hκ45 : κ ≤ 2 ^ (45 : ℤ) := hκ4.trans (by norm_num)
  obtain ⟨F, E⟩ := C56_inverse_mv (2 ^ (-48 : ℤ)) (by positivity) (by norm_num) refLibC_ok M hf B hB
    r1 r2 (hκ ▸ hκ45)
  have P := C56_product (2 ^ (-48 : ℤ)) (by positivity) (by norm_num) refLibC_ok M hf B hB
    r1 r2 κ hκ hκ45
  rw [← hκ] at E
  refine ⟨F, E.trans ?_, fun k => (P k).1.2.trans ?_⟩
  · refine (mul_le_mul_of_nonneg_left lB (by positivity)).trans ?_
    norm_num
    linarith
  · refine (mul_le_mul (add_le_add_right (mul_le_mul_of_nonneg_left hκ4 (by positivity)) _) hκ4 hκ0
      (by positivity)).trans ?_
    norm_num

end Engabra
