import Verif.Lemmas.InverseMvF64

/-! # C56: inverses of `ComPlex` and `MultiVector` in binary64

With IEEE arithmetic and a complex library of stated accuracy: `inverse<ComPlex>` is accurate
relative to the exact reciprocal; the relative error of `inverse<MultiVector>` is the accuracy of
the library plus rounding times the condition number `κ = |M| |M⁻¹|`. -/

namespace Engabra

open F64 (Finite HasVal)

/-- **C56.** `inverse<ComPlex>(z)` is within `4 ε` of `1/z`, relative to the norm of `1/z`. -/
theorem C56_inverse_complex [LibM F64] (ε : ℝ) (h0 : 0 ≤ ε) (h1 : ε ≤ 1 / 100) (hl : LibcOk ε)
    (z : F64 × F64) (hz : Fin2 z) (hz1 : (2 : ℝ) ^ (-400 : ℤ) ≤ ‖cval z‖)
    (hz2 : ‖cval z‖ ≤ 2 ^ (400 : ℤ)) :
    ∃ w : F64 × F64, inverseCplx (ComPlex.from z) = ComPlex.from w ∧ Fin2 w ∧
      ‖cval w - (cval z)⁻¹‖ ≤ 4 * ε * ‖(cval z)⁻¹‖ :=
  inverseCplx_est h0 h1 hl z hz hz1 hz2

/-- The complex number of a `ComPlex` with rational parts. -/
noncomputable def cq (z : ComPlex ℚ) : ℂ := ⟨(z.theSca.theData.d0 : ℚ), (z.theTri.theData.d0 : ℚ)⟩

theorem len_cplx (z : ComPlex ℚ) : len (toMV z) = ‖cq z‖ := by
  unfold len
  rw [Complex.norm_eq_sqrt_sq_add_sq]
  congr 1
  rw [Fin.sum_univ_eight]
  simp only [cf_0, cf_1, cf_2, cf_3, cf_4, cf_5, cf_6, cf_7, engabra, cq]
  push_cast; ring

theorem cq_sub (z w : ComPlex ℚ) : cq (z - w) = cq z - cq w := by
  apply Complex.ext <;> simp [cq, engabra]

/-- `|q| ≤ A`, for the composition below. -/
def Bd (q A : ℚ) : Prop := |q| ≤ A

theorem Bd.add {q r A B : ℚ} (h : Bd q A) (k : Bd r B) : Bd (q + r) (A + B) :=
  (abs_add_le _ _).trans (add_le_add h k)
theorem Bd.sub {q r A B : ℚ} (h : Bd q A) (k : Bd r B) : Bd (q - r) (A + B) :=
  (abs_sub _ _).trans (add_le_add h k)
theorem Bd.neg {q A : ℚ} (h : Bd q A) : Bd (-q) A := by unfold Bd; rwa [abs_neg]
theorem Bd.mul {q r : ℚ} : Bd (q * r) (|q| * |r|) := (abs_mul _ _).le
theorem Bd.use {q A A' : ℚ} (h : Bd q A) (e : A = A') : |q| ≤ A' := e ▸ h

theorem cf_mul_le (x y : MultiVector ℚ) (k : Fin 8) : |cf (x * y) k| ≤ absMul (cf x) (cf y) k := by
  revert k
  apply forall_fin8
  all_goals
    simp only [cf_0, cf_1, cf_2, cf_3, cf_4, cf_5, cf_6, cf_7, engabra, absMul_0,
      absMul_1, absMul_2, absMul_3, absMul_4, absMul_5, absMul_6, absMul_7]
    refine Bd.use (by
      repeat' first
        | with_reducible apply Bd.add
        | with_reducible apply Bd.sub
        | with_reducible apply Bd.neg
        | with_reducible apply Bd.mul) ?_
    ring1

theorem len_dirverse (M : MultiVector ℚ) : len (dirverse M) = len M := by
  apply len_congr
  apply forall_fin8 <;>
    simp only [cf_0, cf_1, cf_2, cf_3, cf_4, cf_5, cf_6, cf_7, engabra, Rat.cast_neg, abs_neg]

/-- The inverse of the central number `A`. -/
def cinv (z : ComPlex ℚ) : ComPlex ℚ :=
  ⟨⟨⟨z.theSca.theData.d0 / (z.theSca.theData.d0 ^ 2 + z.theTri.theData.d0 ^ 2)⟩⟩,
   ⟨⟨-z.theTri.theData.d0 / (z.theSca.theData.d0 ^ 2 + z.theTri.theData.d0 ^ 2)⟩⟩⟩

theorem cq_cinv (z : ComPlex ℚ) : cq (cinv z) = (cq z)⁻¹ := by
  apply Complex.ext
  · rw [Complex.inv_re, Complex.normSq_apply]
    simp only [cq, cinv]; push_cast; ring
  · rw [Complex.inv_im, Complex.normSq_apply]
    simp only [cq, cinv]; push_cast; ring

/-- An inverse is the conjugate divided by the amplitude, and its length is that of `M` over the
norm of the amplitude. -/
theorem inverse_form (M B : MultiVector ℚ) (h : M * B = gone) :
    cq (ampSq M) ≠ 0 ∧ B = toMV (cinv (ampSq M)) * dirverse M
      ∧ len B = ‖cq (ampSq M)‖⁻¹ * len M := by
  obtain ⟨_, hz1, -, hb⟩ := C15_ampSq (α := ℚ) .mv (by decide) M
  obtain rfl := Option.some.inj hz1
  have hb : toMV (ampSq M) = dirverse M * M := hb
  have h1 : toMV (ampSq M) * B = dirverse M := by
    rw [hb, C01_mul_assoc, h, C01_mul_one]
  have hne : cq (ampSq M) ≠ 0 := by
    intro h0
    have hre : (((ampSq M).theSca.theData.d0 : ℚ) : ℝ) = 0 := congrArg Complex.re h0
    have him : (((ampSq M).theTri.theData.d0 : ℚ) : ℝ) = 0 := congrArg Complex.im h0
    have e0 : ampSq M = gzero := by
      ext
      · exact_mod_cast hre
      · exact_mod_cast him
    have e1 : dirverse M = gzero := by
      rw [← h1, e0, show toMV (gzero : ComPlex ℚ) = gzero from rfl, C01_zero_mul]
    have e2 : M = gzero := by
      have : dirverse (dirverse M) = dirverse gzero := by rw [e1]
      rw [show dirverse (dirverse M) = M by mv_ring] at this
      rw [this]; mv_ring
    rw [e2, C01_zero_mul] at h
    exact absurd (congrArg (fun x : MultiVector ℚ => cf x 0) h) (by decide)
  have hc : toMV (cinv (ampSq M)) * toMV (ampSq M) = gone := by
    have hn : (ampSq M).theSca.theData.d0 ^ 2 + (ampSq M).theTri.theData.d0 ^ 2 ≠ 0 := by
      intro h0
      apply hne
      have a1 : (ampSq M).theSca.theData.d0 = 0 := by nlinarith [sq_nonneg (ampSq M).theSca.theData.d0, sq_nonneg (ampSq M).theTri.theData.d0]
      have a2 : (ampSq M).theTri.theData.d0 = 0 := by nlinarith [sq_nonneg (ampSq M).theSca.theData.d0, sq_nonneg (ampSq M).theTri.theData.d0]
      unfold cq; rw [a1, a2]; simp; rfl
    generalize ampSq M = z at hn
    generalize hd : z.theSca.theData.d0 ^ 2 + z.theTri.theData.d0 ^ 2 = d at hn
    ext <;> simp only [engabra, cinv, hd] <;> field_simp <;> rw [← hd] <;> ring
  have h2 : B = toMV (cinv (ampSq M)) * dirverse M := by
    rw [← h1, ← C01_mul_assoc, hc, C01_one_mul]
  refine ⟨hne, h2, ?_⟩
  rw [h2, show toMV (cinv (ampSq M)) = promote .cplx (cinv (ampSq M)) from rfl,
    len_mul_left .cplx _ (by decide), len_dirverse, promote, len_cplx, cq_cinv, norm_inv]

theorem cond_ge_one (M B : MultiVector ℚ) (h : M * B = gone) : 1 ≤ len M * len B := by
  have h1 := cf_mul_le M B 0
  rw [h, show cf (gone : MultiVector ℚ) 0 = 1 from rfl, abs_one] at h1
  have h2 := absMul_le M B 0
  have h3 : (1 : ℝ) ≤ ((absMul (cf M) (cf B) 0 : ℚ) : ℝ) := by exact_mod_cast h1
  linarith

theorem cval_eq (w : F64 × F64) : cq (valTy .cplx (ComPlex.from w) : ComPlex ℚ) = cval w := rfl

/-- The amplitude, in terms of the length of `M`. -/
theorem ampSq_norm (M : MultiVector F64) (hf : FiniteTy .mv M)
    (h1 : (2 : ℝ) ^ (-100 : ℤ) ≤ len (exactObj ⟨.mv, M⟩)) (h2 : len (exactObj ⟨.mv, M⟩) ≤ 2 ^ (100 : ℤ)) :
    Fin2 (ComPlex.toStd (ampSq M)) ∧
    ‖cval (ComPlex.toStd (ampSq M)) - cq (ampSq (exactObj ⟨.mv, M⟩))‖
      ≤ 19 * 2 ^ (-53 : ℤ) * len (exactObj ⟨.mv, M⟩) ^ 2 := by
  have hN := magSq_len (exactObj ⟨.mv, M⟩)
  have hE : exactObj ⟨.mv, M⟩ = (valTy .mv M : MultiVector ℚ) := rfl
  rw [hE] at h1 h2 hN ⊢
  generalize hN0 : len (valTy .mv M : MultiVector ℚ) = N at *
  have hNp : 0 < N := lt_of_lt_of_le (F64.two_zpow_pos _) h1
  have hs : magSq (valTy .mv M : MultiVector ℚ) ≤ F64.safe := by
    have e1 : N ^ 2 ≤ ((2 : ℝ) ^ (100 : ℤ)) ^ 2 := pow_le_pow_left₀ hNp.le h2 2
    have e2 : ((2 : ℝ) ^ (100 : ℤ)) ^ 2 ≤ ((F64.safe : ℚ) : ℝ) := by
      unfold F64.safe
      rw [Rat.cast_pow, Rat.cast_ofNat, pow_two, ← pow_split, ← zpow_natCast]
      exact zpow_le_zpow_right₀ one_le_two (by norm_num)
    have e3 : ((magSq (valTy .mv M : MultiVector ℚ) : ℚ) : ℝ) ≤ ((F64.safe : ℚ) : ℝ) := by
      rw [hN]; linarith only [e1, e2]
    exact_mod_cast e3
  have hA := ampAbs_le (valTy .mv M : MultiVector ℚ)
  have hA0 : 0 ≤ ampAbs (valTy .mv M : MultiVector ℚ) := by unfold ampAbs; positivity
  obtain ⟨f1, b1⟩ := ampSq_sca_fits M hf hs
  obtain ⟨f2, b2⟩ := ampSq_tri_fits M hf (hA.trans hs)
  have b1' := b1.trans (u8_le (hA0.trans hA))
  have b2' := (b2.trans (u8_le hA0)).trans
    (add_le_add (mul_le_mul_of_nonneg_left hA (by positivity)) le_rfl)
  have cast : ∀ x : ℚ, |x| ≤ 9 * 2 ^ (-53 : ℤ) * magSq (valTy .mv M : MultiVector ℚ) + 2 ^ (-1059 : ℤ) →
      |(x : ℝ)| ≤ 19 / 2 * 2 ^ (-53 : ℤ) * N ^ 2 := fun x hx => by
    have e := (Rat.cast_le (K := ℝ)).2 hx
    rw [Rat.cast_abs, Rat.cast_add, Rat.cast_mul, Rat.cast_mul, cast_zpow, cast_zpow,
      Rat.cast_ofNat, hN] at e
    have e1 : ((2 : ℝ) ^ (-100 : ℤ)) ^ 2 ≤ N ^ 2 := pow_le_pow_left₀ (F64.two_zpow_pos _).le h1 2
    have e2 : (2 : ℝ) ^ (-1059 : ℤ) ≤ 1 / 2 * (2 ^ (-53 : ℤ) * (2 ^ (-100 : ℤ)) ^ 2) := by
      rw [pow_two, ← pow_split, ← pow_split, show (1 / 2 : ℝ) = 2 ^ (-1 : ℤ) by norm_num, ← pow_split]
      exact zpow_le_zpow_right₀ one_le_two (by norm_num)
    have e3 := mul_le_mul_of_nonneg_left e1 (F64.two_zpow_pos (K := ℝ) (-53)).le
    generalize (2 : ℝ) ^ (-1059 : ℤ) = t at *
    generalize (2 : ℝ) ^ (-53 : ℤ) = u at *
    generalize (2 : ℝ) ^ (-100 : ℤ) = l at *
    linarith only [e, e2, e3]
  refine ⟨⟨f1, f2⟩, ?_⟩
  refine (Complex.norm_le_abs_re_add_abs_im _).trans ?_
  have c1 := cast _ b1'
  have c2 := cast _ b2'
  have d1 : (cval (ComPlex.toStd (ampSq M)) - cq (ampSq (valTy .mv M : MultiVector ℚ))).re
      = (((ampSq M).theSca.theData.d0.value - (ampSq (valTy .mv M : MultiVector ℚ)).theSca.theData.d0 : ℚ) : ℝ) := by
    rw [Rat.cast_sub]; rfl
  have d2 : (cval (ComPlex.toStd (ampSq M)) - cq (ampSq (valTy .mv M : MultiVector ℚ))).im
      = (((ampSq M).theTri.theData.d0.value - (ampSq (valTy .mv M : MultiVector ℚ)).theTri.theData.d0 : ℚ) : ℝ) := by
    rw [Rat.cast_sub]; rfl
  rw [d1, d2]
  clear cast
  generalize (2 : ℝ) ^ (-53 : ℤ) = u at *
  linarith only [c1, c2]

/-- Reciprocal of a perturbed number. -/
theorem perturbed {a A w : ℂ} {ε δ : ℝ} (hA : A ≠ 0) (hε : 0 ≤ ε) (hδ0 : 0 ≤ δ) (hδ : δ ≤ 19 / 256)
    (h : ‖a - A‖ ≤ δ * ‖A‖) (hw : ‖w - a⁻¹‖ ≤ 4 * ε * ‖a⁻¹‖) :
    ‖w - A⁻¹‖ ≤ (5 * ε + 21 / 19 * δ) * ‖A‖⁻¹ := by
  have hAp : 0 < ‖A‖ := norm_pos_iff.2 hA
  obtain ⟨h1, -⟩ := norm_bounds h
  have hap : 0 < ‖a‖ := lt_of_lt_of_le (mul_pos (by linarith) hAp) h1
  have ha : a ≠ 0 := norm_pos_iff.1 hap
  have e : w - A⁻¹ = (w - a⁻¹) + (A - a) * (a⁻¹ * A⁻¹) := by field_simp; ring
  have n1 : ‖(A - a) * (a⁻¹ * A⁻¹)‖ ≤ δ * ‖a‖⁻¹ := by
    rw [norm_mul, norm_mul, norm_inv, norm_inv, norm_sub_rev]
    calc ‖a - A‖ * (‖a‖⁻¹ * ‖A‖⁻¹) ≤ δ * ‖A‖ * (‖a‖⁻¹ * ‖A‖⁻¹) :=
          mul_le_mul_of_nonneg_right h (by positivity)
      _ = δ * ‖a‖⁻¹ := by field_simp
  have n2 : ‖a‖⁻¹ ≤ 256 / 237 * ‖A‖⁻¹ := by
    have : 237 / 256 * ‖A‖ ≤ ‖a‖ := by nlinarith
    calc ‖a‖⁻¹ ≤ (237 / 256 * ‖A‖)⁻¹ := inv_anti₀ (by positivity) this
      _ = 256 / 237 * ‖A‖⁻¹ := by rw [mul_inv]; norm_num
  rw [norm_inv] at hw
  rw [e]
  refine (norm_add_le _ _).trans ((add_le_add hw n1).trans ?_)
  have n3 : 0 < ‖A‖⁻¹ := by positivity
  have n4 := mul_le_mul_of_nonneg_left n2 (by positivity : 0 ≤ 4 * ε + δ)
  have n5 := mul_nonneg hε n3.le
  have n6 := mul_nonneg hδ0 n3.le
  nlinarith

/-- **C56.** `inverse<MultiVector>(M)`: the error relative to the length of the exact inverse `B`
is at most the error of the complex library plus rounding times the condition number
`|M| |B|`. -/
theorem C56_inverse_mv [LibM F64] (ε : ℝ) (h0 : 0 ≤ ε) (h1 : ε ≤ 1 / 100) (hl : LibcOk ε)
    (M : MultiVector F64) (hf : FiniteTy .mv M) (B : MultiVector ℚ)
    (hB : exactObj ⟨.mv, M⟩ * B = gone)
    (hN1 : (2 : ℝ) ^ (-100 : ℤ) ≤ len (exactObj ⟨.mv, M⟩))
    (hN2 : len (exactObj ⟨.mv, M⟩) ≤ 2 ^ (100 : ℤ))
    (hκ : len (exactObj ⟨.mv, M⟩) * len B ≤ 2 ^ (45 : ℤ)) :
    FiniteTy .mv (inverseMv M) ∧
    len (exactObj ⟨.mv, inverseMv M⟩ - B)
      ≤ (5 * ε + 53 * 2 ^ (-53 : ℤ) * (len (exactObj ⟨.mv, M⟩) * len B)) * len B := by
  obtain ⟨fa, ha⟩ := ampSq_norm M hf hN1 hN2
  obtain ⟨hA, hBf, hBl⟩ := inverse_form _ _ hB
  have hκ1 := cond_ge_one _ _ hB
  have hE : exactObj ⟨.mv, M⟩ = (valTy .mv M : MultiVector ℚ) := rfl
  rw [hE] at ha hA hBf hBl hκ1 hN1 hN2 hκ ⊢
  generalize hA0 : cq (ampSq (valTy .mv M : MultiVector ℚ)) = A at *
  generalize hN0 : len (valTy .mv M : MultiVector ℚ) = N at *
  have hNp : 0 < N := lt_of_lt_of_le (F64.two_zpow_pos _) hN1
  have hAp : 0 < ‖A‖ := norm_pos_iff.2 hA
  obtain ⟨κ, hκd⟩ : ∃ κ, κ = N * len B := ⟨_, rfl⟩
  rw [← hκd] at hκ hκ1 ⊢
  have hNA : N ^ 2 = κ * ‖A‖ := by rw [hκd, hBl]; field_simp
  have hu : (0 : ℝ) < 2 ^ (-53 : ℤ) := F64.two_zpow_pos _
  have hδ : 19 * (2 : ℝ) ^ (-53 : ℤ) * κ ≤ 19 / 256 := by
    have e := mul_le_mul_of_nonneg_left hκ hu.le
    rw [← pow_split, show (-53 + 45 : ℤ) = -8 by norm_num] at e
    have : (2 : ℝ) ^ (-8 : ℤ) = 1 / 256 := by norm_num
    rw [this] at e
    linarith only [e]
  have ha' : ‖cval (ComPlex.toStd (ampSq M)) - A‖ ≤ (19 * 2 ^ (-53 : ℤ) * κ) * ‖A‖ := by
    rw [hNA] at ha; linarith only [ha]
  have hδ0 : 0 ≤ 19 * (2 : ℝ) ^ (-53 : ℤ) * κ := by
    have : 0 ≤ κ := by linarith only [hκ1]
    positivity
  obtain ⟨g1, g2⟩ := norm_bounds ha'
  -- the amplitude is in the range of the complex library
  have r1 : (2 : ℝ) ^ (-400 : ℤ) ≤ ‖cval (ComPlex.toStd (ampSq M))‖ := by
    have e1 : ((2 : ℝ) ^ (-100 : ℤ)) ^ 2 ≤ N ^ 2 := pow_le_pow_left₀ (F64.two_zpow_pos _).le hN1 2
    have e2 : N ^ 2 ≤ 2 ^ (45 : ℤ) * ‖A‖ := by
      rw [hNA]; exact mul_le_mul_of_nonneg_right hκ hAp.le
    have e3 : (2 : ℝ) ^ (-400 : ℤ) * (2 * 2 ^ (45 : ℤ)) ≤ (2 ^ (-100 : ℤ)) ^ 2 := by
      rw [pow_two, ← pow_split, show (2 : ℝ) * 2 ^ (45 : ℤ) = 2 ^ (46 : ℤ) by norm_num, ← pow_split]
      exact zpow_le_zpow_right₀ one_le_two (by norm_num)
    have e4 : (2 : ℝ) ^ (-400 : ℤ) * 2 ≤ ‖A‖ := by
      have p : (0 : ℝ) < 2 ^ (45 : ℤ) := F64.two_zpow_pos _
      refine le_of_mul_le_mul_left ?_ p
      generalize (2 : ℝ) ^ (-400 : ℤ) = x at *
      generalize (2 : ℝ) ^ (-100 : ℤ) = y at *
      generalize (2 : ℝ) ^ (45 : ℤ) = v at *
      linarith only [e1, e2, e3]
    have e5 := mul_le_mul_of_nonneg_right hδ hAp.le
    generalize (2 : ℝ) ^ (-400 : ℤ) = x at *
    generalize (2 : ℝ) ^ (-53 : ℤ) = u at *
    linarith only [g1, e4, e5, hAp]
  have r2 : ‖cval (ComPlex.toStd (ampSq M))‖ ≤ 2 ^ (400 : ℤ) := by
    have e1 : N ^ 2 ≤ ((2 : ℝ) ^ (100 : ℤ)) ^ 2 := pow_le_pow_left₀ hNp.le hN2 2
    have e2 : ‖A‖ ≤ N ^ 2 := by
      rw [hNA]
      have := mul_le_mul_of_nonneg_right hκ1 hAp.le
      linarith only [this]
    have e3 : 2 * ((2 : ℝ) ^ (100 : ℤ)) ^ 2 ≤ 2 ^ (400 : ℤ) := by
      rw [pow_two, ← pow_split]
      nth_rewrite 1 [show (2 : ℝ) = 2 ^ (1 : ℤ) by norm_num]
      rw [← pow_split]
      exact zpow_le_zpow_right₀ one_le_two (by norm_num)
    have e5 := mul_le_mul_of_nonneg_right hδ hAp.le
    generalize (2 : ℝ) ^ (400 : ℤ) = x at *
    generalize (2 : ℝ) ^ (100 : ℤ) = y at *
    generalize (2 : ℝ) ^ (-53 : ℤ) = u at *
    linarith only [g2, e1, e2, e3, e5, hAp]
  obtain ⟨w, hw, fw, bw⟩ := inverseCplx_est h0 h1 hl _ fa r1 r2
  have hR : inverseMv M = (ComPlex.from w).theSca * dirverse M + (ComPlex.from w).theTri * dirverse M := by
    unfold inverseMv
    simp only
    rw [← hw]
    rfl
  have hp := perturbed hA h0 hδ0 hδ ha' bw
  -- lengths
  have hWA : len (toMV (valTy .cplx (ComPlex.from w) : ComPlex ℚ)
      - toMV (cinv (ampSq (valTy .mv M : MultiVector ℚ)))) = ‖cval w - A⁻¹‖ := by
    rw [show toMV (valTy .cplx (ComPlex.from w) : ComPlex ℚ)
      - toMV (cinv (ampSq (valTy .mv M : MultiVector ℚ)))
      = toMV ((valTy .cplx (ComPlex.from w) : ComPlex ℚ) - cinv (ampSq (valTy .mv M : MultiVector ℚ)))
      by mv_ring, len_cplx, cq_sub, cval_eq, cq_cinv, hA0]
  have hAi : 0 < ‖A‖⁻¹ := by positivity
  have hW : len (toMV (valTy .cplx (ComPlex.from w) : ComPlex ℚ)) ≤ 114 / 100 * ‖A‖⁻¹ := by
    rw [len_cplx, cval_eq]
    have := norm_sub_norm_le (cval w) A⁻¹
    rw [norm_inv] at this
    have e1 : 5 * ε + 21 / 19 * (19 * 2 ^ (-53 : ℤ) * κ) ≤ 14 / 100 := by linarith only [h1, hδ]
    have e2 := mul_le_mul_of_nonneg_right e1 hAi.le
    linarith only [this, hp, e2]
  have hWN : len (toMV (valTy .cplx (ComPlex.from w) : ComPlex ℚ)) * len (dirverse (valTy .mv M : MultiVector ℚ))
      ≤ 114 / 100 * len B := by
    rw [len_dirverse, hN0, hBl]
    have := mul_le_mul_of_nonneg_right hW hNp.le
    linarith only [this]
  have hBp : 0 < len B := by rw [hBl]; positivity
  have hBu : len B ≤ 2 ^ (145 : ℤ) := by
    have e : len B * 2 ^ (-100 : ℤ) ≤ 2 ^ (45 : ℤ) := by
      have := mul_le_mul_of_nonneg_left hN1 hBp.le
      linarith only [this, hκ, hκd]
    have e' : (2 : ℝ) ^ (145 : ℤ) * 2 ^ (-100 : ℤ) = 2 ^ (45 : ℤ) := by rw [← pow_split]; norm_num only
    exact le_of_mul_le_mul_right (by rw [e']; exact e) (F64.two_zpow_pos (K := ℝ) (-100))
  have hBl' : (2 : ℝ) ^ (-100 : ℤ) ≤ len B := by
    have e : (1 : ℝ) ≤ 2 ^ (100 : ℤ) * len B := by
      have := mul_le_mul_of_nonneg_right hN2 hBp.le
      linarith only [this, hκ1, hκd]
    have e' : (2 : ℝ) ^ (100 : ℤ) * 2 ^ (-100 : ℤ) = 1 := by rw [← pow_split]; norm_num
    exact le_of_mul_le_mul_left (by rw [e']; exact e) (F64.two_zpow_pos (K := ℝ) 100)
  have hk : ∀ k, absMul (cf (toMV (valTy .cplx (ComPlex.from w) : ComPlex ℚ)))
      (cf (dirverse (valTy .mv M : MultiVector ℚ))) k ≤ F64.safe := fun k => by
    have e := (absMul_le _ _ k).trans hWN
    have e2 : (114 / 100 : ℝ) * 2 ^ (145 : ℤ) ≤ ((F64.safe : ℚ) : ℝ) := by
      unfold F64.safe
      rw [Rat.cast_pow, Rat.cast_ofNat, ← zpow_natCast]
      calc (114 / 100 : ℝ) * 2 ^ (145 : ℤ) ≤ 2 ^ (1 : ℤ) * 2 ^ (145 : ℤ) :=
            mul_le_mul_of_nonneg_right (by norm_num) (F64.two_zpow_pos _).le
        _ = 2 ^ (146 : ℤ) := by rw [← pow_split]; norm_num only
        _ ≤ _ := zpow_le_zpow_right₀ one_le_two (by norm_num)
    have e3 : ((absMul (cf (toMV (valTy .cplx (ComPlex.from w) : ComPlex ℚ)))
      (cf (dirverse (valTy .mv M : MultiVector ℚ))) k : ℚ) : ℝ) ≤ ((F64.safe : ℚ) : ℝ) := by
      generalize (2 : ℝ) ^ (145 : ℤ) = x at *
      linarith only [e, e2, hBu]
    exact_mod_cast e3
  have hfin := fun k => central_fits w M fw hf k (hk k)
  rw [hR]
  refine ⟨fun k => (hfin k).1, ?_⟩
  have split : exactObj ⟨.mv, (ComPlex.from w).theSca * dirverse M + (ComPlex.from w).theTri * dirverse M⟩ - B
      = (exactObj ⟨.mv, (ComPlex.from w).theSca * dirverse M + (ComPlex.from w).theTri * dirverse M⟩
          - toMV (valTy .cplx (ComPlex.from w) : ComPlex ℚ) * dirverse (valTy .mv M : MultiVector ℚ))
        + (toMV (valTy .cplx (ComPlex.from w) : ComPlex ℚ)
          - toMV (cinv (ampSq (valTy .mv M : MultiVector ℚ)))) * dirverse (valTy .mv M : MultiVector ℚ) := by
    rw [hBf]; mv_ring
  rw [split]
  refine (len_add_le _ _).trans ?_
  have t1 : len ((toMV (valTy .cplx (ComPlex.from w) : ComPlex ℚ)
          - toMV (cinv (ampSq (valTy .mv M : MultiVector ℚ)))) * dirverse (valTy .mv M : MultiVector ℚ))
      ≤ (5 * ε + 21 * 2 ^ (-53 : ℤ) * κ) * len B := by
    rw [show toMV (valTy .cplx (ComPlex.from w) : ComPlex ℚ)
      - toMV (cinv (ampSq (valTy .mv M : MultiVector ℚ)))
      = promote .cplx ((valTy .cplx (ComPlex.from w) : ComPlex ℚ) - cinv (ampSq (valTy .mv M : MultiVector ℚ)))
      by rw [promote]; mv_ring, len_mul_left .cplx _ (by decide), len_dirverse, promote, hN0]
    rw [show toMV ((valTy .cplx (ComPlex.from w) : ComPlex ℚ) - cinv (ampSq (valTy .mv M : MultiVector ℚ)))
      = toMV (valTy .cplx (ComPlex.from w) : ComPlex ℚ)
      - toMV (cinv (ampSq (valTy .mv M : MultiVector ℚ))) by mv_ring, hWA, hBl]
    have := mul_le_mul_of_nonneg_right hp hNp.le
    linarith only [this]
  have t2 : len (exactObj ⟨.mv, (ComPlex.from w).theSca * dirverse M + (ComPlex.from w).theTri * dirverse M⟩
          - toMV (valTy .cplx (ComPlex.from w) : ComPlex ℚ) * dirverse (valTy .mv M : MultiVector ℚ))
      ≤ 3 * (9 * 2 ^ (-53 : ℤ) * (114 / 100 * len B) + 2 ^ (-1059 : ℤ)) := by
    refine len_le _ (by positivity) fun k => ?_
    have b := (hfin k).2.trans (u8_le (absMul_nonneg _ _ k))
    have b' := (Rat.cast_le (K := ℝ)).2 b
    rw [Rat.cast_abs, Rat.cast_add, Rat.cast_mul, Rat.cast_mul, cast_zpow, cast_zpow,
      Rat.cast_ofNat] at b'
    rw [cf_sub, show cf (exactObj ⟨.mv, (ComPlex.from w).theSca * dirverse M
      + (ComPlex.from w).theTri * dirverse M⟩) k
      = (cf ((ComPlex.from w).theSca * dirverse M + (ComPlex.from w).theTri * dirverse M) k).value
      from cf_val .mv _ k]
    refine b'.trans (add_le_add (mul_le_mul_of_nonneg_left ((absMul_le _ _ k).trans hWN) (by positivity)) le_rfl)
  have t3 : 3 * (2 : ℝ) ^ (-1059 : ℤ) ≤ 2 ^ (-53 : ℤ) * 2 ^ (-100 : ℤ) := by
    calc 3 * (2 : ℝ) ^ (-1059 : ℤ) ≤ 2 ^ (2 : ℤ) * 2 ^ (-1059 : ℤ) :=
          mul_le_mul_of_nonneg_right (by norm_num) (F64.two_zpow_pos _).le
      _ = 2 ^ (-1057 : ℤ) := by rw [← pow_split]; norm_num only
      _ ≤ 2 ^ (-153 : ℤ) := zpow_le_zpow_right₀ one_le_two (by norm_num)
      _ = 2 ^ (-53 : ℤ) * 2 ^ (-100 : ℤ) := by rw [← pow_split]; norm_num only
  have t4 := mul_le_mul_of_nonneg_left hBl' hu.le
  have t5 : (2 : ℝ) ^ (-53 : ℤ) * len B ≤ 2 ^ (-53 : ℤ) * κ * len B := by
    have := mul_le_mul_of_nonneg_left hκ1 (mul_pos hu hBp).le
    linarith only [this]
  clear hδ hδ0 ha ha' g1 g2 hp
  generalize (2 : ℝ) ^ (-1059 : ℤ) = x at *
  generalize (2 : ℝ) ^ (-53 : ℤ) = u at *
  generalize (2 : ℝ) ^ (-100 : ℤ) = y at *
  have hux : 0 ≤ u * len B := by positivity
  nlinarith only [t1, t2, t3, t4, t5, hux]

end Engabra
