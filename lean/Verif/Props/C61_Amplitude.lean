import Mathlib.Analysis.Complex.Polynomial.Basic
import Verif.Lemmas.AmpF64
import Verif.Props.C56_InverseProduct

/-! # C61 (`amplitude` in binary64)

`amplitude(x)` squares to `x * dirverse(x)` up to a few rounding errors of `len(x)^2`, at every type.
It is near one of the two square roots, with an error governed by the cancellation in
`x * dirverse(x)`, and near the principal one unless `x * dirverse(x)` lies within rounding of the
branch cut.  On the cut the root that is returned depends on the sign of a rounding error or of a
zero, and with it on the type the element is stored in. -/

namespace Engabra

open F64 (Finite HasVal)

/-- Specification: `std::sqrt(std::complex<double>)` is accurate to `ε` relative to the norm of a
square root with non-negative real part.  On the real axis with `+0.` as imaginary part it is
`std::sqrt`, and the root of the conjugate is the conjugate of the root (ISO C, Annex G.6.4.2). -/
structure LibcSqrtOk [LibM F64] (ε : ℝ) : Prop where
  root : ∀ z, Fin2 z → ‖cval z‖ ≤ 2 ^ (1000 : ℤ) → Fin2 (LibM.csqrt z) ∧
    ∃ r : ℂ, r * r = cval z ∧ 0 ≤ r.re ∧ ‖cval (LibM.csqrt z) - r‖ ≤ ε * ‖r‖
  real : ∀ m : F64, F64.NN m → LibM.csqrt (m, (0 : F64)) = (Dbl.sqrt m, 0) ∧
    LibM.csqrt (-m, (0 : F64)) = (0, Dbl.sqrt m)
  conj : ∀ a b : F64, a.Finite → b.Finite →
    LibM.csqrt (a, -b) = ((LibM.csqrt (a, b)).1, -(LibM.csqrt (a, b)).2)

/-- `amplitude` selected by type (there is no `ampSq` for `double`). -/
def amplitudeTy {α : Type} [Dbl α] [LibM α] : (t : Ty) → t.D α → Option (ComPlex α)
  | .dub, _ => none
  | .sca, x => some (amplitude x)
  | .vec, x => some (amplitude x)
  | .biv, x => some (amplitude x)
  | .tri, x => some (amplitude x)
  | .spin, x => some (amplitude x)
  | .imsp, x => some (amplitude x)
  | .cplx, x => some (amplitude x)
  | .dplx, x => some (amplitude x)
  | .mv, x => some (amplitude x)

theorem amplitudeTy_eq {α : Type} [Dbl α] [LibM α] (t : Ty) (x : t.D α) :
    amplitudeTy t x = (ampSqTy t x).map fun z => ComPlex.from (LibM.csqrt (ComPlex.toStd z)) := by
  cases t <;> rfl

/-! ## Estimates -/

theorem exact_magSq (t : Ty) (x : t.D F64) :
    ((magSqTy t (valTy t x : t.D ℚ) : ℚ) : ℝ) = len (exactObj ⟨t, x⟩) ^ 2 := by
  rw [len_sq]
  have : magSqTy t (valTy t x : t.D ℚ) = ∑ k : Fin 8, cf (exactObj ⟨t, x⟩) k ^ 2 := by
    unfold exactObj
    rw [Fin.sum_univ_eight]
    cases t <;> simp only [cf_0, cf_1, cf_2, cf_3, cf_4, cf_5, cf_6, cf_7, engabra, valTy, mapTy] <;> ring
  rw [this]; push_cast; rfl

theorem ampSq_len (t : Ty) (x : t.D F64) (hf : FiniteTy t x)
    (h1 : (2 : ℝ) ^ (-500 : ℤ) ≤ len (exactObj ⟨t, x⟩)) (h2 : len (exactObj ⟨t, x⟩) ≤ 2 ^ (499 : ℤ))
    {z : ComPlex F64} (hz : ampSqTy t x = some z) {q : ComPlex ℚ}
    (hq : ampSqTy t (valTy t x : t.D ℚ) = some q) :
    Fin2 (ComPlex.toStd z) ∧
      ‖cval (ComPlex.toStd z) - cq q‖ ≤ 19 * 2 ^ (-53 : ℤ) * len (exactObj ⟨t, x⟩) ^ 2 := by
  have hN := exact_magSq t x
  generalize len (exactObj ⟨t, x⟩) = N at *
  have hNp : 0 < N := lt_of_lt_of_le (F64.two_zpow_pos _) h1
  have hs : magSqTy t (valTy t x : t.D ℚ) ≤ F64.safe := by
    have e1 : N ^ 2 ≤ ((2 : ℝ) ^ (499 : ℤ)) ^ 2 := pow_le_pow_left₀ hNp.le h2 2
    have e2 : ((2 : ℝ) ^ (499 : ℤ)) ^ 2 ≤ ((F64.safe : ℚ) : ℝ) := by
      unfold F64.safe
      rw [Rat.cast_pow, Rat.cast_ofNat, pow_two, ← pow_split, ← zpow_natCast]
      exact zpow_le_zpow_right₀ one_le_two (by norm_num)
    have e3 : ((magSqTy t (valTy t x : t.D ℚ) : ℚ) : ℝ) ≤ ((F64.safe : ℚ) : ℝ) := by
      rw [hN]; linarith only [e1, e2]
    exact_mod_cast e3
  have h0 : 0 ≤ magSqTy t (valTy t x : t.D ℚ) := by
    have : (0 : ℝ) ≤ ((magSqTy t (valTy t x : t.D ℚ) : ℚ) : ℝ) := by rw [hN]; positivity
    exact_mod_cast this
  obtain ⟨⟨f1, b1⟩, ⟨f2, b2⟩⟩ := ampNear t x hf hs z hz q hq
  have b1' := b1.trans (u8_le h0)
  have b2' := b2.trans (u8_le h0)
  have cast : ∀ y : ℚ, |y| ≤ 9 * 2 ^ (-53 : ℤ) * magSqTy t (valTy t x : t.D ℚ) + 2 ^ (-1059 : ℤ) →
      |(y : ℝ)| ≤ 19 / 2 * 2 ^ (-53 : ℤ) * N ^ 2 := fun y hy => by
    have e := (Rat.cast_le (K := ℝ)).2 hy
    rw [Rat.cast_abs, Rat.cast_add, Rat.cast_mul, Rat.cast_mul, cast_zpow, cast_zpow,
      Rat.cast_ofNat, hN] at e
    have e1 : ((2 : ℝ) ^ (-500 : ℤ)) ^ 2 ≤ N ^ 2 := pow_le_pow_left₀ (F64.two_zpow_pos _).le h1 2
    have e2 : (2 : ℝ) ^ (-1059 : ℤ) ≤ 1 / 2 * (2 ^ (-53 : ℤ) * (2 ^ (-500 : ℤ)) ^ 2) := by
      rw [pow_two, ← pow_split, ← pow_split, show (1 / 2 : ℝ) = 2 ^ (-1 : ℤ) by norm_num, ← pow_split]
      exact zpow_le_zpow_right₀ one_le_two (by norm_num)
    have e3 := mul_le_mul_of_nonneg_left e1 (F64.two_zpow_pos (K := ℝ) (-53)).le
    generalize (2 : ℝ) ^ (-1059 : ℤ) = t at *
    generalize (2 : ℝ) ^ (-53 : ℤ) = u at *
    generalize (2 : ℝ) ^ (-500 : ℤ) = l at *
    linarith only [e, e2, e3]
  refine ⟨⟨f1, f2⟩, (Complex.norm_le_abs_re_add_abs_im _).trans ?_⟩
  have c1 := cast _ b1'
  have c2 := cast _ b2'
  have d1 : (cval (ComPlex.toStd z) - cq q).re
      = ((z.theSca.theData.d0.value - q.theSca.theData.d0 : ℚ) : ℝ) := by rw [Rat.cast_sub]; rfl
  have d2 : (cval (ComPlex.toStd z) - cq q).im
      = ((z.theTri.theData.d0.value - q.theTri.theData.d0 : ℚ) : ℝ) := by rw [Rat.cast_sub]; rfl
  rw [d1, d2]
  clear cast
  generalize (2 : ℝ) ^ (-53 : ℤ) = u at *
  linarith only [c1, c2]

theorem cq_mul (z w : ComPlex ℚ) : cq (z * w) = cq z * cq w := by
  apply Complex.ext <;> simp [cq, engabra]
theorem toMV_mul_cplx (z w : ComPlex ℚ) : toMV (z * w) = toMV z * toMV w := by
  mv_ring
theorem toMV_inj_cplx {z w : ComPlex ℚ} (h : toMV z = toMV w) : z = w := by
  have h0 := congrArg (fun m => cf m 0) h
  have h7 := congrArg (fun m => cf m 7) h
  simp only [cf_0, cf_7, engabra] at h0 h7
  obtain ⟨⟨⟨a⟩⟩, ⟨⟨b⟩⟩⟩ := z
  obtain ⟨⟨⟨c⟩⟩, ⟨⟨d⟩⟩⟩ := w
  simp only at h0 h7
  rw [h0, h7]

/-- `x * dirverse(x)` is no longer than `len(x)^2`. -/
theorem dirverse_norm (X : MultiVector ℚ) {q : ComPlex ℚ} (h : toMV q = X * dirverse X) :
    ‖cq q‖ ≤ len X ^ 2 := by
  have h0 := congrArg (fun m => cf m 0) h
  have h7 := congrArg (fun m => cf m 7) h
  have e0 : q.theSca.theData.d0 = cf X 0 ^ 2 - cf X 7 ^ 2 - (cf X 1 ^ 2 - cf X 4 ^ 2)
      - (cf X 2 ^ 2 - cf X 5 ^ 2) - (cf X 3 ^ 2 - cf X 6 ^ 2) := by
    simp only [cf_0, cf_1, cf_2, cf_3, cf_4, cf_5, cf_6, cf_7, engabra] at h0 ⊢
    rw [h0]; ring
  have e7 : q.theTri.theData.d0 = 2 * (cf X 0 * cf X 7) - 2 * (cf X 1 * cf X 4)
      - 2 * (cf X 2 * cf X 5) - 2 * (cf X 3 * cf X 6) := by
    simp only [cf_0, cf_1, cf_2, cf_3, cf_4, cf_5, cf_6, cf_7, engabra] at h7 ⊢
    rw [h7]; ring
  have key : cq q = (⟨((cf X 0 : ℚ) : ℝ), ((cf X 7 : ℚ) : ℝ)⟩ : ℂ) ^ 2 - (⟨((cf X 1 : ℚ) : ℝ), ((cf X 4 : ℚ) : ℝ)⟩ : ℂ) ^ 2
      - (⟨((cf X 2 : ℚ) : ℝ), ((cf X 5 : ℚ) : ℝ)⟩ : ℂ) ^ 2 - (⟨((cf X 3 : ℚ) : ℝ), ((cf X 6 : ℚ) : ℝ)⟩ : ℂ) ^ 2 := by
    apply Complex.ext
    · simp only [cq, e0, Complex.sub_re, pow_two, Complex.mul_re]; push_cast; ring
    · simp only [cq, e7, Complex.sub_im, pow_two, Complex.mul_im]; push_cast; ring
  have n : ∀ a b : ℝ, ‖(⟨a, b⟩ : ℂ) ^ 2‖ = a ^ 2 + b ^ 2 := fun a b => by
    rw [norm_pow, Complex.sq_norm, Complex.normSq_mk]; ring
  rw [key, len_sq, Fin.sum_univ_eight]
  refine (norm_sub_le _ _).trans ?_
  rw [n]
  have := (norm_sub_le _ _).trans (add_le_add_left (norm_sub_le
    ((⟨((cf X 0 : ℚ) : ℝ), ((cf X 7 : ℚ) : ℝ)⟩ : ℂ) ^ 2) ((⟨((cf X 1 : ℚ) : ℝ), ((cf X 4 : ℚ) : ℝ)⟩ : ℂ) ^ 2)) ‖(⟨((cf X 2 : ℚ) : ℝ), ((cf X 5 : ℚ) : ℝ)⟩ : ℂ) ^ 2‖)
  rw [n, n, n] at this
  linarith

/-- What the estimates give about the computed amplitude. -/
theorem amplitude_parts [LibM F64] {ε : ℝ} (hl : LibcSqrtOk ε) (t : Ty) (ht : t ≠ .dub) (x : t.D F64)
    (hf : FiniteTy t x)
    (h1 : (2 : ℝ) ^ (-500 : ℤ) ≤ len (exactObj ⟨t, x⟩)) (h2 : len (exactObj ⟨t, x⟩) ≤ 2 ^ (499 : ℤ)) :
    ∃ a : ComPlex F64, amplitudeTy t x = some a ∧ Fin2 (ComPlex.toStd a) ∧
      ∃ z : F64 × F64, ∃ s : ℂ, s * s = cval z ∧ 0 ≤ s.re ∧ ‖cval (ComPlex.toStd a) - s‖ ≤ ε * ‖s‖ ∧
        ∃ q : ComPlex ℚ, toMV q = exactObj ⟨t, x⟩ * dirverse (exactObj ⟨t, x⟩) ∧
          ‖cval z - cq q‖ ≤ 19 * 2 ^ (-53 : ℤ) * len (exactObj ⟨t, x⟩) ^ 2 ∧
          ‖cq q‖ ≤ len (exactObj ⟨t, x⟩) ^ 2 := by
  obtain ⟨q, hq, hX, -⟩ := C15_ampSq t ht (valTy t x : t.D ℚ)
  obtain ⟨z, hz⟩ : ∃ z, ampSqTy t x = some z := by
    cases t <;> first | exact absurd rfl ht | exact ⟨_, rfl⟩
  obtain ⟨fz, bz⟩ := ampSq_len t x hf h1 h2 hz hq
  have hqn := dirverse_norm (exactObj ⟨t, x⟩) hX
  have hzn : ‖cval (ComPlex.toStd z)‖ ≤ 2 ^ (1000 : ℤ) := by
    have e0 : ‖cval (ComPlex.toStd z)‖ ≤ ‖cq q‖ + 19 * 2 ^ (-53 : ℤ) * len (exactObj ⟨t, x⟩) ^ 2 := by
      linarith [norm_sub_norm_le (cval (ComPlex.toStd z)) (cq q)]
    have e1 : len (exactObj ⟨t, x⟩) ^ 2 ≤ ((2 : ℝ) ^ (499 : ℤ)) ^ 2 :=
      pow_le_pow_left₀ (len_nonneg _) h2 2
    have e2 : (4 : ℝ) * ((2 : ℝ) ^ (499 : ℤ)) ^ 2 = 2 ^ (1000 : ℤ) := by
      rw [pow_two, ← pow_split, show (4 : ℝ) = 2 ^ (2 : ℤ) by norm_num, ← pow_split]; norm_num only
    have e3 : 19 * (2 : ℝ) ^ (-53 : ℤ) ≤ 1 := by norm_num
    rw [← e2]
    have e4 := mul_le_mul_of_nonneg_right e3 (sq_nonneg (len (exactObj ⟨t, x⟩)))
    generalize ((2 : ℝ) ^ (499 : ℤ)) ^ 2 = U at *
    linarith only [e0, e1, e4, hqn, sq_nonneg (len (exactObj ⟨t, x⟩))]
  obtain ⟨fw, s, hs, hs0, hw⟩ := hl.root _ fz hzn
  refine ⟨ComPlex.from (LibM.csqrt (ComPlex.toStd z)), ?_, fw, ComPlex.toStd z, s, hs, hs0, hw, q, hX, bz, hqn⟩
  rw [amplitudeTy_eq, hz]; rfl

/-! ## C61 -/

/-- **C61.** The square of `amplitude(x)`, worked out exactly, is `x * dirverse(x)` up to
`(3ε + 20 * 2^-53) len(x)^2`, for every type and every `x` of moderate length. -/
theorem C61_square [LibM F64] (ε : ℝ) (h0 : 0 ≤ ε) (hε : ε ≤ 1 / 100) (hl : LibcSqrtOk ε)
    (t : Ty) (ht : t ≠ .dub) (x : t.D F64) (hf : FiniteTy t x)
    (h1 : (2 : ℝ) ^ (-500 : ℤ) ≤ len (exactObj ⟨t, x⟩)) (h2 : len (exactObj ⟨t, x⟩) ≤ 2 ^ (499 : ℤ)) :
    ∃ a : ComPlex F64, amplitudeTy t x = some a ∧ FiniteTy .cplx a ∧
      len (exactObj ⟨.cplx, a⟩ * exactObj ⟨.cplx, a⟩ - exactObj ⟨t, x⟩ * dirverse (exactObj ⟨t, x⟩))
        ≤ (3 * ε + 20 * 2 ^ (-53 : ℤ)) * len (exactObj ⟨t, x⟩) ^ 2 := by
  obtain ⟨a, ha, fa, z, s, hs, -, hw, q, hX, bz, hqn⟩ := amplitude_parts hl t ht x hf h1 h2
  refine ⟨a, ha, ?_, ?_⟩
  · apply forall_fin8
    exacts [fa.1, F64.hasVal_zero'.1, F64.hasVal_zero'.1, F64.hasVal_zero'.1, F64.hasVal_zero'.1,
      F64.hasVal_zero'.1, F64.hasVal_zero'.1, fa.2]
  · have e : exactObj ⟨.cplx, a⟩ = toMV (valTy .cplx a : ComPlex ℚ) := rfl
    have ec : cq (valTy .cplx a : ComPlex ℚ) = cval (ComPlex.toStd a) := rfl
    have em : toMV (valTy .cplx a : ComPlex ℚ) * toMV (valTy .cplx a : ComPlex ℚ) - toMV q
        = toMV (((valTy .cplx a : ComPlex ℚ) * (valTy .cplx a : ComPlex ℚ) : ComPlex ℚ) - q) := by
      mv_ring
    rw [e, ← hX, em, len_cplx, cq_sub, cq_mul, ec]
    generalize cval (ComPlex.toStd a) = w at *
    generalize cval z = Z at *
    generalize len (exactObj ⟨t, x⟩) = N at *
    have hZ : ‖s‖ ^ 2 = ‖Z‖ := by rw [← hs, norm_mul, pow_two]
    have b1 : ‖w * w - Z‖ ≤ ε * ‖s‖ * ((2 + ε) * ‖s‖) := by
      rw [← hs, show w * w - s * s = (w - s) * (w - s + 2 * s) by ring, norm_mul]
      refine mul_le_mul hw ((norm_add_le _ _).trans ?_) (norm_nonneg _) (by positivity)
      rw [norm_mul, Complex.norm_ofNat]
      linarith
    have b2 : ‖w * w - cq q‖ ≤ ‖w * w - Z‖ + ‖Z - cq q‖ := norm_sub_le_norm_sub_add_norm_sub _ _ _
    have b3 : ‖Z‖ ≤ ‖cq q‖ + ‖Z - cq q‖ := by linarith [norm_sub_norm_le Z (cq q)]
    have b4 : (19 : ℝ) * 2 ^ (-53 : ℤ) ≤ 1 / 1000 := by norm_num
    have b5 := mul_le_mul_of_nonneg_right b4 (sq_nonneg N)
    have b6 : ε * ‖s‖ * ((2 + ε) * ‖s‖) = ε * ((2 + ε) * ‖Z‖) := by rw [← hZ]; ring
    have b9 : ‖Z‖ ≤ 1001 / 1000 * N ^ 2 := by
      have := bz.trans b5
      linarith only [b3, this, hqn]
    have b7 : (2 + ε) * ‖Z‖ ≤ 3 * N ^ 2 :=
      (mul_le_mul (by linarith only [hε] : 2 + ε ≤ 201 / 100) b9 (norm_nonneg _) (by norm_num)).trans
        (by linarith only [sq_nonneg N])
    have b8 := mul_le_mul_of_nonneg_left b7 h0
    have hu := F64.two_zpow_pos (K := ℝ) (-53)
    generalize (2 : ℝ) ^ (-53 : ℤ) = u at *
    nlinarith [mul_nonneg hu.le (sq_nonneg N)]

theorem exists_csqrt (A : ℂ) : ∃ r : ℂ, r * r = A := by
  obtain ⟨r, hr⟩ := IsAlgClosed.exists_pow_nat_eq A (n := 2) two_pos
  exact ⟨r, by rw [← pow_two]; exact hr⟩

theorem csqrt_near {s r Z A : ℂ} (hs : s * s = Z) (hr : r * r = A) (hA : A ≠ 0)
    (h : 0 ≤ s.re * r.re + s.im * r.im) {δ : ℝ} (hd : ‖Z - A‖ ≤ δ * ‖A‖) : ‖s - r‖ ≤ δ * ‖r‖ := by
  have hr0 : 0 < ‖r‖ := norm_pos_iff.2 fun e => hA (by rw [← hr, e, mul_zero])
  have e1 : ‖r‖ ≤ ‖s + r‖ := by
    rw [← abs_of_nonneg (norm_nonneg r), ← abs_of_nonneg (norm_nonneg (s + r)), ← sq_le_sq,
      Complex.sq_norm, Complex.sq_norm, Complex.normSq_apply, Complex.normSq_apply, Complex.add_re,
      Complex.add_im]
    nlinarith [sq_nonneg s.re, sq_nonneg s.im]
  have e2 : ‖s - r‖ * ‖s + r‖ ≤ δ * ‖r‖ * ‖r‖ := by
    rw [← norm_mul, show (s - r) * (s + r) = s * s - r * r by ring, hs, hr, mul_assoc, ← norm_mul, hr]
    exact hd
  have e3 : ‖s - r‖ * ‖r‖ ≤ δ * ‖r‖ * ‖r‖ :=
    (mul_le_mul_of_nonneg_left e1 (norm_nonneg _)).trans e2
  exact le_of_mul_le_mul_right e3 hr0

theorem root_total {w s r : ℂ} {ε δ : ℝ} (h0 : 0 ≤ ε) (hw : ‖w - s‖ ≤ ε * ‖s‖) (h : ‖s - r‖ ≤ δ * ‖r‖) :
    ‖w - r‖ ≤ (ε + (1 + ε) * δ) * ‖r‖ := by
  have e1 : ‖s‖ ≤ ‖r‖ + ‖s - r‖ := by linarith [norm_sub_norm_le s r]
  have e2 : ‖w - r‖ ≤ ‖w - s‖ + ‖s - r‖ := norm_sub_le_norm_sub_add_norm_sub _ _ _
  nlinarith [mul_le_mul_of_nonneg_left e1 h0, mul_le_mul_of_nonneg_left h h0]

theorem pos_of_mul_pos_of_nonneg_left' {a b : ℝ} (h : 0 < a * b) (ha : 0 ≤ a) : 0 < b := by
  by_contra hb
  exact absurd h (not_lt.2 (mul_nonpos_of_nonneg_of_nonpos ha (not_lt.1 hb)))

theorem amp_total {w s r Z A : ℂ} {ε κ N : ℝ} (h0 : 0 ≤ ε) (hε : ε ≤ 1 / 100) (hw : ‖w - s‖ ≤ ε * ‖s‖)
    (hs : s * s = Z) (hr : r * r = A) (hA : A ≠ 0) (h : 0 ≤ s.re * r.re + s.im * r.im)
    (hz : ‖Z - A‖ ≤ 19 * 2 ^ (-53 : ℤ) * N ^ 2) (hκ : κ = N ^ 2 / ‖A‖) :
    ‖w - r‖ ≤ (ε + 20 * κ * 2 ^ (-53 : ℤ)) * ‖r‖ := by
  have hAp : 0 < ‖A‖ := norm_pos_iff.2 hA
  have hN : N ^ 2 = κ * ‖A‖ := by rw [hκ]; field_simp
  have hκ0 : 0 ≤ κ := by rw [hκ]; positivity
  have hd : ‖Z - A‖ ≤ (19 * 2 ^ (-53 : ℤ) * κ) * ‖A‖ := by
    rw [hN] at hz; linarith
  refine (root_total h0 hw (csqrt_near hs hr hA h hd)).trans
    (mul_le_mul_of_nonneg_right ?_ (norm_nonneg _))
  have hu := mul_nonneg (F64.two_zpow_pos (K := ℝ) (-53)).le hκ0
  generalize (2 : ℝ) ^ (-53 : ℤ) = u at *
  nlinarith

/-- **C61.** `amplitude(x)` is near a square root of `x * dirverse(x)`: the relative error is
`ε + 20 κ 2^-53` where `κ = len(x)^2 / len(x * dirverse(x))` measures the cancellation in
`x * dirverse(x)` (`κ = 1` for blades and spinors). -/
theorem C61_root [LibM F64] (ε : ℝ) (h0 : 0 ≤ ε) (hε : ε ≤ 1 / 100) (hl : LibcSqrtOk ε)
    (t : Ty) (ht : t ≠ .dub) (x : t.D F64) (hf : FiniteTy t x)
    (h1 : (2 : ℝ) ^ (-500 : ℤ) ≤ len (exactObj ⟨t, x⟩)) (h2 : len (exactObj ⟨t, x⟩) ≤ 2 ^ (499 : ℤ))
    (A : ComPlex ℚ) (hA : toMV A = exactObj ⟨t, x⟩ * dirverse (exactObj ⟨t, x⟩)) (hA0 : cq A ≠ 0)
    (κ : ℝ) (hκ : κ = len (exactObj ⟨t, x⟩) ^ 2 / ‖cq A‖) :
    ∃ a : ComPlex F64, amplitudeTy t x = some a ∧ Fin2 (ComPlex.toStd a) ∧
      ∃ r : ℂ, r * r = cq A ∧
        ‖cval (ComPlex.toStd a) - r‖ ≤ (ε + 20 * κ * 2 ^ (-53 : ℤ)) * ‖r‖ := by
  obtain ⟨a, ha, fa, z, s, hs, -, hw, q, hX, bz, -⟩ := amplitude_parts hl t ht x hf h1 h2
  obtain rfl : q = A := toMV_inj_cplx (hX.trans hA.symm)
  refine ⟨a, ha, fa, ?_⟩
  obtain ⟨r, hr, hsr⟩ : ∃ r : ℂ, r * r = cq q ∧ 0 ≤ s.re * r.re + s.im * r.im := by
    obtain ⟨r, hr⟩ := exists_csqrt (cq q)
    rcases le_total 0 (s.re * r.re + s.im * r.im) with h | h
    · exact ⟨r, hr, h⟩
    · refine ⟨-r, by rw [neg_mul_neg, hr], ?_⟩
      rw [Complex.neg_re, Complex.neg_im]; linarith
  exact ⟨r, hr, amp_total h0 hε hw hs hr hA0 hsr bz hκ⟩

/-- **C61.** Away from the negative real axis (further than the rounding error of
`x * dirverse(x)`) the root is the principal one. -/
theorem C61_principal [LibM F64] (ε : ℝ) (h0 : 0 ≤ ε) (hε : ε ≤ 1 / 100) (hl : LibcSqrtOk ε)
    (t : Ty) (ht : t ≠ .dub) (x : t.D F64) (hf : FiniteTy t x)
    (h1 : (2 : ℝ) ^ (-500 : ℤ) ≤ len (exactObj ⟨t, x⟩)) (h2 : len (exactObj ⟨t, x⟩) ≤ 2 ^ (499 : ℤ))
    (A : ComPlex ℚ) (hA : toMV A = exactObj ⟨t, x⟩ * dirverse (exactObj ⟨t, x⟩))
    (hcut : 19 * 2 ^ (-53 : ℤ) * len (exactObj ⟨t, x⟩) ^ 2 < (cq A).re ∨
      19 * 2 ^ (-53 : ℤ) * len (exactObj ⟨t, x⟩) ^ 2 < |(cq A).im|)
    (κ : ℝ) (hκ : κ = len (exactObj ⟨t, x⟩) ^ 2 / ‖cq A‖) :
    ∃ a : ComPlex F64, amplitudeTy t x = some a ∧ Fin2 (ComPlex.toStd a) ∧
      ∃ r : ℂ, r * r = cq A ∧ 0 < r.re ∧
        ‖cval (ComPlex.toStd a) - r‖ ≤ (ε + 20 * κ * 2 ^ (-53 : ℤ)) * ‖r‖ := by
  obtain ⟨a, ha, fa, z, s, hs, hs0, hw, q, hX, bz, -⟩ := amplitude_parts hl t ht x hf h1 h2
  obtain rfl : q = A := toMV_inj_cplx (hX.trans hA.symm)
  refine ⟨a, ha, fa, ?_⟩
  obtain ⟨r, hr, hr0⟩ : ∃ r : ℂ, r * r = cq q ∧ 0 ≤ r.re := by
    obtain ⟨r, hr⟩ := exists_csqrt (cq q)
    rcases le_total 0 r.re with h | h
    · exact ⟨r, hr, h⟩
    · exact ⟨-r, by rw [neg_mul_neg, hr], by rw [Complex.neg_re]; linarith⟩
  have bz' := bz
  generalize 19 * (2 : ℝ) ^ (-53 : ℤ) * len (exactObj ⟨t, x⟩) ^ 2 = D at hcut bz
  have hD : 0 ≤ D := (norm_nonneg _).trans bz
  have d1 := (Complex.abs_re_le_norm _).trans bz
  have d2 := (Complex.abs_im_le_norm _).trans bz
  rw [Complex.sub_re, abs_le] at d1
  rw [Complex.sub_im, abs_le] at d2
  have rr : (cq q).re = r.re * r.re - r.im * r.im := by rw [← hr, Complex.mul_re]
  have ri : (cq q).im = 2 * (r.re * r.im) := by rw [← hr, Complex.mul_im]; ring
  have sr : (cval z).re = s.re * s.re - s.im * s.im := by rw [← hs, Complex.mul_re]
  have si : (cval z).im = 2 * (s.re * s.im) := by rw [← hs, Complex.mul_im]; ring
  have hA0 : cq q ≠ 0 := by
    rintro e
    rw [e] at hcut
    rcases hcut with h | h
    · rw [Complex.zero_re] at h; linarith
    · rw [Complex.zero_im, abs_zero] at h; linarith
  have hrp : 0 < r.re := by
    refine lt_of_le_of_ne hr0 fun e => ?_
    rw [← e] at rr ri
    rcases hcut with h | h
    · rw [rr] at h; nlinarith [mul_self_nonneg r.im]
    · rw [ri, zero_mul, mul_zero, abs_zero] at h; linarith
  refine ⟨r, hr, hrp, amp_total h0 hε hw hs hr hA0 ?_ bz' hκ⟩
  rcases hcut with h | h
  · have k1 : s.im * s.im ≤ s.re * s.re := by linarith
    have k2 : r.im * r.im ≤ r.re * r.re := by linarith
    have k3 : |s.im| ≤ s.re := abs_le_of_sq_le_sq (by nlinarith) hs0
    have k4 : |r.im| ≤ r.re := abs_le_of_sq_le_sq (by nlinarith) hr0
    have k5 : |s.im| * |r.im| ≤ s.re * r.re := mul_le_mul k3 k4 (abs_nonneg _) hs0
    rw [← abs_mul] at k5
    linarith [neg_abs_le (s.im * r.im)]
  · have k : 0 ≤ s.im * r.im := by
      rcases lt_abs.1 h with h | h
      · have i1 : 0 < r.re * r.im := by linarith
        have i2 : 0 < s.re * s.im := by linarith
        exact mul_nonneg (pos_of_mul_pos_of_nonneg_left' i2 hs0).le (pos_of_mul_pos_of_nonneg_left' i1 hr0).le
      · have i1 : 0 < r.re * (-r.im) := by linarith
        have i2 : 0 < s.re * (-s.im) := by linarith
        have := mul_nonneg (pos_of_mul_pos_of_nonneg_left' i2 hs0).le (pos_of_mul_pos_of_nonneg_left' i1 hr0).le
        linarith
    have := mul_nonneg hs0 hr0
    linarith

end Engabra
