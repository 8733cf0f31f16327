import Verif.Props.C13_C16_Magnitude
import Verif.Props.C01_Product

/-! # C17, C18: inverses, in ideal arithmetic -/

namespace Engabra
open XR

/-- `one<MultiVector>()` in ideal arithmetic. -/
theorem lift_one : lift .mv (gone : MultiVector ℝ) = gone := rfl

theorem comps_all_zero_of (t : Ty) (x : t.D ℝ) : magSqTy t x = 0 ↔ ∀ c ∈ comps t x, c = 0 :=
  C13_magSq_eq_zero_iff t x

/-! ## C17 -/

/-- `inverse` selected by blade type (`none` where `g3func.hpp:451-464` is disabled). -/
def inverseTy {α : Type} [Dbl α] : (t : Ty) → t.D α → Option (t.D α)
  | .sca, x => some (inverseBlade (show Scalar α from x))
  | .vec, x => some (inverseBlade (show Vector α from x))
  | .biv, x => some (inverseBlade (show BiVector α from x))
  | .tri, x => some (inverseBlade (show TriVector α from x))
  | _, _ => none

theorem inverseTy_eq (t : Ty) (x y : t.D ℝ) (hy : y = smulTy t (1 / magSqTy t x) (reverseTy t x))
    (h : magSqTy t x ≠ 0) (ht : t = .sca ∨ t = .vec ∨ t = .biv ∨ t = .tri) :
    inverseTy t (lift t x) = some (lift t y) := by
  have key := val_div 1 _ h
  have e : inverseTy t (lift t x) = some (smulTy t (val 1 / val (magSqTy t x))
      (reverseTy t (lift t x))) := by
    rcases ht with rfl | rfl | rfl | rfl <;> rfl
  rw [e, key, reverse_lift, smul_lift, hy]

theorem smul_dub_one (m : ℝ) (h : m ≠ 0) : (1 / m : ℝ) * (mvOfDub m : MultiVector ℝ) = gone := by
  ext <;> simp only [engabra]
  · field_simp
  all_goals simp

/-- **C17.** For every blade type and every non-zero blade, `inverse` returns a two-sided
multiplicative inverse. -/
theorem C17_inverse (t : Ty) (ht : t = .sca ∨ t = .vec ∨ t = .biv ∨ t = .tri) (x : t.D ℝ)
    (h : ∃ c ∈ comps t x, c ≠ 0) :
    ∃ y, inverseTy t (lift t x) = some y ∧
      promote t y * promote t (lift t x) = gone ∧ promote t (lift t x) * promote t y = gone := by
  have hm : magSqTy t x ≠ 0 := by
    intro h0
    obtain ⟨c, hc, hc0⟩ := h
    exact hc0 ((C13_magSq_eq_zero_iff t x).1 h0 c hc)
  refine ⟨lift t (smulTy t (1 / magSqTy t x) (reverseTy t x)), inverseTy_eq t x _ rfl hm ht, ?_, ?_⟩
  all_goals
    rw [promote_lift, promote_lift, mul_lift_mv, ← lift_one]
    congr 1
    have hv : t.versor = true := by rcases ht with rfl | rfl | rfl | rfl <;> rfl
    obtain ⟨h1, h2⟩ := rev_mul_self t hv x
    have hp : promote t (smulTy t (1 / magSqTy t x) (reverseTy t x))
        = (1 / magSqTy t x : ℝ) * reverse (promote t x) := by
      rw [← promote_reverse]
      generalize 1 / magSqTy t x = r
      rcases ht with rfl | rfl | rfl | rfl <;> mv_ring
    rw [hp]
    first
      | (rw [C01_smul_mul, h1, smul_dub_one _ hm])
      | (rw [C01_mul_smul, h2, smul_dub_one _ hm])

/-- **C17.** The inverse of a zero blade is `null`, hence invalid. -/
theorem C17_zero (t : Ty) (ht : t = .sca ∨ t = .vec ∨ t = .biv ∨ t = .tri) (x : t.D ℝ)
    (h : ∀ c ∈ comps t x, c = 0) :
    inverseTy t (lift t x) = some (gnullTy Dbl.nan t) ∧
    isValidTy t (gnullTy (Dbl.nan : XR) t) = false := by
  have hm : magSqTy t x = 0 := (C13_magSq_eq_zero_iff t x).2 h
  have e : inverseTy t (lift t x) = some (smulTy t (val 1 / val (magSqTy t x))
      (reverseTy t (lift t x))) := by
    rcases ht with rfl | rfl | rfl | rfl <;> rfl
  constructor
  · rw [e, hm, XR.div_zero]
    rcases ht with rfl | rfl | rfl | rfl <;> rfl
  · rcases ht with rfl | rfl | rfl | rfl <;> rfl

example : ∃ c ∈ comps .biv (⟨⟨0, 3, -1⟩⟩ : BiVector ℝ), c ≠ 0 := ⟨3, by simp [comps], by norm_num⟩

/-! ## C18 -/

/-- The complex number of a `ComPlex`. -/
def ComPlex.num (z : ComPlex ℝ) : ℂ := ⟨z.theSca.theData.d0, z.theTri.theData.d0⟩

/-- `DBL_MIN`. -/
noncomputable def dblMin : ℝ := 1 / 2 ^ 1022
theorem dblMin_pos : 0 < dblMin := by unfold dblMin; positivity

theorem zz_conj (z : ComPlex ℝ) :
    LibM.cmul (val z.theSca.theData.d0, val z.theTri.theData.d0)
      (val z.theSca.theData.d0, -val z.theTri.theData.d0) = (val (Complex.normSq z.num), val 0) := by
  rw [val_neg, cmul_val, Complex.normSq_apply]
  simp only [ComPlex.num, Prod.mk.injEq, val_inj]
  constructor <;> ring

theorem cabs_zz (r : ℝ) (hr : 0 ≤ r) : LibM.cabs (val r, val 0) = val r := by
  rw [cabs_val]
  have : (⟨r, 0⟩ : ℂ) = (r : ℂ) := rfl
  rw [this, Complex.norm_real, Real.norm_eq_abs, abs_of_nonneg hr]

/-- **C18.** Above the guard, `inverse<ComPlex>(z)` is the reciprocal `1/z`. -/
theorem C18_complex_inverse (z : ComPlex ℝ) (h : dblMin < ‖z.num‖ ^ 2) :
    inverseCplx (lift .cplx z) = lift .cplx ⟨⟨⟨(z.num⁻¹).re⟩⟩, ⟨⟨(z.num⁻¹).im⟩⟩⟩ := by
  have hn : ‖z.num‖ ^ 2 = Complex.normSq z.num := (Complex.normSq_eq_norm_sq _).symm
  rw [hn] at h
  have hpos := dblMin_pos.trans h
  have hg : Dbl.lt (Dbl.minDub XR) (val (Complex.normSq z.num)) = true := by
    rw [minDub_def, lt_val]; exact h
  unfold inverseCplx
  simp only [lift, mapTy, zz_conj, cabs_zz _ hpos.le]
  rw [if_pos hg]
  have hd := cdiv_val 1 ((Complex.normSq z.num : ℝ) : ℂ) (by exact_mod_cast hpos.ne')
  simp only [Complex.ofReal_re, Complex.ofReal_im] at hd
  rw [XR.one_def, hd, val_neg, cmul_val]
  have e1 : ((1 : ℝ) : ℂ) / ((Complex.normSq z.num : ℝ) : ℂ) = ((1 / Complex.normSq z.num : ℝ) : ℂ) := by
    push_cast; rfl
  rw [e1, Complex.ofReal_re, Complex.ofReal_im, Complex.inv_re, Complex.inv_im]
  ext <;> simp only [val_inj, ComPlex.num]
  · ring
  · ring

/-- **C18.** At or below the guard the result is `null`. -/
theorem C18_complex_null (z : ComPlex ℝ) (h : ‖z.num‖ ^ 2 ≤ dblMin) :
    inverseCplx (lift .cplx z) = gnull Dbl.nan := by
  have hn : ‖z.num‖ ^ 2 = Complex.normSq z.num := (Complex.normSq_eq_norm_sq _).symm
  rw [hn] at h
  unfold inverseCplx
  simp only [lift, mapTy, zz_conj, cabs_zz _ (Complex.normSq_nonneg z.num)]
  rw [if_neg]
  rw [minDub_def, lt_val, not_lt]; exact h

/-- **C18.** ... and therefore a two-sided inverse under the library product. -/
theorem C18_complex_mul (z : ComPlex ℝ) (h : dblMin < ‖z.num‖ ^ 2) :
    inverseCplx (lift .cplx z) * lift .cplx z = gone ∧
    lift .cplx z * inverseCplx (lift .cplx z) = gone := by
  rw [C18_complex_inverse z h]
  have hz : z.num ≠ 0 := by
    intro h0; rw [h0] at h; simp at h; exact absurd h (not_lt.2 dblMin_pos.le)
  have h1 := inv_mul_cancel₀ hz
  have hre := congrArg Complex.re h1
  have him := congrArg Complex.im h1
  generalize z.num⁻¹ = w at *
  simp only [ComPlex.num, Complex.mul_re, Complex.mul_im, Complex.one_re, Complex.one_im] at hre him
  constructor <;>
  · ext <;> simp only [lift, mapTy, engabra, val_mul, val_add, val_sub, XR.one_def, XR.zero_def,
      val_inj] <;> linarith

/-- `ampSq` of a real multivector as a complex number. -/
noncomputable def ampC (A : MultiVector ℝ) : ℂ := (ampSq A).num

theorem inverseMv_eq (A : MultiVector ℝ) : inverseMv (lift .mv A)
    = (inverseCplx (lift .cplx (ampSq A))).theSca * lift .mv (dirverse A)
      + (inverseCplx (lift .cplx (ampSq A))).theTri * lift .mv (dirverse A) := by
  have h := ampSq_lift .mv A
  have h' : ampSq (lift .mv A) = lift .cplx (ampSq A) := Option.some.inj h
  unfold inverseMv
  simp only [h']
  rfl

/-- **C18.** When the amplitude guard passes, `inverse<MultiVector>(A)` is a two-sided inverse. -/
theorem C18_mv_inverse (A : MultiVector ℝ) (h : dblMin < ‖ampC A‖ ^ 2) :
    inverseMv (lift .mv A) * lift .mv A = gone ∧ lift .mv A * inverseMv (lift .mv A) = gone := by
  rw [inverseMv_eq, C18_complex_inverse _ h]
  generalize hw : (ComPlex.num (ampSq A))⁻¹ = w
  have hz : ampC A ≠ 0 := by
    intro h0; rw [h0] at h; simp at h; exact absurd h (not_lt.2 dblMin_pos.le)
  have h1 : w * ampC A = 1 := by rw [← hw]; exact inv_mul_cancel₀ hz
  have e : (lift .cplx (⟨⟨⟨w.re⟩⟩, ⟨⟨w.im⟩⟩⟩ : ComPlex ℝ)).theSca * lift .mv (dirverse A)
      + (lift .cplx (⟨⟨⟨w.re⟩⟩, ⟨⟨w.im⟩⟩⟩ : ComPlex ℝ)).theTri * lift .mv (dirverse A)
      = lift .mv (toMV (⟨⟨⟨w.re⟩⟩, ⟨⟨w.im⟩⟩⟩ : ComPlex ℝ) * dirverse A) := by
    have : toMV (⟨⟨⟨w.re⟩⟩, ⟨⟨w.im⟩⟩⟩ : ComPlex ℝ) * dirverse A
        = (⟨⟨w.re⟩⟩ : Scalar ℝ) * dirverse A + (⟨⟨w.im⟩⟩ : TriVector ℝ) * dirverse A := by mv_ring
    rw [this]; rfl
  rw [e, mul_lift_mv, mul_lift_mv, ← lift_one]
  obtain ⟨_, hz1, ha, hb⟩ := C15_ampSq (α := ℝ) .mv (by decide) A
  obtain rfl := Option.some.inj hz1
  have ha : toMV (ampSq A) = A * dirverse A := ha
  have hb : toMV (ampSq A) = dirverse A * A := hb
  have hc : toMV (⟨⟨⟨w.re⟩⟩, ⟨⟨w.im⟩⟩⟩ : ComPlex ℝ) * toMV (ampSq A) = gone := by
    have hre := congrArg Complex.re h1
    have him := congrArg Complex.im h1
    unfold ampC at hre him
    generalize ampSq A = z at *
    simp only [ComPlex.num, Complex.mul_re, Complex.mul_im, Complex.one_re, Complex.one_im] at hre him
    ext <;> simp only [engabra] <;> linarith
  constructor
  · rw [mul_assoc, ← hb, hc]
  · rw [← mul_assoc, ← C15_ampSq_central, mul_assoc, ← ha, hc]

/-- **C18.** Otherwise every component of the result is NaN (so it is invalid). -/
theorem C18_mv_null (A : MultiVector ℝ) (h : ‖ampC A‖ ^ 2 ≤ dblMin) :
    (∀ c ∈ comps .mv (inverseMv (lift .mv A)), c = nan) ∧
    isValid (inverseMv (lift .mv A)) = false := by
  have e : inverseMv (lift .mv A) = mvOf8 nan nan nan nan nan nan nan nan := by
    rw [inverseMv_eq, C18_complex_null _ h]
    rfl
  rw [e]
  refine ⟨?_, rfl⟩
  intro c hc
  simpa [comps, mvOf8] using hc

/-- **C18.** A multivector has an inverse for the library product iff its squared amplitude is
not zero. -/
theorem C18_invertible_iff (A : MultiVector ℝ) :
    (∃ B : MultiVector ℝ, A * B = gone ∧ B * A = gone) ↔ ampC A ≠ 0 := by
  obtain ⟨_, hz1, ha, hb⟩ := C15_ampSq (α := ℝ) .mv (by decide) A
  obtain rfl := Option.some.inj hz1
  have ha : toMV (ampSq A) = A * dirverse A := ha
  have hb : toMV (ampSq A) = dirverse A * A := hb
  constructor
  · rintro ⟨B, h1, -⟩ h0
    have h2 := C15_ampSq_mul A B
    rw [h1] at h2
    have hA : ampSq A = gzero := by
      have hre := congrArg Complex.re h0
      have him := congrArg Complex.im h0
      ext
      · exact hre
      · exact him
    rw [hA] at h2
    have h3 := congrArg (fun z : ComPlex ℝ => z.theSca.theData.d0) h2
    simp only [engabra] at h3
    norm_num at h3
  · intro hne
    refine ⟨toMV (⟨⟨⟨((ampC A)⁻¹).re⟩⟩, ⟨⟨((ampC A)⁻¹).im⟩⟩⟩ : ComPlex ℝ) * dirverse A, ?_, ?_⟩
    all_goals
      have h1 := inv_mul_cancel₀ hne
      generalize (ampC A)⁻¹ = w at *
      have hc : toMV (⟨⟨⟨w.re⟩⟩, ⟨⟨w.im⟩⟩⟩ : ComPlex ℝ) * toMV (ampSq A) = gone := by
        have hre := congrArg Complex.re h1
        have him := congrArg Complex.im h1
        unfold ampC at hre him
        generalize ampSq A = z at *
        simp only [ComPlex.num, Complex.mul_re, Complex.mul_im, Complex.one_re, Complex.one_im]
          at hre him
        ext <;> simp only [engabra] <;> linarith
    · rw [← mul_assoc, ← C15_ampSq_central, mul_assoc, ← ha, hc]
    · rw [mul_assoc, ← hb, hc]

/-- **C18.** The documentation promises null only "if no inverse"; but a multivector as
large as 2^-300 (about 5e-91) that *is* invertible gets null. -/
theorem C18_null_although_invertible :
    ∃ A : MultiVector ℝ, (∃ B : MultiVector ℝ, A * B = gone ∧ B * A = gone) ∧
      isValid (inverseMv (lift .mv A)) = false := by
  have hA : ampC (mvOfDub (1 / 2 ^ 300) : MultiVector ℝ) = (((1 / 2 ^ 300) ^ 2 : ℝ) : ℂ) := by
    apply Complex.ext <;>
      simp only [ampC, ComPlex.num, engabra, Complex.ofReal_re, Complex.ofReal_im] <;> ring
  refine ⟨mvOfDub (1 / 2 ^ 300), ?_, ?_⟩
  · rw [C18_invertible_iff, hA]
    have : (0 : ℝ) < (1 / 2 ^ 300) ^ 2 := by positivity
    exact_mod_cast this.ne'
  · refine (C18_mv_null _ ?_).2
    rw [hA, Complex.norm_real, Real.norm_eq_abs, abs_of_nonneg (by positivity), dblMin]
    rw [div_pow, one_pow, div_pow, one_pow, ← pow_mul, ← pow_mul]
    apply one_div_le_one_div_of_le (by positivity)
    apply pow_le_pow_right₀ (by norm_num) (by norm_num)

/-- Non-triviality of the guard hypothesis, and a genuinely non-invertible element. -/
example : ampC (mvOf8 1 0 2 0 0 0 0 0 : MultiVector ℝ) = ((-3 : ℝ) : ℂ) := by
  apply Complex.ext <;>
    simp only [ampC, ComPlex.num, engabra, Complex.ofReal_re, Complex.ofReal_im] <;> norm_num
example : ampC (mvOf8 1 1 0 0 0 0 0 0 : MultiVector ℝ) = 0 := by
  apply Complex.ext <;>
    simp only [ampC, ComPlex.num, engabra, Complex.zero_re, Complex.zero_im] <;> norm_num

/-- `1 + 2 e2`, whose amplitude squared is `-3`, meets the hypothesis of `C18_mv_inverse`; the null
multivector `1 + e1` meets that of `C18_mv_null`. -/
example : dblMin < ‖ampC (mvOf8 1 0 2 0 0 0 0 0 : MultiVector ℝ)‖ ^ 2 ∧
    ‖ampC (mvOf8 1 1 0 0 0 0 0 0 : MultiVector ℝ)‖ ^ 2 ≤ dblMin := by
  have h1 : ampC (mvOf8 1 0 2 0 0 0 0 0 : MultiVector ℝ) = ((-3 : ℝ) : ℂ) := by
    apply Complex.ext <;>
      simp only [ampC, ComPlex.num, engabra, Complex.ofReal_re, Complex.ofReal_im] <;> norm_num
  have h2 : ampC (mvOf8 1 1 0 0 0 0 0 0 : MultiVector ℝ) = 0 := by
    apply Complex.ext <;>
      simp only [ampC, ComPlex.num, engabra, Complex.zero_re, Complex.zero_im] <;> norm_num
  rw [h1, h2]
  constructor
  · rw [Complex.norm_real, Real.norm_eq_abs]
    have : dblMin ≤ 1 := by
      unfold dblMin; rw [div_le_one (by positivity)]; exact one_le_pow₀ (by norm_num)
    norm_num; linarith
  · rw [norm_zero]; norm_num; exact dblMin_pos.le

/-- `3 + 4 e123` meets the hypothesis of `C18_complex_inverse`. -/
example : dblMin < ‖(⟨⟨⟨3⟩⟩, ⟨⟨4⟩⟩⟩ : ComPlex ℝ).num‖ ^ 2 := by
  have : ‖(⟨⟨⟨3⟩⟩, ⟨⟨4⟩⟩⟩ : ComPlex ℝ).num‖ ^ 2 = 25 := by
    rw [Complex.sq_norm, Complex.normSq_apply]; norm_num [ComPlex.num]
  rw [this]
  have : dblMin ≤ 1 := by
    unfold dblMin; rw [div_le_one (by positivity)]; exact one_le_pow₀ (by norm_num)
  linarith

end Engabra
