import Verif.Props.C61_C62_Branch
import Verif.Props.C56_InverseProduct
import Verif.Lemmas.RealLen

/-! # C80: the polar form of a multivector -/

namespace Engabra
open XR

theorem num_inj {a b : ComPlex ℝ} (h : a.num = b.num) : a = b := by
  have hr := congrArg Complex.re h
  have hi := congrArg Complex.im h
  obtain ⟨⟨⟨a0⟩⟩, ⟨⟨a1⟩⟩⟩ := a
  obtain ⟨⟨⟨b0⟩⟩, ⟨⟨b1⟩⟩⟩ := b
  simp only [ComPlex.num] at hr hi
  subst hr hi
  rfl

/-- The `ComPlex` of a complex number. -/
def cplxOf (w : ℂ) : ComPlex ℝ := ⟨⟨⟨w.re⟩⟩, ⟨⟨w.im⟩⟩⟩

theorem num_cplxOf (w : ℂ) : (cplxOf w).num = w := rfl
theorem cplxOf_num (a : ComPlex ℝ) : cplxOf a.num = a := rfl

theorem toMV_cplxOf_mul (v w : ℂ) : toMV (cplxOf v) * toMV (cplxOf w) = toMV (cplxOf (v * w)) := by
  ext <;> simp only [cplxOf, engabra, Complex.mul_re, Complex.mul_im] <;> ring

theorem toMV_cplxOf_one : toMV (cplxOf 1) = (gone : MultiVector ℝ) := by
  simp only [cplxOf, engabra, Complex.one_re, Complex.one_im]

theorem toMV_cplxOf_inj {v w : ℂ} (h : toMV (cplxOf v) = toMV (cplxOf w)) : v = w := by
  have h0 := congrArg (fun m => m.theSca.theData.d0) h
  have h7 := congrArg (fun m => m.theTri.theData.d0) h
  simp only [cplxOf, engabra] at h0 h7
  exact Complex.ext h0 h7

theorem toMV_cplxOf_neg (w : ℂ) : toMV (cplxOf (-w)) = -toMV (cplxOf w) := by
  ext <;> simp only [cplxOf, engabra, Complex.neg_re, Complex.neg_im] <;> ring

theorem dirverse_prod (A B : MultiVector ℝ) : dirverse (A * B) = dirverse B * dirverse A := by
  mv_ring

theorem dirverse_cplxOf (w : ℂ) : dirverse (toMV (cplxOf w)) = toMV (cplxOf w) := by
  unfold cplxOf; mv_ring

theorem cplxOf_comm (w : ℂ) (A : MultiVector ℝ) : toMV (cplxOf w) * A = A * toMV (cplxOf w) :=
  C15_ampSq_central _ _

theorem cplx_length (w : ℂ) : length .cplx (cplxOf w) = ‖w‖ := by
  rw [length_eq, Complex.norm_eq_sqrt_sq_add_sq]
  congr 1
  simp only [cplxOf, magSqTy, engabra]; ring

/-- The squared amplitude of `w⁻¹ A`. -/
theorem scaled_amp (w : ℂ) (A : MultiVector ℝ) :
    toMV (cplxOf w) * A * dirverse (toMV (cplxOf w) * A) = toMV (cplxOf (w * w)) * (A * dirverse A) := by
  rw [dirverse_prod, dirverse_cplxOf, ← toMV_cplxOf_mul, ← cplxOf_comm w (dirverse A)]
  calc toMV (cplxOf w) * A * (toMV (cplxOf w) * dirverse A)
      = toMV (cplxOf w) * (A * toMV (cplxOf w)) * dirverse A := by rw [mul_assoc, mul_assoc, mul_assoc]
    _ = _ := by rw [← cplxOf_comm w A, mul_assoc, mul_assoc, mul_assoc]

/-- **C80.** Polar form, for every type: with `a = amplitude(x)` and `U = inverse(a) * x`, the element
is `a * U`, and `U * dirverse(U) = dirverse(U) * U = 1`.  It is the only such factorisation
apart from changing both signs. -/
theorem C80_polar (t : Ty) (ht : t ≠ .dub) (x : t.D ℝ) (z : ComPlex ℝ)
    (hz : toMV z = promote t x * dirverse (promote t x)) (h : dblMin < ‖z.num‖) :
    ∃ (a : ComPlex ℝ) (U : MultiVector ℝ),
      amplitudeTy t (lift t x) = some (lift .cplx a) ∧
      promote _ (mulTy .cplx t (inverseCplx (lift .cplx a)) (lift t x)) = lift .mv U ∧
      toMV a * U = promote t x ∧ U * dirverse U = gone ∧ dirverse U * U = gone ∧
      0 ≤ a.theSca.theData.d0 ∧
      ∀ (a' : ComPlex ℝ) (U' : MultiVector ℝ), toMV a' * U' = promote t x → U' * dirverse U' = gone →
        (a' = a ∧ U' = U) ∨ (a' = -a ∧ U' = -U) := by
  set w : ℂ := z.num ^ (1 / 2 : ℂ) with hw
  have hww : w * w = z.num := by
    rw [hw, ← pow_two, ← Complex.cpow_nat_mul]; norm_num
  have hz0 : z.num ≠ 0 := by
    intro e; rw [e, norm_zero] at h; exact absurd h (not_lt.2 dblMin_pos.le)
  have hw0 : w ≠ 0 := by
    intro e; rw [e, mul_zero] at hww; exact hz0 hww.symm
  have hn : dblMin < ‖(cplxOf w).num‖ ^ 2 := by
    rw [num_cplxOf, ← norm_pow, pow_two, hww]; exact h
  have hzz : toMV (cplxOf (w * w)) = promote t x * dirverse (promote t x) := by
    rw [hww, cplxOf_num]; exact hz
  have hUU : toMV (cplxOf w⁻¹) * promote t x * dirverse (toMV (cplxOf w⁻¹) * promote t x) = gone := by
    rw [scaled_amp, ← hzz, toMV_cplxOf_mul, ← toMV_cplxOf_one]
    congr 2
    field_simp
  have haU : toMV (cplxOf w) * (toMV (cplxOf w⁻¹) * promote t x) = promote t x := by
    rw [← mul_assoc, toMV_cplxOf_mul, mul_inv_cancel₀ hw0, toMV_cplxOf_one]
    exact one_mul _
  refine ⟨cplxOf w, toMV (cplxOf w⁻¹) * promote t x, ?_, ?_, haU, hUU, ?_, ?_, ?_⟩
  · obtain ⟨z', hz', hX, -⟩ := C15_ampSq t ht x
    have e : z' = z := num_inj (toMV_cplxOf_inj (show toMV (cplxOf z'.num) = toMV (cplxOf z.num) from by
      rw [cplxOf_num, cplxOf_num, hX, hz]))
    rw [amplitudeTy_eq, ampSq_lift, hz', e]
    rfl
  · rw [C18_complex_inverse _ hn, mul_lift, promote_lift, C03_typed_product_agrees]
    rfl
  · obtain ⟨_, -, h1, h2⟩ := C15_ampSq (α := ℝ) .mv (by decide) (toMV (cplxOf w⁻¹) * promote t x)
    exact h2.symm.trans (h1.trans hUU)
  · change 0 ≤ w.re
    rw [hw, Complex.cpow_def_of_ne_zero hz0, Complex.exp_re]
    apply mul_nonneg (Real.exp_nonneg _)
    apply Real.cos_nonneg_of_mem_Icc
    have h1 := Complex.neg_pi_lt_arg z.num
    have h2 := Complex.arg_le_pi z.num
    have e : (Complex.log z.num * (1 / 2 : ℂ)).im = z.num.arg / 2 := by
      rw [Complex.mul_im]
      simp [Complex.log_im]
      ring
    rw [e]
    constructor <;> linarith
  · intro a' U' h1 h2
    have e1 : toMV (cplxOf (a'.num * a'.num)) = toMV (cplxOf (w * w)) := by
      rw [hzz, ← h1, ← cplxOf_num a', scaled_amp, h2, num_cplxOf]
      exact (mul_one _).symm
    have e2 := toMV_cplxOf_inj e1
    have back : ∀ v : ℂ, v ≠ 0 → toMV (cplxOf v) * U' = promote t x → U' = toMV (cplxOf v⁻¹) * promote t x := by
      intro v hv hU
      rw [← hU, ← mul_assoc, toMV_cplxOf_mul, inv_mul_cancel₀ hv, toMV_cplxOf_one]
      exact (one_mul _).symm
    have ha' : a'.num ≠ 0 := by
      intro e0; rw [e0, mul_zero] at e2; exact hw0 (mul_self_eq_zero.1 e2.symm)
    have e3 := back _ ha' (by rw [cplxOf_num]; exact h1)
    rcases mul_self_eq_mul_self_iff.1 e2 with e | e
    · left
      rw [e] at e3
      exact ⟨num_inj e, e3⟩
    · right
      rw [e, inv_neg, toMV_cplxOf_neg, neg_mul] at e3
      refine ⟨num_inj ?_, e3⟩
      rw [e]
      apply Complex.ext <;> simp only [ComPlex.num, cplxOf, engabra, Complex.neg_re, Complex.neg_im]

/-! ## Binary64 -/

theorem cplxOf_sub (v w : ℂ) : toMV (cplxOf v) - toMV (cplxOf w) = toMV (cplxOf (v - w)) := by
  ext <;> simp only [cplxOf, engabra, Complex.sub_re, Complex.sub_im] <;> ring

theorem length_cplxOf_mul (w : ℂ) (A : MultiVector ℝ) : length .mv (toMV (cplxOf w) * A) = ‖w‖ * length .mv A := by
  rw [← cplx_length]
  exact length_mul_left .cplx rfl (cplxOf w) A

/-- The length of a product of any two multivectors. -/
theorem length_mul_le (A B : MultiVector ℝ) : length .mv (A * B) ≤ √2 * (length .mv A * length .mv B) := by
  have e : A * B = promote .spin (⟨A.theSca, A.theBiv⟩ : Spinor ℝ) * B
      + promote .imsp (⟨A.theVec, A.theTri⟩ : ImSpin ℝ) * B := by mv_ring
  have h := length_mv_add (promote .spin (⟨A.theSca, A.theBiv⟩ : Spinor ℝ) * B)
    (promote .imsp (⟨A.theVec, A.theTri⟩ : ImSpin ℝ) * B)
  rw [← e, length_mul_left .spin rfl, length_mul_left .imsp rfl, ← add_mul] at h
  refine h.trans ?_
  rw [← mul_assoc]
  refine mul_le_mul_of_nonneg_right ?_ (length_nonneg _ _)
  have s : length .spin (⟨A.theSca, A.theBiv⟩ : Spinor ℝ) ^ 2 + length .imsp (⟨A.theVec, A.theTri⟩ : ImSpin ℝ) ^ 2
      = length .mv A ^ 2 := by
    rw [length_sq, length_sq, length_sq]
    simp only [magSqTy, engabra]; ring
  have n1 := length_nonneg .spin (⟨A.theSca, A.theBiv⟩ : Spinor ℝ)
  have n2 := length_nonneg .imsp (⟨A.theVec, A.theTri⟩ : ImSpin ℝ)
  have n3 := length_nonneg .mv A
  generalize length .spin (⟨A.theSca, A.theBiv⟩ : Spinor ℝ) = p at *
  generalize length .imsp (⟨A.theVec, A.theTri⟩ : ImSpin ℝ) = q at *
  generalize length .mv A = r at *
  refine abs_le_of_sq_le_sq' ?_ (by positivity) |>.2
  rw [mul_pow, Real.sq_sqrt (by norm_num), ← s]
  linarith [sq_nonneg (p - q)]

theorem length_dirverse (A : MultiVector ℝ) : length .mv (dirverse A) = length .mv A := by
  rw [length_eq, length_eq]
  congr 1
  simp only [magSqTy, engabra]; ring

theorem realMV_cplx (a : ComPlex F64) : realMV .cplx a = toMV (cplxOf (cval (ComPlex.toStd a))) := rfl

theorem euclid_cplx (a : ComPlex F64) : euclid .cplx a = ‖cval (ComPlex.toStd a)‖ := by
  rw [← length_realTy, ← cplx_length]; rfl

theorem polar_bound {ε u δ η κ : ℝ} (h0 : 0 ≤ ε) (h1 : ε ≤ 1 / 100) (hu0 : 0 ≤ u) (hu : u ≤ 1 / 1000000)
    (hδ : δ = 4 * ε + 29 * u) (hη : η ^ 2 ≤ 2 * κ) :
    √2 * (δ * η * (η + δ * η)) + √2 * (η * (δ * η)) + (3 * ε + 20 * u) * η ^ 2
      ≤ (30 * ε + 210 * u) * κ := by
  have hs : √2 ≤ 1415 / 1000 := Real.sqrt_le_iff.2 ⟨by norm_num, by norm_num⟩
  have hs0 : 0 ≤ √2 := Real.sqrt_nonneg _
  have hδ0 : 0 ≤ δ := by rw [hδ]; linarith
  have hδ1 : δ ≤ 5 / 100 := by rw [hδ]; linarith
  have hq : 0 ≤ η ^ 2 := sq_nonneg η
  have e : √2 * (δ * η * (η + δ * η)) + √2 * (η * (δ * η)) = √2 * (δ * (2 + δ)) * η ^ 2 := by ring
  have h2 : √2 * (δ * (2 + δ)) ≤ 1415 / 1000 * (δ * (205 / 100)) :=
    mul_le_mul hs (mul_le_mul_of_nonneg_left (by linarith) hδ0) (by positivity) (by norm_num)
  have h3 : √2 * (δ * (2 + δ)) + (3 * ε + 20 * u) ≤ 15 * ε + 105 * u := by
    rw [hδ] at h2 ⊢
    linarith
  rw [e, ← add_mul]
  calc _ ≤ (15 * ε + 105 * u) * η ^ 2 := mul_le_mul_of_nonneg_right h3 hq
    _ ≤ (15 * ε + 105 * u) * (2 * κ) := mul_le_mul_of_nonneg_left hη (by positivity)
    _ = _ := by ring

/-- The computed amplitude `c`, whose square is close to that of the element, is bounded below and above. -/
theorem amp_bounds {ε u N κ : ℝ} {c z : ℂ} (hε : ε ≤ 1 / 100) (hu : u ≤ 1 / 1000000) (hN : 0 < N)
    (hz : 0 < ‖z‖) (hκ : κ * ‖z‖ = N ^ 2) (hκ1 : (3 * ε + 20 * u) * κ ≤ 1 / 2)
    (hcc : ‖c * c - z‖ ≤ (3 * ε + 20 * u) * N ^ 2) (hzN : ‖z‖ ≤ √2 * N ^ 2) :
    ‖z‖ / 2 ≤ ‖c‖ ^ 2 ∧ ‖c‖ ≤ 2 * N ∧ 0 < ‖c‖ := by
  have hlow : ‖z‖ / 2 ≤ ‖c‖ ^ 2 := by
    have k1 := norm_sub_norm_le z (c * c)
    rw [norm_sub_rev, norm_mul, ← pow_two] at k1
    have k2 : (3 * ε + 20 * u) * N ^ 2 ≤ 1 / 2 * ‖z‖ := by
      rw [← hκ, ← mul_assoc]
      exact mul_le_mul_of_nonneg_right hκ1 hz.le
    linarith
  have hupp : ‖c‖ ^ 2 ≤ 4 * N ^ 2 := by
    have k1 := norm_sub_norm_le (c * c) z
    rw [norm_mul, ← pow_two] at k1
    have hs : √2 ≤ 1415 / 1000 := Real.sqrt_le_iff.2 ⟨by norm_num, by norm_num⟩
    have k2 : √2 * N ^ 2 ≤ 1415 / 1000 * N ^ 2 := mul_le_mul_of_nonneg_right hs (by positivity)
    have k3 : (3 * ε + 20 * u) * N ^ 2 ≤ 1 * N ^ 2 := mul_le_mul_of_nonneg_right (by linarith) (by positivity)
    linarith [sq_nonneg N]
  refine ⟨hlow, ?_, ?_⟩
  · refine abs_le_of_sq_le_sq' ?_ (by positivity) |>.2
    rw [mul_pow]; linarith
  · rcases (norm_nonneg c).eq_or_lt with e | e
    · rw [← e] at hlow; norm_num at hlow; linarith
    · exact e

/-- The estimates, for real numbers. -/
theorem polar_core {ε u N κ τ : ℝ} {c z w : ℂ} {X U : MultiVector ℝ} (h0 : 0 ≤ ε) (hε : ε ≤ 1 / 100) (hu0 : 0 ≤ u)
    (hu : u ≤ 1 / 1000000) (hN : 0 < N) (lX : length .mv X = N) (hz : 0 < ‖z‖) (hκ : κ * ‖z‖ = N ^ 2)
    (hX : toMV (cplxOf z) = X * dirverse X)
    (hc0 : 0 < ‖c‖) (hlow : ‖z‖ / 2 ≤ ‖c‖ ^ 2) (hc2 : ‖c‖ ≤ 2 * N)
    (hcc : ‖c * c - z‖ ≤ (3 * ε + 20 * u) * N ^ 2)
    (hw : ‖w - c⁻¹‖ ≤ 4 * ε * ‖c⁻¹‖) (hτ : τ ≤ 1 / 200 * u)
    (hU : length .mv (U - toMV (cplxOf w) * X) ≤ 27 * u * (‖w‖ * N) + τ) :
    length .mv (toMV (cplxOf c) * U - X) ≤ (4 * ε + 29 * u) * N ∧
    length .mv (U * dirverse U - gone) ≤ (30 * ε + 210 * u) * κ := by
  have hcne : c ≠ 0 := norm_pos_iff.1 hc0
  set V := toMV (cplxOf c⁻¹) * X with hV
  have hcV : toMV (cplxOf c) * V = X := by
    rw [hV, ← mul_assoc, toMV_cplxOf_mul, mul_inv_cancel₀ hcne, toMV_cplxOf_one]
    exact one_mul _
  set η := N / ‖c‖ with hη
  have hη0 : 0 < η := by positivity
  have hη1 : 1 / 2 ≤ η := by rw [hη, le_div_iff₀ hc0]; linarith
  have hηc : ‖c‖ * η = N := by rw [hη]; field_simp
  have hη2 : η ^ 2 ≤ 2 * κ := by
    rw [hη, div_pow, div_le_iff₀ (by positivity), ← hκ]
    have hκ0 : 0 < κ := by
      by_contra hn
      have h3 : κ * ‖z‖ ≤ 0 := mul_nonpos_of_nonpos_of_nonneg (not_lt.1 hn) hz.le
      rw [hκ] at h3
      exact absurd (sq_pos_of_pos hN) (not_lt.2 h3)
    have := mul_le_mul_of_nonneg_left hlow (by positivity : 0 ≤ 2 * κ)
    linarith
  have lV : length .mv V = η := by
    rw [hV, length_cplxOf_mul, lX, norm_inv, hη]; field_simp
  have hwn : ‖w‖ * N ≤ 104 / 100 * η := by
    have k := norm_sub_norm_le w c⁻¹
    have e : ‖c⁻¹‖ * N = η := by rw [norm_inv, hη]; field_simp
    have k2 : ‖w‖ ≤ 104 / 100 * ‖c⁻¹‖ := by
      have := mul_le_mul_of_nonneg_right hε (norm_nonneg c⁻¹)
      linarith
    rw [← e, ← mul_assoc]
    exact mul_le_mul_of_nonneg_right k2 hN.le
  set δ := 4 * ε + 29 * u with hδ
  have hUV : length .mv (U - V) ≤ δ * η := by
    refine (length_tri U (toMV (cplxOf w) * X) V).trans ?_
    have e : toMV (cplxOf w) * X - V = toMV (cplxOf (w - c⁻¹)) * X := by
      rw [hV, ← cplxOf_sub, sub_mul]
    rw [e, length_cplxOf_mul, lX]
    have k1 : ‖w - c⁻¹‖ * N ≤ 4 * ε * η := by
      refine (mul_le_mul_of_nonneg_right hw hN.le).trans_eq ?_
      rw [norm_inv, hη]; field_simp
    have k2 : u * (‖w‖ * N) ≤ u * (104 / 100 * η) := mul_le_mul_of_nonneg_left hwn hu0
    have k3 : u * (1 / 2) ≤ u * η := mul_le_mul_of_nonneg_left hη1 hu0
    rw [hδ]
    linarith
  constructor
  · have e : toMV (cplxOf c) * U - X = toMV (cplxOf c) * (U - V) := by rw [mul_sub, hcV]
    rw [e, length_cplxOf_mul]
    have := mul_le_mul_of_nonneg_left hUV hc0.le
    rw [show ‖c‖ * (δ * η) = δ * (‖c‖ * η) by ring, hηc] at this
    exact this
  · have e1 : U * dirverse U - V * dirverse V = (U - V) * dirverse U + V * dirverse (U - V) := by mv_ring
    have lU : length .mv U ≤ η + δ * η := by
      have := length_le_add U V
      rw [lV] at this
      linarith
    have hδ0 : 0 ≤ δ := by rw [hδ]; positivity
    have lU' : length .mv (dirverse U) ≤ η + δ * η := by rw [length_dirverse]; exact lU
    have lD' : length .mv (dirverse (U - V)) ≤ δ * η := by rw [length_dirverse]; exact hUV
    have p1 := (length_mul_le (U - V) (dirverse U)).trans (mul_le_mul_of_nonneg_left
      (mul_le_mul hUV lU' (length_nonneg _ _) (by positivity)) (Real.sqrt_nonneg 2))
    have p2 := (length_mul_le V (dirverse (U - V))).trans (mul_le_mul_of_nonneg_left
      (mul_le_mul lV.le lD' (length_nonneg _ _) hη0.le) (Real.sqrt_nonneg 2))
    have p3 := length_mv_add ((U - V) * dirverse U) (V * dirverse (U - V))
    rw [← e1] at p3
    have p4 : length .mv (V * dirverse V - gone) ≤ (3 * ε + 20 * u) * η ^ 2 := by
      have e2 : V * dirverse V - gone = toMV (cplxOf (c⁻¹ * c⁻¹ * (z - c * c))) := by
        rw [hV, scaled_amp, ← hX, toMV_cplxOf_mul, ← toMV_cplxOf_one, cplxOf_sub]
        congr 2
        field_simp
      rw [e2, show length .mv (toMV (cplxOf (c⁻¹ * c⁻¹ * (z - c * c)))) = ‖c⁻¹ * c⁻¹ * (z - c * c)‖ from by
        rw [← cplx_length]; exact length_promote .cplx _]
      rw [norm_mul, norm_mul, norm_inv, norm_sub_rev]
      refine (mul_le_mul_of_nonneg_left hcc (by positivity)).trans_eq ?_
      rw [hη]; field_simp
    refine (length_tri _ (V * dirverse V) _).trans ?_
    refine le_trans ?_ (polar_bound h0 hε hu0 hu hδ hη2)
    linarith

/-- The computed quotient of an element and a complex number. -/
theorem polar_quotient [LibM F64] {ε : ℝ} (h0 : 0 ≤ ε) (hε : ε ≤ 1 / 100) (hl : LibcOk ε) {a : ComPlex F64}
    (fa : FiniteTy .cplx a) (hcl : (2 : ℝ) ^ (-200 : ℤ) ≤ ‖cval (ComPlex.toStd a)‖)
    (hcu : ‖cval (ComPlex.toStd a)‖ ≤ 2 ^ (101 : ℤ)) {t : Ty} {x : t.D F64} (hF : FiniteTy t x)
    (h2 : euclid t x ≤ 2 ^ (100 : ℤ)) :
    ∃ w : F64 × F64, inverseCplx a = ComPlex.from w ∧
      ‖cval w - (cval (ComPlex.toStd a))⁻¹‖ ≤ 4 * ε * ‖(cval (ComPlex.toStd a))⁻¹‖ ∧
      FiniteTy _ (mulTy .cplx t (ComPlex.from w) x) ∧
      length .mv (realMV _ (mulTy .cplx t (ComPlex.from w) x) - realMV .cplx (ComPlex.from w) * realMV t x)
        ≤ 27 * uR * (‖cval w‖ * euclid t x) + 2 ^ (-1057 : ℤ) := by
  have hc0 : 0 < ‖cval (ComPlex.toStd a)‖ := lt_of_lt_of_le (F64.two_zpow_pos _) hcl
  obtain ⟨w, ew, fw, hw⟩ := C56_inverse_complex ε h0 hε hl (ComPlex.toStd a) ⟨fa 0, fa 7⟩
    ((zpow_le_zpow_right₀ one_le_two (by norm_num)).trans hcl)
    (hcu.trans (zpow_le_zpow_right₀ one_le_two (by norm_num)))
  generalize cval (ComPlex.toStd a) = c at *
  have fW : FiniteTy .cplx (ComPlex.from w) := finiteTy_of .cplx _ (by
    intro q hq
    simp only [comps, ComPlex.from, List.mem_cons, List.not_mem_nil, or_false] at hq
    rcases hq with rfl | rfl
    exacts [fw.1, fw.2])
  have eW : euclid .cplx (ComPlex.from w) = ‖cval w‖ := euclid_cplx _
  have hwb : ‖cval w‖ ≤ 2 ^ (201 : ℤ) := by
    have k := norm_sub_norm_le (cval w) c⁻¹
    have k0 : ‖c⁻¹‖ ≤ 2 ^ (200 : ℤ) := by
      rw [norm_inv, inv_le_comm₀ hc0 (F64.two_zpow_pos _), ← zpow_neg]; exact hcl
    have e : (2 : ℝ) ^ (201 : ℤ) = 2 * 2 ^ (200 : ℤ) := by
      rw [show (201 : ℤ) = 1 + 200 from by norm_num only, zpow_add₀ (by norm_num), zpow_one]
    rw [e]
    have k3 := mul_le_mul_of_nonneg_right hε (norm_nonneg c⁻¹)
    change ‖cval w - c⁻¹‖ ≤ 4 * ε * ‖c⁻¹‖ at hw
    have k4 := norm_nonneg c⁻¹
    generalize (2 : ℝ) ^ (200 : ℤ) = y at *
    generalize ‖c⁻¹‖ = q at *
    linarith only [k, k0, k3, hw, k4]
  obtain ⟨fU, nU⟩ := product_real .cplx t (ComPlex.from w) x fW hF (by
    rw [eW, ← zpow_natCast]
    refine (mul_le_mul hwb h2 (Real.sqrt_nonneg _) (F64.two_zpow_pos _).le).trans ?_
    rw [← zpow_add₀ (by norm_num)]
    exact zpow_le_zpow_right₀ one_le_two (by norm_num))
  rw [eW] at nU
  exact ⟨w, ew, hw, fU, nU⟩

/-- **C80.** The polar form in binary64, for every type: the amplitude and `U = inverse(amplitude(x)) * x` are
finite, `a * U` (worked out exactly) is `x` to within `4 ε + 29 u` of its length, and `U * dirverse(U)` is one to
within `(30 ε + 210 u) κ`, where `κ = |x|^2 / |x * dirverse(x)|` is the condition number. -/
theorem C80_polar_binary64 [LibM F64] (ε : ℝ) (h0 : 0 ≤ ε) (hε : ε ≤ 1 / 100) (hl : LibcOk ε) (hr : LibcSqrtOk ε)
    (t : Ty) (ht : t ≠ .dub) (x : t.D F64) (hf : ∀ c ∈ comps t x, c.Finite)
    (h1 : (2 : ℝ) ^ (-100 : ℤ) ≤ euclid t x) (h2 : euclid t x ≤ 2 ^ (100 : ℤ))
    (z : ComPlex ℝ) (hz : toMV z = realMV t x * dirverse (realMV t x)) (hz0 : z.num ≠ 0)
    (κ : ℝ) (hκ : κ = euclid t x ^ 2 / ‖z.num‖) (hκ1 : (3 * ε + 20 * 2 ^ (-53 : ℤ)) * κ ≤ 1 / 2)
    (hκ2 : κ ≤ 2 ^ (100 : ℤ)) :
    ∃ a : ComPlex F64, amplitudeTy t x = some a ∧ FiniteTy .cplx a ∧
      FiniteTy _ (mulTy .cplx t (inverseCplx a) x) ∧
      length .mv (realMV .cplx a * realMV _ (mulTy .cplx t (inverseCplx a) x) - realMV t x)
        ≤ (4 * ε + 29 * 2 ^ (-53 : ℤ)) * euclid t x ∧
      length .mv (realMV _ (mulTy .cplx t (inverseCplx a) x) * dirverse (realMV _ (mulTy .cplx t (inverseCplx a) x)) - gone)
        ≤ (30 * ε + 210 * 2 ^ (-53 : ℤ)) * κ := by
  have hu0 := uR_nonneg
  have hu := uR_le
  change (3 * ε + 20 * uR) * κ ≤ _ at hκ1
  change ∃ a : ComPlex F64, amplitudeTy t x = some a ∧ FiniteTy .cplx a ∧
      FiniteTy _ (mulTy .cplx t (inverseCplx a) x) ∧
      length .mv (realMV .cplx a * realMV _ (mulTy .cplx t (inverseCplx a) x) - realMV t x)
        ≤ (4 * ε + 29 * uR) * euclid t x ∧
      length .mv (realMV _ (mulTy .cplx t (inverseCplx a) x) * dirverse (realMV _ (mulTy .cplx t (inverseCplx a) x)) - gone)
        ≤ (30 * ε + 210 * uR) * κ
  have hF : FiniteTy t x := finiteTy_of t x hf
  obtain ⟨a, ha, fa, hsq⟩ := C61_square ε h0 hε hr t ht x hF
    (by rw [len_exact]; exact (zpow_le_zpow_right₀ one_le_two (by norm_num)).trans h1)
    (by rw [len_exact]; exact h2.trans (zpow_le_zpow_right₀ one_le_two (by norm_num)))
  refine ⟨a, ha, fa, ?_⟩
  have cd : ∀ M : MultiVector ℚ, castMV (dirverse M) = dirverse (castMV M) := fun M => by
    ext <;> simp only [castMV, mapTy, engabra] <;> push_cast <;> ring
  rw [len_cast, castMV_sub, castMV_mul, castMV_mul, cd, castMV_exact, castMV_exact, len_exact] at hsq
  change _ ≤ (3 * ε + 20 * uR) * _ at hsq
  set N := euclid t x with hN
  set X := realMV t x with hX
  have lX : length .mv X = N := length_realMV t x
  have hN0 : 0 < N := lt_of_lt_of_le (F64.two_zpow_pos _) h1
  set c := cval (ComPlex.toStd a) with hc
  have hza : 0 < ‖z.num‖ := norm_pos_iff.2 hz0
  have hκN : κ * ‖z.num‖ = N ^ 2 := by rw [hκ]; field_simp
  have toLen : ∀ w : ℂ, length .mv (toMV (cplxOf w)) = ‖w‖ := fun w => by
    rw [← cplx_length]; exact length_promote .cplx _
  have hX' : toMV (cplxOf z.num) = X * dirverse X := hz
  have hcc : ‖c * c - z.num‖ ≤ (3 * ε + 20 * uR) * N ^ 2 := by
    rw [realMV_cplx, toMV_cplxOf_mul, ← hX', cplxOf_sub, toLen] at hsq
    exact hsq
  have hzN : ‖z.num‖ ≤ √2 * N ^ 2 := by
    have := length_mul_le X (dirverse X)
    rw [← hX', length_dirverse, lX, toLen, ← pow_two] at this
    exact this
  obtain ⟨hlow, hc2, hc0⟩ := amp_bounds hε hu hN0 hza hκN hκ1 hcc hzN
  have hcl : (2 : ℝ) ^ (-200 : ℤ) ≤ ‖c‖ := by
    refine abs_le_of_sq_le_sq' ?_ hc0.le |>.2
    refine le_trans ?_ hlow
    have k1 : (2 : ℝ) ^ (-100 : ℤ) * 2 ^ (-100 : ℤ) ≤ N ^ 2 := by
      rw [pow_two]; exact mul_le_mul h1 h1 (F64.two_zpow_pos _).le hN0.le
    have k2 : N ^ 2 ≤ 2 ^ (100 : ℤ) * ‖z.num‖ := by
      rw [← hκN]; exact mul_le_mul_of_nonneg_right hκ2 hza.le
    have k3 := k1.trans k2
    rw [← zpow_add₀ (by norm_num), ← div_le_iff₀' (F64.two_zpow_pos _), ← zpow_sub₀ (by norm_num)] at k3
    rw [pow_two, ← zpow_add₀ (by norm_num), le_div_iff₀ (by norm_num)]
    refine le_trans ?_ k3
    calc (2 : ℝ) ^ (-200 + -200 : ℤ) * 2 = 2 ^ (-200 + -200 + 1 : ℤ) := by rw [zpow_add_one₀ (by norm_num)]
      _ ≤ _ := zpow_le_zpow_right₀ one_le_two (by norm_num)
  have hcu : ‖c‖ ≤ 2 ^ (101 : ℤ) := by
    refine hc2.trans ((mul_le_mul_of_nonneg_left h2 (by norm_num)).trans_eq ?_)
    rw [show (101 : ℤ) = 1 + 100 from by norm_num only, zpow_add₀ (by norm_num), zpow_one]
  obtain ⟨w, ew, hw, fU, nU⟩ := polar_quotient h0 hε hl fa hcl hcu hF h2
  rw [ew]
  refine ⟨fU, ?_⟩
  have hτ : (2 : ℝ) ^ (-1057 : ℤ) ≤ 1 / 200 * uR := by
    have : (2 : ℝ) ^ (-1057 : ℤ) ≤ 2 ^ (-8 : ℤ) * 2 ^ (-53 : ℤ) := by
      rw [← zpow_add₀ (by norm_num)]
      exact zpow_le_zpow_right₀ one_le_two (by norm_num)
    exact this.trans (mul_le_mul_of_nonneg_right (by norm_num) hu0)
  rw [realMV_cplx] at nU ⊢
  exact polar_core (U := realMV _ (mulTy .cplx t (ComPlex.from w) x)) h0 hε hu0 hu hN0 lX hza hκN hX' hc0 hlow hc2 hcc hw hτ nU

/-! ## Concrete cases -/

/-- `2 + e1`: the amplitude squares to 3. -/
example : toMV (⟨⟨⟨3⟩⟩, ⟨⟨0⟩⟩⟩ : ComPlex ℝ)
      = promote .mv (⟨⟨⟨2⟩⟩, ⟨⟨1, 0, 0⟩⟩, ⟨⟨0, 0, 0⟩⟩, ⟨⟨0⟩⟩⟩ : MultiVector ℝ)
        * dirverse (promote .mv (⟨⟨⟨2⟩⟩, ⟨⟨1, 0, 0⟩⟩, ⟨⟨0, 0, 0⟩⟩, ⟨⟨0⟩⟩⟩ : MultiVector ℝ)) ∧
    dblMin < ‖(⟨⟨⟨3⟩⟩, ⟨⟨0⟩⟩⟩ : ComPlex ℝ).num‖ := by
  constructor
  · simp only [promote, engabra]; norm_num
  · have e : (⟨⟨⟨3⟩⟩, ⟨⟨0⟩⟩⟩ : ComPlex ℝ).num = 3 := by apply Complex.ext <;> simp [ComPlex.num]
    rw [e, Complex.norm_ofNat]
    unfold dblMin
    rw [div_lt_iff₀ (by positivity)]
    have : (1 : ℝ) ≤ 2 ^ 1022 := one_le_pow₀ (by norm_num)
    generalize (2 : ℝ) ^ 1022 = y at *
    linarith

/-- The same element in binary64, with a library accurate to `2^-48`. -/
example : letI := refLibS
    let M : MultiVector F64 := ⟨⟨⟨2⟩⟩, ⟨⟨1, 0, 0⟩⟩, ⟨⟨0, 0, 0⟩⟩, ⟨⟨0⟩⟩⟩
    ∃ a : ComPlex F64, amplitude M = a ∧
      length .mv (realMV .cplx a * realMV .mv (inverseCplx a * M) - realMV .mv M) ≤ 2 ^ (-44 : ℤ) ∧
      length .mv (realMV .mv (inverseCplx a * M) * dirverse (realMV .mv (inverseCplx a * M)) - gone)
        ≤ 2 ^ (-41 : ℤ) := by
  let _ := refLibS
  intro M
  have z := F64.hasVal_zero'
  have hM : realMV .mv M = ⟨⟨⟨2⟩⟩, ⟨⟨1, 0, 0⟩⟩, ⟨⟨0, 0, 0⟩⟩, ⟨⟨0⟩⟩⟩ := by
    simp only [realMV, promote, realTy, mapTy, M, F64.hasVal_one.2, two_hasVal.2, z.2]
    norm_num
  have hL : euclid .mv M ^ 2 = 5 := by
    rw [← length_realMV, length_sq, hM]; simp only [magSqTy, engabra]; norm_num
  have hL0 : 0 ≤ euclid .mv M := Real.sqrt_nonneg _
  have h1 : 1 ≤ euclid .mv M := by rw [← one_le_sq_iff₀ hL0, hL]; norm_num
  have h2 : euclid .mv M ≤ 9 / 4 := le_of_sq_le_sq (by rw [hL]; norm_num) (by norm_num)
  have hn : (⟨⟨⟨3⟩⟩, ⟨⟨0⟩⟩⟩ : ComPlex ℝ).num = 3 := by apply Complex.ext <;> simp [ComPlex.num]
  have hl : @LibcOk refLibS (2 ^ (-48 : ℤ)) := by
    obtain ⟨l1, l2, l3, l4, l5⟩ := refLibC_ok
    exact ⟨l1, l2, l3, l4, l5⟩
  have hr : LibcSqrtOk (2 ^ (-48 : ℤ)) := by
    refine ⟨fun y hy hb => ?_, refLibS_ok.real, refLibS_ok.conj⟩
    obtain ⟨f, r, e1, e2, e3⟩ := refLibS_ok.root y hy hb
    exact ⟨f, r, e1, e2, e3.trans (mul_le_mul_of_nonneg_right
      (zpow_le_zpow_right₀ one_le_two (by norm_num)) (norm_nonneg _))⟩
  obtain ⟨a, ha, -, -, k1, k2⟩ := C80_polar_binary64 (2 ^ (-48 : ℤ)) (by positivity) (by norm_num) hl hr
    .mv (by decide) M
    (by
      intro c hc
      simp only [comps, M, List.mem_cons, List.not_mem_nil, or_false] at hc
      rcases hc with rfl | rfl | rfl | rfl | rfl | rfl | rfl | rfl
      exacts [two_hasVal.1, F64.hasVal_one.1, z.1, z.1, z.1, z.1, z.1, z.1])
    (le_trans (zpow_le_one_of_nonpos₀ (by norm_num) (by norm_num)) h1)
    (h2.trans (le_trans (by norm_num : (9 / 4 : ℝ) ≤ 2 ^ (2 : ℤ)) (zpow_le_zpow_right₀ one_le_two (by norm_num))))
    ⟨⟨⟨3⟩⟩, ⟨⟨0⟩⟩⟩ (by rw [hM]; simp only [engabra]; norm_num) (by rw [hn]; norm_num) (5 / 3)
    (by rw [hL, hn, Complex.norm_ofNat]) (by norm_num)
    (le_trans (by norm_num : (5 / 3 : ℝ) ≤ 2 ^ (2 : ℤ)) (zpow_le_zpow_right₀ one_le_two (by norm_num)))
  refine ⟨a, Option.some.inj ha, ?_, ?_⟩
  · exact (show _ ≤ _ from k1).trans ((mul_le_mul_of_nonneg_left h2 (by positivity)).trans (by norm_num))
  · exact (show _ ≤ _ from k2).trans (by norm_num)

end Engabra
