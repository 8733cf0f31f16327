import Verif.Props.C51_LogAccuracy
import Verif.Props.C52_Axis

/-! # C53: logarithms and square roots of spinors, the real axis included

`logG2` treats a spinor as a real number when the computed cosine of its angle is within `2^-52` of
plus or minus one.  Here the round trips through `exp` and through squaring are followed for every
spinor of the central range, whichever branch the code takes, and the exact result is given for
spinors with a dominant scalar part. -/

namespace Engabra

open F64 (Finite HasVal)
open Spec

/-! ## Which branch -/

theorem dirCos_dominant {S : Spinor F64} (h : Dominant .spin S S.theSca.theData.d0) :
    (directionTy .spin S).theSca.theData.d0.value
        = S.theSca.theData.d0.value / |S.theSca.theData.d0.value| ∨
    (directionTy .spin S).theSca.theData.d0.value
        = (1 - 2 ^ (-53 : ℤ)) * (S.theSca.theData.d0.value / |S.theSca.theData.d0.value|) := by
  obtain ⟨r, h1, -, -, h3⟩ := C52_direction .spin S _ h
  have e : (directionTy .spin S).theSca.theData.d0 = r * S.theSca.theData.d0 := by
    generalize directionTy .spin S = T at h1
    obtain ⟨⟨⟨w⟩⟩, ⟨⟨b0, b1, b2⟩⟩⟩ := S
    obtain ⟨⟨⟨w'⟩⟩, ⟨⟨b0', b1', b2'⟩⟩⟩ := T
    simp only [comps, List.map_cons, List.map_nil, List.cons.injEq] at h1
    exact h1.1
  rw [e]
  exact h3

theorem euclid_dominant {S : Spinor F64} : |(S.theSca.theData.d0.value : ℝ)| ≤ euclid .spin S := by
  apply Real.abs_le_sqrt
  have := (Rat.cast_le (K := ℝ)).2 (list_le_sum (comps .spin S) (c := S.theSca.theData.d0) (by
    obtain ⟨⟨⟨w⟩⟩, ⟨⟨b0, b1, b2⟩⟩⟩ := S
    simp [comps]))
  rw [Rat.cast_mul, ← pow_two] at this
  exact this

/-- **C53.** A positive scalar part which dominates the bivector part (by `2^30` or more) makes
`logG2` drop the bivector part: the result is `log` of the scalar part, exactly as for a real
number. -/
theorem C53_log_dominant_pos [LibM F64] (S : Spinor F64) (D : BiVector F64)
    (h : Dominant .spin S S.theSca.theData.d0) (hv : isValid S = true)
    (hm : (2 : ℚ) ^ (-51 : ℤ) ≤ S.theSca.theData.d0.value) :
    logG2 S D = ⟨⟨⟨LibM.log S.theSca.theData.d0⟩⟩, gzero⟩ := by
  have hp : 0 < S.theSca.theData.d0.value := lt_of_lt_of_le (F64.two_zpow_pos _) hm
  have hm' : (2 : ℝ) ^ (-51 : ℤ) ≤ euclid .spin S := by
    refine le_trans ?_ euclid_dominant
    rw [← cast_zpow, ← Rat.cast_abs, abs_of_pos hp]
    exact Rat.cast_le.2 hm
  rw [logG2_eval S D h.central hv hm', if_pos, C52_magnitude .spin S _ h]
  · congr 3
    refine congrArg LibM.log (F64.eq_of_val (F64.HasVal.abs (HasVal.of h.1.1)) ?_ (abs_pos.2 hp.ne').ne')
    rw [abs_of_pos hp]
    exact HasVal.of h.1.1
  · have := dirCos_dominant h
    rw [abs_of_pos hp, div_self hp.ne'] at this
    rcases this with e | e <;> rw [e] <;> norm_num

/-- **C53.** A negative scalar part which dominates the bivector part makes `logG2` replace the
bivector part by half a turn in the plane of the second argument. -/
theorem C53_log_dominant_neg [LibM F64] (S : Spinor F64) (D : BiVector F64)
    (h : Dominant .spin S S.theSca.theData.d0) (hv : isValid S = true)
    (hm : S.theSca.theData.d0.value ≤ -(2 : ℚ) ^ (-51 : ℤ)) :
    logG2 S D = ⟨⟨⟨LibM.log (-S.theSca.theData.d0)⟩⟩, Dbl.pi F64 * direction D⟩ := by
  have hp : S.theSca.theData.d0.value < 0 := lt_of_le_of_lt hm (neg_lt_zero.2 (F64.two_zpow_pos _))
  have hm' : (2 : ℝ) ^ (-51 : ℤ) ≤ euclid .spin S := by
    refine le_trans ?_ euclid_dominant
    rw [← cast_zpow, ← Rat.cast_abs, abs_of_neg hp]
    exact Rat.cast_le.2 (le_neg.1 hm)
  rw [logG2_eval S D h.central hv hm', C52_magnitude .spin S _ h]
  have := dirCos_dominant h
  rw [abs_of_neg hp, div_neg, div_self hp.ne] at this
  rw [if_neg, if_pos]
  · congr 3
    refine congrArg LibM.log (F64.eq_of_val (F64.HasVal.abs (HasVal.of h.1.1)) ?_ (abs_pos.2 hp.ne).ne')
    rw [abs_of_neg hp]
    exact F64.HasVal.neg (HasVal.of h.1.1)
  · rcases this with e | e <;> rw [e] <;> norm_num
  · rcases this with e | e <;> rw [e] <;> norm_num

/-- A computed cosine beyond the guard: the scalar part carries nearly all of the magnitude. -/
theorem near_axis {S : Spinor F64} (h : Central .spin S) {σ : ℝ} (hσ : σ = 1 ∨ σ = -1)
    (hC : 1 - (2 : ℝ) ^ (-52 : ℤ) < σ * (directionTy .spin S).theSca.theData.d0.value) :
    |σ * euclid .spin S - S.theSca.theData.d0.value| ≤ 11 * uR * euclid .spin S ∧
    euclid .biv S.theBiv ≤ 2 ^ (-24 : ℤ) * euclid .spin S := by
  obtain ⟨hl, -, -⟩ := central_real h
  have hE : 0 < euclid .spin S := lt_of_lt_of_le (F64.two_zpow_pos _) hl
  have hcir := circle S hE
  have hc : |((directionTy .spin S).theSca.theData.d0.value : ℝ) - S.theSca.theData.d0.value / euclid .spin S|
      ≤ 8 * uR * |S.theSca.theData.d0.value / euclid .spin S| + 2 ^ (-1075 : ℤ) := by
    obtain ⟨f, hf, hd⟩ := C34_direction .spin S h
    generalize directionTy .spin S = T at hf ⊢
    generalize euclid .spin S = E at *
    obtain ⟨⟨⟨w⟩⟩, ⟨⟨b0, b1, b2⟩⟩⟩ := S
    obtain ⟨⟨⟨w'⟩⟩, ⟨⟨b0', b1', b2'⟩⟩⟩ := T
    simp only [comps, List.map_cons, List.map_nil, List.cons.injEq] at hf
    have := (hd w (by simp [comps])).2
    rw [← hf.1] at this
    exact this
  have hη3 : (2 : ℝ) ^ (-1075 : ℤ) ≤ 1 / 1000 * uR := tiny_le_uR
  have hη0 : (0 : ℝ) < 2 ^ (-1075 : ℤ) := F64.two_zpow_pos _
  have hu : uR = 1 / 9007199254740992 := by unfold uR; norm_num
  have e52 : (2 : ℝ) ^ (-52 : ℤ) = 2 * uR := by unfold uR; norm_num
  rw [e52] at hC
  have hV0 : 0 ≤ euclid .biv S.theBiv / euclid .spin S := div_nonneg (Real.sqrt_nonneg _) hE.le
  have hW1 : |(S.theSca.theData.d0.value : ℝ) / euclid .spin S| ≤ 1 := by
    rw [abs_div, abs_of_pos hE, div_le_one hE]; exact euclid_dominant
  have goal1 : |σ - S.theSca.theData.d0.value / euclid .spin S| ≤ 11 * uR ∧
      euclid .biv S.theBiv / euclid .spin S ≤ 2 ^ (-24 : ℤ) := by
    generalize (S.theSca.theData.d0.value : ℝ) / euclid .spin S = W at *
    generalize euclid .biv S.theBiv / euclid .spin S = V at *
    generalize ((directionTy .spin S).theSca.theData.d0.value : ℝ) = C at *
    generalize (2 : ℝ) ^ (-1075 : ℤ) = η at *
    have h8 : 8 * uR * |W| ≤ 8 * uR := mul_le_of_le_one_right (by rw [hu]; norm_num) hW1
    have hd := hc.trans (add_le_add_left h8 η)
    obtain ⟨c1, c2⟩ := abs_le.1 hd
    obtain ⟨w1, w2⟩ := abs_le.1 hW1
    have key : 1 - 11 * uR ≤ σ * W := by
      rcases hσ with rfl | rfl
      · rw [one_mul] at hC ⊢
        generalize uR = u at *
        linarith only [hC, c1, c2, hη3, hη0, hu]
      · rw [neg_one_mul] at hC ⊢
        generalize uR = u at *
        linarith only [hC, c1, c2, hη3, hη0, hu]
    constructor
    · rcases hσ with rfl | rfl
      · rw [one_mul] at key; rw [abs_le]
        constructor
        · rw [hu]; linarith only [w1, w2]
        · linarith only [key]
      · rw [neg_one_mul] at key; rw [abs_le]
        constructor
        · linarith only [key]
        · rw [hu]; linarith only [w1, w2]
    · have hW2 : (1 - 11 * uR) ^ 2 ≤ W ^ 2 := by
        have : W ^ 2 = (σ * W) ^ 2 := by rcases hσ with rfl | rfl <;> ring
        rw [this]
        exact pow_le_pow_left₀ (by rw [hu]; norm_num) key 2
      refine (abs_le_of_sq_le_sq' ?_ (by norm_num)).2
      have e : (1 : ℝ) ≤ (1 - 11 * uR) ^ 2 + (2 ^ (-24 : ℤ)) ^ 2 := by rw [hu]; norm_num
      linarith only [e, hW2, hcir]
  obtain ⟨g1, g2⟩ := goal1
  constructor
  · have e : σ * euclid .spin S - S.theSca.theData.d0.value
        = (σ - S.theSca.theData.d0.value / euclid .spin S) * euclid .spin S := by field_simp
    rw [e, abs_mul, abs_of_pos hE]
    exact mul_le_mul_of_nonneg_right g1 hE.le
  · exact (div_le_iff₀ hE).1 g2

/-- A computed cosine within the guard: the bivector part is at least `2^-31` of the magnitude. -/
theorem off_axis_ratio {S : Spinor F64} (h : Central .spin S)
    (h1 : ¬ 1 - (2 : ℚ) ^ (-52 : ℤ) < (directionTy .spin S).theSca.theData.d0.value)
    (h2 : ¬ (directionTy .spin S).theSca.theData.d0.value < -(1 - (2 : ℚ) ^ (-52 : ℤ))) :
    (2 : ℝ) ^ (-31 : ℤ) ≤ euclid .biv S.theBiv / euclid .spin S := by
  obtain ⟨hl, -, -⟩ := central_real h
  have hE : 0 < euclid .spin S := lt_of_lt_of_le (F64.two_zpow_pos _) hl
  -- the scalar part does not dominate
  have hnd : ∃ c ∈ comps .biv S.theBiv, (2 : ℚ) ^ (-30 : ℤ) * |S.theSca.theData.d0.value| < |c.value| := by
    by_contra hcon
    push Not at hcon
    have hmem : ∀ c ∈ comps .biv S.theBiv, c ∈ comps .spin S := fun c hc => by
      obtain ⟨⟨⟨w⟩⟩, ⟨⟨b0, b1, b2⟩⟩⟩ := S
      simp only [comps, List.mem_cons] at hc ⊢
      exact Or.inr hc
    have hw : S.theSca.theData.d0 ∈ comps .spin S := by
      obtain ⟨⟨⟨w⟩⟩, ⟨⟨b0, b1, b2⟩⟩⟩ := S
      simp [comps]
    have hdom : Dominant .spin S S.theSca.theData.d0 := by
      refine ⟨⟨(h.1 _ hw).1, ?_, (h.1 _ hw).2⟩, [], comps .biv S.theBiv, ?_, fun c hc => ?_⟩
      · obtain ⟨c, hc, hcb⟩ := h.2
        have hc' : c = S.theSca.theData.d0 ∨ c ∈ comps .biv S.theBiv := by
          obtain ⟨⟨⟨w⟩⟩, ⟨⟨b0, b1, b2⟩⟩⟩ := S
          simpa only [comps, List.mem_cons] using hc
        rcases hc' with rfl | hc'
        · exact hcb
        · refine hcb.trans ((hcon c hc').trans (mul_le_of_le_one_left (abs_nonneg _) (by norm_num)))
      · obtain ⟨⟨⟨w⟩⟩, ⟨⟨b0, b1, b2⟩⟩⟩ := S
        rfl
      · rw [List.nil_append] at hc
        exact ⟨(h.1 c (hmem c hc)).1, hcon c hc⟩
    have hs : S.theSca.theData.d0.value / |S.theSca.theData.d0.value| = 1 ∨
        S.theSca.theData.d0.value / |S.theSca.theData.d0.value| = -1 := by
      have h0 : S.theSca.theData.d0.value ≠ 0 := fun h0 => by
        have := hdom.1.2.1
        rw [h0, abs_zero] at this
        exact absurd this (not_le.2 (F64.two_zpow_pos _))
      exact eq_or_eq_neg_of_abs_eq (abs_div_abs h0)
    rcases dirCos_dominant hdom with e | e <;> rw [e] at h1 h2 <;> rcases hs with e' | e' <;>
      rw [e'] at h1 h2
    · exact h1 (by norm_num)
    · exact h2 (by norm_num)
    · exact h1 (by norm_num)
    · exact h2 (by norm_num)
  obtain ⟨c, hc, hlt⟩ := hnd
  have hcV : |(c.value : ℝ)| ≤ euclid .biv S.theBiv := by
    apply Real.abs_le_sqrt
    have := (Rat.cast_le (K := ℝ)).2 (list_le_sum (comps .biv S.theBiv) hc)
    rw [Rat.cast_mul, ← pow_two] at this
    exact this
  have hlt' : (2 : ℝ) ^ (-30 : ℤ) * |(S.theSca.theData.d0.value : ℝ)| ≤ euclid .biv S.theBiv := by
    refine le_trans ?_ hcV
    have := (Rat.cast_le (K := ℝ)).2 hlt.le
    rw [Rat.cast_mul, cast_zpow, Rat.cast_abs, Rat.cast_abs] at this
    exact this
  have hsq := euclid_spin_sq S
  have hV0 : 0 ≤ euclid .biv S.theBiv := Real.sqrt_nonneg _
  rw [le_div_iff₀ hE]
  refine (abs_le_of_sq_le_sq' ?_ hV0).2
  rw [mul_pow, hsq]
  have h3 := pow_le_pow_left₀ (by positivity) hlt' 2
  rw [mul_pow, sq_abs] at h3
  have e1 : ((2 : ℝ) ^ (-31 : ℤ)) ^ 2 = 1 / 4 * (2 ^ (-30 : ℤ)) ^ 2 := by norm_num
  have e2 : ((2 : ℝ) ^ (-30 : ℤ)) ^ 2 ≤ 1 := by norm_num
  have h4 := mul_le_of_le_one_left (sq_nonneg (euclid .biv S.theBiv)) e2
  rw [e1]
  have h5 := sq_nonneg (euclid .biv S.theBiv)
  have e3 : 1 / 4 * ((2 : ℝ) ^ (-30 : ℤ)) ^ 2 * ((S.theSca.theData.d0.value : ℝ) ^ 2 + euclid .biv S.theBiv ^ 2)
      = 1 / 4 * (((2 : ℝ) ^ (-30 : ℤ)) ^ 2 * (S.theSca.theData.d0.value : ℝ) ^ 2)
        + 1 / 4 * (((2 : ℝ) ^ (-30 : ℤ)) ^ 2 * euclid .biv S.theBiv ^ 2) := by ring
  rw [e3]
  generalize ((2 : ℝ) ^ (-30 : ℤ)) ^ 2 * (S.theSca.theData.d0.value : ℝ) ^ 2 = x at *
  generalize ((2 : ℝ) ^ (-30 : ℤ)) ^ 2 * euclid .biv S.theBiv ^ 2 = y at *
  linarith only [h3, h4, h5]

/-! ## Computed logarithm, exponential, square -/

theorem logR_spec_gen (S : Spinor F64) (hm : (2 : ℝ) ^ (-51 : ℤ) ≤ euclid .spin S)
    (hV : (2 : ℝ) ^ (-31 : ℤ) ≤ euclid .biv S.theBiv / euclid .spin S) :
    expR (logR S).theSca.theData.d0 (logR S).theBiv = realTy .spin S ∧
    length .biv (logR S).theBiv = angleF S ∧ (2 : ℝ) ^ (-31 : ℤ) ≤ angleF S ∧ angleF S < Real.pi := by
  have h1 : eps < length .spin (realTy .spin S : Spinor ℝ) := by
    rw [length_realTy]
    refine lt_of_lt_of_le ?_ hm
    unfold eps; norm_num
  have hE : 0 < euclid .spin S := lt_of_lt_of_le (F64.two_zpow_pos _) hm
  have hV0 : 0 < euclid .biv S.theBiv / euclid .spin S := lt_of_lt_of_le (F64.two_zpow_pos _) hV
  have hb : 0 < euclid .biv S.theBiv := by
    have := mul_pos hV0 hE
    rwa [div_mul_cancel₀ _ hE.ne'] at this
  obtain ⟨h2, h3⟩ := cos_sin_angle _ h1
  have e : (realTy .spin S : Spinor ℝ).theBiv = realTy .biv S.theBiv := rfl
  rw [← angleF_eq, length_realTy] at h2 h3
  rw [e, length_realTy] at h3
  have hnn : 0 ≤ angleF S := Complex.arg_nonneg_iff.2 hV0.le
  have h4 : (2 : ℝ) ^ (-31 : ℤ) ≤ angleF S := by
    refine hV.trans ?_
    rw [← h3]
    exact Real.sin_le hnn
  have h8 : 0 < angleF S := lt_of_lt_of_le (F64.two_zpow_pos _) h4
  have h5 : angleF S < Real.pi := by
    refine lt_of_le_of_ne (Complex.arg_le_pi _) fun hc => ?_
    rw [hc, Real.sin_pi] at h3
    exact hV0.ne h3
  refine ⟨?_, ?_, h4, h5⟩
  · change expR (Real.log (euclid .spin S)) ((angleF S / euclid .biv S.theBiv : ℝ) * realTy .biv S.theBiv) = _
    have hd := expR_dir (Real.log (euclid .spin S)) (angleF S) (realTy .biv S.theBiv)
      (by rw [length_realTy]; exact hb)
    rw [length_realTy] at hd
    rw [hd, Real.exp_log hE, h2, h3]
    have e' : euclid .spin S * (euclid .biv S.theBiv / euclid .spin S / euclid .biv S.theBiv) = 1 := by
      field_simp
    have e'' : euclid .spin S * ((realTy .spin S : Spinor ℝ).theSca.theData.d0 / euclid .spin S)
        = (realTy .spin S : Spinor ℝ).theSca.theData.d0 := by field_simp
    rw [e', e'']
    ext <;> simp only [engabra, one_mul] <;> rfl
  · change length .biv ((angleF S / euclid .biv S.theBiv : ℝ) * realTy .biv S.theBiv) = _
    rw [length_smul_biv, length_realTy, abs_of_pos (div_pos h8 hb), div_mul_cancel₀ _ hb.ne']

/-- The second argument of `logG2` and `sqrtG2` is a usable plane: central, and its first component
zero or not extremely small (see `FirstFair`). -/
def FairPlane (D : BiVector F64) : Prop :=
  Central .biv D ∧ (D.theData.d0.value = 0 ∨
    (2 : ℝ) ^ (-300 : ℤ) * euclid .biv D ≤ |(D.theData.d0.value : ℝ)|)

theorem pi_rel : |((Dbl.pi F64).value : ℝ) - Real.pi| ≤ uR * Real.pi + 2 ^ (-1075 : ℤ) := by
  have hv : (Dbl.pi F64).value = F64.rnVal Real.pi := by rw [pi_eq, rnVal_real_pi]; rfl
  rw [hv]
  have := F64.rn_rel (K := ℝ) (x := Real.pi) (by
    rw [abs_of_pos Real.pi_pos]
    refine le_trans ?_ (le_of_lt Real.pi_gt_three)
    exact (zpow_le_one_of_nonpos₀ (by norm_num) (by norm_num)).trans (by norm_num))
  rw [abs_of_pos Real.pi_pos] at this
  exact this.trans (le_add_of_nonneg_right (F64.two_zpow_pos _).le)

/-- Half a turn in the plane of `D`. -/
theorem half_turn {D : BiVector F64} (h : Central .biv D) {ε : ℝ} (hε0 : 0 ≤ ε) :
    List.Forall₂ (fun g y => (g.Finite ∧
        |(g.value : ℝ) - y| ≤ (11 / 10 * ε + 64 * uR) * |y| + 2 ^ (-669 : ℤ)) ∧ (y = 0 → g.value = 0))
      (comps .biv (Dbl.pi F64 * direction D : BiVector F64))
      (comps .biv ((Real.pi / euclid .biv D : ℝ) * realTy .biv D : BiVector ℝ)) := by
  obtain ⟨hl, -, -⟩ := central_real h
  have hE : 0 < euclid .biv D := lt_of_lt_of_le (F64.two_zpow_pos _) hl
  obtain ⟨f, hf, hd⟩ := C34_direction .biv D h
  have hn := fun c hc => unit_comp h (c := c) hc
  have hu0 := uR_nonneg
  have hu := uR_le
  have hη0 : (0 : ℝ) ≤ 2 ^ (-1075 : ℤ) := (F64.two_zpow_pos _).le
  have hκ : (2 : ℝ) ^ (-669 : ℤ) = 8 * 2 ^ (-672 : ℤ) := by
    rw [show (-669 : ℤ) = 3 + -672 from by norm_num only, zpow_add₀ (by norm_num)]; norm_num
  have hκη : (2 : ℝ) ^ (-1075 : ℤ) ≤ 2 ^ (-672 : ℤ) := zpow_le_zpow_right₀ (by norm_num) (by norm_num)
  have hκ1 : (2 : ℝ) ^ (-672 : ℤ) ≤ 1 / 1000 := by
    calc (2 : ℝ) ^ (-672 : ℤ) ≤ (2 : ℝ) ^ (-10 : ℤ) :=
          zpow_le_zpow_right₀ (by norm_num) (by norm_num)
      _ ≤ _ := by norm_num
  have hpf : (Dbl.pi F64).Finite := by rw [pi_eq]; trivial
  have hp := pi_rel
  have e1 : comps .biv (Dbl.pi F64 * direction D : BiVector F64)
      = (comps .biv D).map fun c => Dbl.pi F64 * f c := by
    have : comps .biv (Dbl.pi F64 * direction D : BiVector F64)
        = (comps .biv (directionTy .biv D)).map (Dbl.pi F64 * ·) := rfl
    rw [this, hf, List.map_map]; rfl
  have e2 : comps .biv ((Real.pi / euclid .biv D : ℝ) * realTy .biv D : BiVector ℝ)
      = (comps .biv D).map fun c => Real.pi * ((c.value : ℝ) / euclid .biv D) := by
    simp only [comps, realTy, mapTy, engabra, List.map_cons, List.map_nil]
    congr 1
    · ring
    · congr 1
      · ring
      · congr 1; ring
  rw [e1, e2, List.forall₂_map_left_iff, List.forall₂_map_right_iff]
  generalize Dbl.pi F64 = α at *
  have hπ0 := Real.pi_pos
  have hπ4 := Real.pi_lt_four
  refine List.forall₂_same.2 fun c hc => ?_
  obtain ⟨g1, g2⟩ := hd c hc
  have hz : (c.value : ℝ) / euclid .biv D = 0 → (f c).value = 0 := fun h0 => by
    rw [h0, abs_zero, mul_zero, zero_add, sub_zero] at g2
    exact value_zero_of_tiny g2
  have hnc := hn c hc
  generalize (c.value : ℝ) / euclid .biv D = n at *
  generalize f c = g at *
  have g3 : |(g.value : ℝ) - n| ≤ 8 * uR * |n| + 2 ^ (-672 : ℤ) := g2.trans (add_le_add_right hκη _)
  have P := fun r => prod_est (r := r) hu0 (by linarith)
    (by linarith : 0 ≤ 8 * uR) (by linarith) hu0 (by linarith) hη0 hκη hκ1 hπ0.le hπ4.le hnc hp g3
  have hbd : |(α.value : ℝ) * g.value| ≤ 5 :=
    (P (α.value * g.value) (by rw [sub_self, abs_zero]; positivity)).1
  obtain ⟨f1, f2⟩ := mul_real hpf g1 (hbd.trans (by
    calc (5 : ℝ) ≤ 2 ^ 3 := by norm_num
      _ ≤ 2 ^ 1022 := pow_le_pow_right₀ (by norm_num) (by norm_num)))
  refine ⟨⟨f1, (P _ f2).2.trans ?_⟩, fun h0 => ?_⟩
  swap
  · have hn0 : n = 0 := (mul_eq_zero.1 h0).resolve_left hπ0.ne'
    rw [hz hn0, Rat.cast_zero, mul_zero, sub_zero, abs_zero, mul_zero, zero_add] at f2
    exact value_zero_of_tiny f2
  rw [hκ]
  refine add_le_add ?_ le_rfl
  refine mul_le_mul_of_nonneg_right ?_ (abs_nonneg _)
  generalize uR = u at *
  linarith

theorem length_zero_biv : length .biv (⟨⟨0, 0, 0⟩⟩ : BiVector ℝ) = 0 := by
  unfold length
  simp only [comps, List.map_cons, List.map_nil, List.sum_cons, List.sum_nil, ne_eq, OfNat.ofNat_ne_zero,
    not_false_eq_true, zero_pow, add_zero, Real.sqrt_zero]

/-- `exp` of a spinor with zero bivector part. -/
theorem exp_of_real [LibM F64] {ε d l : ℝ} (hε0 : 0 ≤ ε) (hε : ε ≤ 1 / 100)
    (hexp : LibmExpOk ε) (L' : Spinor F64) (hf : L'.theSca.theData.d0.Finite)
    (hs : |(L'.theSca.theData.d0.value : ℝ) - l| ≤ d) (hd : d ≤ 1 / 100)
    (hB : ∀ c ∈ comps .biv L'.theBiv, c.Finite ∧ c.value = 0)
    (h1 : (2 : ℝ) ^ (-900 : ℤ) ≤ Real.exp l) (h2 : Real.exp l ≤ 2 ^ (900 : ℤ)) :
    List.Forall₂ (fun g y => g.Finite ∧
        |(g.value : ℝ) - y| ≤ Real.exp l * (101 / 100 * d + 23 / 10 * ε + 33 * uR))
      (comps .spin (expSpin L')) (comps .spin (expR l (⟨⟨0, 0, 0⟩⟩ : BiVector ℝ))) := by
  obtain ⟨⟨⟨l'⟩⟩, B'⟩ := L'
  simp only at *
  have hX := Real.exp_pos l
  obtain ⟨-, p2⟩ := exp_pert hs hd (y' := 0) (y := 0) (δ := 0) (by simp) (by simp)
  have hXl : Real.exp l ≤ 102 / 100 * Real.exp (l'.value : ℝ) :=
    (exp_pert (by rw [abs_sub_comm]; exact hs) hd (y' := 0) (y := 0) (δ := 0) (by simp) (by simp)).2
  have hX' := Real.exp_pos (l'.value : ℝ)
  have u1 : (2 : ℝ) ^ (-1000 : ℤ) ≤ Real.exp (l'.value : ℝ) := by
    have : (2 : ℝ) ^ (-1000 : ℤ) * 2 ≤ 2 ^ (-900 : ℤ) := by
      rw [← zpow_add_one₀ (by norm_num)]
      exact zpow_le_zpow_right₀ (by norm_num) (by norm_num)
    generalize (2 : ℝ) ^ (-1000 : ℤ) = x at *
    generalize (2 : ℝ) ^ (-900 : ℤ) = y at *
    linarith only [this, h1, hXl, hX']
  have u2 : Real.exp (l'.value : ℝ) ≤ 2 ^ (1000 : ℤ) := by
    have : (2 : ℝ) ^ (900 : ℤ) * 2 ≤ 2 ^ (1000 : ℤ) := by
      rw [← zpow_add_one₀ (by norm_num)]
      exact zpow_le_zpow_right₀ (by norm_num) (by norm_num)
    generalize (2 : ℝ) ^ (1000 : ℤ) = x at *
    generalize (2 : ℝ) ^ (900 : ℤ) = y at *
    linarith only [this, h2, p2, hX]
  obtain ⟨e1, e2⟩ := hexp l' hf u1 u2
  have hone : comps .spin (expBiv B') = [1, 0, 0, 0] := by
    refine (C46_tiny B' (fun c hc => ⟨(hB c hc).1, ?_⟩) ?_).1
    · rw [(hB c hc).2, abs_zero]; exact (F64.two_zpow_pos _).le
    · obtain ⟨⟨b0, b1, b2⟩⟩ := B'
      obtain ⟨k1, k2⟩ := hB b0 (by simp [comps])
      rw [C11_double]
      cases b0 with
      | nan => exact k1.elim
      | inf _ => exact k1.elim
      | zero s => exact Or.inl ⟨s, rfl⟩
      | fin v hv => exact absurd k2 hv.1
  have ec : comps .spin (expSpin (⟨⟨⟨l'⟩⟩, B'⟩ : Spinor F64))
      = [LibM.exp l' * 1, LibM.exp l' * 0, LibM.exp l' * 0, LibM.exp l' * 0] := by
    change (comps .spin (expBiv B')).map (LibM.exp l' * ·) = _
    rw [hone]; rfl
  have er : comps .spin (expR l (⟨⟨0, 0, 0⟩⟩ : BiVector ℝ)) = [Real.exp l * 1, Real.exp l * 0, Real.exp l * 0, Real.exp l * 0] := by
    have h0 := length_zero_biv
    unfold expR
    simp only [comps, engabra, h0, Real.cos_zero, mul_zero]
  have hu0 := uR_nonneg
  have t1 : (2 : ℝ) ^ (-1075 : ℤ) ≤ Real.exp l * (1 / 10 * uR) := by
    have k1 := mul_le_mul_of_nonneg_right h1 (by linarith : 0 ≤ 1 / 10 * uR)
    refine le_trans ?_ k1
    unfold uR
    have : (2 : ℝ) ^ (-1075 : ℤ) = 2 ^ (-900 : ℤ) * (2 ^ (-122 : ℤ) * 2 ^ (-53 : ℤ)) := by
      rw [← zpow_add₀ (by norm_num), ← zpow_add₀ (by norm_num)]; norm_num only
    rw [this]
    refine mul_le_mul_of_nonneg_left ?_ (F64.two_zpow_pos _).le
    exact mul_le_mul_of_nonneg_right (by norm_num) (F64.two_zpow_pos _).le
  have step : ∀ {y : F64} {Y : ℝ}, HasVal y 1 ∧ Y = 1 ∨ HasVal y 0 ∧ Y = 0 →
      (LibM.exp l' * y).Finite ∧ |((LibM.exp l' * y).value : ℝ) - Real.exp l * Y|
        ≤ Real.exp l * (101 / 100 * d + 23 / 10 * ε + 33 * uR) := by
    intro y Y hy
    have hy' : y.Finite ∧ (y.value : ℝ) = Y ∧ |Y| ≤ 1 := by
      rcases hy with ⟨hy, rfl⟩ | ⟨hy, rfl⟩
      · exact ⟨hy.1, by rw [hy.2]; norm_num, by norm_num⟩
      · exact ⟨hy.1, by rw [hy.2]; norm_num, by norm_num⟩
    obtain ⟨f1, f2⟩ := smul_comp (δ := 0) hε0 hε e1 hy'.1 hX' u2 e2 (by rw [hy'.2.1]; linarith [hy'.2.2])
      (by rw [hy'.2.1, sub_self, abs_zero])
    refine ⟨f1, ?_⟩
    have p3 := (exp_pert hs hd (y' := Y) (y := Y) (δ := 0) hy'.2.2 (by rw [sub_self, abs_zero])).1
    have k := abs_sub_le ((LibM.exp l' * y).value : ℝ) (Real.exp (l'.value : ℝ) * Y) (Real.exp l * Y)
    have k2 := mul_le_mul_of_nonneg_right p2 (by positivity : 0 ≤ 11 / 10 * ε + 0 + 2 * uR)
    have k3 : 0 ≤ Real.exp l * ε := by positivity
    have k4 : 0 ≤ Real.exp l * uR := by positivity
    generalize (2 : ℝ) ^ (-1075 : ℤ) = b at *
    generalize uR = u at *
    linarith only [k, k2, k3, k4, f2, p3, t1]
  rw [ec, er]
  exact .cons (step (Or.inl ⟨F64.hasVal_one, rfl⟩)) (.cons (step (Or.inr ⟨F64.hasVal_zero', rfl⟩))
    (.cons (step (Or.inr ⟨F64.hasVal_zero', rfl⟩)) (.cons (step (Or.inr ⟨F64.hasVal_zero', rfl⟩)) .nil)))

/-- What the computed logarithm is close to, in every branch: a logarithm of a spinor within `2^-24`
of `S`. -/
theorem log_any [LibM F64] {ε : ℝ} (hε0 : 0 ≤ ε) (hε : ε ≤ 1 / 100) (hlib : LibmLogOk ε)
    (S : Spinor F64) (D : BiVector F64) (h : Central .spin S) (hv : isValid S = true)
    (hm : (2 : ℝ) ^ (-51 : ℤ) ≤ euclid .spin S) (hf : FirstFair S) (hD : FairPlane D) :
    (logG2 S D).theSca.theData.d0.Finite ∧
    |((logG2 S D).theSca.theData.d0.value : ℝ) - Real.log (euclid .spin S)|
      ≤ ε * |Real.log (euclid .spin S)| + 6 * uR ∧
    ∃ B : BiVector ℝ,
      List.Forall₂ (fun g y => (g.Finite ∧ |(g.value : ℝ) - y| ≤ (11 / 10 * ε + 64 * uR) * |y| + 2 ^ (-669 : ℤ)) ∧
        (y = 0 → g.value = 0)) (comps .biv (logG2 S D).theBiv) (comps .biv B) ∧
      (B = ⟨⟨0, 0, 0⟩⟩ ∨ ((2 : ℝ) ^ (-31 : ℤ) ≤ length .biv B ∧ length .biv B ≤ 315 / 100 ∧
        (B.theData.d0 = 0 ∨ (2 : ℝ) ^ (-331 : ℤ) ≤ |B.theData.d0|))) ∧
      List.Forall₂ (fun y c => |y - ((F64.value c : ℚ) : ℝ)| ≤ 2 ^ (-24 : ℤ) * euclid .spin S)
        (comps .spin (expR (Real.log (euclid .spin S)) B)) (comps .spin S) := by
  obtain ⟨s1, s2⟩ := log_sca hε0 hε hlib S h
  have hE : 0 < euclid .spin S := lt_of_lt_of_le (F64.two_zpow_pos _) hm
  have hu : uR = 1 / 9007199254740992 := by unfold uR; norm_num
  have hsmall : ∀ c ∈ comps .biv S.theBiv, |(c.value : ℝ)| ≤ euclid .biv S.theBiv := by
    intro c hc
    apply Real.abs_le_sqrt
    have := (Rat.cast_le (K := ℝ)).2 (list_le_sum (comps .biv S.theBiv) hc)
    rw [Rat.cast_mul, ← pow_two] at this
    exact this
  -- closeness of a real number
  have close : ∀ {σ : ℝ} (B : BiVector ℝ), comps .spin (expR (Real.log (euclid .spin S)) B)
        = [σ * euclid .spin S, 0, 0, 0] →
      |σ * euclid .spin S - S.theSca.theData.d0.value| ≤ 11 * uR * euclid .spin S ∧
        euclid .biv S.theBiv ≤ 2 ^ (-24 : ℤ) * euclid .spin S →
      List.Forall₂ (fun y c => |y - ((F64.value c : ℚ) : ℝ)| ≤ 2 ^ (-24 : ℤ) * euclid .spin S)
        (comps .spin (expR (Real.log (euclid .spin S)) B)) (comps .spin S) := by
    intro σ B hB hn
    rw [hB]
    have h11 : 11 * uR * euclid .spin S ≤ 2 ^ (-24 : ℤ) * euclid .spin S :=
      mul_le_mul_of_nonneg_right (by rw [hu]; norm_num) hE.le
    generalize euclid .spin S = E at *
    obtain ⟨⟨⟨w⟩⟩, ⟨⟨b0, b1, b2⟩⟩⟩ := S
    have z : ∀ c ∈ comps .biv (⟨⟨b0, b1, b2⟩⟩ : BiVector F64), |0 - (c.value : ℝ)| ≤ 2 ^ (-24 : ℤ) * E :=
      fun c hc => by rw [zero_sub, abs_neg]; exact (hsmall c hc).trans hn.2
    exact .cons (hn.1.trans h11) (.cons (z b0 (by simp [comps])) (.cons (z b1 (by simp [comps]))
      (.cons (z b2 (by simp [comps])) .nil)))
  have hev := logG2_eval S D h hv hm
  by_cases c1 : 1 - (2 : ℚ) ^ (-52 : ℤ) < (directionTy .spin S).theSca.theData.d0.value
  · rw [if_pos c1] at hev
    rw [hev]
    refine ⟨s1, s2, ⟨⟨0, 0, 0⟩⟩, ?_, Or.inl rfl, ?_⟩
    · have z : ((0 : F64).Finite ∧ |((0 : F64).value : ℝ) - 0| ≤ (11 / 10 * ε + 64 * uR) * |(0 : ℝ)| + 2 ^ (-669 : ℤ)) ∧
          ((0 : ℝ) = 0 → (0 : F64).value = 0) := by
        refine ⟨⟨F64.hasVal_zero'.1, ?_⟩, fun _ => F64.hasVal_zero'.2⟩
        rw [F64.hasVal_zero'.2, Rat.cast_zero, sub_zero, abs_zero, mul_zero, zero_add]
        exact (F64.two_zpow_pos _).le
      exact .cons z (.cons z (.cons z .nil))
    · refine close (σ := 1) _ ?_ (near_axis h (Or.inl rfl) ?_)
      · have h0 := length_zero_biv
        unfold expR
        simp only [comps, engabra, h0, Real.cos_zero, mul_zero, Real.exp_log hE, mul_one, one_mul]
      · rw [one_mul]
        have := (Rat.cast_lt (K := ℝ)).2 c1
        rwa [Rat.cast_sub, Rat.cast_one, cast_zpow] at this
  rw [if_neg c1] at hev
  by_cases c2 : (directionTy .spin S).theSca.theData.d0.value < -(1 - (2 : ℚ) ^ (-52 : ℤ))
  · rw [if_pos c2] at hev
    rw [hev]
    obtain ⟨hl, -, -⟩ := central_real hD.1
    have hEd : 0 < euclid .biv D := lt_of_lt_of_le (F64.two_zpow_pos _) hl
    have hlen : length .biv ((Real.pi / euclid .biv D : ℝ) * realTy .biv D : BiVector ℝ) = Real.pi := by
      rw [length_smul_biv, length_realTy, abs_of_pos (div_pos Real.pi_pos hEd), div_mul_cancel₀ _ hEd.ne']
    refine ⟨s1, s2, (Real.pi / euclid .biv D : ℝ) * realTy .biv D, half_turn hD.1 hε0, Or.inr ⟨?_, ?_, ?_⟩, ?_⟩
    · rw [hlen]
      exact (zpow_le_one_of_nonpos₀ (by norm_num) (by norm_num)).trans (by linarith [Real.pi_gt_three])
    · rw [hlen]; linarith [Real.pi_lt_d2]
    · change Real.pi / euclid .biv D * (D.theData.d0.value : ℝ) = 0 ∨
        _ ≤ |Real.pi / euclid .biv D * (D.theData.d0.value : ℝ)|
      rcases hD.2 with k | k
      · left; rw [k, Rat.cast_zero, mul_zero]
      · right
        rw [abs_mul, abs_of_pos (div_pos Real.pi_pos hEd)]
        have k2 := mul_le_mul_of_nonneg_left k (div_pos Real.pi_pos hEd).le
        refine le_trans ?_ k2
        have e : Real.pi / euclid .biv D * (2 ^ (-300 : ℤ) * euclid .biv D) = Real.pi * 2 ^ (-300 : ℤ) := by
          field_simp
        rw [e]
        calc (2 : ℝ) ^ (-331 : ℤ) ≤ 1 * 2 ^ (-300 : ℤ) := by
              rw [one_mul]; exact zpow_le_zpow_right₀ (by norm_num) (by norm_num)
          _ ≤ _ := mul_le_mul_of_nonneg_right (by linarith [Real.pi_gt_three]) (F64.two_zpow_pos _).le
    · refine close (σ := -1) _ ?_ (near_axis h (Or.inr rfl) ?_)
      · have hd := expR_dir (Real.log (euclid .spin S)) Real.pi (realTy .biv D) (by rw [length_realTy]; exact hEd)
        rw [length_realTy] at hd
        rw [hd]
        simp only [comps, engabra, Real.cos_pi, Real.sin_pi, zero_div, mul_zero, zero_mul, Real.exp_log hE]
        congr 1; ring
      · have := (Rat.cast_lt (K := ℝ)).2 c2
        rw [Rat.cast_neg, Rat.cast_sub, Rat.cast_one, cast_zpow] at this
        linarith
  · rw [if_neg c2] at hev
    have hV := off_axis_ratio h c1 c2
    have hV' := (zpow_le_zpow_right₀ (by norm_num) (by norm_num) : (2 : ℝ) ^ (-400 : ℤ) ≤ _).trans hV
    obtain ⟨e1, e2, e3⟩ := logG2_est_gen hε0 hε hlib S D h hV' hev
    obtain ⟨h1, h2, h3, h4⟩ := logR_spec_gen S hm hV
    refine ⟨e1, e2, (logR S).theBiv, e3, Or.inr ⟨by rw [h2]; exact h3, by rw [h2]; linarith [Real.pi_lt_d2], ?_⟩, ?_⟩
    · have e : (logR S).theBiv.theData.d0 = angleF S / euclid .biv S.theBiv * S.theBiv.theData.d0.value := rfl
      have hb0 : 0 < euclid .biv S.theBiv := by
        have := mul_pos (lt_of_lt_of_le (F64.two_zpow_pos _) hV) hE
        rwa [div_mul_cancel₀ _ hE.ne'] at this
      have h8 : 0 < angleF S := lt_of_lt_of_le (F64.two_zpow_pos _) h3
      rw [e]
      rcases hf with k | k
      · left; rw [k, Rat.cast_zero, mul_zero]
      · right
        rw [abs_mul, abs_of_pos (div_pos h8 hb0)]
        calc (2 : ℝ) ^ (-331 : ℤ) = 2 ^ (-31 : ℤ) * 2 ^ (-300 : ℤ) := by
              rw [← zpow_add₀ (by norm_num)]; norm_num only
          _ ≤ angleF S * 2 ^ (-300 : ℤ) := mul_le_mul_of_nonneg_right h3 (F64.two_zpow_pos _).le
          _ = angleF S / euclid .biv S.theBiv * (2 ^ (-300 : ℤ) * euclid .biv S.theBiv) := by field_simp
          _ ≤ _ := mul_le_mul_of_nonneg_left k (div_pos h8 hb0).le
    · have e : expR (Real.log (euclid .spin S)) (logR S).theBiv = realTy .spin S := h1
      rw [e, show comps .spin (realTy .spin S : Spinor ℝ)
        = (comps .spin S).map fun c => (c.value : ℝ) from rfl, List.forall₂_map_left_iff]
      refine List.forall₂_same.2 fun c _ => ?_
      rw [sub_self, abs_zero]
      positivity

theorem eps_bounds {ε l : ℝ} (hε : ε ≤ 2 ^ (-20 : ℤ)) (hla : |l| ≤ 400) :
    ε * |l| + 6 * uR ≤ 1 / 100 ∧ 11 / 10 * ε + 64 * uR ≤ 1 / 1000 := by
  have hu0 := uR_nonneg
  have hu := uR_le
  constructor
  · have := mul_le_mul hε hla (abs_nonneg _) (by positivity)
    have e : (2 : ℝ) ^ (-20 : ℤ) * 400 ≤ 1 / 1000 := by norm_num
    generalize (2 : ℝ) ^ (-20 : ℤ) = x at *
    generalize uR = u at *
    linarith only [this, e, hu]
  · have e : (2 : ℝ) ^ (-20 : ℤ) ≤ 1 / 10000 := by norm_num
    generalize (2 : ℝ) ^ (-20 : ℤ) = x at *
    generalize uR = u at *
    linarith only [e, hε, hu]

theorem zero_comps {ε : ℝ} {B : BiVector F64}
    (h : List.Forall₂ (fun g y => (g.Finite ∧ |(g.value : ℝ) - y| ≤ (11 / 10 * ε + 64 * uR) * |y| + 2 ^ (-669 : ℤ)) ∧
        (y = 0 → g.value = 0)) (comps .biv B) (comps .biv (⟨⟨0, 0, 0⟩⟩ : BiVector ℝ))) :
    ∀ c ∈ comps .biv B, c.Finite ∧ c.value = 0 := by
  obtain ⟨⟨b0, b1, b2⟩⟩ := B
  simp only [comps, List.forall₂_cons, List.forall₂_nil_left_iff, and_true] at h
  simp only [comps, List.mem_cons, List.not_mem_nil, or_false, forall_eq_or_imp, forall_eq]
  exact ⟨⟨h.1.1.1, h.1.2 trivial⟩, ⟨h.2.1.1.1, h.2.1.2 trivial⟩, ⟨h.2.2.1.1, h.2.2.2 trivial⟩⟩

/-- **C53.** `exp(logG2(S))` against `S`, for every valid spinor of the central range with magnitude
at least `2^-51`, the real axis included: every component of the round trip is finite and within
`|S| ((1.01 |log|S|| + 9) ε + 380 u + 2^-24)` of the component of `S`. -/
theorem C53_exp_log [LibM F64] (ε : ℝ) (hε0 : 0 ≤ ε) (hε : ε ≤ 2 ^ (-20 : ℤ)) (hlog : LibmLogOk ε)
    (hlib : LibmOk ε) (hexp : LibmExpOk ε) (S : Spinor F64) (D : BiVector F64) (h : Central .spin S)
    (hv : isValid S = true) (hm : (2 : ℝ) ^ (-51 : ℤ) ≤ euclid .spin S) (hf : FirstFair S)
    (hD : FairPlane D) :
    List.Forall₂ (fun g c => g.Finite ∧ |(g.value : ℝ) - c.value| ≤ euclid .spin S
          * ((101 / 100 * |Real.log (euclid .spin S)| + 9) * ε + 380 * 2 ^ (-53 : ℤ) + 2 ^ (-24 : ℤ)))
      (comps .spin (expSpin (logG2 S D))) (comps .spin S) := by
  have hε' : ε ≤ 1 / 100 := hε.trans (by norm_num)
  obtain ⟨e1, e2, B, e3, hB, hcl⟩ := log_any hε0 hε' hlog S D h hv hm hf hD
  have hE : 0 < euclid .spin S := lt_of_lt_of_le (F64.two_zpow_pos _) hm
  obtain ⟨-, hup, -⟩ := central_real h
  obtain ⟨hd, hcc⟩ := eps_bounds hε (log_abs_le hm hup)
  have hu0 := uR_nonneg
  have hex : Real.exp (Real.log (euclid .spin S)) = euclid .spin S := Real.exp_log hE
  have g1 : (2 : ℝ) ^ (-900 : ℤ) ≤ Real.exp (Real.log (euclid .spin S)) := by
    rw [hex]; exact (zpow_le_zpow_right₀ (by norm_num) (by norm_num)).trans hm
  have g2 : Real.exp (Real.log (euclid .spin S)) ≤ 2 ^ (900 : ℤ) := by
    rw [hex]; exact hup.trans (zpow_le_zpow_right₀ (by norm_num) (by norm_num))
  have main : List.Forall₂ (fun g y => g.Finite ∧ |((F64.value g : ℚ) : ℝ) - y| ≤ euclid .spin S
          * ((101 / 100 * |Real.log (euclid .spin S)| + 9) * ε + 380 * uR))
      (comps .spin (expSpin (logG2 S D))) (comps .spin (expR (Real.log (euclid .spin S)) B)) := by
    rcases hB with rfl | ⟨k1, k2, k3⟩
    · have := exp_of_real hε0 hε' hexp (logG2 S D) e1 e2 hd (zero_comps e3) g1 g2
      rw [hex] at this
      refine this.imp fun g y hgy => ⟨hgy.1, hgy.2.trans (mul_le_mul_of_nonneg_left ?_ hE.le)⟩
      generalize uR = u at *
      linarith only [hε0, hu0]
    · have := exp_of_log hε0 hε' hlib hexp (logG2 S D) ⟨⟨⟨Real.log (euclid .spin S)⟩⟩, B⟩ e1 e2 hd
        (by positivity) hcc (e3.imp fun _ _ k => ⟨⟨k.1.1, weak669 k.1.2⟩, k.2⟩)
        ((zpow_le_zpow_right₀ (by norm_num) (by norm_num)).trans k1) k2
        (k3.imp id fun k => (zpow_le_zpow_right₀ (by norm_num) (by norm_num)).trans k) g1 g2
      simp only [hex] at this
      refine this.imp fun g y hgy => ⟨hgy.1, hgy.2.trans (mul_le_mul_of_nonneg_left ?_ hE.le)⟩
      generalize uR = u at *
      linarith only [hε0, hu0]
  have glue : ∀ {g c : F64} {y : ℝ}, (g.Finite ∧ |(g.value : ℝ) - y| ≤ euclid .spin S
          * ((101 / 100 * |Real.log (euclid .spin S)| + 9) * ε + 380 * uR)) →
      |y - (c.value : ℝ)| ≤ 2 ^ (-24 : ℤ) * euclid .spin S →
      g.Finite ∧ |(g.value : ℝ) - c.value| ≤ euclid .spin S
          * ((101 / 100 * |Real.log (euclid .spin S)| + 9) * ε + 380 * 2 ^ (-53 : ℤ) + 2 ^ (-24 : ℤ)) := by
    intro g c y a b
    refine ⟨a.1, ((abs_sub_le _ y _).trans (add_le_add a.2 b)).trans (le_of_eq ?_)⟩
    unfold uR
    ring
  generalize expSpin (logG2 S D) = T at *
  generalize expR (Real.log (euclid .spin S)) B = Y at *
  generalize (euclid .spin S) = E at *
  obtain ⟨⟨⟨w⟩⟩, ⟨⟨b0, b1, b2⟩⟩⟩ := S
  obtain ⟨⟨⟨w'⟩⟩, ⟨⟨b0', b1', b2'⟩⟩⟩ := T
  obtain ⟨⟨⟨y⟩⟩, ⟨⟨y0, y1, y2⟩⟩⟩ := Y
  simp only [comps, List.forall₂_cons, List.forall₂_nil_left_iff, and_true] at main hcl ⊢
  exact ⟨glue main.1 hcl.1, glue main.2.1 hcl.2.1, glue main.2.2.1 hcl.2.2.1, glue main.2.2.2 hcl.2.2.2⟩

/-- Squares of nearby spinors. -/
theorem square_close {R Q : Spinor ℝ} {ρ m : ℝ} (hρ : 0 ≤ ρ)
    (hQ : ∀ y ∈ comps .spin Q, |y| ≤ m)
    (h : List.Forall₂ (fun x y => |x - y| ≤ ρ) (comps .spin R) (comps .spin Q)) :
    List.Forall₂ (fun x y => |x - y| ≤ 4 * (ρ * (2 * m + ρ))) (comps .spin (R * R : Spinor ℝ))
      (comps .spin (Q * Q : Spinor ℝ)) := by
  obtain ⟨⟨⟨w⟩⟩, ⟨⟨a, b, c⟩⟩⟩ := R
  obtain ⟨⟨⟨w'⟩⟩, ⟨⟨a', b', c'⟩⟩⟩ := Q
  have pr : ∀ {x y x' y' : ℝ}, |x - x'| ≤ ρ → |y - y'| ≤ ρ → |x'| ≤ m → |y'| ≤ m →
      |x * y - x' * y'| ≤ ρ * (2 * m + ρ) := by
    intro x y x' y' h1 h2 h3 h4
    have hm : 0 ≤ m := (abs_nonneg _).trans h3
    rw [show x * y - x' * y' = (x - x') * (y - y') + (x - x') * y' + x' * (y - y') by ring]
    refine (abs_add_le _ _).trans ((add_le_add (abs_add_le _ _) le_rfl).trans ?_)
    rw [abs_mul, abs_mul, abs_mul]
    have k1 := mul_le_mul h1 h2 (abs_nonneg _) hρ
    have k2 := mul_le_mul h1 h4 (abs_nonneg _) hρ
    have k3 := mul_le_mul h3 h2 (abs_nonneg _) hm
    linarith
  simp only [comps, List.mem_cons, List.not_mem_nil, or_false, forall_eq_or_imp, forall_eq] at hQ
  simp only [comps, List.forall₂_cons, List.forall₂_nil_left_iff, and_true] at h
  obtain ⟨q0, q1, q2, q3⟩ := hQ
  obtain ⟨h0, h1, h2, h3⟩ := h
  have ww := abs_le.1 (pr h0 h0 q0 q0)
  have aa := abs_le.1 (pr h1 h1 q1 q1)
  have bb := abs_le.1 (pr h2 h2 q2 q2)
  have cc := abs_le.1 (pr h3 h3 q3 q3)
  have wa := abs_le.1 (pr h0 h1 q0 q1)
  have wb := abs_le.1 (pr h0 h2 q0 q2)
  have wc := abs_le.1 (pr h0 h3 q0 q3)
  generalize ρ * (2 * m + ρ) = k at *
  simp only [comps, engabra, List.forall₂_cons, List.forall₂_nil_left_iff, and_true]
  refine ⟨?_, ?_, ?_, ?_⟩ <;> rw [abs_le] <;> constructor <;> linarith

/-- `sqrtG2` in terms of `logG2` and `exp`. -/
theorem sqrtG2_eval [LibM F64] (S : Spinor F64) (D : BiVector F64) (h : Central .spin S)
    (hv : isValid S = true) :
    sqrtG2 S D = if (magnitudeTy .spin S).value < (2 : ℚ) ^ (-50 : ℤ) then gzero
      else expSpin ((Dbl.lit (1 / 2) : F64) * logG2 S D) := by
  obtain ⟨hmf, hme⟩ := C34_magnitude .spin S h
  have htol : HasVal (Dbl.lit 4 * Dbl.epsilon F64) ((2 : ℚ) ^ (-50 : ℤ)) := by
    have h4 : HasVal (Dbl.lit 4 : F64) ((2 : ℚ) ^ (2 : ℤ)) :=
      F64.lit_pow (by norm_num) (by norm_num) (by norm_num)
    have := F64.HasVal.mulR h4 F64.epsilon_val (F64.rnVal_exact (F64.rep_pow (-50) (by norm_num)) ▸ by
      rw [← zpow_add₀ (by norm_num)]; rfl) (by norm_num : |(2 : ℚ) ^ (-50 : ℤ)| ≤ 1024)
    exact this
  have g2 : HasVal (magnitudeTy .spin S) (magnitudeTy .spin S).value := ⟨hmf, rfl⟩
  unfold sqrtG2
  rw [if_pos hv]
  have em : magnitude S = magnitudeTy .spin S := rfl
  simp only [em]
  rw [g2.flt htol]
  simp only [decide_eq_true_eq]

/-- **C53.** The square of `sqrtG2(S)` against `S`, for every valid spinor of the central range, the
real axis and the small magnitudes included.  The square is taken exactly, of the components which
`sqrtG2` returns.  Either the result is zero and `|S| ≤ 2^-49`, or its components are finite and its
square has every component within `|S| ((9 |log|S|| + 81) ε + 3500 u + 2^-24)` of that of `S`. -/
theorem C53_sqrt [LibM F64] (ε : ℝ) (hε0 : 0 ≤ ε) (hε : ε ≤ 2 ^ (-20 : ℤ)) (hlog : LibmLogOk ε)
    (hlib : LibmOk ε) (hexp : LibmExpOk ε) (S : Spinor F64) (D : BiVector F64) (h : Central .spin S)
    (hv : isValid S = true) (hf : FirstFair S) (hD : FairPlane D) :
    (sqrtG2 S D = ⟨⟨⟨0⟩⟩, ⟨⟨0, 0, 0⟩⟩⟩ ∧ euclid .spin S ≤ 2 ^ (-49 : ℤ)) ∨
    (2 : ℝ) ^ (-51 : ℤ) ≤ euclid .spin S ∧
    (∀ g ∈ comps .spin (sqrtG2 S D), g.Finite) ∧
    List.Forall₂ (fun x c => |x - ((F64.value c : ℚ) : ℝ)| ≤ euclid .spin S
        * ((9 * |Real.log (euclid .spin S)| + 81) * ε + 3500 * 2 ^ (-53 : ℤ) + 2 ^ (-24 : ℤ)))
      (comps .spin ((realTy .spin (sqrtG2 S D) : Spinor ℝ) * (realTy .spin (sqrtG2 S D) : Spinor ℝ) : Spinor ℝ))
      (comps .spin S) := by
  obtain ⟨hmf, hme⟩ := C34_magnitude .spin S h
  obtain ⟨hl, hup, -⟩ := central_real h
  have hE : 0 < euclid .spin S := lt_of_lt_of_le (F64.two_zpow_pos _) hl
  have a2 : 52 / 10 * (2 : ℝ) ^ (-53 : ℤ) * euclid .spin S ≤ 1 / 4 * euclid .spin S :=
    mul_le_mul_of_nonneg_right (by norm_num) hE.le
  have p50 := F64.two_zpow_pos (K := ℝ) (-50)
  obtain ⟨m1, m2⟩ := abs_le.1 hme
  rw [sqrtG2_eval S D h hv]
  split_ifs with hg
  · left
    refine ⟨rfl, ?_⟩
    have := (Rat.cast_lt (K := ℝ)).2 hg
    rw [cast_zpow] at this
    have e : (2 : ℝ) ^ (-49 : ℤ) = 2 * 2 ^ (-50 : ℤ) := by norm_num
    rw [e]
    linarith
  right
  have hm : (2 : ℝ) ^ (-51 : ℤ) ≤ euclid .spin S := by
    have := (Rat.cast_le (K := ℝ)).2 (not_lt.1 hg)
    rw [cast_zpow] at this
    have e : (2 : ℝ) ^ (-50 : ℤ) = 2 * 2 ^ (-51 : ℤ) := by norm_num
    rw [e] at this
    linarith
  refine ⟨hm, ?_⟩
  have hε' : ε ≤ 1 / 100 := hε.trans (by norm_num)
  obtain ⟨e1, e2, B, e3, hB, hcl⟩ := log_any hε0 hε' hlog S D h hv hm hf hD
  have hla := log_abs_le hm hup
  obtain ⟨hd, hcc⟩ := eps_bounds hε hla
  have hu0 := uR_nonneg
  have hη3 : (2 : ℝ) ^ (-1075 : ℤ) ≤ 1 / 1000 * uR := tiny_le_uR
  have hex : Real.exp (1 / 2 * Real.log (euclid .spin S)) = √(euclid .spin S) := by
    rw [Real.sqrt_eq_rpow, Real.rpow_def_of_pos hE, mul_comm]
  have g1 : (2 : ℝ) ^ (-900 : ℤ) ≤ Real.exp (1 / 2 * Real.log (euclid .spin S)) := by
    rw [hex]
    refine le_trans ?_ (Real.sqrt_le_sqrt hm)
    refine Real.le_sqrt_of_sq_le ?_
    rw [← zpow_natCast, ← zpow_mul]
    exact zpow_le_zpow_right₀ (by norm_num) (by norm_num)
  have g2 : Real.exp (1 / 2 * Real.log (euclid .spin S)) ≤ 2 ^ (900 : ℤ) := by
    rw [hex]
    refine (Real.sqrt_le_sqrt hup).trans (Real.sqrt_le_iff.2 ⟨(F64.two_zpow_pos _).le, ?_⟩)
    rw [← zpow_natCast, ← zpow_mul]
    exact zpow_le_zpow_right₀ (by norm_num) (by norm_num)
  have main : List.Forall₂ (fun g y => g.Finite ∧ |((F64.value g : ℚ) : ℝ) - y| ≤ √(euclid .spin S)
          * ((|Real.log (euclid .spin S)| + 9) * ε + 380 * uR))
      (comps .spin (expSpin ((Dbl.lit (1 / 2) : F64) * logG2 S D)))
      (comps .spin (expR (1 / 2 * Real.log (euclid .spin S)) ((1 / 2 : ℝ) * B))) := by
    rcases hB with rfl | ⟨k1, k2, k3⟩
    · have ez : ((1 / 2 : ℝ) * (⟨⟨0, 0, 0⟩⟩ : BiVector ℝ) : BiVector ℝ) = ⟨⟨0, 0, 0⟩⟩ := by
        simp only [engabra, mul_zero]
      rw [ez]
      obtain ⟨q1, q2, -⟩ := half_mul e1
      have hz := zero_comps e3
      have := exp_of_real (d := ε * |Real.log (euclid .spin S)| / 2 + 6 * uR) hε0 hε' hexp
        ((Dbl.lit (1 / 2) : F64) * logG2 S D) q1 (l := 1 / 2 * Real.log (euclid .spin S)) (by
          have b := abs_sub_le (((Dbl.lit (1 / 2) : F64) * (logG2 S D).theSca.theData.d0).value : ℝ)
            ((logG2 S D).theSca.theData.d0.value / 2) (1 / 2 * Real.log (euclid .spin S))
          have b2 : |((logG2 S D).theSca.theData.d0.value : ℝ) / 2 - 1 / 2 * Real.log (euclid .spin S)|
              = 1 / 2 * |((logG2 S D).theSca.theData.d0.value : ℝ) - Real.log (euclid .spin S)| := by
            rw [show ((logG2 S D).theSca.theData.d0.value : ℝ) / 2 - 1 / 2 * Real.log (euclid .spin S)
              = 1 / 2 * (((logG2 S D).theSca.theData.d0.value : ℝ) - Real.log (euclid .spin S)) by ring,
              abs_mul, abs_of_pos (by norm_num : (0 : ℝ) < 1 / 2)]
          rw [b2] at b
          refine b.trans ?_
          generalize (2 : ℝ) ^ (-1075 : ℤ) = x at *
          generalize uR = u at *
          linarith only [q2, e2, hη3, hu0]) (by
          have p : 0 ≤ ε * |Real.log (euclid .spin S)| := by positivity
          generalize uR = u at *
          linarith only [hd, p]) (by
          intro c hc
          have hc' : c ∈ (comps .biv (logG2 S D).theBiv).map ((Dbl.lit (1 / 2) : F64) * ·) := hc
          obtain ⟨b, hb, rfl⟩ := List.mem_map.1 hc'
          obtain ⟨r1, -, r3⟩ := half_mul (hz b hb).1
          exact ⟨r1, r3 (hz b hb).2⟩) g1 g2
      rw [hex] at this
      refine this.imp fun g y hgy => ⟨hgy.1, hgy.2.trans (mul_le_mul_of_nonneg_left ?_ (Real.sqrt_nonneg _))⟩
      have p : 0 ≤ ε * |Real.log (euclid .spin S)| := by positivity
      generalize uR = u at *
      linarith only [hε0, hu0, p]
    · have := root_of_log hε0 hε hlib hexp (logG2 S D) ⟨⟨⟨Real.log (euclid .spin S)⟩⟩, B⟩ e1 e2 e3
        ((zpow_le_zpow_right₀ (by norm_num) (by norm_num)).trans k1) k2
        (k3.imp id fun k => (zpow_le_zpow_right₀ (by norm_num) (by norm_num)).trans k) hla g1 g2
      simp only [hex] at this
      exact this
  have hroot := expR_half (Real.log (euclid .spin S)) B
  rw [← hroot] at hcl
  have hk0 : 0 ≤ (|Real.log (euclid .spin S)| + 9) * ε + 380 * uR := by positivity
  have hk : (|Real.log (euclid .spin S)| + 9) * ε + 380 * uR ≤ 1 / 100 := by
    have := mul_le_mul hε hla (abs_nonneg _) (by positivity)
    have e : (2 : ℝ) ^ (-20 : ℤ) * 400 ≤ 1 / 1000 := by norm_num
    have e' : (2 : ℝ) ^ (-20 : ℤ) ≤ 1 / 100000 := by norm_num
    have hu := uR_le
    have p : (|Real.log (euclid .spin S)| + 9) * ε = ε * |Real.log (euclid .spin S)| + 9 * ε := by ring
    rw [p]
    have hu : uR ≤ 1 / 1000000 := by unfold uR; norm_num
    generalize (2 : ℝ) ^ (-20 : ℤ) = x at *
    generalize uR = u at *
    linarith only [this, e, e', hu, hε]
  have hQ : ∀ y ∈ comps .spin (expR (1 / 2 * Real.log (euclid .spin S)) ((1 / 2 : ℝ) * B)), |y| ≤ √(euclid .spin S) := by
    intro y hy
    rw [← hex, ← length_expR (1 / 2 * Real.log (euclid .spin S)) ((1 / 2 : ℝ) * B)]
    generalize expR (1 / 2 * Real.log (euclid .spin S)) ((1 / 2 : ℝ) * B) = Q at *
    apply Real.abs_le_sqrt
    obtain ⟨⟨⟨w⟩⟩, ⟨⟨a, b, c⟩⟩⟩ := Q
    simp only [comps, List.mem_cons, List.not_mem_nil, or_false] at hy
    simp only [comps, List.map_cons, List.map_nil, List.sum_cons, List.sum_nil]
    have := sq_nonneg w
    have := sq_nonneg a
    have := sq_nonneg b
    have := sq_nonneg c
    rcases hy with rfl | rfl | rfl | rfl <;> linarith
  have hsq := square_close (R := realTy .spin (expSpin ((Dbl.lit (1 / 2) : F64) * logG2 S D)))
    (mul_nonneg (Real.sqrt_nonneg (euclid .spin S)) hk0) hQ (by
      rw [show comps .spin (realTy .spin (expSpin ((Dbl.lit (1 / 2) : F64) * logG2 S D)) : Spinor ℝ)
        = (comps .spin (expSpin ((Dbl.lit (1 / 2) : F64) * logG2 S D))).map fun c => (c.value : ℝ) from rfl,
        List.forall₂_map_left_iff]
      exact main.imp fun g y hgy => hgy.2)
  have hbound : 4 * (√(euclid .spin S) * ((|Real.log (euclid .spin S)| + 9) * ε + 380 * uR)
      * (2 * √(euclid .spin S) + √(euclid .spin S) * ((|Real.log (euclid .spin S)| + 9) * ε + 380 * uR)))
      ≤ euclid .spin S * (9 * ((|Real.log (euclid .spin S)| + 9) * ε + 380 * uR)) := by
    have hs := Real.mul_self_sqrt hE.le
    generalize (|Real.log (euclid .spin S)| + 9) * ε + 380 * uR = k at *
    generalize √(euclid .spin S) = s at *
    rw [← hs]
    have e : 4 * (s * k * (2 * s + s * k)) = s * s * (8 * k + 4 * (k * k)) := by ring
    rw [e]
    refine mul_le_mul_of_nonneg_left ?_ (mul_self_nonneg s)
    have := mul_le_mul_of_nonneg_left hk hk0
    linarith
  constructor
  · intro g hg
    generalize expSpin ((Dbl.lit (1 / 2) : F64) * logG2 S D) = T at *
    generalize expR (1 / 2 * Real.log (euclid .spin S)) ((1 / 2 : ℝ) * B) = Q at *
    obtain ⟨⟨⟨w⟩⟩, ⟨⟨a, b, c⟩⟩⟩ := T
    obtain ⟨⟨⟨w'⟩⟩, ⟨⟨a', b', c'⟩⟩⟩ := Q
    simp only [comps, List.forall₂_cons, List.forall₂_nil_left_iff, and_true] at main
    simp only [comps, List.mem_cons, List.not_mem_nil, or_false] at hg
    rcases hg with rfl | rfl | rfl | rfl
    · exact main.1.1
    · exact main.2.1.1
    · exact main.2.2.1.1
    · exact main.2.2.2.1
  have glue : ∀ {x y : ℝ} {c : F64}, |x - y| ≤ 4 * (√(euclid .spin S) * ((|Real.log (euclid .spin S)| + 9) * ε + 380 * uR)
      * (2 * √(euclid .spin S) + √(euclid .spin S) * ((|Real.log (euclid .spin S)| + 9) * ε + 380 * uR))) →
      |y - (c.value : ℝ)| ≤ 2 ^ (-24 : ℤ) * euclid .spin S →
      |x - c.value| ≤ euclid .spin S
        * ((9 * |Real.log (euclid .spin S)| + 81) * ε + 3500 * 2 ^ (-53 : ℤ) + 2 ^ (-24 : ℤ)) := by
    intro x y c a b
    refine ((abs_sub_le _ y _).trans (add_le_add (a.trans hbound) b)).trans ?_
    have e : euclid .spin S * (9 * ((|Real.log (euclid .spin S)| + 9) * ε + 380 * uR))
        + 2 ^ (-24 : ℤ) * euclid .spin S = euclid .spin S
          * ((9 * |Real.log (euclid .spin S)| + 81) * ε + 3420 * 2 ^ (-53 : ℤ) + 2 ^ (-24 : ℤ)) := by
      unfold uR; ring
    rw [e]
    refine mul_le_mul_of_nonneg_left ?_ hE.le
    have := F64.two_zpow_pos (K := ℝ) (-53)
    linarith
  generalize (realTy .spin (expSpin ((Dbl.lit (1 / 2) : F64) * logG2 S D)) : Spinor ℝ)
    * (realTy .spin (expSpin ((Dbl.lit (1 / 2) : F64) * logG2 S D)) : Spinor ℝ) = T at *
  generalize expR (1 / 2 * Real.log (euclid .spin S)) ((1 / 2 : ℝ) * B)
    * expR (1 / 2 * Real.log (euclid .spin S)) ((1 / 2 : ℝ) * B) = Y at *
  generalize (euclid .spin S) = E at *
  obtain ⟨⟨⟨w⟩⟩, ⟨⟨b0, b1, b2⟩⟩⟩ := S
  obtain ⟨⟨⟨w'⟩⟩, ⟨⟨b0', b1', b2'⟩⟩⟩ := T
  obtain ⟨⟨⟨y⟩⟩, ⟨⟨y0, y1, y2⟩⟩⟩ := Y
  simp only [comps, List.forall₂_cons, List.forall₂_nil_left_iff, and_true] at hsq hcl ⊢
  exact ⟨glue hsq.1 hcl.1, glue hsq.2.1 hcl.2.1, glue hsq.2.2.1 hcl.2.2.1, glue hsq.2.2.2 hcl.2.2.2⟩

/-- **C53.** The term `2^-24` is not an artefact: when a positive scalar part dominates, the round
trip returns a spinor without bivector part, whatever the bivector part of `S` was, so that
`exp(logG2(S))` differs from `S` by up to `2^-30 |S|` there whatever the accuracy of the library. -/
theorem C53_exp_log_lost [LibM F64] (S : Spinor F64) (D : BiVector F64)
    (h : Dominant .spin S S.theSca.theData.d0) (hv : isValid S = true)
    (hm : (2 : ℚ) ^ (-51 : ℤ) ≤ S.theSca.theData.d0.value)
    (hx : (LibM.exp (LibM.log S.theSca.theData.d0)).Finite) :
    ∀ c ∈ comps .biv (expSpin (logG2 S D)).theBiv, c.Finite ∧ c.value = 0 := by
  rw [C53_log_dominant_pos S D h hv hm]
  have hz : ∀ c ∈ comps .biv (gzero : BiVector F64), c.Finite ∧ |c.value| ≤ (2 : ℚ) ^ (-538 : ℤ) := by
    intro c hc
    have : c = 0 := by
      have hc' : c ∈ [(0 : F64), 0, 0] := hc
      simpa using hc'
    rw [this, F64.hasVal_zero'.2, abs_zero]
    exact ⟨F64.hasVal_zero'.1, (F64.two_zpow_pos _).le⟩
  have h1 := (C46_tiny (gzero : BiVector F64) hz (by
    rw [C11_double]; exact Or.inl ⟨_, F64.zero_def⟩)).1
  have e : comps .biv (expSpin (⟨⟨⟨LibM.log S.theSca.theData.d0⟩⟩, gzero⟩ : Spinor F64)).theBiv
      = (comps .biv (expBiv (gzero : BiVector F64)).theBiv).map (LibM.exp (LibM.log S.theSca.theData.d0) * ·) := rfl
  rw [e]
  generalize expBiv (gzero : BiVector F64) = T at *
  obtain ⟨⟨⟨w⟩⟩, ⟨⟨b0, b1, b2⟩⟩⟩ := T
  simp only [comps, List.cons.injEq, and_true] at h1
  obtain ⟨-, rfl, rfl, rfl⟩ := h1
  intro c hc
  have : c = LibM.exp (LibM.log S.theSca.theData.d0) * 0 := by simpa [comps] using hc
  rw [this]
  exact mul_zero_val hx F64.hasVal_zero'.1 F64.hasVal_zero'.2

/-! The hypotheses are met: the default plane `e23`, spinors off and near the axis, and a correctly
rounded library. -/

theorem e23_fair : FairPlane (e23 : BiVector F64) := by
  have h1 := F64.hasVal_one
  have h0 := F64.hasVal_zero'
  have hd : (e23 : BiVector F64) = ⟨⟨1, 0, 0⟩⟩ := rfl
  rw [hd]
  refine ⟨⟨fun c hc => ?_, 1, by simp [comps], ?_⟩, Or.inr ?_⟩
  · simp only [comps, List.mem_cons, List.not_mem_nil, or_false, or_self] at hc
    rcases hc with rfl | rfl
    · exact ⟨h1.1, by rw [h1.2, abs_one]; exact one_le_zpow₀ (by norm_num) (by norm_num)⟩
    · exact ⟨h0.1, by rw [h0.2, abs_zero]; exact (F64.two_zpow_pos _).le⟩
  · rw [h1.2, abs_one]; exact zpow_le_one_of_nonpos₀ (by norm_num) (by norm_num)
  · rw [euclid_biv]
    simp only [h1.2, h0.2, Rat.cast_one, Rat.cast_zero]
    have : √((1 : ℝ) ^ 2 + 0 ^ 2 + 0 ^ 2) = 1 := by norm_num
    rw [this, mul_one, abs_one]
    exact zpow_le_one_of_nonpos₀ (by norm_num) (by norm_num)

/-- `s + 2^-40 e31`. -/
noncomputable def nearReal (s : F64) : Spinor F64 := ⟨⟨⟨s⟩⟩, ⟨⟨0, F64.pow2 (-40), 0⟩⟩⟩

theorem nearReal_ok {s : F64} {σ : ℚ} (h1 : HasVal s σ) (hσ : |σ| = 1) :
    Dominant .spin (nearReal s) s ∧ isValid (nearReal s) = true ∧
    FirstFair (nearReal s) ∧ (1 : ℝ) ≤ euclid .spin (nearReal s) := by
  have h0 := F64.hasVal_zero'
  have h2 := F64.pow2_val (e := -40) (by norm_num) (by norm_num)
  refine ⟨⟨⟨h1.1, ?_, ?_⟩, [], [0, F64.pow2 (-40), 0], rfl, fun c hc => ?_⟩, ?_, Or.inl h0.2, ?_⟩
  · rw [h1.2, hσ]; exact zpow_le_one_of_nonpos₀ (by norm_num) (by norm_num)
  · rw [h1.2, hσ]; exact one_le_zpow₀ (by norm_num) (by norm_num)
  · rw [h1.2, hσ, mul_one]
    simp only [List.nil_append, List.mem_cons, List.not_mem_nil, or_false] at hc
    rcases hc with rfl | rfl | rfl
    · exact ⟨h0.1, by rw [h0.2, abs_zero]; exact (F64.two_zpow_pos _).le⟩
    · refine ⟨h2.1, ?_⟩
      rw [h2.2, abs_of_pos (F64.two_zpow_pos _)]
      exact zpow_le_zpow_right₀ (by norm_num) (by norm_num)
    · exact ⟨h0.1, by rw [h0.2, abs_zero]; exact (F64.two_zpow_pos _).le⟩
  · change (isValidDub s && isValidDub (0 : F64)) = true
    rw [Bool.and_eq_true, C11_double, C11_double]
    refine ⟨?_, Or.inl ⟨_, F64.zero_def⟩⟩
    obtain ⟨k1, k2⟩ := h1
    cases s with
    | nan => exact k1.elim
    | inf _ => exact k1.elim
    | zero s => exact Or.inl ⟨s, rfl⟩
    | fin v hv =>
      refine Or.inr ⟨v, hv, rfl, ?_⟩
      have e : v = σ := k2
      rw [e, hσ]
      exact div_le_one_of_le₀ (one_le_pow₀ (by norm_num)) (by positivity)
  · refine le_trans ?_ euclid_dominant
    change _ ≤ |((s.value : ℚ) : ℝ)|
    rw [h1.2, ← Rat.cast_abs, hσ, Rat.cast_one]

noncomputable def nearMinusOne : Spinor F64 := nearReal (-1)

theorem nearMinusOne_ok : Dominant .spin nearMinusOne (-1) ∧ isValid nearMinusOne = true ∧
    FirstFair nearMinusOne ∧ (1 : ℝ) ≤ euclid .spin nearMinusOne :=
  nearReal_ok (F64.HasVal.neg F64.hasVal_one) (by norm_num)

/-- Next to one the logarithm drops the bivector part. -/
example [LibM F64] (D : BiVector F64) : logG2 (nearReal 1) D = ⟨⟨⟨LibM.log 1⟩⟩, gzero⟩ := by
  obtain ⟨h1, h2, -, -⟩ := nearReal_ok F64.hasVal_one (by norm_num)
  refine C53_log_dominant_pos (nearReal 1) D h1 h2 ?_
  change _ ≤ (1 : F64).value
  rw [F64.hasVal_one.2]; norm_num

/-- Next to minus one it is half a turn in the plane of the second argument. -/
example [LibM F64] (D : BiVector F64) :
    logG2 nearMinusOne D = ⟨⟨⟨LibM.log (-(-1))⟩⟩, Dbl.pi F64 * direction D⟩ := by
  obtain ⟨h1, h2, -, -⟩ := nearMinusOne_ok
  refine C53_log_dominant_neg nearMinusOne D h1 h2 ?_
  change (-1 : F64).value ≤ _
  rw [(F64.HasVal.neg F64.hasVal_one).2]; norm_num

/-- The round trip near minus one with the correctly rounded library. -/
example : letI := refLibLog
    List.Forall₂ (fun g c => g.Finite ∧ |(g.value : ℝ) - c.value| ≤ euclid .spin nearMinusOne
          * ((101 / 100 * |Real.log (euclid .spin nearMinusOne)| + 9) * 2 ^ (-53 : ℤ)
            + 380 * 2 ^ (-53 : ℤ) + 2 ^ (-24 : ℤ)))
      (comps .spin (expSpin (logG2 nearMinusOne e23))) (comps .spin nearMinusOne) := by
  let _ := refLibLog
  obtain ⟨a1, a2, a3⟩ := refLibLog_ok
  obtain ⟨h1, h2, h3, h4⟩ := nearMinusOne_ok
  exact C53_exp_log _ (F64.two_zpow_pos _).le (zpow_le_zpow_right₀ (by norm_num) (by norm_num)) a1 a2 a3
    nearMinusOne e23 h1.central h2 ((by norm_num : (2 : ℝ) ^ (-51 : ℤ) ≤ 1).trans h4) h3 e23_fair

/-- The root near minus one. -/
example : letI := refLibLog
    ∀ g ∈ comps .spin (sqrtG2 nearMinusOne e23), g.Finite := by
  let _ := refLibLog
  obtain ⟨a1, a2, a3⟩ := refLibLog_ok
  obtain ⟨h1, h2, h3, h4⟩ := nearMinusOne_ok
  rcases C53_sqrt _ (F64.two_zpow_pos _).le (zpow_le_zpow_right₀ (by norm_num) (by norm_num)) a1 a2 a3
    nearMinusOne e23 h1.central h2 h3 e23_fair with h | h
  · exfalso
    have h5 := h4.trans h.2
    norm_num at h5
  · exact h.2.1

end Engabra
