import Verif.Props.C20_Exp

/-! Evaluation of `logG2` in each of its branches, in ideal arithmetic. -/

namespace Engabra
open XR Spec

/-- `std::numeric_limits<double>::epsilon()` -/
noncomputable def eps : ℝ := 1 / 2 ^ 52

theorem eps_pos : 0 < eps := by unfold eps; positivity
theorem eps_val : eps = 1 / 4503599627370496 := by unfold eps; norm_num
theorem tiny_lt_eps : tiny < eps := by
  unfold tiny eps
  apply one_div_lt_one_div_of_lt (by positivity)
  exact pow_lt_pow_right₀ (by norm_num) (by norm_num)

theorem isValid_spin_lift (S : Spinor ℝ) :
    isValid (lift .spin S) = true ↔ Valid S.theSca.theData.d0 ∧ Valid S.theBiv.theData.d0 := by
  change (isValidDub (val _) && isValidDub (val _)) = true ↔ _
  rw [Bool.and_eq_true, isValidDub_val, isValidDub_val]

theorem magnitude_spin_lift (S : Spinor ℝ) : magnitude (T := Spinor XR) (lift .spin S) = val (length .spin S) :=
  C13_magnitude .spin S

theorem spin_length_sq (S : Spinor ℝ) :
    length .spin S ^ 2 = S.theSca.theData.d0 ^ 2 + length .biv S.theBiv ^ 2 := by
  rw [length_sq, length_sq]
  simp only [magSqTy, engabra]; ring

/-- Shared first half of `logG2`. -/
theorem logG2_step (S : Spinor ℝ) (D : BiVector XR) (hw : Valid S.theSca.theData.d0)
    (hb : Valid S.theBiv.theData.d0) (hr : eps < length .spin S) :
    logG2 (lift .spin S) D =
      if Dbl.lt (val (1 - eps)) (val (1 / length .spin S * S.theSca.theData.d0)) = true then
        ⟨⟨⟨val (Real.log (length .spin S))⟩⟩, gzero⟩
      else if Dbl.lt (val (1 / length .spin S * S.theSca.theData.d0)) (val (-(1 - eps))) = true then
        ⟨⟨⟨val (Real.log (length .spin S))⟩⟩, Dbl.pi XR * direction D⟩
      else
        ⟨⟨⟨val (Real.log (length .spin S))⟩⟩,
          LibM.atan2 (pairMagDirTy .biv (lift .biv ((1 / length .spin S : ℝ) * S.theBiv))).1
              (val (1 / length .spin S * S.theSca.theData.d0))
            * (pairMagDirTy .biv (lift .biv ((1 / length .spin S : ℝ) * S.theBiv))).2⟩ := by
  have hpos := eps_pos.trans hr
  unfold logG2
  rw [if_pos ((isValid_spin_lift S).2 ⟨hw, hb⟩)]
  simp only [magnitude_spin_lift, epsilon_def]
  have h1 : Dbl.lt (val (1 / 2 ^ 52)) (val (length .spin S)) = true := (lt_val _ _).2 hr
  rw [if_pos h1, log_val _ hpos, XR.one_def, val_div _ _ hpos.ne', val_sub, val_neg]
  rfl

theorem logG2_small (S : Spinor ℝ) (D : BiVector XR) (hr : length .spin S ≤ eps) :
    logG2 (lift .spin S) D = gnull Dbl.nan := by
  unfold logG2
  by_cases hv : isValid (lift .spin S) = true
  · rw [if_pos hv]
    simp only [magnitude_spin_lift, epsilon_def]
    rw [if_neg]
    rw [lt_val, not_lt]; exact hr
  · rw [if_neg hv]

theorem logG2_invalid (S : Spinor ℝ) (D : BiVector XR)
    (h : ¬ (Valid S.theSca.theData.d0 ∧ Valid S.theBiv.theData.d0)) :
    logG2 (lift .spin S) D = gnull Dbl.nan := by
  unfold logG2
  rw [if_neg (fun h' => h ((isValid_spin_lift S).1 h'))]

/-- The rotation angle recovered by `logG2`. -/
noncomputable def angleOf (S : Spinor ℝ) : ℝ :=
  Complex.arg ⟨S.theSca.theData.d0 / length .spin S, length .biv S.theBiv / length .spin S⟩

/-- In the main branch the bivector part is large enough. -/
theorem biv_large (S : Spinor ℝ) (hr : eps < length .spin S)
    (hc : |S.theSca.theData.d0| ≤ (1 - eps) * length .spin S) :
    eps * length .spin S ^ 2 ≤ length .biv S.theBiv ^ 2 := by
  have h := spin_length_sq S
  have hpos := eps_pos.trans hr
  have he : eps ≤ 1 := by rw [eps_val]; norm_num
  have h2 : S.theSca.theData.d0 ^ 2 ≤ ((1 - eps) * length .spin S) ^ 2 := by
    rw [← sq_abs]
    exact pow_le_pow_left₀ (abs_nonneg _) hc 2
  have h3 : ((1 - eps) * length .spin S) ^ 2 ≤ (1 - eps) * length .spin S ^ 2 := by
    rw [mul_pow]
    have : (1 - eps) ^ 2 ≤ 1 - eps := by nlinarith [eps_pos]
    nlinarith [pow_pos hpos 2]
  nlinarith

theorem biv_large' (S : Spinor ℝ) (hr : eps < length .spin S)
    (hc : |S.theSca.theData.d0| ≤ (1 - eps) * length .spin S) :
    1 / 2 ^ 26 ≤ length .biv S.theBiv / length .spin S := by
  have hpos := eps_pos.trans hr
  have h := biv_large S hr hc
  rw [le_div_iff₀ hpos]
  apply le_of_sq_le_sq _ (length_nonneg _ _)
  rw [mul_pow]
  have : (1 / 2 ^ 26 : ℝ) ^ 2 = eps := by unfold eps; norm_num
  rw [this]; exact h
where
  le_of_sq_le_sq {a b : ℝ} (h : a ^ 2 ≤ b ^ 2) (hb : 0 ≤ b) : a ≤ b :=
    (abs_le_of_sq_le_sq' h hb).2

theorem cos_sin_angle (S : Spinor ℝ) (hr : eps < length .spin S) :
    Real.cos (angleOf S) = S.theSca.theData.d0 / length .spin S ∧
    Real.sin (angleOf S) = length .biv S.theBiv / length .spin S := by
  have hpos := eps_pos.trans hr
  have h := spin_length_sq S
  have hn : ‖(⟨S.theSca.theData.d0 / length .spin S, length .biv S.theBiv / length .spin S⟩ : ℂ)‖ = 1 := by
    have h1 : ‖(⟨S.theSca.theData.d0 / length .spin S, length .biv S.theBiv / length .spin S⟩ : ℂ)‖ ^ 2 = 1 := by
      rw [← Complex.normSq_eq_norm_sq, Complex.normSq_mk]
      field_simp
      linarith
    have h2 := norm_nonneg (⟨S.theSca.theData.d0 / length .spin S, length .biv S.theBiv / length .spin S⟩ : ℂ)
    nlinarith
  constructor
  · unfold angleOf
    rw [Complex.cos_arg (by intro h0; rw [h0, norm_zero] at hn; norm_num at hn), hn, div_one]
  · unfold angleOf
    rw [Complex.sin_arg, hn, div_one]

theorem angle_bounds (S : Spinor ℝ) (hr : eps < length .spin S)
    (hc : |S.theSca.theData.d0| ≤ (1 - eps) * length .spin S) :
    1 / 2 ^ 26 ≤ angleOf S ∧ angleOf S < Real.pi := by
  have hb := biv_large' S hr hc
  obtain ⟨h1, h2⟩ := cos_sin_angle S hr
  have h0 : 0 ≤ angleOf S := by
    unfold angleOf
    rw [Complex.arg_nonneg_iff]
    exact div_nonneg (length_nonneg _ _) (length_nonneg _ _)
  have hs : 0 < Real.sin (angleOf S) := by
    rw [h2]; exact lt_of_lt_of_le (by positivity) hb
  refine ⟨?_, ?_⟩
  · rw [← h2] at hb
    exact hb.trans (Real.sin_le h0)
  · rcases lt_or_eq_of_le (Complex.arg_le_pi (⟨S.theSca.theData.d0 / length .spin S, length .biv S.theBiv / length .spin S⟩ : ℂ)) with h | h
    · exact h
    · have : angleOf S = Real.pi := h
      rw [this, Real.sin_pi] at hs
      exact absurd hs (lt_irrefl _)

theorem logG2_general (S : Spinor ℝ) (D : BiVector XR) (hw : Valid S.theSca.theData.d0)
    (hb : Valid S.theBiv.theData.d0) (hr : eps < length .spin S)
    (hc : |S.theSca.theData.d0| ≤ (1 - eps) * length .spin S) :
    logG2 (lift .spin S) D = lift .spin ⟨⟨⟨Real.log (length .spin S)⟩⟩,
      (angleOf S / length .biv S.theBiv : ℝ) * S.theBiv⟩ := by
  have hpos := eps_pos.trans hr
  have hbl := biv_large' S hr hc
  rw [logG2_step S D hw hb hr]
  have e0 : 1 / length .spin S * S.theSca.theData.d0 = S.theSca.theData.d0 / length .spin S := by ring
  have hc' : |S.theSca.theData.d0 / length .spin S| ≤ 1 - eps := by
    rw [abs_div, abs_of_pos hpos, div_le_iff₀ hpos]; exact hc
  rw [abs_le] at hc'
  have hlen : length .biv ((1 / length .spin S : ℝ) * S.theBiv) = length .biv S.theBiv / length .spin S := by
    rw [length_smul_biv, abs_of_pos (by positivity)]; ring
  have hbpos : length .biv S.theBiv ≠ 0 := by
    intro h0
    rw [h0, zero_div] at hbl
    norm_num at hbl
  have htiny : tiny < length .biv ((1 / length .spin S : ℝ) * S.theBiv) := by
    rw [hlen]
    refine lt_of_lt_of_le (tiny_lt_eps.trans ?_) hbl
    unfold eps; norm_num
  rw [if_neg, if_neg, pairMagDir_above .biv _ htiny, hlen, e0]
  · change (⟨⟨⟨val _⟩⟩, smulTy .biv (val (angleOf S)) (lift .biv _)⟩ : Spinor XR) = _
    rw [smul_lift]
    change lift .spin ⟨⟨⟨_⟩⟩, _⟩ = _
    congr 2
    change (angleOf S : ℝ) * (((1 / (length .biv S.theBiv / length .spin S) : ℝ)) * ((1 / length .spin S : ℝ) * S.theBiv)) = _
    generalize length .biv S.theBiv = b at *
    generalize length .spin S = r at *
    have key : ∀ c : ℝ, angleOf S * (1 / (b / r) * (1 / r * c)) = angleOf S / b * c := by
      intro c
      have := hpos.ne'
      field_simp
    ext <;> simp only [engabra, key]
  · rw [lt_val, not_lt, e0]; linarith
  · rw [lt_val, not_lt, e0]; linarith

theorem logG2_near_one (S : Spinor ℝ) (D : BiVector XR) (hw : Valid S.theSca.theData.d0)
    (hb : Valid S.theBiv.theData.d0) (hr : eps < length .spin S)
    (hc : (1 - eps) * length .spin S < S.theSca.theData.d0) :
    logG2 (lift .spin S) D = lift .spin ⟨⟨⟨Real.log (length .spin S)⟩⟩, gzero⟩ := by
  have hpos := eps_pos.trans hr
  rw [logG2_step S D hw hb hr, if_pos]
  · rfl
  · rw [lt_val, div_mul_eq_mul_div, one_mul, lt_div_iff₀ hpos]; exact hc

/-- `g3::pi` -/
noncomputable def piLit : ℝ := 3.141592653589793

theorem pi_def : Dbl.pi XR = val piLit := by
  unfold Dbl.pi piLit
  rw [lit_def]; norm_num

theorem piLit_close : |piLit - Real.pi| ≤ 1 / 10 ^ 15 := by
  have h1 := Real.pi_gt_d20
  have h2 := Real.pi_lt_d20
  unfold piLit
  rw [abs_le]
  constructor <;> norm_num at * <;> linarith

theorem logG2_near_minus_one (S : Spinor ℝ) (D : BiVector ℝ) (hw : Valid S.theSca.theData.d0)
    (hb : Valid S.theBiv.theData.d0) (hr : eps < length .spin S)
    (hc : S.theSca.theData.d0 < -((1 - eps) * length .spin S)) (hD : tiny < length .biv D) :
    logG2 (lift .spin S) (lift .biv D) = lift .spin ⟨⟨⟨Real.log (length .spin S)⟩⟩,
      (piLit / length .biv D : ℝ) * D⟩ := by
  have hpos := eps_pos.trans hr
  have he : eps ≤ 1 := by rw [eps_val]; norm_num
  have h0 : S.theSca.theData.d0 / length .spin S < -(1 - eps) := by
    rw [div_lt_iff₀ hpos]; linarith
  have e0 : 1 / length .spin S * S.theSca.theData.d0 = S.theSca.theData.d0 / length .spin S := by ring
  rw [logG2_step S _ hw hb hr, if_neg, if_pos, pi_def]
  · have hd : direction (lift .biv D) = lift .biv (smulTy .biv (1 / length .biv D) D) :=
      congrArg Prod.snd (pairMagDir_above .biv D hD)
    rw [hd]
    change (⟨⟨⟨val _⟩⟩, smulTy .biv (val piLit) (lift .biv _)⟩ : Spinor XR) = _
    rw [smul_lift]
    change lift .spin ⟨⟨⟨_⟩⟩, _⟩ = _
    congr 2
    change (piLit : ℝ) * ((1 / length .biv D : ℝ) * D) = _
    generalize length .biv D = b at *
    have key : ∀ c : ℝ, piLit * (1 / b * c) = piLit / b * c := by intro c; ring
    ext <;> simp only [engabra, key]
  · rw [lt_val, e0]; exact h0
  · rw [lt_val, not_lt, e0]; linarith

end Engabra
