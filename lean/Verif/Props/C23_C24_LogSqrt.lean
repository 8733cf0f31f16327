import Verif.Lemmas.Log

/-! # C23: `logG2` and `exp`; C24: `sqrtG2`

Ideal arithmetic.  `S = w + B` is a spinor, `|S| = length .spin S`, `|B| = length .biv S.theBiv`;
`eps = 2^-52`.  The optional second argument of both functions (`e23` if omitted) is `D`. -/

namespace Engabra
open XR Spec

/-- The first component of a bivector is zero, or not extremely small against its length (so
that the code, which validates the direction by its first component, accepts it). -/
def FirstOk (B : BiVector ℝ) : Prop :=
  B.theData.d0 = 0 ∨ 1 / 2 ^ 800 * length .biv B ≤ |B.theData.d0|

theorem length_dir {θ : ℝ} (hθ : 0 ≤ θ) (B : BiVector ℝ) (hb : 0 < length .biv B) :
    length .biv ((θ / length .biv B : ℝ) * B) = θ := by
  rw [length_smul_biv, abs_of_nonneg (by positivity)]
  field_simp

theorem expOk_angle (θ : ℝ) (B : BiVector ℝ) (h1 : 1 / 2 ^ 27 ≤ θ) (h2 : θ ≤ 8)
    (hb : 0 < length .biv B) (h : FirstOk B) : ExpOk ((θ / length .biv B : ℝ) * B) := by
  have h27 : (0 : ℝ) < 1 / 2 ^ 27 := by positivity
  have hθ : 0 < θ := lt_of_lt_of_le h27 h1
  have hl := length_dir hθ.le B hb
  apply expOk_of
  · rw [hl]
    refine lt_of_lt_of_le (tiny_lt_eps.trans ?_) h1
    unfold eps; norm_num
  · have e : ((θ / length .biv B : ℝ) * B).theData.d0 = θ / length .biv B * B.theData.d0 := rfl
    rw [e, hl]
    rcases h with h | h
    · left; rw [h, mul_zero]
    · right
      refine ⟨?_, h2.trans (by norm_num)⟩
      rw [abs_mul, abs_of_pos (div_pos hθ hb)]
      calc (1 : ℝ) / 2 ^ 900 ≤ 1 / 2 ^ 27 * (1 / 2 ^ 800) := by
            rw [div_mul_div_comm, one_mul, ← pow_add]
            exact one_div_le_one_div_of_le (by positivity)
              (pow_le_pow_right₀ (by norm_num) (by norm_num))
        _ ≤ θ * (1 / 2 ^ 800) := by gcongr
        _ = θ / length .biv B * (1 / 2 ^ 800 * length .biv B) := by field_simp
        _ ≤ _ := by gcongr

theorem expR_dir (s θ : ℝ) (B : BiVector ℝ) (hb : 0 < length .biv B) :
    expR s ((θ / length .biv B : ℝ) * B)
      = ⟨⟨⟨Real.exp s * Real.cos θ⟩⟩, (Real.exp s * (Real.sin θ / length .biv B) : ℝ) * B⟩ := by
  rw [expR_smul]
  have : θ / length .biv B * length .biv B = θ := by field_simp
  rw [this]

theorem biv_pos (S : Spinor ℝ) (hr : eps < length .spin S)
    (hc : |S.theSca.theData.d0| ≤ (1 - eps) * length .spin S) : 0 < length .biv S.theBiv := by
  have h := biv_large' S hr hc
  have hpos := eps_pos.trans hr
  rw [le_div_iff₀ hpos] at h
  exact lt_of_lt_of_le (by positivity) h

theorem expR_log (S : Spinor ℝ) (hr : eps < length .spin S)
    (hc : |S.theSca.theData.d0| ≤ (1 - eps) * length .spin S) :
    expR (Real.log (length .spin S)) ((angleOf S / length .biv S.theBiv : ℝ) * S.theBiv) = S := by
  have hpos := eps_pos.trans hr
  have hb := biv_pos S hr hc
  obtain ⟨h1, h2⟩ := cos_sin_angle S hr
  rw [expR_dir _ _ _ hb, Real.exp_log hpos, h1, h2]
  obtain ⟨⟨⟨w⟩⟩, B⟩ := S
  simp only at *
  generalize length .biv B = b at *
  generalize length .spin _ = r at *
  ext <;> simp only [engabra] <;> field_simp

/-- **C23.** `exp(logG2(S)) = S` in the main branch: `S` is not within `eps` (relative, in its
scalar part) of a scalar. -/
theorem C23_exp_log_partial (S : Spinor ℝ) (D : BiVector XR)
    (hw : Valid S.theSca.theData.d0) (hb : Valid S.theBiv.theData.d0) (hf : FirstOk S.theBiv)
    (hr : eps < length .spin S)
    (hc : |S.theSca.theData.d0| ≤ (1 - eps) * length .spin S) :
    expSpin (logG2 (lift .spin S) D) = lift .spin S := by
  have ha := angle_bounds S hr hc
  rw [logG2_general S D hw hb hr hc, expSpin_ok, expR_log S hr hc]
  refine expOk_angle _ _ (le_trans ?_ ha.1) (ha.2.le.trans ?_) (biv_pos S hr hc) hf
  · norm_num
  · linarith [Real.pi_lt_four]

/-- **C23.** `logG2(exp(s + B)) = s + B` for `0 < |B| < π`, outside the same guard. -/
theorem C23_log_exp_partial (s : ℝ) (B : BiVector ℝ) (D : BiVector XR) (hB : ExpOk B)
    (h0 : 0 < length .biv B) (hpi : length .biv B < Real.pi)
    (hw : Valid (Real.exp s * Real.cos (length .biv B)))
    (hb : Valid (Real.exp s * (Real.sin (length .biv B) / length .biv B) * B.theData.d0))
    (hs : eps < Real.exp s) (hc : |Real.cos (length .biv B)| ≤ 1 - eps) :
    logG2 (expSpin (lift .spin ⟨⟨⟨s⟩⟩, B⟩)) D = lift .spin ⟨⟨⟨s⟩⟩, B⟩ := by
  rw [expSpin_ok s B hB]
  have hlen : length .spin (expR s B) = Real.exp s := by
    rw [length_eq]
    have : magSqTy .spin (expR s B) = Real.exp s ^ 2 := magSq_expR s B
    rw [this, Real.sqrt_sq (Real.exp_pos s).le]
  have hsin : 0 < Real.sin (length .biv B) := Real.sin_pos_of_pos_of_lt_pi h0 hpi
  have hlb : length .biv (expR s B).theBiv = Real.exp s * Real.sin (length .biv B) := by
    change length .biv ((Real.exp s * (Real.sin (length .biv B) / length .biv B) : ℝ) * B) = _
    rw [length_smul_biv, abs_of_pos (by positivity)]
    field_simp
  have hc' : |(expR s B).theSca.theData.d0| ≤ (1 - eps) * length .spin (expR s B) := by
    rw [hlen]
    change |Real.exp s * Real.cos (length .biv B)| ≤ _
    rw [abs_mul, abs_of_pos (Real.exp_pos s), mul_comm]
    gcongr
  rw [logG2_general (expR s B) D hw hb (by rw [hlen]; exact hs) hc', hlen, Real.log_exp]
  have ha : angleOf (expR s B) = length .biv B := by
    unfold angleOf
    rw [hlen, hlb]
    have e : (⟨(expR s B).theSca.theData.d0 / Real.exp s,
        Real.exp s * Real.sin (length .biv B) / Real.exp s⟩ : ℂ)
        = Complex.cos (length .biv B) + Complex.sin (length .biv B) * Complex.I := by
      have h1 : (expR s B).theSca.theData.d0 / Real.exp s = Real.cos (length .biv B) := by
        change Real.exp s * Real.cos (length .biv B) / Real.exp s = _
        field_simp
      have h2 : Real.exp s * Real.sin (length .biv B) / Real.exp s = Real.sin (length .biv B) := by
        field_simp
      rw [h1, h2, ← Complex.ofReal_cos, ← Complex.ofReal_sin, Complex.mk_eq_add_mul_I]
    rw [e, Complex.arg_cos_add_sin_mul_I ⟨by linarith [Real.pi_pos], hpi.le⟩]
  rw [ha, hlb]
  congr 2
  unfold expR
  have hp := Real.exp_pos s
  generalize length .biv B = b at *
  generalize Real.exp s = e at *
  generalize Real.sin b = sb at *
  have key : ∀ c : ℝ, b / (e * sb) * (e * (sb / b) * c) = c := by
    intro c; field_simp
  ext <;> simp only [engabra, key]

/-- distance of two spinors -/
noncomputable def dist (S T : Spinor ℝ) : ℝ := length .spin (S - T)

theorem dist_sq (S T : Spinor ℝ) : dist S T ^ 2 =
    (S.theSca.theData.d0 - T.theSca.theData.d0) ^ 2
      + (S.theBiv.theData.d0 - T.theBiv.theData.d0) ^ 2
      + (S.theBiv.theData.d1 - T.theBiv.theData.d1) ^ 2
      + (S.theBiv.theData.d2 - T.theBiv.theData.d2) ^ 2 := by
  unfold dist
  rw [length_sq]
  simp only [magSqTy, engabra]; ring

theorem dist_nonneg (S T : Spinor ℝ) : 0 ≤ dist S T := length_nonneg _ _

theorem dist_triangle (S M T : Spinor ℝ) : dist S T ≤ dist S M + dist M T := by
  unfold dist
  refine C13_triangle .spin (S - M) (M - T) (S - T) ?_
  have : (S - M) + (M - T) = S - T := by mv_ring
  rw [← this]
  rfl

theorem spin_sq (S : Spinor ℝ) : length .spin S ^ 2 = S.theSca.theData.d0 ^ 2
    + S.theBiv.theData.d0 ^ 2 + S.theBiv.theData.d1 ^ 2 + S.theBiv.theData.d2 ^ 2 := by
  rw [length_sq]; simp only [magSqTy, engabra]; ring

theorem near_scalar (S : Spinor ℝ) (hpos : 0 < length .spin S)
    (hc : (1 - eps) * length .spin S < S.theSca.theData.d0) :
    dist S ⟨⟨⟨length .spin S⟩⟩, gzero⟩ ≤ √(2 * eps) * length .spin S := by
  have h := spin_sq S
  rw [← Real.sqrt_sq hpos.le, ← Real.sqrt_mul (by have := eps_pos; positivity),
    Real.sqrt_sq hpos.le]
  apply Real.le_sqrt_of_sq_le
  rw [dist_sq]
  simp only [engabra, sub_zero]
  nlinarith

theorem near_minus_scalar (S : Spinor ℝ) (hpos : 0 < length .spin S)
    (hc : S.theSca.theData.d0 < -((1 - eps) * length .spin S)) :
    dist S ⟨⟨⟨-length .spin S⟩⟩, gzero⟩ ≤ √(2 * eps) * length .spin S := by
  have h := spin_sq S
  rw [← Real.sqrt_sq hpos.le, ← Real.sqrt_mul (by have := eps_pos; positivity),
    Real.sqrt_sq hpos.le]
  apply Real.le_sqrt_of_sq_le
  rw [dist_sq]
  simp only [engabra, sub_zero]
  nlinarith

/-- **C23.** Within `eps` of a positive scalar the bivector part is dropped: the round trip
gives the scalar `|S|`, at distance at most `√(2 eps) |S|` (`2.1e-8 |S|`), and equals `S`
only if `S` had no bivector part. -/
theorem C23_near_identity (S : Spinor ℝ) (D : BiVector XR) (hw : Valid S.theSca.theData.d0)
    (hb : Valid S.theBiv.theData.d0) (hr : eps < length .spin S)
    (hc : (1 - eps) * length .spin S < S.theSca.theData.d0) :
    ∃ T : Spinor ℝ, expSpin (logG2 (lift .spin S) D) = lift .spin T ∧
      T = ⟨⟨⟨length .spin S⟩⟩, gzero⟩ ∧ dist S T ≤ √(2 * eps) * length .spin S ∧
      (T = S ↔ S.theBiv = gzero) := by
  have hpos := eps_pos.trans hr
  refine ⟨⟨⟨⟨length .spin S⟩⟩, gzero⟩, ?_, rfl, near_scalar S hpos hc, ?_⟩
  · rw [logG2_near_one S D hw hb hr hc, expSpin_ok _ _ ⟨Or.inl rfl, Or.inl rfl⟩, expR_zero,
      Real.exp_log hpos]
  · constructor
    · intro h; rw [← h]
    · intro h
      have h1 := spin_length_sq S
      rw [h, length_biv_zero] at h1
      have he : eps < 1 := by rw [eps_val]; norm_num
      have hw0 : 0 < S.theSca.theData.d0 := lt_trans (mul_pos (by linarith) hpos) hc
      have h2 : length .spin S = S.theSca.theData.d0 := by nlinarith
      rw [h2, ← h]

/-- **C23.** Within `eps` of a negative scalar the round trip is off by at most
`(√(2 eps) + 1e-15) |S|`: the rotation plane is replaced by that of `D`, and `g3::pi` is not π. -/
theorem C23_near_minus_identity (S : Spinor ℝ) (D : BiVector ℝ) (hw : Valid S.theSca.theData.d0)
    (hb : Valid S.theBiv.theData.d0) (hr : eps < length .spin S)
    (hc : S.theSca.theData.d0 < -((1 - eps) * length .spin S))
    (hD : tiny < length .biv D) (hf : FirstOk D) :
    ∃ T : Spinor ℝ, expSpin (logG2 (lift .spin S) (lift .biv D)) = lift .spin T ∧
      dist S T ≤ (√(2 * eps) + 1 / 10 ^ 15) * length .spin S := by
  have hpos := eps_pos.trans hr
  have hDp := tiny_pos.trans hD
  have hok : ExpOk ((piLit / length .biv D : ℝ) * D) := by
    apply expOk_angle _ _ _ _ hDp hf
    · unfold piLit; norm_num
    · unfold piLit; norm_num
  refine ⟨expR (Real.log (length .spin S)) ((piLit / length .biv D : ℝ) * D), ?_, ?_⟩
  · rw [logG2_near_minus_one S D hw hb hr hc hD, expSpin_ok _ _ hok]
  · refine (dist_triangle S ⟨⟨⟨-length .spin S⟩⟩, gzero⟩ _).trans ?_
    rw [add_mul]
    refine add_le_add (near_minus_scalar S hpos hc) ?_
    rw [expR_dir _ _ _ hDp, Real.exp_log hpos]
    have hl := length_sq .biv D
    simp only [magSqTy, engabra] at hl
    have hcos : 1 - (piLit - Real.pi) ^ 2 / 2 ≤ Real.cos (piLit - Real.pi) :=
      Real.one_sub_sq_div_two_le_cos
    rw [Real.cos_sub_pi] at hcos
    have hsc := Real.sin_sq_add_cos_sq piLit
    have hcl := piLit_close
    have hsq : (piLit - Real.pi) ^ 2 ≤ (1 / 10 ^ 15) ^ 2 := by
      rw [← sq_abs]; exact pow_le_pow_left₀ (abs_nonneg _) hcl 2
    have hd2 : dist ⟨⟨⟨-length .spin S⟩⟩, gzero⟩ ⟨⟨⟨length .spin S * Real.cos piLit⟩⟩,
        (length .spin S * (Real.sin piLit / length .biv D) : ℝ) * D⟩ ^ 2
        = length .spin S ^ 2 * (2 + 2 * Real.cos piLit) := by
      rw [dist_sq]
      simp only [engabra, zero_sub, neg_sq]
      have e : (length .spin S * (Real.sin piLit / length .biv D) * D.theData.d0) ^ 2
          + (length .spin S * (Real.sin piLit / length .biv D) * D.theData.d1) ^ 2
          + (length .spin S * (Real.sin piLit / length .biv D) * D.theData.d2) ^ 2
          = length .spin S ^ 2 * Real.sin piLit ^ 2 := by
        have : length .spin S ^ 2 * Real.sin piLit ^ 2
          = length .spin S ^ 2 * (Real.sin piLit / length .biv D) ^ 2 * length .biv D ^ 2 := by
          field_simp
        rw [this, hl]; ring
      have e2 : (-length .spin S - length .spin S * Real.cos piLit) ^ 2
          = length .spin S ^ 2 * (1 + 2 * Real.cos piLit + Real.cos piLit ^ 2) := by ring
      rw [e2]
      linear_combination e + length .spin S ^ 2 * hsc
    refine (abs_le_of_sq_le_sq' ?_ (by positivity)).2
    rw [hd2, mul_pow]
    have : 2 + 2 * Real.cos piLit ≤ (1 / 10 ^ 15) ^ 2 := by linarith
    nlinarith [pow_pos hpos 2]

/-- **C23.** `logG2` is `null` for invalid spinors and for magnitudes not above `eps`. -/
theorem C23_null (S : Spinor ℝ) (D : BiVector XR)
    (h : ¬ (Valid S.theSca.theData.d0 ∧ Valid S.theBiv.theData.d0) ∨ length .spin S ≤ eps) :
    logG2 (lift .spin S) D = gnull Dbl.nan := by
  rcases h with h | h
  · exact logG2_invalid S D h
  · exact logG2_small S D h

/-- **C23, violated near the identity.** The valid spinor `1 + 2^-30 e12` is mapped to a
scalar by `exp(logG2(.))`. -/
theorem C23_fails : ∃ S : Spinor ℝ, Valid S.theSca.theData.d0 ∧
    (∀ k ∈ comps .spin S, Valid k) ∧ eps < length .spin S ∧
    expSpin (logG2 (lift .spin S)) ≠ lift .spin S := by
  have h26 : (1 : ℝ) / 2 ^ 1022 ≤ 1 / 2 ^ 30 :=
    one_div_le_one_div_of_le (by positivity) (pow_le_pow_right₀ (by norm_num) (by norm_num))
  have hv1 : Valid (1 : ℝ) := by
    right
    rw [abs_one]
    exact ⟨h26.trans (by norm_num), lt_big (by norm_num)⟩
  have hv2 : Valid ((1 : ℝ) / 2 ^ 30) := by
    right
    rw [abs_of_pos (by positivity)]
    exact ⟨h26, lt_big (by norm_num)⟩
  have hl : length .spin (⟨⟨⟨1⟩⟩, ⟨⟨0, 0, 1 / 2 ^ 30⟩⟩⟩ : Spinor ℝ) ^ 2 = 1 + 1 / 2 ^ 60 := by
    rw [spin_sq]; norm_num
  have hn := length_nonneg .spin (⟨⟨⟨1⟩⟩, ⟨⟨0, 0, 1 / 2 ^ 30⟩⟩⟩ : Spinor ℝ)
  have hr : eps < length .spin (⟨⟨⟨1⟩⟩, ⟨⟨0, 0, 1 / 2 ^ 30⟩⟩⟩ : Spinor ℝ) := by
    rw [eps_val]; nlinarith
  refine ⟨⟨⟨⟨1⟩⟩, ⟨⟨0, 0, 1 / 2 ^ 30⟩⟩⟩, hv1, ?_, hr, ?_⟩
  · intro k hk
    simp only [comps, List.mem_cons, List.not_mem_nil, or_false] at hk
    rcases hk with rfl | rfl | rfl | rfl
    · exact hv1
    · exact Or.inl rfl
    · exact Or.inl rfl
    · exact hv2
  · obtain ⟨T, hT, -, -, hiff⟩ := C23_near_identity ⟨⟨⟨1⟩⟩, ⟨⟨0, 0, 1 / 2 ^ 30⟩⟩⟩ e23 hv1
      (Or.inl rfl) hr (by
        change (1 - eps) * _ < (1 : ℝ)
        rw [eps_val]
        refine (abs_lt_of_sq_lt_sq' ?_ (by norm_num)).2
        rw [mul_pow, hl]; norm_num)
    rw [hT]
    intro h
    have h1 := hiff.1 (lift_injective .spin h)
    have h2 := congrArg (fun b => b.theData.d2) h1
    simp only [engabra] at h2
    norm_num at h2

/-! ## C24 -/

theorem half_lift (X : Spinor ℝ) :
    ((Dbl.lit (1 / 2) : XR) * (lift .spin X : Spinor XR) : Spinor XR) = lift .spin ((1 / 2 : ℝ) * X) := by
  have h : (Dbl.lit (1 / 2) : XR) = val (1 / 2) := by rw [lit_def]; norm_num
  rw [h]
  exact smul_lift .spin (1 / 2) X

theorem sqrtG2_step (S : Spinor ℝ) (D : BiVector XR) (hw : Valid S.theSca.theData.d0)
    (hb : Valid S.theBiv.theData.d0) (hr : 4 * eps ≤ length .spin S) :
    sqrtG2 (lift .spin S) D = expSpin ((Dbl.lit (1 / 2) : XR) * logG2 (lift .spin S) D) := by
  unfold sqrtG2
  rw [if_pos ((isValid_spin_lift S).2 ⟨hw, hb⟩)]
  simp only [magnitude_spin_lift, epsilon_def]
  have h4 : (Dbl.lit 4 : XR) = val 4 := by rw [lit_def]; norm_num
  rw [h4, val_mul, if_neg]
  rw [lt_val, not_lt]
  exact hr

/-- **C24.** `sqrtG2(S) * sqrtG2(S) = S` in the main branch. -/
theorem C24_sqrt_partial (S : Spinor ℝ) (D : BiVector XR)
    (hw : Valid S.theSca.theData.d0) (hb : Valid S.theBiv.theData.d0) (hf : FirstOk S.theBiv)
    (hr : 4 * eps ≤ length .spin S)
    (hc : |S.theSca.theData.d0| ≤ (1 - eps) * length .spin S) :
    sqrtG2 (lift .spin S) D * sqrtG2 (lift .spin S) D = lift .spin S := by
  have hr' : eps < length .spin S := by linarith [eps_pos]
  have ha := angle_bounds S hr' hc
  have hbp := biv_pos S hr' hc
  rw [sqrtG2_step S D hw hb hr, logG2_general S D hw hb hr' hc, half_lift]
  have e : ((1 / 2 : ℝ) * (⟨⟨⟨Real.log (length .spin S)⟩⟩, (angleOf S / length .biv S.theBiv : ℝ) * S.theBiv⟩ : Spinor ℝ))
      = ⟨⟨⟨1 / 2 * Real.log (length .spin S)⟩⟩,
          (1 / 2 : ℝ) * ((angleOf S / length .biv S.theBiv : ℝ) * S.theBiv)⟩ := rfl
  have e1 : ((1 / 2 : ℝ) * ((angleOf S / length .biv S.theBiv : ℝ) * S.theBiv) : BiVector ℝ)
      = ((angleOf S / 2) / length .biv S.theBiv : ℝ) * S.theBiv := by
    ext <;> simp only [engabra] <;> ring
  have hhalf : (1 / 2 + 1 / 2 : ℝ) = 1 := by norm_num
  have e2 : (((1 / 2 : ℝ) + 1 / 2 : ℝ) * ((angleOf S / length .biv S.theBiv : ℝ) * S.theBiv) : BiVector ℝ)
      = (angleOf S / length .biv S.theBiv : ℝ) * S.theBiv := by
    rw [hhalf]; ext <;> simp only [engabra, one_mul]
  have hpi := Real.pi_lt_four
  have hn : (1 : ℝ) / 2 ^ 27 ≤ angleOf S / 2 := by
    have := ha.1
    rw [le_div_iff₀ (by norm_num)]
    refine le_trans ?_ this
    norm_num
  rw [e, C20_add_in_plane]
  · rw [e2, ← add_mul, hhalf, one_mul, expSpin_ok, expR_log S hr' hc]
    refine expOk_angle _ _ (le_trans ?_ ha.1) (by linarith) hbp hf
    norm_num
  · rw [e1]; exact expOk_angle _ _ hn (by linarith) hbp hf
  · rw [e1]; exact expOk_angle _ _ hn (by linarith) hbp hf
  · rw [e2]
    refine expOk_angle _ _ (le_trans ?_ ha.1) (by linarith) hbp hf
    norm_num

/-- **C24.** Within `eps` of a positive scalar the root is the scalar `√|S|`; its square is off
by at most `√(2 eps) |S|`, and is exactly `S` if and only if `S` is a scalar. -/
theorem C24_near_positive (S : Spinor ℝ) (D : BiVector XR) (hw : Valid S.theSca.theData.d0)
    (hb : Valid S.theBiv.theData.d0) (hr : 4 * eps ≤ length .spin S)
    (hc : (1 - eps) * length .spin S < S.theSca.theData.d0) :
    sqrtG2 (lift .spin S) D = lift .spin ⟨⟨⟨√(length .spin S)⟩⟩, gzero⟩ ∧
    ∃ T : Spinor ℝ, sqrtG2 (lift .spin S) D * sqrtG2 (lift .spin S) D = lift .spin T ∧
      dist S T ≤ √(2 * eps) * length .spin S ∧ (T = S ↔ S.theBiv = gzero) := by
  have hr' : eps < length .spin S := by linarith [eps_pos]
  have hpos := eps_pos.trans hr'
  have h1 : sqrtG2 (lift .spin S) D = lift .spin ⟨⟨⟨√(length .spin S)⟩⟩, gzero⟩ := by
    rw [sqrtG2_step S D hw hb hr, logG2_near_one S D hw hb hr' hc, half_lift]
    have e : ((1 / 2 : ℝ) * (⟨⟨⟨Real.log (length .spin S)⟩⟩, gzero⟩ : Spinor ℝ))
        = ⟨⟨⟨1 / 2 * Real.log (length .spin S)⟩⟩, gzero⟩ := by
      ext <;> simp [engabra]
    rw [e, expSpin_ok _ _ ⟨Or.inl rfl, Or.inl rfl⟩, expR_zero, Real.sqrt_eq_rpow,
      Real.rpow_def_of_pos hpos, mul_comm]
  refine ⟨h1, ?_⟩
  obtain ⟨T, -, hT, hd, hiff⟩ := C23_near_identity S D hw hb hr' hc
  refine ⟨T, ?_, hd, hiff⟩
  rw [h1, hT]
  refine (mul_lift .spin .spin _ _).trans ?_
  congr 1
  change (⟨⟨⟨√(length .spin S)⟩⟩, gzero⟩ : Spinor ℝ) * ⟨⟨⟨√(length .spin S)⟩⟩, gzero⟩ = _
  have hs := Real.mul_self_sqrt hpos.le
  ext <;> simp [engabra, hs]

/-- **C24.** Within `eps` of a negative scalar the square of the root is off by at most
`(√(2 eps) + 1e-15) |S|`. -/
theorem C24_near_negative (S : Spinor ℝ) (D : BiVector ℝ) (hw : Valid S.theSca.theData.d0)
    (hb : Valid S.theBiv.theData.d0) (hr : 4 * eps ≤ length .spin S)
    (hc : S.theSca.theData.d0 < -((1 - eps) * length .spin S))
    (hD : tiny < length .biv D) (hf : FirstOk D) :
    ∃ T : Spinor ℝ,
      sqrtG2 (lift .spin S) (lift .biv D) * sqrtG2 (lift .spin S) (lift .biv D) = lift .spin T ∧
      dist S T ≤ (√(2 * eps) + 1 / 10 ^ 15) * length .spin S := by
  have hr' : eps < length .spin S := by linarith [eps_pos]
  have hDp := tiny_pos.trans hD
  obtain ⟨T, hT, hd⟩ := C23_near_minus_identity S D hw hb hr' hc hD hf
  refine ⟨T, ?_, hd⟩
  rw [← hT, sqrtG2_step S _ hw hb hr, logG2_near_minus_one S D hw hb hr' hc hD, half_lift]
  have e : ((1 / 2 : ℝ) * (⟨⟨⟨Real.log (length .spin S)⟩⟩, (piLit / length .biv D : ℝ) * D⟩ : Spinor ℝ))
      = ⟨⟨⟨1 / 2 * Real.log (length .spin S)⟩⟩,
          (1 / 2 : ℝ) * ((piLit / length .biv D : ℝ) * D)⟩ := rfl
  have e1 : ((1 / 2 : ℝ) * ((piLit / length .biv D : ℝ) * D) : BiVector ℝ)
      = ((piLit / 2) / length .biv D : ℝ) * D := by
    ext <;> simp only [engabra] <;> ring
  have hhalf : (1 / 2 + 1 / 2 : ℝ) = 1 := by norm_num
  have e2 : (((1 / 2 : ℝ) + 1 / 2 : ℝ) * ((piLit / length .biv D : ℝ) * D) : BiVector ℝ)
      = (piLit / length .biv D : ℝ) * D := by
    rw [hhalf]; ext <;> simp only [engabra, one_mul]
  rw [e, C20_add_in_plane, e2, ← add_mul, hhalf, one_mul]
  · rw [e1]; apply expOk_angle _ _ _ _ hDp hf <;> unfold piLit <;> norm_num
  · rw [e1]; apply expOk_angle _ _ _ _ hDp hf <;> unfold piLit <;> norm_num
  · rw [e2]; apply expOk_angle _ _ _ _ hDp hf <;> unfold piLit <;> norm_num

/-- **C24.** The principal root: its scalar part is not negative (main branch). -/
theorem C24_principal (S : Spinor ℝ) (D : BiVector XR)
    (hw : Valid S.theSca.theData.d0) (hb : Valid S.theBiv.theData.d0) (hf : FirstOk S.theBiv)
    (hr : 4 * eps ≤ length .spin S)
    (hc : |S.theSca.theData.d0| ≤ (1 - eps) * length .spin S) :
    ∃ R : Spinor ℝ, sqrtG2 (lift .spin S) D = lift .spin R ∧ 0 < R.theSca.theData.d0 := by
  have hr' : eps < length .spin S := by linarith [eps_pos]
  have ha := angle_bounds S hr' hc
  have hbp := biv_pos S hr' hc
  have hpi := Real.pi_lt_four
  have e1 : ((1 / 2 : ℝ) * (⟨⟨⟨Real.log (length .spin S)⟩⟩, (angleOf S / length .biv S.theBiv : ℝ) * S.theBiv⟩ : Spinor ℝ))
      = ⟨⟨⟨1 / 2 * Real.log (length .spin S)⟩⟩, ((angleOf S / 2) / length .biv S.theBiv : ℝ) * S.theBiv⟩ := by
    ext <;> simp only [engabra] <;> ring
  have hn : (1 : ℝ) / 2 ^ 27 ≤ angleOf S / 2 := by
    have := ha.1
    rw [le_div_iff₀ (by norm_num)]
    refine le_trans ?_ this
    norm_num
  rw [sqrtG2_step S D hw hb hr, logG2_general S D hw hb hr' hc, half_lift, e1,
    expSpin_ok _ _ (expOk_angle _ _ hn (by linarith) hbp hf)]
  refine ⟨_, rfl, ?_⟩
  rw [expR_dir _ _ _ hbp]
  have h26 : (0 : ℝ) < 1 / 2 ^ 26 := by positivity
  exact mul_pos (Real.exp_pos _) (Real.cos_pos_of_mem_Ioo ⟨by linarith [ha.1, Real.pi_pos], by linarith [ha.2]⟩)

/-- **C24.** Below `4 eps` the root is zero, whatever the spinor ... -/
theorem C24_zero_below (S : Spinor ℝ) (D : BiVector XR) (hw : Valid S.theSca.theData.d0)
    (hb : Valid S.theBiv.theData.d0) (hr : length .spin S < 4 * eps) :
    sqrtG2 (lift .spin S) D = gzero := by
  unfold sqrtG2
  rw [if_pos ((isValid_spin_lift S).2 ⟨hw, hb⟩)]
  simp only [magnitude_spin_lift, epsilon_def]
  have h4 : (Dbl.lit 4 : XR) = val 4 := by rw [lit_def]; norm_num
  rw [h4, val_mul, if_pos]
  rw [lt_val]
  exact hr

/-- ... so that every non-zero spinor down there violates C24. -/
theorem C24_fails_below (S : Spinor ℝ) (D : BiVector XR) (hw : Valid S.theSca.theData.d0)
    (hb : Valid S.theBiv.theData.d0) (hr : length .spin S < 4 * eps) (h0 : S ≠ gzero) :
    sqrtG2 (lift .spin S) D * sqrtG2 (lift .spin S) D ≠ lift .spin S := by
  rw [C24_zero_below S D hw hb hr]
  intro h
  apply h0
  have : (gzero : Spinor XR) * gzero = lift .spin (gzero * gzero : Spinor ℝ) := rfl
  rw [this] at h
  rw [← lift_injective .spin h]
  ext <;> simp [engabra]

/-- **C24.** Invalid spinors give `null`. -/
theorem C24_null {α : Type} [Dbl α] [LibM α] (S : Spinor α) (D : BiVector α)
    (h : isValid S = false) : sqrtG2 S D = gnull Dbl.nan := by
  unfold sqrtG2
  rw [if_neg (by rw [h]; decide)]

/-! ## Non-triviality: `3 + 4 e12` is in the main branch, for both theorems -/

example : ∃ S : Spinor ℝ, Valid S.theSca.theData.d0 ∧ Valid S.theBiv.theData.d0 ∧ FirstOk S.theBiv ∧
    4 * eps ≤ length .spin S ∧ eps < length .spin S ∧
    |S.theSca.theData.d0| ≤ (1 - eps) * length .spin S := by
  have hl : length .spin (⟨⟨⟨3⟩⟩, ⟨⟨0, 0, 4⟩⟩⟩ : Spinor ℝ) = 5 := by
    have h := spin_sq ⟨⟨⟨3⟩⟩, ⟨⟨0, 0, 4⟩⟩⟩
    simp only at h
    nlinarith [length_nonneg .spin (⟨⟨⟨3⟩⟩, ⟨⟨0, 0, 4⟩⟩⟩ : Spinor ℝ)]
  refine ⟨⟨⟨⟨3⟩⟩, ⟨⟨0, 0, 4⟩⟩⟩, Or.inr ⟨?_, ?_⟩, Or.inl rfl, Or.inl rfl, ?_, ?_, ?_⟩
  · change (1 : ℝ) / 2 ^ 1022 ≤ |3|
    rw [abs_of_pos (by norm_num)]
    have : (1 : ℝ) / 2 ^ 1022 ≤ 1 := by
      rw [div_le_one (by positivity)]; exact one_le_pow₀ (by norm_num)
    linarith
  · change |(3 : ℝ)| < _
    rw [abs_of_pos (by norm_num)]
    exact lt_big (by norm_num)
  · rw [hl, eps_val]; norm_num
  · rw [hl, eps_val]; norm_num
  · rw [hl, eps_val]
    change |(3 : ℝ)| ≤ _
    rw [abs_of_pos (by norm_num)]; norm_num

/-- The default second argument meets the hypotheses on `D`. -/
example : (e23 : BiVector XR) = lift .biv (e23 : BiVector ℝ) ∧
    tiny < length .biv (e23 : BiVector ℝ) ∧ FirstOk (e23 : BiVector ℝ) := by
  have hl : length .biv (e23 : BiVector ℝ) = 1 := by
    rw [length_eq]
    have : magSqTy .biv (e23 : BiVector ℝ) = 1 := by simp only [magSqTy, engabra]; ring
    rw [this, Real.sqrt_one]
  refine ⟨rfl, ?_, Or.inr ?_⟩
  · rw [hl]; exact tiny_lt_one
  · rw [hl]
    change _ ≤ |(1 : ℝ)|
    rw [abs_one, mul_one, div_le_one (by positivity)]; exact one_le_pow₀ (by norm_num)

/-- `C23_log_exp_partial` at a quarter turn of the third plane with scalar part 1: all its
hypotheses. -/
example : ExpOk (⟨⟨0, 0, Real.pi / 2⟩⟩ : BiVector ℝ) ∧ 0 < length .biv (⟨⟨0, 0, Real.pi / 2⟩⟩ : BiVector ℝ) ∧
    length .biv (⟨⟨0, 0, Real.pi / 2⟩⟩ : BiVector ℝ) < Real.pi ∧
    Valid (Real.exp 1 * Real.cos (length .biv (⟨⟨0, 0, Real.pi / 2⟩⟩ : BiVector ℝ))) ∧
    Valid (Real.exp 1 * (Real.sin (length .biv (⟨⟨0, 0, Real.pi / 2⟩⟩ : BiVector ℝ))
      / length .biv (⟨⟨0, 0, Real.pi / 2⟩⟩ : BiVector ℝ)) * 0) ∧
    eps < Real.exp 1 ∧ |Real.cos (length .biv (⟨⟨0, 0, Real.pi / 2⟩⟩ : BiVector ℝ))| ≤ 1 - eps := by
  have hp := Real.pi_gt_three
  have hl : length .biv (⟨⟨0, 0, Real.pi / 2⟩⟩ : BiVector ℝ) = Real.pi / 2 := by
    rw [length_eq]
    have : magSqTy .biv (⟨⟨0, 0, Real.pi / 2⟩⟩ : BiVector ℝ) = (Real.pi / 2) ^ 2 := by
      simp only [magSqTy, engabra]; ring
    rw [this, Real.sqrt_sq (by linarith)]
  rw [hl, Real.cos_pi_div_two, mul_zero, mul_zero, abs_zero, eps_val]
  refine ⟨expOk_of _ (by rw [hl]; linarith [tiny_lt_one]) (Or.inl rfl), by linarith, by linarith,
    Or.inl rfl, Or.inl rfl, ?_, by norm_num⟩
  linarith [Real.add_one_le_exp (1 : ℝ)]

/-- `2 + 2^-40 e12` and `-2 + 2^-40 e12` are next to the real axis, for `C23_near_identity`,
`C24_near_positive` and their negative counterparts; `2^-60 e12` is below the threshold of
`C24_zero_below`. -/
example : (∀ s : ℝ, s = 2 ∨ s = -2 → 4 * eps ≤ length .spin (⟨⟨⟨s⟩⟩, ⟨⟨0, 0, 1 / 2 ^ 40⟩⟩⟩ : Spinor ℝ) ∧
      (1 - eps) * length .spin (⟨⟨⟨s⟩⟩, ⟨⟨0, 0, 1 / 2 ^ 40⟩⟩⟩ : Spinor ℝ) < |s|) ∧
    length .spin (⟨⟨⟨0⟩⟩, ⟨⟨0, 0, 1 / 2 ^ 60⟩⟩⟩ : Spinor ℝ) < 4 * eps := by
  refine ⟨fun s hs => ?_, ?_⟩
  · have h4 : s * s = 4 := by rcases hs with rfl | rfl <;> norm_num
    have ha : |s| = 2 := by rcases hs with rfl | rfl <;> norm_num
    have h := spin_sq ⟨⟨⟨s⟩⟩, ⟨⟨0, 0, 1 / 2 ^ 40⟩⟩⟩
    simp only at h
    have h0 := length_nonneg .spin (⟨⟨⟨s⟩⟩, ⟨⟨0, 0, 1 / 2 ^ 40⟩⟩⟩ : Spinor ℝ)
    have h1 : length .spin (⟨⟨⟨s⟩⟩, ⟨⟨0, 0, 1 / 2 ^ 40⟩⟩⟩ : Spinor ℝ) < 2 + 1 / 2 ^ 53 := by
      by_contra hc
      push Not at hc
      nlinarith
    have h2 : 1 ≤ length .spin (⟨⟨⟨s⟩⟩, ⟨⟨0, 0, 1 / 2 ^ 40⟩⟩⟩ : Spinor ℝ) := by nlinarith
    rw [ha, eps_val]
    constructor
    · linarith
    · nlinarith
  · rw [length_eq, Real.sqrt_lt' (by rw [eps_val]; norm_num), eps_val]
    simp only [magSqTy, engabra]; norm_num

end Engabra
