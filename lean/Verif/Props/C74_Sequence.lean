import Verif.Props.C20_Exp
import Verif.Props.C22_Rotation
import Verif.Props.C66_Isometries
import Mathlib.Analysis.SpecialFunctions.Trigonometric.Angle
import Mathlib.Analysis.SpecialFunctions.Complex.Arg

/-! # C74: azimuth, elevation and roll of the README -/

namespace Engabra
open XR Spec

/-! ## Specification -/

/-- `exp(.5*angRoll) * exp(.5*angElev) * exp(.5*angAzim)` with `angAzim = a*e12`, `angElev = e*e23`,
`angRoll = r*e31`: `README.md`, "Transform positions, forces, and moments". -/
noncomputable def azElRoll (a e r : ℝ) : Spinor XR :=
  expBiv (lift .biv ((2⁻¹ : ℝ) * (r * (e31 : BiVector ℝ)))) *
    expBiv (lift .biv ((2⁻¹ : ℝ) * (e * (e23 : BiVector ℝ)))) *
    expBiv (lift .biv ((2⁻¹ : ℝ) * (a * (e12 : BiVector ℝ))))

/-- An angle that is zero or whose half is in the range of normal doubles. -/
def Usable (x : ℝ) : Prop := Valid (2⁻¹ * x)

/-- `S` and `T` turn every vector in the same way. -/
def SameTurn (S T : Spinor ℝ) : Prop :=
  ∀ v : Vector ℝ, S * v * reverse S = (T * v * reverse T : ImSpin ℝ)

/-! ## Closed form -/

/-- The product of the three exponentials, written out. -/
noncomputable def seqR (a e r : ℝ) : Spinor ℝ :=
  let ca := Real.cos (a / 2); let sa := Real.sin (a / 2)
  let ce := Real.cos (e / 2); let se := Real.sin (e / 2)
  let cr := Real.cos (r / 2); let sr := Real.sin (r / 2)
  ⟨⟨⟨cr * ce * ca - sr * se * sa⟩⟩,
    ⟨⟨cr * se * ca - sr * ce * sa, sr * ce * ca + cr * se * sa, sr * se * ca + cr * ce * sa⟩⟩⟩

theorem sinc_abs (x : ℝ) : Real.sin |x| / |x| * x = Real.sin x := by
  rcases eq_or_ne x 0 with rfl | h
  · simp
  · rcases abs_choice x with h1 | h1 <;> rw [h1]
    · field_simp
    · rw [Real.sin_neg]; field_simp

theorem exp_e12 (x : ℝ) : expR 0 ((2⁻¹ : ℝ) * (x * (e12 : BiVector ℝ))) =
    ⟨⟨⟨Real.cos (x / 2)⟩⟩, ⟨⟨0, 0, Real.sin (x / 2)⟩⟩⟩ := by
  have hl : length .biv ((2⁻¹ : ℝ) * (x * (e12 : BiVector ℝ)) : BiVector ℝ) = |x / 2| := by
    rw [length_eq, ← Real.sqrt_sq_eq_abs]
    congr 1
    simp only [magSqTy, e12, engabra]; ring
  have hs := sinc_abs (x / 2)
  unfold expR
  rw [hl, Real.exp_zero, Real.cos_abs]
  simp only [e12, engabra, Spinor.mk.injEq, Scalar.mk.injEq, A1.mk.injEq, BiVector.mk.injEq,
    A3.mk.injEq]
  refine ⟨by ring, by ring, by ring, ?_⟩
  rw [← hs]; ring

theorem exp_e23 (x : ℝ) : expR 0 ((2⁻¹ : ℝ) * (x * (e23 : BiVector ℝ))) =
    ⟨⟨⟨Real.cos (x / 2)⟩⟩, ⟨⟨Real.sin (x / 2), 0, 0⟩⟩⟩ := by
  have hl : length .biv ((2⁻¹ : ℝ) * (x * (e23 : BiVector ℝ)) : BiVector ℝ) = |x / 2| := by
    rw [length_eq, ← Real.sqrt_sq_eq_abs]
    congr 1
    simp only [magSqTy, e23, engabra]; ring
  have hs := sinc_abs (x / 2)
  unfold expR
  rw [hl, Real.exp_zero, Real.cos_abs]
  simp only [e23, engabra, Spinor.mk.injEq, Scalar.mk.injEq, A1.mk.injEq, BiVector.mk.injEq,
    A3.mk.injEq]
  refine ⟨by ring, ?_, by ring, by ring⟩
  rw [← hs]; ring

theorem exp_e31 (x : ℝ) : expR 0 ((2⁻¹ : ℝ) * (x * (e31 : BiVector ℝ))) =
    ⟨⟨⟨Real.cos (x / 2)⟩⟩, ⟨⟨0, Real.sin (x / 2), 0⟩⟩⟩ := by
  have hl : length .biv ((2⁻¹ : ℝ) * (x * (e31 : BiVector ℝ)) : BiVector ℝ) = |x / 2| := by
    rw [length_eq, ← Real.sqrt_sq_eq_abs]
    congr 1
    simp only [magSqTy, e31, engabra]; ring
  have hs := sinc_abs (x / 2)
  unfold expR
  rw [hl, Real.exp_zero, Real.cos_abs]
  simp only [e31, engabra, Spinor.mk.injEq, Scalar.mk.injEq, A1.mk.injEq, BiVector.mk.injEq,
    A3.mk.injEq]
  refine ⟨by ring, by ring, ?_, by ring⟩
  rw [← hs]; ring

theorem seqR_eq (a e r : ℝ) : expR 0 ((2⁻¹ : ℝ) * (r * (e31 : BiVector ℝ))) *
    expR 0 ((2⁻¹ : ℝ) * (e * (e23 : BiVector ℝ))) * expR 0 ((2⁻¹ : ℝ) * (a * (e12 : BiVector ℝ))) =
      seqR a e r := by
  rw [exp_e12, exp_e23, exp_e31]
  unfold seqR
  simp only [engabra, Spinor.mk.injEq, Scalar.mk.injEq, A1.mk.injEq, BiVector.mk.injEq, A3.mk.injEq]
  refine ⟨by ring, by ring, by ring, by ring⟩

theorem tiny_lt_valid {x : ℝ} (h : Valid x) (h0 : x ≠ 0) : tiny < |x| := by
  rcases h with h | ⟨h, -⟩
  · exact absurd h h0
  · refine lt_of_lt_of_le ?_ h
    unfold tiny
    exact one_div_lt_one_div_of_lt (by positivity) (pow_lt_pow_right₀ (by norm_num) (by norm_num))

theorem expOk_azim {x : ℝ} (h : Usable x) : ExpOk ((2⁻¹ : ℝ) * (x * (e12 : BiVector ℝ))) := by
  refine ⟨Or.inl (by simp [e12, engabra]), ?_⟩
  have hl : length .biv ((2⁻¹ : ℝ) * (x * (e12 : BiVector ℝ)) : BiVector ℝ) = |2⁻¹ * x| := by
    rw [length_eq, ← Real.sqrt_sq_eq_abs]
    congr 1
    simp only [magSqTy, e12, engabra]; ring
  by_cases h0 : (2⁻¹ * x : ℝ) = 0
  · left
    have hx : x = 0 := by linarith
    subst hx
    ext <;> simp [e12, engabra]
  · right
    rw [hl]
    exact ⟨tiny_lt_valid h h0, Or.inl (by simp [e12, engabra])⟩

theorem expOk_roll {x : ℝ} (h : Usable x) : ExpOk ((2⁻¹ : ℝ) * (x * (e31 : BiVector ℝ))) := by
  refine ⟨Or.inl (by simp [e31, engabra]), ?_⟩
  have hl : length .biv ((2⁻¹ : ℝ) * (x * (e31 : BiVector ℝ)) : BiVector ℝ) = |2⁻¹ * x| := by
    rw [length_eq, ← Real.sqrt_sq_eq_abs]
    congr 1
    simp only [magSqTy, e31, engabra]; ring
  by_cases h0 : (2⁻¹ * x : ℝ) = 0
  · left
    have hx : x = 0 := by linarith
    subst hx
    ext <;> simp [e31, engabra]
  · right
    rw [hl]
    exact ⟨tiny_lt_valid h h0, Or.inl (by simp [e31, engabra])⟩

theorem valid_sign {x : ℝ} (h0 : x ≠ 0) : Valid (x / |x|) := by
  have : abs (x / |x|) = 1 := by
    rw [abs_div, abs_abs, div_self (abs_ne_zero.2 h0)]
  right
  rw [this]
  refine ⟨?_, one_lt_pow₀ (by norm_num) (by norm_num)⟩
  rw [div_le_one (by positivity)]
  exact one_le_pow₀ (by norm_num)

theorem expOk_elev {x : ℝ} (h : Usable x) : ExpOk ((2⁻¹ : ℝ) * (x * (e23 : BiVector ℝ))) := by
  have hd : ((2⁻¹ : ℝ) * (x * (e23 : BiVector ℝ)) : BiVector ℝ).theData.d0 = 2⁻¹ * x := by
    simp [e23, engabra]
  refine ⟨by rw [hd]; exact h, ?_⟩
  have hl : length .biv ((2⁻¹ : ℝ) * (x * (e23 : BiVector ℝ)) : BiVector ℝ) = |2⁻¹ * x| := by
    rw [length_eq, ← Real.sqrt_sq_eq_abs]
    congr 1
    simp only [magSqTy, e23, engabra]; ring
  by_cases h0 : (2⁻¹ * x : ℝ) = 0
  · left
    have hx : x = 0 := by linarith
    subst hx
    ext <;> simp [e23, engabra]
  · right
    rw [hl, hd]
    exact ⟨tiny_lt_valid h h0, valid_sign h0⟩

theorem azElRoll_ok {a e r : ℝ} (ha : Usable a) (he : Usable e) (hr : Usable r) :
    azElRoll a e r = lift .spin (seqR a e r) := by
  unfold azElRoll
  rw [expBiv_ok _ (expOk_azim ha), expBiv_ok _ (expOk_elev he), expBiv_ok _ (expOk_roll hr), ← seqR_eq]
  rfl

/-- Four combinations of the components of the product. -/
theorem seqR_comb (a e r : ℝ) :
    let S := seqR a e r
    let A := Real.cos (e / 2) + Real.sin (e / 2)
    let B := Real.cos (e / 2) - Real.sin (e / 2)
    S.theSca.theData.d0 + S.theBiv.theData.d0 = A * Real.cos ((a + r) / 2) ∧
    S.theBiv.theData.d2 + S.theBiv.theData.d1 = A * Real.sin ((a + r) / 2) ∧
    S.theSca.theData.d0 - S.theBiv.theData.d0 = B * Real.cos ((a - r) / 2) ∧
    S.theBiv.theData.d2 - S.theBiv.theData.d1 = B * Real.sin ((a - r) / 2) := by
  simp only [seqR]
  rw [add_div, sub_div, Real.cos_add, Real.sin_add, Real.cos_sub, Real.sin_sub]
  refine ⟨by ring, by ring, by ring, by ring⟩

theorem spinor_comb_ext {S T : Spinor ℝ}
    (h1 : S.theSca.theData.d0 + S.theBiv.theData.d0 = T.theSca.theData.d0 + T.theBiv.theData.d0)
    (h2 : S.theBiv.theData.d2 + S.theBiv.theData.d1 = T.theBiv.theData.d2 + T.theBiv.theData.d1)
    (h3 : S.theSca.theData.d0 - S.theBiv.theData.d0 = T.theSca.theData.d0 - T.theBiv.theData.d0)
    (h4 : S.theBiv.theData.d2 - S.theBiv.theData.d1 = T.theBiv.theData.d2 - T.theBiv.theData.d1) :
    S = T := by
  ext <;> linarith

theorem magSq_seqR (a e r : ℝ) : magSq (seqR a e r) = 1 := by
  rw [← seqR_eq, exp_e12, exp_e23, exp_e31]
  simp only [engabra]
  have h1 := Real.cos_sq_add_sin_sq (a / 2)
  have h2 := Real.cos_sq_add_sin_sq (e / 2)
  have h3 := Real.cos_sq_add_sin_sq (r / 2)
  generalize Real.cos (a / 2) = ca at *
  generalize Real.sin (a / 2) = sa at *
  generalize Real.cos (e / 2) = ce at *
  generalize Real.sin (e / 2) = se at *
  generalize Real.cos (r / 2) = cr at *
  generalize Real.sin (r / 2) = sr at *
  linear_combination (ce ^ 2 + se ^ 2) * (cr ^ 2 + sr ^ 2) * h1 + (cr ^ 2 + sr ^ 2) * h2 + h3

/-! ## Every attitude has such angles -/

theorem half_elev {A B : ℝ} (hA : 0 ≤ A) (hB : 0 ≤ B) (h : A ^ 2 + B ^ 2 = 2) :
    ∃ e : ℝ, -(Real.pi / 2) ≤ e ∧ e ≤ Real.pi / 2 ∧ Real.cos (e / 2) + Real.sin (e / 2) = A ∧
      Real.cos (e / 2) - Real.sin (e / 2) = B := by
  have h2 : √2 ^ 2 = (2 : ℝ) := Real.sq_sqrt (by norm_num)
  have hs0 : (0 : ℝ) ≤ √2 := Real.sqrt_nonneg _
  have hlo : -(√2 / 2) ≤ (A - B) / 2 := by nlinarith [mul_nonneg hA hB]
  have hhi : (A - B) / 2 ≤ √2 / 2 := by nlinarith [mul_nonneg hA hB]
  have hle : √2 ≤ 2 := by nlinarith
  have hsin : Real.sin (Real.arcsin ((A - B) / 2)) = (A - B) / 2 :=
    Real.sin_arcsin (by linarith) (by linarith)
  have hcos : Real.cos (Real.arcsin ((A - B) / 2)) = (A + B) / 2 := by
    rw [Real.cos_arcsin, show 1 - ((A - B) / 2) ^ 2 = ((A + B) / 2) ^ 2 by linarith [h]]
    exact Real.sqrt_sq (by linarith)
  have hq : Real.arcsin (√2 / 2) = Real.pi / 4 := by
    rw [← Real.sin_pi_div_four]
    exact Real.arcsin_sin (by linarith [Real.pi_pos]) (by linarith [Real.pi_pos])
  have hu := Real.monotone_arcsin hhi
  have hl := Real.monotone_arcsin hlo
  rw [Real.arcsin_neg, hq] at hl
  rw [hq] at hu
  refine ⟨2 * Real.arcsin ((A - B) / 2), by linarith, by linarith, ?_, ?_⟩
  · rw [mul_div_cancel_left₀ _ (by norm_num), hsin, hcos]; ring
  · rw [mul_div_cancel_left₀ _ (by norm_num), hsin, hcos]; ring

theorem seqR_every (S : Spinor ℝ) (hS : magSq S = 1) : ∃ a e r : ℝ,
    (-(2 * Real.pi) < a ∧ a ≤ 2 * Real.pi) ∧ (-(Real.pi / 2) ≤ e ∧ e ≤ Real.pi / 2) ∧
    (-(2 * Real.pi) < r ∧ r < 2 * Real.pi) ∧ seqR a e r = S := by
  have hm : S.theSca.theData.d0 ^ 2 + S.theBiv.theData.d0 ^ 2 + S.theBiv.theData.d1 ^ 2
      + S.theBiv.theData.d2 ^ 2 = 1 := by
    rw [← hS]; simp only [engabra]; ring
  obtain ⟨x, hx⟩ : ∃ x : ℂ, x = ⟨S.theSca.theData.d0 + S.theBiv.theData.d0,
    S.theBiv.theData.d2 + S.theBiv.theData.d1⟩ := ⟨_, rfl⟩
  obtain ⟨y, hy⟩ : ∃ y : ℂ, y = ⟨S.theSca.theData.d0 - S.theBiv.theData.d0,
    S.theBiv.theData.d2 - S.theBiv.theData.d1⟩ := ⟨_, rfl⟩
  have hAB : ‖x‖ ^ 2 + ‖y‖ ^ 2 = 2 := by
    rw [← Complex.normSq_eq_norm_sq, ← Complex.normSq_eq_norm_sq, Complex.normSq_apply,
      Complex.normSq_apply, hx, hy]
    dsimp only
    linear_combination 2 * hm
  obtain ⟨e, he1, he2, he3, he4⟩ := half_elev (norm_nonneg x) (norm_nonneg y) hAB
  have px := Complex.arg_mem_Ioc x
  have py := Complex.arg_mem_Ioc y
  refine ⟨x.arg + y.arg, e, x.arg - y.arg, ⟨by linarith [px.1, py.1], by linarith [px.2, py.2]⟩,
    ⟨he1, he2⟩, ⟨by linarith [px.1, py.2], by linarith [px.2, py.1]⟩, ?_⟩
  obtain ⟨c1, c2, c3, c4⟩ := seqR_comb (x.arg + y.arg) e (x.arg - y.arg)
  rw [he3, show (x.arg + y.arg + (x.arg - y.arg)) / 2 = x.arg by ring] at c1 c2
  rw [he4, show (x.arg + y.arg - (x.arg - y.arg)) / 2 = y.arg by ring] at c3 c4
  rw [Complex.norm_mul_cos_arg] at c1 c3
  rw [Complex.norm_mul_sin_arg] at c2 c4
  exact spinor_comb_ext (c1.trans (by rw [hx])) (c2.trans (by rw [hx])) (c3.trans (by rw [hy]))
    (c4.trans (by rw [hy]))

/-- **C74.** Every attitude, given by a unit spinor, is the product of exponentials of a roll, an
elevation between `-90` and `90` degrees and an azimuth; and for usable angles this is what the
library's `exp` and products compute. -/
theorem C74_every (S : Spinor ℝ) (hS : magSq S = 1) : ∃ a e r : ℝ,
    (-(2 * Real.pi) < a ∧ a ≤ 2 * Real.pi) ∧ (-(Real.pi / 2) ≤ e ∧ e ≤ Real.pi / 2) ∧
    (-(2 * Real.pi) < r ∧ r < 2 * Real.pi) ∧
    (∃ R E A : Spinor ℝ, IsExp (toMV ((2⁻¹ : ℝ) * (r * (e31 : BiVector ℝ)) : BiVector ℝ)) (toMV R) ∧
      IsExp (toMV ((2⁻¹ : ℝ) * (e * (e23 : BiVector ℝ)) : BiVector ℝ)) (toMV E) ∧
      IsExp (toMV ((2⁻¹ : ℝ) * (a * (e12 : BiVector ℝ)) : BiVector ℝ)) (toMV A) ∧ R * E * A = S) ∧
    (Usable a → Usable e → Usable r → azElRoll a e r = lift .spin S) := by
  obtain ⟨a, e, r, ha, he, hr, h⟩ := seqR_every S hS
  refine ⟨a, e, r, ha, he, hr, ⟨_, _, _, isExp_expR 0 _, isExp_expR 0 _, isExp_expR 0 _, ?_⟩, ?_⟩
  · rw [seqR_eq, h]
  · intro h1 h2 h3
    rw [azElRoll_ok h1 h2 h3, h]

/-! ## The angles are unique, except straight up and straight down -/

theorem sameTurn_seqR {S T : Spinor ℝ} (hS : magSq S = 1) (hT : magSq T = 1) (h : SameTurn S T) :
    ∃ σ : ℝ, σ ^ 2 = 1 ∧ S.theSca.theData.d0 = σ * T.theSca.theData.d0 ∧
      S.theBiv.theData.d0 = σ * T.theBiv.theData.d0 ∧ S.theBiv.theData.d1 = σ * T.theBiv.theData.d1 ∧
      S.theBiv.theData.d2 = σ * T.theBiv.theData.d2 := by
  rcases C66_rotation_unique S T hS hT h with rfl | rfl
  · exact ⟨1, by norm_num, by ring, by ring, by ring, by ring⟩
  · exact ⟨-1, by norm_num, by simp only [engabra]; ring, by simp only [engabra]; ring,
      by simp only [engabra]; ring, by simp only [engabra]; ring⟩

theorem angle_inj {x y : ℝ} (hx : -Real.pi < x ∧ x ≤ Real.pi) (hy : -Real.pi < y ∧ y ≤ Real.pi)
    (hc : Real.cos x = Real.cos y) (hs : Real.sin x = Real.sin y) : x = y := by
  have h := Real.Angle.cos_sin_inj hc hs
  have := congrArg Real.Angle.toReal h
  rwa [Real.Angle.toReal_coe_eq_self_iff.2 hx, Real.Angle.toReal_coe_eq_self_iff.2 hy] at this

theorem elev_pos {e : ℝ} (h1 : -(Real.pi / 2) < e) (h2 : e < Real.pi / 2) :
    0 < Real.cos (e / 2) + Real.sin (e / 2) ∧ 0 < Real.cos (e / 2) - Real.sin (e / 2) := by
  have hc : 0 < Real.cos (e / 2) := Real.cos_pos_of_mem_Ioo ⟨by linarith, by linarith⟩
  have hp : 0 < Real.cos e := Real.cos_pos_of_mem_Ioo ⟨by linarith, by linarith⟩
  have he : Real.cos e = Real.cos (e / 2) ^ 2 - Real.sin (e / 2) ^ 2 := by
    rw [show e = 2 * (e / 2) by ring, Real.cos_two_mul', show 2 * (e / 2) / 2 = e / 2 by ring]
  rw [he] at hp
  have h := abs_lt_of_sq_lt_sq' (show Real.sin (e / 2) ^ 2 < Real.cos (e / 2) ^ 2 by linarith) hc.le
  exact ⟨by linarith [h.1], by linarith [h.2]⟩

/-- Two directions of the plane that are equal up to a common factor. -/
theorem polar_eq {A A' σ x y : ℝ} (hA : 0 < A) (hA' : 0 < A') (hσ : σ ^ 2 = 1)
    (h1 : A * Real.cos x = σ * (A' * Real.cos y)) (h2 : A * Real.sin x = σ * (A' * Real.sin y)) :
    A = A' ∧ Real.cos x = σ * Real.cos y ∧ Real.sin x = σ * Real.sin y := by
  have hAA : A = A' := by
    have e1 := Real.cos_sq_add_sin_sq x
    have e2 := Real.cos_sq_add_sin_sq y
    have : A ^ 2 = A' ^ 2 := by
      have k1 : (A * Real.cos x) ^ 2 + (A * Real.sin x) ^ 2 = A ^ 2 := by
        linear_combination A ^ 2 * e1
      have k2 : (A * Real.cos x) ^ 2 + (A * Real.sin x) ^ 2 = A' ^ 2 := by
        rw [h1, h2]
        linear_combination σ ^ 2 * A' ^ 2 * e2 + A' ^ 2 * hσ
      rw [← k1, k2]
    nlinarith
  subst hAA
  refine ⟨rfl, ?_, ?_⟩
  · have : A * (Real.cos x - σ * Real.cos y) = 0 := by linear_combination h1
    rcases mul_eq_zero.1 this with h | h
    · exact absurd h hA.ne'
    · linarith
  · have : A * (Real.sin x - σ * Real.sin y) = 0 := by linear_combination h2
    rcases mul_eq_zero.1 this with h | h
    · exact absurd h hA.ne'
    · linarith

/-- **C74.** Azimuth and roll in `(-180, 180]` degrees and an elevation strictly between `-90` and
`90` degrees are determined by the rotation. -/
theorem C74_unique (a e r a' e' r' : ℝ) (S S' : Spinor ℝ)
    (ua : Usable a) (ue : Usable e) (ur : Usable r) (ua' : Usable a') (ue' : Usable e') (ur' : Usable r')
    (ha : -Real.pi < a ∧ a ≤ Real.pi) (ha' : -Real.pi < a' ∧ a' ≤ Real.pi)
    (hr : -Real.pi < r ∧ r ≤ Real.pi) (hr' : -Real.pi < r' ∧ r' ≤ Real.pi)
    (he : -(Real.pi / 2) < e ∧ e < Real.pi / 2) (he' : -(Real.pi / 2) < e' ∧ e' < Real.pi / 2)
    (hS : azElRoll a e r = lift .spin S) (hS' : azElRoll a' e' r' = lift .spin S')
    (h : SameTurn S S') : a = a' ∧ e = e' ∧ r = r' := by
  rw [azElRoll_ok ua ue ur] at hS
  rw [azElRoll_ok ua' ue' ur'] at hS'
  have eS := lift_injective .spin hS
  have eS' := lift_injective .spin hS'
  subst eS; subst eS'
  obtain ⟨σ, hσ, s0, s1, s2, s3⟩ := sameTurn_seqR (magSq_seqR a e r) (magSq_seqR a' e' r') h
  obtain ⟨c1, c2, c3, c4⟩ := seqR_comb a e r
  obtain ⟨d1, d2, d3, d4⟩ := seqR_comb a' e' r'
  obtain ⟨pA, pB⟩ := elev_pos he.1 he.2
  obtain ⟨pA', pB'⟩ := elev_pos he'.1 he'.2
  obtain ⟨q1, q2, q3⟩ := polar_eq pA pA' hσ (by rw [← c1, ← d1, s0, s1]; ring)
    (by rw [← c2, ← d2, s2, s3]; ring)
  obtain ⟨r1, r2, r3⟩ := polar_eq pB pB' hσ (by rw [← c3, ← d3, s0, s1]; ring)
    (by rw [← c4, ← d4, s2, s3]; ring)
  refine ⟨angle_inj ha ha' ?_ ?_, ?_, angle_inj hr hr' ?_ ?_⟩
  · rw [show a = (a + r) / 2 + (a - r) / 2 by ring, show a' = (a' + r') / 2 + (a' - r') / 2 by ring,
      Real.cos_add, Real.cos_add, q2, q3, r2, r3]
    linear_combination (Real.cos ((a' + r') / 2) * Real.cos ((a' - r') / 2)
      - Real.sin ((a' + r') / 2) * Real.sin ((a' - r') / 2)) * hσ
  · rw [show a = (a + r) / 2 + (a - r) / 2 by ring, show a' = (a' + r') / 2 + (a' - r') / 2 by ring,
      Real.sin_add, Real.sin_add, q2, q3, r2, r3]
    linear_combination (Real.sin ((a' + r') / 2) * Real.cos ((a' - r') / 2)
      + Real.cos ((a' + r') / 2) * Real.sin ((a' - r') / 2)) * hσ
  · have hsin : Real.sin (e / 2) = Real.sin (e' / 2) := by linarith
    have := Real.injOn_sin ⟨by linarith [he.1, Real.pi_pos], by linarith [he.2, Real.pi_pos]⟩
      ⟨by linarith [he'.1, Real.pi_pos], by linarith [he'.2, Real.pi_pos]⟩ hsin
    linarith
  · rw [show r = (a + r) / 2 - (a - r) / 2 by ring, show r' = (a' + r') / 2 - (a' - r') / 2 by ring,
      Real.cos_sub, Real.cos_sub, q2, q3, r2, r3]
    linear_combination (Real.cos ((a' + r') / 2) * Real.cos ((a' - r') / 2)
      + Real.sin ((a' + r') / 2) * Real.sin ((a' - r') / 2)) * hσ
  · rw [show r = (a + r) / 2 - (a - r) / 2 by ring, show r' = (a' + r') / 2 - (a' - r') / 2 by ring,
      Real.sin_sub, Real.sin_sub, q2, q3, r2, r3]
    linear_combination (Real.sin ((a' + r') / 2) * Real.cos ((a' - r') / 2)
      - Real.cos ((a' + r') / 2) * Real.sin ((a' - r') / 2)) * hσ

theorem sameTurn_neg (S : Spinor ℝ) : SameTurn S (-S) := by
  intro v; mv_ring

theorem seqR_add_a (a e r : ℝ) : seqR (a + 2 * Real.pi) e r = -seqR a e r := by
  unfold seqR
  rw [show (a + 2 * Real.pi) / 2 = a / 2 + Real.pi by ring, Real.cos_add_pi, Real.sin_add_pi]
  ext <;> simp only [engabra] <;> ring

theorem seqR_add_r (a e r : ℝ) : seqR a e (r + 2 * Real.pi) = -seqR a e r := by
  unfold seqR
  rw [show (r + 2 * Real.pi) / 2 = r / 2 + Real.pi by ring, Real.cos_add_pi, Real.sin_add_pi]
  ext <;> simp only [engabra] <;> ring

theorem neg_neg_spin (S : Spinor ℝ) : -(-S) = S := by mv_ring

/-- **C74.** Every rotation is that of an azimuth and a roll in `(-180, 180]` degrees and an elevation
in `[-90, 90]` degrees. -/
theorem C74_rotation (S : Spinor ℝ) (hS : magSq S = 1) : ∃ (a e r : ℝ) (T : Spinor ℝ),
    (-Real.pi < a ∧ a ≤ Real.pi) ∧ (-(Real.pi / 2) ≤ e ∧ e ≤ Real.pi / 2) ∧
    (-Real.pi < r ∧ r ≤ Real.pi) ∧ SameTurn S T ∧
    (∃ R E A : Spinor ℝ, IsExp (toMV ((2⁻¹ : ℝ) * (r * (e31 : BiVector ℝ)) : BiVector ℝ)) (toMV R) ∧
      IsExp (toMV ((2⁻¹ : ℝ) * (e * (e23 : BiVector ℝ)) : BiVector ℝ)) (toMV E) ∧
      IsExp (toMV ((2⁻¹ : ℝ) * (a * (e12 : BiVector ℝ)) : BiVector ℝ)) (toMV A) ∧ R * E * A = T) ∧
    (Usable a → Usable e → Usable r → azElRoll a e r = lift .spin T) := by
  obtain ⟨a, e, r, ha, he, hr, h⟩ := seqR_every S hS
  have hp := Real.pi_pos
  suffices ∃ a' r', (-Real.pi < a' ∧ a' ≤ Real.pi) ∧ (-Real.pi < r' ∧ r' ≤ Real.pi) ∧
      (seqR a' e r' = S ∨ seqR a' e r' = -S) by
    obtain ⟨a', r', ha', hr', hs⟩ := this
    refine ⟨a', e, r', seqR a' e r', ha', he, hr', ?_,
      ⟨_, _, _, isExp_expR 0 _, isExp_expR 0 _, isExp_expR 0 _, seqR_eq a' e r'⟩,
      fun h1 h2 h3 => azElRoll_ok h1 h2 h3⟩
    rcases hs with hs | hs <;> rw [hs]
    · intro v; rfl
    · exact sameTurn_neg S
  have step : ∀ x, -(2 * Real.pi) < x → x ≤ 2 * Real.pi → ∃ y, (-Real.pi < y ∧ y ≤ Real.pi) ∧
      (y = x ∨ x = y + 2 * Real.pi ∨ y = x + 2 * Real.pi) := by
    intro x h1 h2
    by_cases h3 : Real.pi < x
    · exact ⟨x - 2 * Real.pi, ⟨by linarith, by linarith⟩, Or.inr (Or.inl (by ring))⟩
    · by_cases h4 : x ≤ -Real.pi
      · exact ⟨x + 2 * Real.pi, ⟨by linarith, by linarith⟩, Or.inr (Or.inr rfl)⟩
      · exact ⟨x, ⟨by linarith, by linarith⟩, Or.inl rfl⟩
  obtain ⟨a', ha', ea⟩ := step a ha.1 ha.2
  obtain ⟨r', hr', er⟩ := step r hr.1 hr.2.le
  have k1 : seqR a' e r = S ∨ seqR a' e r = -S := by
    rcases ea with rfl | rfl | rfl
    · exact Or.inl h
    · rw [seqR_add_a] at h
      right; rw [← h, neg_neg_spin]
    · right; rw [seqR_add_a, h]
  refine ⟨a', r', ha', hr', ?_⟩
  rcases er with rfl | rfl | rfl
  · exact k1
  · rw [seqR_add_r] at k1
    rcases k1 with k | k
    · right; rw [← k, neg_neg_spin]
    · left; rw [← neg_neg_spin (seqR a' e r'), k, neg_neg_spin]
  · rw [seqR_add_r]
    rcases k1 with k | k
    · right; rw [k]
    · left; rw [k, neg_neg_spin]

theorem usable_of {x : ℝ} (h1 : 1 / 32 ≤ |x|) (h2 : |x| ≤ 4) : Usable x := by
  right
  rw [abs_mul, abs_of_pos (by norm_num : (0 : ℝ) < 2⁻¹)]
  constructor
  · rw [div_le_iff₀ (by positivity)]
    have : (64 : ℝ) ≤ 2 ^ 1022 := by
      calc (64 : ℝ) = 2 ^ 6 := by norm_num
        _ ≤ 2 ^ 1022 := pow_le_pow_right₀ (by norm_num) (by norm_num)
    generalize (2 : ℝ) ^ 1022 = b at *
    nlinarith
  · have : (4 : ℝ) ≤ 2 ^ 1024 := by
      calc (4 : ℝ) = 2 ^ 2 := by norm_num
        _ ≤ 2 ^ 1024 := pow_le_pow_right₀ (by norm_num) (by norm_num)
    generalize (2 : ℝ) ^ 1024 = b at *
    linarith

theorem usable_piHalf : Usable (Real.pi / 2) := by
  have h1 := Real.pi_gt_three
  have h2 := Real.pi_lt_four
  refine usable_of ?_ ?_ <;> rw [abs_of_pos (by linarith)] <;> linarith

theorem seqR_up (a r : ℝ) : seqR a (Real.pi / 2) r =
    ⟨⟨⟨√2 / 2 * Real.cos ((a + r) / 2)⟩⟩, ⟨⟨√2 / 2 * Real.cos ((a + r) / 2),
      √2 / 2 * Real.sin ((a + r) / 2), √2 / 2 * Real.sin ((a + r) / 2)⟩⟩⟩ := by
  unfold seqR
  rw [show Real.pi / 2 / 2 = Real.pi / 4 by ring, Real.cos_pi_div_four, Real.sin_pi_div_four, add_div,
    Real.cos_add, Real.sin_add]
  ext <;> dsimp only <;> ring

theorem seqR_down (a r : ℝ) : seqR a (-(Real.pi / 2)) r =
    ⟨⟨⟨√2 / 2 * Real.cos ((a - r) / 2)⟩⟩, ⟨⟨-(√2 / 2 * Real.cos ((a - r) / 2)),
      -(√2 / 2 * Real.sin ((a - r) / 2)), √2 / 2 * Real.sin ((a - r) / 2)⟩⟩⟩ := by
  unfold seqR
  rw [show -(Real.pi / 2) / 2 = -(Real.pi / 4) by ring, Real.cos_neg, Real.sin_neg,
    Real.cos_pi_div_four, Real.sin_pi_div_four, sub_div, Real.cos_sub, Real.sin_sub]
  ext <;> dsimp only <;> ring

/-- Equal directions up to sign: equal double angles up to full turns. -/
theorem dir_iff (x y : ℝ) : (∃ σ : ℝ, σ ^ 2 = 1 ∧ Real.cos (x / 2) = σ * Real.cos (y / 2) ∧
    Real.sin (x / 2) = σ * Real.sin (y / 2)) ↔ ∃ k : ℤ, x = y + 2 * Real.pi * k := by
  constructor
  · rintro ⟨σ, hσ, h1, h2⟩
    have hc : Real.cos x = Real.cos y := by
      rw [show x = 2 * (x / 2) by ring, show y = 2 * (y / 2) by ring, Real.cos_two_mul',
        Real.cos_two_mul', h1, h2]
      linear_combination (Real.cos (y / 2) ^ 2 - Real.sin (y / 2) ^ 2) * hσ
    have hs : Real.sin x = Real.sin y := by
      rw [show x = 2 * (x / 2) by ring, show y = 2 * (y / 2) by ring, Real.sin_two_mul,
        Real.sin_two_mul, h1, h2]
      linear_combination (2 * Real.sin (y / 2) * Real.cos (y / 2)) * hσ
    obtain ⟨k, hk⟩ := Real.Angle.angle_eq_iff_two_pi_dvd_sub.1 (Real.Angle.cos_sin_inj hc hs)
    exact ⟨k, by linarith⟩
  · rintro ⟨k, rfl⟩
    refine ⟨(-1 : ℝ) ^ k, ?_, ?_, ?_⟩
    · rcases Int.even_or_odd k with h | h
      · rw [h.neg_one_zpow]; norm_num
      · rw [h.neg_one_zpow]; norm_num
    · rw [show (y + 2 * Real.pi * k) / 2 = y / 2 + k * Real.pi by ring, Real.cos_add_int_mul_pi]
    · rw [show (y + 2 * Real.pi * k) / 2 = y / 2 + k * Real.pi by ring, Real.sin_add_int_mul_pi]

theorem sameTurn_of_sign {S T : Spinor ℝ} {σ : ℝ} (hσ : σ ^ 2 = 1)
    (h0 : S.theSca.theData.d0 = σ * T.theSca.theData.d0)
    (h1 : S.theBiv.theData.d0 = σ * T.theBiv.theData.d0)
    (h2 : S.theBiv.theData.d1 = σ * T.theBiv.theData.d1)
    (h3 : S.theBiv.theData.d2 = σ * T.theBiv.theData.d2) : SameTurn S T := by
  have : S = T ∨ S = -T := by
    rcases (sq_eq_sq_iff_eq_or_eq_neg.1 (hσ.trans (one_pow 2).symm)) with h | h
    · left; rw [h] at h0 h1 h2 h3
      ext
      · rw [h0, one_mul]
      · rw [h1, one_mul]
      · rw [h2, one_mul]
      · rw [h3, one_mul]
    · right; rw [h] at h0 h1 h2 h3
      ext <;> simp only [engabra]
      · rw [h0, neg_one_mul]
      · rw [h1, neg_one_mul]
      · rw [h2, neg_one_mul]
      · rw [h3, neg_one_mul]
  rcases this with rfl | rfl
  · intro v; rfl
  · intro v; exact (sameTurn_neg T v).symm

/-- **C74**, gimbal lock.  Straight up only the sum of azimuth and roll matters, straight down only
their difference. -/
theorem C74_gimbal (a r a' r' : ℝ) (ua : Usable a) (ur : Usable r) (ua' : Usable a')
    (ur' : Usable r') :
    (∃ S S' : Spinor ℝ, azElRoll a (Real.pi / 2) r = lift .spin S ∧
      azElRoll a' (Real.pi / 2) r' = lift .spin S' ∧
      (SameTurn S S' ↔ ∃ k : ℤ, a + r = a' + r' + 2 * Real.pi * k)) ∧
    ∃ S S' : Spinor ℝ, azElRoll a (-(Real.pi / 2)) r = lift .spin S ∧
      azElRoll a' (-(Real.pi / 2)) r' = lift .spin S' ∧
      (SameTurn S S' ↔ ∃ k : ℤ, a - r = a' - r' + 2 * Real.pi * k) := by
  have un : Usable (-(Real.pi / 2)) := by
    have := usable_piHalf
    unfold Usable at this ⊢
    rw [show (2⁻¹ : ℝ) * -(Real.pi / 2) = -(2⁻¹ * (Real.pi / 2)) by ring]
    exact valid_neg.2 this
  have hq : √2 / 2 ≠ (0 : ℝ) := by positivity
  constructor
  · refine ⟨_, _, azElRoll_ok ua usable_piHalf ur, azElRoll_ok ua' usable_piHalf ur', ?_⟩
    rw [← dir_iff]
    constructor
    · intro h
      obtain ⟨σ, hσ, s0, s1, s2, s3⟩ := sameTurn_seqR (magSq_seqR _ _ _) (magSq_seqR _ _ _) h
      rw [seqR_up, seqR_up] at s0 s2
      dsimp only at s0 s2
      exact ⟨σ, hσ, mul_left_cancel₀ hq (by linarith), mul_left_cancel₀ hq (by linarith)⟩
    · rintro ⟨σ, hσ, h1, h2⟩
      rw [seqR_up, seqR_up]
      refine sameTurn_of_sign hσ ?_ ?_ ?_ ?_ <;> dsimp only
      · rw [h1]; ring
      · rw [h1]; ring
      · rw [h2]; ring
      · rw [h2]; ring
  · refine ⟨_, _, azElRoll_ok ua un ur, azElRoll_ok ua' un ur', ?_⟩
    rw [← dir_iff]
    constructor
    · intro h
      obtain ⟨σ, hσ, s0, s1, s2, s3⟩ := sameTurn_seqR (magSq_seqR _ _ _) (magSq_seqR _ _ _) h
      rw [seqR_down, seqR_down] at s0 s3
      dsimp only at s0 s3
      exact ⟨σ, hσ, mul_left_cancel₀ hq (by linarith), mul_left_cancel₀ hq (by linarith)⟩
    · rintro ⟨σ, hσ, h1, h2⟩
      rw [seqR_down, seqR_down]
      refine sameTurn_of_sign hσ ?_ ?_ ?_ ?_ <;> dsimp only
      · rw [h1]; ring
      · rw [h1]; ring
      · rw [h2]; ring
      · rw [h2]; ring

/-- **C74.** The angles from the components of the attitude: with `X = (S[0]+S[1]) + i(S[3]+S[2])` and
`Y = (S[0]-S[1]) + i(S[3]-S[2])`, the azimuth is the argument of `X Y`, the roll that of `X` times the
conjugate of `Y`, and the sine of the elevation is `2(S[0]S[1] + S[2]S[3])`. -/
theorem C74_recover (a e r : ℝ) (ua : Usable a) (ue : Usable e) (ur : Usable r)
    (ha : -Real.pi < a ∧ a ≤ Real.pi) (hr : -Real.pi < r ∧ r ≤ Real.pi)
    (he : -(Real.pi / 2) < e ∧ e < Real.pi / 2) :
    ∃ s x y z : ℝ, azElRoll a e r = lift .spin ⟨⟨⟨s⟩⟩, ⟨⟨x, y, z⟩⟩⟩ ∧
      e = Real.arcsin (2 * (s * x + y * z)) ∧
      a = Complex.arg ((⟨s + x, z + y⟩ : ℂ) * ⟨s - x, z - y⟩) ∧
      r = Complex.arg ((⟨s + x, z + y⟩ : ℂ) * ⟨s - x, -(z - y)⟩) := by
  refine ⟨_, _, _, _, azElRoll_ok ua ue ur, ?_⟩
  obtain ⟨c1, c2, c3, c4⟩ := seqR_comb a e r
  obtain ⟨pA, pB⟩ := elev_pos he.1 he.2
  simp only [seqR] at c1 c2 c3 c4
  have hAB := mul_pos pA pB
  have se : Real.sin e = 2 * Real.sin (e / 2) * Real.cos (e / 2) := by
    rw [← Real.sin_two_mul]; congr 1; ring
  refine ⟨?_, ?_, ?_⟩
  · refine (Real.arcsin_sin (x := e) (by linarith [he.1]) (by linarith [he.2])).symm.trans ?_
    congr 1
    rw [se]
    have t1 := Real.cos_sq_add_sin_sq (a / 2)
    have t2 := Real.cos_sq_add_sin_sq (r / 2)
    generalize Real.cos (a / 2) = ca at *
    generalize Real.sin (a / 2) = sa at *
    generalize Real.cos (e / 2) = ce at *
    generalize Real.sin (e / 2) = te at *
    generalize Real.cos (r / 2) = cr at *
    generalize Real.sin (r / 2) = sr at *
    linear_combination (-(2 * te * ce * (cr ^ 2 + sr ^ 2))) * t1 - 2 * te * ce * t2
  · rw [c1, c2, c3, c4]
    refine (Complex.arg_mul_cos_add_sin_mul_I hAB
      (show a ∈ Set.Ioc (-Real.pi) Real.pi from ha)).symm.trans ?_
    congr 1
    have h1 : Real.cos a = Real.cos ((a + r) / 2) * Real.cos ((a - r) / 2)
        - Real.sin ((a + r) / 2) * Real.sin ((a - r) / 2) := by
      rw [← Real.cos_add]; congr 1; ring
    have h2 : Real.sin a = Real.sin ((a + r) / 2) * Real.cos ((a - r) / 2)
        + Real.cos ((a + r) / 2) * Real.sin ((a - r) / 2) := by
      rw [← Real.sin_add]; congr 1; ring
    rw [← Complex.ofReal_cos, ← Complex.ofReal_sin, h1, h2]
    apply Complex.ext <;> simp [-Complex.ofReal_cos, -Complex.ofReal_sin] <;> ring
  · rw [c1, c2, c3, c4]
    refine (Complex.arg_mul_cos_add_sin_mul_I hAB
      (show r ∈ Set.Ioc (-Real.pi) Real.pi from hr)).symm.trans ?_
    congr 1
    have h1 : Real.cos r = Real.cos ((a + r) / 2) * Real.cos ((a - r) / 2)
        + Real.sin ((a + r) / 2) * Real.sin ((a - r) / 2) := by
      rw [← Real.cos_sub]; congr 1; ring
    have h2 : Real.sin r = Real.sin ((a + r) / 2) * Real.cos ((a - r) / 2)
        - Real.cos ((a + r) / 2) * Real.sin ((a - r) / 2) := by
      rw [← Real.sin_sub]; congr 1; ring
    rw [← Complex.ofReal_cos, ← Complex.ofReal_sin, h1, h2]
    apply Complex.ext <;> simp [-Complex.ofReal_cos, -Complex.ofReal_sin] <;> ring

/-! ## The README's angles -/

/-- The angles of the README example meet the hypotheses of `C74_recover` and `C74_unique`. -/
example : Usable (0.01234 * Real.pi) ∧ Usable (0.23456 * Real.pi) ∧ Usable (0.34567 * Real.pi) ∧
    (-Real.pi < 0.01234 * Real.pi ∧ 0.01234 * Real.pi ≤ Real.pi) ∧
    (-Real.pi < 0.34567 * Real.pi ∧ 0.34567 * Real.pi ≤ Real.pi) ∧
    (-(Real.pi / 2) < 0.23456 * Real.pi ∧ 0.23456 * Real.pi < Real.pi / 2) := by
  have h1 := Real.pi_gt_three
  have h2 := Real.pi_lt_four
  refine ⟨usable_of ?_ ?_, usable_of ?_ ?_, usable_of ?_ ?_, ⟨?_, ?_⟩, ⟨?_, ?_⟩, ⟨?_, ?_⟩⟩
  all_goals first
    | (rw [abs_of_pos (by positivity)]; norm_num; linarith)
    | (norm_num; linarith)

/-- An attitude for `C74_every` and `C74_rotation`: half a turn about a skew axis. -/
example : magSq (⟨⟨⟨0⟩⟩, ⟨⟨2 / 3, 1 / 3, 2 / 3⟩⟩⟩ : Spinor ℝ) = 1 := by
  simp only [engabra]; norm_num

/-- Straight up, azimuth 1 with roll 2 is the attitude of azimuth 2 with roll 1, and not that of
azimuth 2 with roll 2. -/
example : (∃ S S' : Spinor ℝ, azElRoll 1 (Real.pi / 2) 2 = lift .spin S ∧
      azElRoll 2 (Real.pi / 2) 1 = lift .spin S' ∧ SameTurn S S') ∧
    ∃ S S' : Spinor ℝ, azElRoll 1 (Real.pi / 2) 2 = lift .spin S ∧
      azElRoll 2 (Real.pi / 2) 2 = lift .spin S' ∧ ¬ SameTurn S S' := by
  have u1 : Usable 1 := usable_of (by norm_num) (by norm_num)
  have u2 : Usable 2 := usable_of (by norm_num) (by norm_num)
  constructor
  · obtain ⟨S, S', h1, h2, h3⟩ := (C74_gimbal 1 2 2 1 u1 u2 u2 u1).1
    exact ⟨S, S', h1, h2, h3.2 ⟨0, by norm_num⟩⟩
  · obtain ⟨S, S', h1, h2, h3⟩ := (C74_gimbal 1 2 2 2 u1 u2 u2 u2).1
    refine ⟨S, S', h1, h2, fun h => ?_⟩
    obtain ⟨k, hk⟩ := h3.1 h
    have hp := Real.pi_gt_three
    rcases lt_trichotomy k 0 with hk0 | hk0 | hk0
    · have : (k : ℝ) ≤ -1 := by exact_mod_cast Int.le_sub_one_of_lt hk0
      nlinarith
    · rw [hk0] at hk; norm_num at hk
    · have : (1 : ℝ) ≤ k := by exact_mod_cast hk0
      nlinarith

end Engabra
