import Verif.Lemmas.Exp
import Verif.Props.C13_C16_Magnitude
import Verif.Props.C22_Rotation
import Mathlib.Analysis.Real.Pi.Bounds

/-! # C20: `exp(BiVector)` and `exp(Spinor)`

Ideal arithmetic (`XR`).  The specification is `Spec.IsExp`: the power series. -/

namespace Engabra
open XR Spec

/-- The input class on which `exp(BiVector)` takes its main branch or is exactly at zero: the
first component passes `isValid`, and so does the first component of the direction.  (Nothing
is asked of the other two components: the code looks only at the first.) -/
def ExpOk (B : BiVector ℝ) : Prop :=
  Valid B.theData.d0 ∧
    (B = gzero ∨ (tiny < length .biv B ∧ Valid (B.theData.d0 / length .biv B)))

/-- Closed form of the exponential of `s + B`. -/
noncomputable def expR (s : ℝ) (B : BiVector ℝ) : Spinor ℝ :=
  ⟨⟨⟨Real.exp s * Real.cos (length .biv B)⟩⟩,
    (Real.exp s * (Real.sin (length .biv B) / length .biv B) : ℝ) * B⟩

theorem length_sq (t : Ty) (x : t.D ℝ) : length t x ^ 2 = magSqTy t x := by
  rw [length_eq, Real.sq_sqrt (C13_magSq_nonneg t x)]

theorem isExp_expR (s : ℝ) (B : BiVector ℝ) : IsExp (toMV (⟨⟨⟨s⟩⟩, B⟩ : Spinor ℝ)) (toMV (expR s B)) :=
  isExp_closed ⟨⟨⟨s⟩⟩, B⟩ (length .biv B) (length_sq .biv B) (length_nonneg .biv B)

theorem length_biv_zero : length .biv (gzero : BiVector ℝ) = 0 := by
  rw [length_eq]
  have : magSqTy .biv (gzero : BiVector ℝ) = 0 := by simp only [magSqTy, engabra]; ring
  rw [this, Real.sqrt_zero]

theorem length_eq_zero_biv {B : BiVector ℝ} (h : length .biv B = 0) : B = gzero := by
  have h1 := length_sq .biv B
  rw [h] at h1
  obtain ⟨⟨a, b, c⟩⟩ := B
  simp only [magSqTy, engabra] at h1
  have ha : a = 0 := by nlinarith [sq_nonneg a, sq_nonneg b, sq_nonneg c]
  have hb : b = 0 := by nlinarith [sq_nonneg a, sq_nonneg b, sq_nonneg c]
  have hc : c = 0 := by nlinarith [sq_nonneg a, sq_nonneg b, sq_nonneg c]
  subst ha hb hc; rfl

theorem expR_zero (s : ℝ) : expR s gzero = ⟨⟨⟨Real.exp s⟩⟩, gzero⟩ := by
  unfold expR
  rw [length_biv_zero]
  ext <;> simp [engabra]

theorem isValid_biv_lift (B : BiVector ℝ) :
    isValid (lift .biv B) = true ↔ Valid B.theData.d0 := isValidDub_val _

/-- What `exp(BiVector)` computes, for every finite input: all four branches. -/
theorem expBiv_branches (B : BiVector ℝ) :
    expBiv (lift .biv B) =
      (open Classical in
      if Valid B.theData.d0 then
        if tiny < length .biv B ∧ Valid (B.theData.d0 / length .biv B) then
          lift .spin (expR 0 B)
        else lift .spin gone
      else gnull Dbl.nan) := by
  classical
  unfold expBiv
  by_cases h0 : Valid B.theData.d0
  · rw [if_pos ((isValid_biv_lift B).2 h0), if_pos h0]
    have hp : pairMagDirFrom (lift .biv B) = pairMagDirTy .biv (lift .biv B) :=
      rfl
    simp only [hp]
    by_cases hm : tiny < length .biv B
    · rw [pairMagDir_above .biv B hm]
      have hpos : length .biv B ≠ 0 := (tiny_pos.trans hm).ne'
      have hd : (smulTy .biv (1 / length .biv B) B).theData.d0 = B.theData.d0 / length .biv B := by
        change 1 / length .biv B * B.theData.d0 = _
        ring
      by_cases hv : Valid (B.theData.d0 / length .biv B)
      · have hv' : isValid (lift .biv (smulTy .biv (1 / length .biv B) B)) = true := by
          rw [isValid_biv_lift, hd]; exact hv
        rw [if_pos hv', if_pos ⟨hm, hv⟩]
        unfold expR
        have e1 : LibM.cos (val (length .biv B)) = val (Real.exp 0 * Real.cos (length .biv B)) := by
          rw [cos_val, Real.exp_zero, one_mul]
        have e2 : LibM.sin (val (length .biv B)) * (lift .biv (smulTy .biv (1 / length .biv B) B))
            = lift .biv ((Real.exp 0 * (Real.sin (length .biv B) / length .biv B) : ℝ) * B) := by
          rw [sin_val, Real.exp_zero, one_mul]
          change smulTy .biv (val _) (lift .biv _) = _
          rw [smul_lift]
          congr 1
          generalize length .biv B = r
          have key : ∀ c : ℝ, Real.sin r * (1 / r * c) = Real.sin r / r * c := by
            intro c; ring
          change Real.sin r * (((1 / r : ℝ)) * B) = (Real.sin r / r) * B
          ext <;> simp only [engabra, key]
        change (⟨⟨⟨LibM.cos (val (length .biv B))⟩⟩, LibM.sin (val (length .biv B)) * (lift .biv (smulTy .biv (1 / length .biv B) B))⟩ : Spinor XR) = _
        rw [e1, e2]
        rfl
      · have hv' : ¬ isValid (lift .biv (smulTy .biv (1 / length .biv B) B)) = true := by
          rw [isValid_biv_lift, hd]; exact hv
        rw [if_neg hv', if_neg (fun h => hv h.2)]
        rfl
    · have hr : ¬ (tiny < length .biv B ∧ Valid (B.theData.d0 / length .biv B)) := fun h => hm h.1
      rw [pairMagDir_below .biv B (not_lt.1 hm), if_neg hr]
      rfl
  · rw [if_neg (fun h => h0 ((isValid_biv_lift B).1 h)), if_neg h0]

theorem expBiv_ok (B : BiVector ℝ) (h : ExpOk B) :
    expBiv (lift .biv B) = lift .spin (expR 0 B) := by
  rw [expBiv_branches, if_pos h.1]
  rcases h.2 with h0 | h1
  · subst h0
    rw [if_neg]
    · rw [expR_zero, Real.exp_zero]; rfl
    · rw [length_biv_zero]
      exact fun h => absurd h.1 (not_lt.2 tiny_pos.le)
  · rw [if_pos h1]

/-- **C20.** `exp(B)` is the exponential series of `B`. -/
theorem C20_exp_bivector_partial (B : BiVector ℝ) (h : ExpOk B) :
    ∃ E : Spinor ℝ, expBiv (lift .biv B) = lift .spin E ∧ IsExp (toMV B) (toMV E) := by
  refine ⟨expR 0 B, expBiv_ok B h, ?_⟩
  have := isExp_expR 0 B
  exact this

/-- **C20.** `exp(s + B)` is the exponential series of `s + B`. -/
theorem C20_exp_spinor_partial (s : ℝ) (B : BiVector ℝ) (h : ExpOk B) :
    ∃ E : Spinor ℝ, expSpin (lift .spin ⟨⟨⟨s⟩⟩, B⟩) = lift .spin E ∧
      IsExp (toMV (⟨⟨⟨s⟩⟩, B⟩ : Spinor ℝ)) (toMV E) := by
  refine ⟨expR s B, ?_, isExp_expR s B⟩
  unfold expSpin
  change LibM.exp (val s) * expBiv (lift .biv B) = _
  rw [expBiv_ok B h, exp_val]
  change smulTy .spin (val _) (lift .spin _) = _
  rw [smul_lift]
  congr 1
  change Real.exp s * expR 0 B = _
  unfold expR
  ext <;> simp only [engabra, Real.exp_zero] <;> ring

theorem expSpin_ok (s : ℝ) (B : BiVector ℝ) (h : ExpOk B) :
    expSpin (lift .spin ⟨⟨⟨s⟩⟩, B⟩) = lift .spin (expR s B) := by
  obtain ⟨E, hE, hx⟩ := C20_exp_spinor_partial s B h
  rw [hE]
  congr 1
  have := isExp_unique hx (isExp_expR s B)
  have h1 := congrArg MultiVector.theSca this
  have h2 := congrArg MultiVector.theBiv this
  simp only [engabra] at h1 h2
  obtain ⟨_, _⟩ := E
  simp only at h1 h2
  subst h1 h2
  rfl

/-- **C20.** The series determines the value: there is at most one `E`. -/
theorem C20_series_unique {A E F : MultiVector ℝ} (h : IsExp A E) (h' : IsExp A F) : E = F :=
  isExp_unique h h'

theorem magSq_expR (s : ℝ) (B : BiVector ℝ) : magSq (expR s B) = Real.exp s ^ 2 := by
  have h : magSq (expR s B) = Real.exp s ^ 2 * Real.cos (length .biv B) ^ 2
      + Real.exp s ^ 2 * (Real.sin (length .biv B) / length .biv B) ^ 2 * magSqTy .biv B := by
    simp only [expR, magSqTy, engabra]; ring
  rw [h, ← length_sq]
  by_cases h0 : length .biv B = 0
  · rw [h0, Real.cos_zero]; ring
  · have : (Real.sin (length .biv B) / length .biv B) ^ 2 * length .biv B ^ 2
        = Real.sin (length .biv B) ^ 2 := by
      field_simp
    rw [mul_assoc, this, ← mul_add, Real.cos_sq_add_sin_sq, mul_one]

/-- **C20.** `exp(B)` is a unit spinor for every finite `B` with a valid first component. -/
theorem C20_unit (B : BiVector ℝ) (h : Valid B.theData.d0) :
    ∃ E : Spinor ℝ, expBiv (lift .biv B) = lift .spin E ∧ magSq E = 1 := by
  classical
  rw [expBiv_branches, if_pos h]
  by_cases h1 : tiny < length .biv B ∧ Valid (B.theData.d0 / length .biv B)
  · rw [if_pos h1]
    exact ⟨_, rfl, by rw [magSq_expR, Real.exp_zero]; norm_num⟩
  · rw [if_neg h1]
    exact ⟨_, rfl, by simp only [engabra]; ring⟩

theorem length_neg_biv (B : BiVector ℝ) : length .biv (-B) = length .biv B := by
  rw [length_eq, length_eq]
  congr 1
  simp only [magSqTy, engabra]; ring

theorem valid_neg {a : ℝ} : Valid (-a) ↔ Valid a := by
  unfold Valid; rw [neg_eq_zero, abs_neg]

/-- **C20.** `exp(-B) = reverse(exp(B))`, for every finite `B` with a valid first component. -/
theorem C20_neg (B : BiVector ℝ) (h : Valid B.theData.d0) :
    expBiv (-(lift .biv B)) = reverse (expBiv (lift .biv B)) := by
  classical
  have hn : -(lift .biv B) = lift .biv (-B) := rfl
  have hd : (-B).theData.d0 = -B.theData.d0 := rfl
  rw [hn, expBiv_branches, expBiv_branches, if_pos h, hd, if_pos (valid_neg.2 h), length_neg_biv,
    neg_div, valid_neg]
  split
  · change _ = reverseTy .spin (lift .spin _)
    rw [reverse_lift]
    congr 1
    change _ = reverse (expR 0 B)
    unfold expR
    rw [length_neg_biv]
    ext <;> simp only [engabra] <;> ring
  · change _ = reverseTy .spin (lift .spin _)
    rw [reverse_lift]
    congr 1
    ext <;> simp [engabra, reverseTy]

/-- **C20.** `exp(s + B) = e^s exp(B)`; on the nose, for all inputs and any number type. -/
theorem C20_exp_scalar_factor {α : Type} [Dbl α] [LibM α] (S : Spinor α) :
    expSpin S = LibM.exp S.theSca.theData.d0 * expBiv S.theBiv := rfl

theorem length_smul_biv (a : ℝ) (B : BiVector ℝ) : length .biv (a * B) = |a| * length .biv B :=
  length_smul .biv a B

theorem expR_smul (s a : ℝ) (B : BiVector ℝ) :
    expR s (a * B) = ⟨⟨⟨Real.exp s * Real.cos (a * length .biv B)⟩⟩,
      (Real.exp s * (Real.sin (a * length .biv B) / length .biv B) : ℝ) * B⟩ := by
  unfold expR
  rw [length_smul_biv]
  have hc : Real.cos (|a| * length .biv B) = Real.cos (a * length .biv B) := by
    rcases abs_choice a with h | h <;> rw [h]
    rw [neg_mul, Real.cos_neg]
  have hs : ∀ c : ℝ, Real.exp s * (Real.sin (|a| * length .biv B) / (|a| * length .biv B)) * (a * c)
      = Real.exp s * (Real.sin (a * length .biv B) / length .biv B) * c := by
    intro c
    by_cases ha : a = 0
    · subst ha; simp
    · rcases abs_choice a with h | h <;> rw [h]
      · rw [div_mul_eq_div_div]; field_simp
      · rw [neg_mul, Real.sin_neg, neg_div_neg_eq]; field_simp
  ext <;> simp only [engabra, hc, hs]

/-- The closed form in one plane. -/
theorem expR_mul_plane (s t a b : ℝ) (B : BiVector ℝ) :
    expR s (a * B) * expR t (b * B) = expR (s + t) ((a + b : ℝ) * B) := by
  rw [expR_smul, expR_smul, expR_smul, Real.exp_add, add_mul, Real.cos_add, Real.sin_add]
  by_cases h0 : length .biv B = 0
  · have := length_eq_zero_biv h0
    subst this
    rw [h0]
    ext <;> simp [engabra]
  · have hl : magSqTy .biv B = length .biv B ^ 2 := (length_sq .biv B).symm
    simp only [magSqTy, engabra] at hl
    generalize length .biv B = r at *
    generalize Real.sin (a * r) = sa at *
    generalize Real.sin (b * r) = sb at *
    generalize Real.cos (a * r) = ca at *
    generalize Real.cos (b * r) = cb at *
    ext <;> simp only [engabra]
    · have : sa / r * (sb / r) * r ^ 2 = sa * sb := by field_simp
      rw [← this, ← hl]; ring
    all_goals (field_simp; ring)

/-- **C20.** In one plane exponents add: `exp(s + aB) exp(t + bB) = exp((s+t) + (a+b)B)`. -/
theorem C20_add_in_plane (s t a b : ℝ) (B : BiVector ℝ)
    (ha : ExpOk (a * B)) (hb : ExpOk (b * B)) (hab : ExpOk ((a + b : ℝ) * B)) :
    expSpin (lift .spin ⟨⟨⟨s⟩⟩, a * B⟩) * expSpin (lift .spin ⟨⟨⟨t⟩⟩, b * B⟩)
      = expSpin (lift .spin ⟨⟨⟨s + t⟩⟩, (a + b : ℝ) * B⟩) := by
  rw [expSpin_ok _ _ ha, expSpin_ok _ _ hb, expSpin_ok _ _ hab]
  refine (mul_lift .spin .spin (expR s (a * B)) (expR t (b * B))).trans ?_
  congr 1
  exact expR_mul_plane s t a b B

/-- **C20/C22.** `exp((θ/2) B)` with `B = dual(n)`, `n` a unit vector, rotates by `θ` (about
`-n`), when used in the sandwich `S * v * reverse(S)`. -/
theorem C20_exp_rotates (n : Vector ℝ) (hn : magSq n = 1) (θ : ℝ)
    (hok : ExpOk ((θ / 2 : ℝ) * (dual n : BiVector ℝ))) :
    ∃ S : Spinor ℝ, expBiv (lift .biv ((θ / 2 : ℝ) * (dual n : BiVector ℝ))) = lift .spin S ∧
      ∀ v : Vector ℝ, (sandwich S v).xyz
        = Spec.add (Spec.add (Spec.smul (Real.cos θ) v.xyz) (Spec.smul (Real.sin θ) (cross v.xyz n.xyz)))
          (Spec.smul ((1 - Real.cos θ) * dot n.xyz v.xyz) n.xyz) := by
  refine ⟨_, expBiv_ok _ hok, fun v => ?_⟩
  rw [← C22_rodrigues n hn θ v]
  have hl : length .biv (dual n : BiVector ℝ) = 1 := by
    rw [length_eq]
    have : magSqTy .biv (dual n : BiVector ℝ) = magSq n := by simp only [magSqTy, engabra]
    rw [this, hn, Real.sqrt_one]
  rw [expR_smul, hl, Real.exp_zero, mul_one, div_one, one_mul, one_mul]

/-! ## Where the property fails -/

theorem lt_big {x : ℝ} (h : x ≤ 8) : x < 2 ^ 1024 := by
  have : (2 : ℝ) ^ 3 < 2 ^ 1024 := pow_lt_pow_right₀ (by norm_num) (by norm_num)
  exact lt_of_le_of_lt h (lt_of_le_of_lt (by norm_num) this)

/-- Exact failure set: for a finite `B ≠ 0` with valid first component whose direction has an
invalid first component, or whose magnitude is at most `2^-1074`, `exp(B)` is `1`. -/
theorem C20_unity_outside (B : BiVector ℝ) (h : Valid B.theData.d0)
    (h' : length .biv B ≤ tiny ∨ ¬ Valid (B.theData.d0 / length .biv B)) :
    expBiv (lift .biv B) = lift .spin gone := by
  classical
  rw [expBiv_branches, if_pos h, if_neg]
  rintro ⟨h1, h2⟩
  rcases h' with h' | h'
  · exact absurd h1 (not_lt.2 h')
  · exact h' h2

/-- A first component that is not valid gives `null`. -/
theorem C20_null_if_first_invalid (B : BiVector ℝ) (h : ¬ Valid B.theData.d0) :
    expBiv (lift .biv B) = gnull Dbl.nan := by
  classical
  rw [expBiv_branches, if_neg h]

/-- The witness: all components of `B = {2^-1022, 4, 0}` are valid, its magnitude is about 4,
and `exp(B) = 1` instead of the series value, whose scalar part is `cos 4` (or nearly). -/
theorem C20_fails : ∃ B : BiVector ℝ,
    Valid B.theData.d0 ∧ Valid B.theData.d1 ∧ Valid B.theData.d2 ∧ 4 ≤ length .biv B ∧
    expBiv (lift .biv B) = lift .spin gone ∧ ¬ IsExp (toMV B) (toMV (gone : Spinor ℝ)) := by
  have hp : (0 : ℝ) < 1 / 2 ^ 1022 := by positivity
  have hp1 : (1 : ℝ) / 2 ^ 1022 ≤ 1 := by
    rw [div_le_one (by positivity)]; exact one_le_pow₀ (by norm_num)
  generalize hu : (1 : ℝ) / 2 ^ 1022 = u at hp hp1
  have hl : length .biv (⟨⟨u, 4, 0⟩⟩ : BiVector ℝ) ^ 2 = u ^ 2 + 16 := by
    rw [length_sq]; simp only [magSqTy, engabra]; ring
  have hn := length_nonneg .biv (⟨⟨u, 4, 0⟩⟩ : BiVector ℝ)
  have h4 : 4 ≤ length .biv (⟨⟨u, 4, 0⟩⟩ : BiVector ℝ) := by nlinarith
  have h5 : length .biv (⟨⟨u, 4, 0⟩⟩ : BiVector ℝ) ≤ 5 := by nlinarith
  have hv : Valid u := by
    right
    rw [hu, abs_of_pos hp]
    exact ⟨le_refl _, lt_big (by linarith)⟩
  refine ⟨⟨⟨u, 4, 0⟩⟩, hv, ?_, Or.inl rfl, h4, ?_, ?_⟩
  · right
    rw [hu, abs_of_pos (by norm_num : (0 : ℝ) < 4)]
    exact ⟨by linarith, lt_big (by norm_num)⟩
  · apply C20_unity_outside _ hv
    right
    change ¬ Valid (u / length .biv (⟨⟨u, 4, 0⟩⟩ : BiVector ℝ))
    generalize length .biv (⟨⟨u, 4, 0⟩⟩ : BiVector ℝ) = r at *
    rintro (h | h)
    · have : u / r ≠ 0 := by positivity
      exact this h
    · have h1 := h.1
      rw [hu, abs_of_pos (by positivity), le_div_iff₀ (by linarith)] at h1
      nlinarith
  · intro h
    have := isExp_unique h (isExp_expR 0 ⟨⟨u, 4, 0⟩⟩)
    have h1 := congrArg (fun A => A.theSca.theData.d0) this
    simp only [expR, Real.exp_zero, one_mul, engabra] at h1
    generalize length .biv (⟨⟨u, 4, 0⟩⟩ : BiVector ℝ) = r at *
    have hpi := Real.pi_gt_three
    have := (Real.cos_eq_one_iff_of_lt_of_lt (x := r) (by linarith) (by linarith)).1 h1.symm
    linarith

/-- A NaN in component 1 or 2 is not seen by the validity test: the result is `1`, a valid
spinor, and not `null`. -/
theorem C20_nan_gives_unity (b : XR) :
    expBiv (⟨⟨val 0, nan, b⟩⟩ : BiVector XR) = lift .spin gone ∧
    expBiv (⟨⟨val 0, b, nan⟩⟩ : BiVector XR) = lift .spin gone := by
  have hm : ∀ B : BiVector XR, isValid B = true → magnitude B = nan →
      expBiv B = lift .spin gone := by
    intro B hB hM
    unfold expBiv pairMagDirFrom
    rw [if_pos hB, hM]
    rfl
  have hz : isValidDub (val 0) = true := (isValidDub_val 0).2 (Or.inl rfl)
  constructor
  · apply hm _ hz
    cases b <;> rfl
  · apply hm _ hz
    cases b <;> rfl

/-! ## Non-triviality -/

/-- A sufficient condition in terms of the components: `B₀` is zero, or at least `2^-900` with
`|B| ≤ 2^100`. -/
theorem expOk_of (B : BiVector ℝ) (hm : tiny < length .biv B)
    (h : B.theData.d0 = 0 ∨ ((1 : ℝ) / 2 ^ 900 ≤ |B.theData.d0| ∧ length .biv B ≤ 2 ^ 100)) :
    ExpOk B := by
  have hpos := tiny_pos.trans hm
  have hle : |B.theData.d0| ≤ length .biv B := by
    apply abs_le_of_sq_le_sq _ hpos.le
    rw [length_sq]
    simp only [magSqTy, engabra]
    nlinarith [sq_nonneg B.theData.d1, sq_nonneg B.theData.d2, sq_nonneg B.theData.d0]
  rcases h with h | ⟨h1, h2⟩
  · exact ⟨Or.inl h, Or.inr ⟨hm, Or.inl (by rw [h, zero_div])⟩⟩
  · have e1 : (1 : ℝ) / 2 ^ 1022 ≤ 1 / 2 ^ 900 := by
      apply one_div_le_one_div_of_le (by positivity)
      exact pow_le_pow_right₀ (by norm_num) (by norm_num)
    have e2 : (2 : ℝ) ^ 100 < 2 ^ 1024 := pow_lt_pow_right₀ (by norm_num) (by norm_num)
    refine ⟨Or.inr ⟨e1.trans h1, (hle.trans h2).trans_lt e2⟩, Or.inr ⟨hm, Or.inr ⟨?_, ?_⟩⟩⟩
    · rw [abs_div, abs_of_pos hpos, le_div_iff₀ hpos]
      refine le_trans ?_ h1
      have : (1 : ℝ) / 2 ^ 1022 * length .biv B ≤ 1 / 2 ^ 1022 * 2 ^ 100 := by gcongr
      refine this.trans ?_
      rw [div_mul_eq_mul_div, one_mul, div_le_div_iff₀ (by positivity) (by positivity), one_mul,
        ← pow_add]
      exact pow_le_pow_right₀ (by norm_num) (by norm_num)
    · rw [abs_div, abs_of_pos hpos]
      have : |B.theData.d0| / length .biv B ≤ 1 := by rw [div_le_one hpos]; exact hle
      exact lt_big (by linarith)

theorem tiny_lt_one : tiny < 1 := by
  unfold tiny
  rw [div_lt_one (by positivity)]; exact one_lt_pow₀ (by norm_num) (by norm_num)

example : ExpOk (⟨⟨1, 2, -2⟩⟩ : BiVector ℝ) := by
  have hl : length .biv (⟨⟨1, 2, -2⟩⟩ : BiVector ℝ) = 3 := by
    rw [length_eq]
    have : magSqTy .biv (⟨⟨1, 2, -2⟩⟩ : BiVector ℝ) = 3 ^ 2 := by
      simp only [magSqTy, engabra]; norm_num
    rw [this, Real.sqrt_sq (by norm_num)]
  apply expOk_of
  · rw [hl]; linarith [tiny_lt_one]
  · right
    rw [hl]
    constructor
    · change (1 : ℝ) / 2 ^ 900 ≤ |1|
      rw [abs_one, div_le_one (by positivity)]; exact one_le_pow₀ (by norm_num)
    · norm_num

example : ExpOk (gzero : BiVector ℝ) := ⟨Or.inl rfl, Or.inl rfl⟩

/-- `C20_exp_rotates` for a half turn about the third axis; a first component that is a subnormal
number, for `C20_null_if_first_invalid`. -/
example : magSq (e3 : Vector ℝ) = 1 ∧ ExpOk ((Real.pi / 2 : ℝ) * (dual (e3 : Vector ℝ) : BiVector ℝ)) ∧
    ¬ Valid ((⟨⟨1 / 2 ^ 1023, 1, 1⟩⟩ : BiVector ℝ).theData.d0) := by
  have hp := Real.pi_gt_three
  refine ⟨by simp only [engabra]; norm_num, ?_, ?_⟩
  · have hB : (Real.pi / 2 : ℝ) * (dual (e3 : Vector ℝ) : BiVector ℝ) = ⟨⟨0, 0, Real.pi / 2⟩⟩ := by
      simp only [engabra]; norm_num
    have hl : length .biv (⟨⟨0, 0, Real.pi / 2⟩⟩ : BiVector ℝ) = Real.pi / 2 := by
      rw [length_eq]
      have : magSqTy .biv (⟨⟨0, 0, Real.pi / 2⟩⟩ : BiVector ℝ) = (Real.pi / 2) ^ 2 := by
        simp only [magSqTy, engabra]; ring
      rw [this, Real.sqrt_sq (by linarith)]
    rw [hB]
    apply expOk_of
    · rw [hl]; linarith [tiny_lt_one]
    · exact Or.inl rfl
  · have h1 : (0 : ℝ) < 1 / 2 ^ 1023 := by positivity
    rintro (h | ⟨h, -⟩)
    · exact h1.ne' h
    · change (1 : ℝ) / 2 ^ 1022 ≤ |1 / 2 ^ 1023| at h
      rw [abs_of_pos h1, div_le_div_iff₀ (by positivity) (by positivity), one_mul, one_mul] at h
      exact absurd (pow_lt_pow_right₀ (by norm_num : (1 : ℝ) < 2) (by norm_num : 1022 < 1023)) (not_lt.2 h)

end Engabra
