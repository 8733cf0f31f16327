import Verif.Props.C66_CoreF64
import Verif.Props.C78_Slerp

/-! # C79: the angle between two directions -/

namespace Engabra
open XR Spec InnerProductGeometry
open scoped RealInnerProductSpace

/-! ## Exact arithmetic -/

theorem rvec_sca (a b : E3) : (rvec b * rvec a : Spinor ℝ).theSca.theData.d0 = ⟪a, b⟫ := by
  rw [inner_E3]; geo; ring

theorem rvec_len (a b : E3) : length .spin (rvec b * rvec a : Spinor ℝ) = ‖a‖ * ‖b‖ := by
  rw [length_eq, ← Real.sqrt_sq (by positivity : 0 ≤ ‖a‖ * ‖b‖), mul_pow, normSq_E3, normSq_E3]
  congr 1
  simp only [magSqTy]
  geo
  ring

theorem argOf_rvec (a b : E3) : argOf (rvec b * rvec a : Spinor ℝ) = angle a b := by
  unfold argOf angle
  rw [rvec_sca, rvec_len]

/-- **C79.** The magnitude of the bivector part of `logG2(b*a)` is the angle between `a` and `b`, and its
scalar part the logarithm of the product of their lengths: whatever the lengths, for acute and
obtuse angles alike. -/
theorem C79_angle (a b : E3) (D : BiVector XR) (h1 : Valid ⟪a, b⟫)
    (h2 : Valid (b 1 * a 2 - b 2 * a 1)) (h3 : eps < ‖a‖ * ‖b‖)
    (h4 : |⟪a, b⟫| ≤ (1 - eps) * (‖a‖ * ‖b‖)) :
    magnitude (T := BiVector XR) (logG2 (vecOf b * vecOf a) D).theBiv = val (angle a b) ∧
    (logG2 (vecOf b * vecOf a) D).theSca = scaOf (Real.log (‖a‖ * ‖b‖)) := by
  have e : (vecOf b * vecOf a : Spinor XR) = lift .spin (rvec b * rvec a) := rfl
  have hr : eps < length .spin (rvec b * rvec a : Spinor ℝ) := by rw [rvec_len]; exact h3
  have hc : |(rvec b * rvec a : Spinor ℝ).theSca.theData.d0| ≤ (1 - eps) * length .spin (rvec b * rvec a : Spinor ℝ) := by
    rw [rvec_len, rvec_sca]; exact h4
  have hb := biv_pos _ hr hc
  rw [e, logG2_general _ D (by rw [rvec_sca]; exact h1) h2 hr hc, ← argOf_angle hr hc, argOf_rvec,
    rvec_len]
  refine ⟨?_, rfl⟩
  refine (C13_magnitude .biv _).trans (congrArg val ?_)
  rw [length_smul_biv, abs_of_nonneg (div_nonneg (angle_nonneg _ _) hb.le), div_mul_cancel₀ _ hb.ne']

/-! ## Binary64 -/

theorem rvec_ptVal (v : Vector F64) : rvec (ptVal v) = realTy .vec v := by
  unfold rvec ptVal
  simp [realTy, mapTy]

theorem norm_ptVal (v : Vector F64) : ‖ptVal v‖ = euclid .vec v := by
  rw [← length_realTy, ← rvec_ptVal, length_eq, ← Real.sqrt_sq (norm_nonneg (ptVal v)), normSq_E3]
  congr 1
  simp only [magSqTy]
  geo
  ring

/-- Two spinors in polar form: their angles differ by no more than their distance allows. -/
theorem angle_diff {A X : Spinor ℝ} (hA : 0 < length .biv A.theBiv) (hX : 0 < length .biv X.theBiv) :
    |argOf A - argOf X| * √(length .spin A * length .spin X) ≤ Real.pi / 2 * length .spin (A - X) := by
  obtain ⟨rA, -, -⟩ := spin_cos_sin hA
  obtain ⟨rX, -, -⟩ := spin_cos_sin hX
  have eQ : length .spin (deMoivre A 1 - deMoivre X 1) ^ 2 = _ :=
    polar_dist (ρ := length .spin A ^ (1 : ℝ)) (σ := length .spin X ^ (1 : ℝ)) (c := Real.cos (1 * argOf A))
      (s := Real.sin (1 * argOf A)) (c' := Real.cos (1 * argOf X)) (s' := Real.sin (1 * argOf X))
      (A := A.theBiv) (B := X.theBiv) rfl rfl hA hX (Real.cos_sq_add_sin_sq _) (Real.cos_sq_add_sin_sq _)
  rw [C77_one A hA, C77_one X hX, Real.rpow_one, Real.rpow_one, one_mul, one_mul] at eQ
  have hm1 : |(A.theBiv.theData.d0 * X.theBiv.theData.d0 + A.theBiv.theData.d1 * X.theBiv.theData.d1
    + A.theBiv.theData.d2 * X.theBiv.theData.d2) / (length .biv A.theBiv * length .biv X.theBiv)| ≤ 1 := by
    rw [abs_div, abs_of_pos (mul_pos hA hX), div_le_one (mul_pos hA hX)]
    refine abs_le_of_sq_le_sq ?_ (mul_pos hA hX).le
    rw [mul_pow, length_sq, length_sq]
    generalize A.theBiv = P
    generalize X.theBiv = Q
    obtain ⟨⟨p0, p1, p2⟩⟩ := P
    obtain ⟨⟨q0, q1, q2⟩⟩ := Q
    simp only [magSqTy, engabra]
    linarith [sq_nonneg (p0 * q1 - p1 * q0), sq_nonneg (p0 * q2 - p2 * q0), sq_nonneg (p1 * q2 - p2 * q1)]
  generalize (A.theBiv.theData.d0 * X.theBiv.theData.d0 + A.theBiv.theData.d1 * X.theBiv.theData.d1
    + A.theBiv.theData.d2 * X.theBiv.theData.d2) / (length .biv A.theBiv * length .biv X.theBiv) = m at *
  have a0 : 0 ≤ argOf A := Real.arccos_nonneg _
  have a1 : argOf A ≤ Real.pi := Real.arccos_le_pi _
  have x0 : 0 ≤ argOf X := Real.arccos_nonneg _
  have x1 : argOf X ≤ Real.pi := Real.arccos_le_pi _
  have hl0 := length_nonneg .spin (A - X)
  generalize length .spin (A - X) = l at *
  generalize length .spin A = r at *
  generalize length .spin X = s at *
  generalize argOf A = θ at *
  generalize argOf X = φ at *
  have hs := mul_nonneg (Real.sin_nonneg_of_nonneg_of_le_pi a0 a1) (Real.sin_nonneg_of_nonneg_of_le_pi x0 x1)
  have q := mul_nonneg hs (by linarith [(abs_le.1 hm1).2] : 0 ≤ 1 - m)
  have hrs := mul_pos rA rX
  have hcos : Real.cos (θ - φ) = 1 - 2 * Real.sin (|θ - φ| / 2) ^ 2 := by
    rw [← Real.cos_abs, show |θ - φ| = 2 * (|θ - φ| / 2) by ring, Real.cos_two_mul, Real.cos_sq',
      show 2 * (|θ - φ| / 2) / 2 = |θ - φ| / 2 by ring]
    ring
  rw [Real.cos_sub] at hcos
  have hx0 : 0 ≤ |θ - φ| / 2 := by positivity
  have hx1 : |θ - φ| / 2 ≤ Real.pi / 2 := by
    have : |θ - φ| ≤ Real.pi := abs_le.2 ⟨by linarith, by linarith⟩
    linarith
  have hsin := Real.mul_le_sin hx0 hx1
  have hmain : (2 * Real.sin (|θ - φ| / 2) * √(r * s)) ^ 2 ≤ l ^ 2 := by
    rw [mul_pow, mul_pow, Real.sq_sqrt hrs.le, eQ]
    have h6 : 0 ≤ r * s * (Real.sin θ * Real.sin φ * (1 - m)) := mul_nonneg hrs.le q
    have h7 : Real.sin (|θ - φ| / 2) ^ 2 = (1 - Real.cos θ * Real.cos φ - Real.sin θ * Real.sin φ) / 2 := by
      linarith
    rw [h7]
    nlinarith [sq_nonneg (r - s)]
  have hmain := abs_le_of_sq_le_sq' hmain hl0 |>.2
  have hpi := Real.pi_pos
  have h8 := mul_le_mul_of_nonneg_right hsin (Real.sqrt_nonneg (r * s))
  have h9 := mul_le_mul_of_nonneg_left h8 hpi.le
  have e9 : Real.pi * (2 / Real.pi * (|θ - φ| / 2) * √(r * s)) = |θ - φ| * √(r * s) := by
    field_simp
  rw [e9] at h9
  nlinarith

theorem biv_tri (P Q : Spinor ℝ) : length .biv P.theBiv ≤ length .biv Q.theBiv + length .spin (P - Q) := by
  have h := length_le_add (promote .biv P.theBiv) (promote .biv Q.theBiv)
  rw [length_promote .biv P.theBiv, length_promote .biv Q.theBiv] at h
  refine h.trans (le_trans (add_comm _ _).le (add_le_add le_rfl ?_))
  rw [length_eq, length_eq]
  apply Real.sqrt_le_sqrt
  obtain ⟨⟨⟨p⟩⟩, ⟨⟨p0, p1, p2⟩⟩⟩ := P
  obtain ⟨⟨⟨q⟩⟩, ⟨⟨q0, q1, q2⟩⟩⟩ := Q
  simp only [magSqTy, promote, engabra]
  nlinarith [sq_nonneg (p - q)]

/-- A bivector of moderate length is central. -/
theorem central_biv {B : BiVector F64} (hfin : ∀ c ∈ comps .biv B, c.Finite) (hge : (2 : ℝ) ^ (-28 : ℤ) ≤ euclid .biv B)
    (hle4 : euclid .biv B ≤ 4) : Central .biv B := by
  have hle : ∀ c ∈ comps .biv B, |(c.value : ℝ)| ≤ 4 := fun c hc => by
    refine le_trans ?_ hle4
    apply Real.abs_le_sqrt
    have := (Rat.cast_le (K := ℝ)).2 (list_le_sum _ hc)
    rw [pow_two, ← Rat.cast_mul]
    exact this
  refine ⟨fun c hc => ⟨hfin c hc, ?_⟩, ?_⟩
  · have h4 : |c.value| ≤ 4 := by
      have : ((|c.value| : ℚ) : ℝ) ≤ ((4 : ℚ) : ℝ) := by
        rw [Rat.cast_abs, Rat.cast_ofNat]; exact hle c hc
      exact Rat.cast_le.1 this
    refine h4.trans ?_
    calc (4 : ℚ) = 2 ^ (2 : ℤ) := by norm_num
      _ ≤ _ := zpow_le_zpow_right₀ (by norm_num) (by norm_num)
  · by_contra hcon
    push Not at hcon
    have hle := euclid_biv_le (F64.two_zpow_pos (K := ℝ) (-500)).le
      (fun q hq => by
        have := (Rat.cast_lt (K := ℝ)).2 (hcon q hq)
        rw [Rat.cast_abs, cast_zpow] at this
        exact this.le)
    have h5 : 2 * (2 : ℝ) ^ (-500 : ℤ) < 2 ^ (-28 : ℤ) := by
      have : 2 * (2 : ℝ) ^ (-500 : ℤ) = 2 ^ (-499 : ℤ) := by
        rw [show (-499 : ℤ) = 1 + -500 from by norm_num only, zpow_add₀ (by norm_num), zpow_one]
      rw [this]
      exact zpow_lt_zpow_right₀ one_lt_two (by norm_num)
    exact absurd (hge.trans hle) (not_le.2 h5)

theorem biv_norm_est {G : BiVector F64} {B : BiVector ℝ} {c : ℝ} (hc : 0 ≤ c)
    (e3 : List.Forall₂ (fun g y => (g.Finite ∧ |(g.value : ℝ) - y| ≤ c * |y| + 2 ^ (-669 : ℤ)) ∧
        (y = 0 → g.value = 0)) (comps .biv G) (comps .biv B)) :
    |euclid .biv G - length .biv B| ≤ c * length .biv B + 2 * 2 ^ (-669 : ℤ) ∧
    ∀ q ∈ comps .biv G, q.Finite := by
  obtain ⟨⟨g0, g1, g2⟩⟩ := G
  obtain ⟨⟨b0, b1, b2⟩⟩ := B
  simp only [comps, List.forall₂_cons, List.forall₂_nil_left_iff, and_true] at e3
  obtain ⟨⟨⟨f0, k0⟩, -⟩, ⟨⟨f1, k1⟩, -⟩, ⟨⟨f2, k2⟩, -⟩⟩ := e3
  constructor
  · have := norm3_est hc (F64.two_zpow_pos (K := ℝ) (-669)).le k0 k1 k2
    rw [euclid_biv]
    have ly : length .biv (⟨⟨b0, b1, b2⟩⟩ : BiVector ℝ) = √(b0 ^ 2 + b1 ^ 2 + b2 ^ 2) := by
      unfold length; congr 1
      simp only [comps, List.map_cons, List.map_nil, List.sum_cons, List.sum_nil]; ring
    rw [ly]
    exact this
  · intro q hq
    simp only [comps, List.mem_cons, List.not_mem_nil, or_false] at hq
    rcases hq with rfl | rfl | rfl <;> assumption

theorem angle_final {M e α φ x u ε : ℝ} (hu0 : 0 ≤ u) (hu : u ≤ 1 / 1000000) (hε0 : 0 ≤ ε)
    (hεs : ε ≤ 1 / 1000000) (hα0 : 0 ≤ α) (hφ0 : 0 ≤ φ) (ht : x ≤ 1 / 100 * u)
    (em : |M - e| ≤ 52 / 10 * u * e) (hn : |e - α| ≤ (11 / 10 * ε + 64 * u) * α + x)
    (hd : |α - φ| ≤ 43 * u) : |M - φ| ≤ (12 / 10 * ε + 71 * u) * φ + 44 * u := by
  have t1 := abs_sub_le M e φ
  have t2 := abs_sub_le e α φ
  have hα : α ≤ φ + 43 * u := by linarith [(abs_le.1 hd).2]
  have hεα : ε * α ≤ 1 / 1000000 * α := mul_le_mul_of_nonneg_right hεs hα0
  have huα : u * α ≤ 1 / 1000000 * α := mul_le_mul_of_nonneg_right hu hα0
  have he := (abs_le.1 hn).2
  have v1 : u * e ≤ u * (101 / 100 * α + x) := mul_le_mul_of_nonneg_left (by linarith) hu0
  have v2 : u * x ≤ 1 / 1000 * u := by
    have : u * x ≤ u * (1 / 1000) := mul_le_mul_of_nonneg_left (by linarith) hu0
    linarith
  have v3 : ε * α ≤ ε * φ + ε * (43 * u) := by
    have := mul_le_mul_of_nonneg_left hα hε0
    linarith
  have v4 : u * α ≤ u * φ + u * (43 * u) := by
    have := mul_le_mul_of_nonneg_left hα hu0
    linarith
  have v5 : ε * u ≤ 1 / 1000000 * u := mul_le_mul_of_nonneg_right hεs hu0
  have v6 : u * u ≤ 1 / 1000000 * u := mul_le_mul_of_nonneg_right hu hu0
  have v7 : 0 ≤ ε * φ := mul_nonneg hε0 hφ0
  have v8 : 0 ≤ u * φ := mul_nonneg hu0 hφ0
  linarith

/-- **C79.** `magnitude(logG2(b*a).theBiv)` in binary64, for any two vectors whose product `logG2` accepts and does not
take for a real number: finite, and within `(1.2 ε + 71 u) angle + 44 u` of the angle between them. -/
theorem C79_angle_binary64 [LibM F64] (ε : ℝ) (hε0 : 0 ≤ ε) (hε : ε ≤ 2 ^ (-20 : ℤ)) (hlog : LibmLogOk ε)
    (a b : Vector F64) (fa : ∀ c ∈ comps .vec a, c.Finite) (fb : ∀ c ∈ comps .vec b, c.Finite)
    (h1 : (2 : ℝ) ^ (-48 : ℤ) ≤ ‖ptVal a‖ * ‖ptVal b‖) (h2 : ‖ptVal a‖ * ‖ptVal b‖ ≤ 2 ^ (400 : ℤ))
    (hv : isValid (b * a : Spinor F64) = true) (hc : OffAxis (b * a)) (D : BiVector F64) :
    (magnitude (T := BiVector F64) (logG2 (b * a : Spinor F64) D).theBiv).Finite ∧
    |((magnitude (T := BiVector F64) (logG2 (b * a : Spinor F64) D).theBiv).value : ℝ)
        - angle (ptVal a) (ptVal b)|
      ≤ (12 / 10 * ε + 71 * 2 ^ (-53 : ℤ)) * angle (ptVal a) (ptVal b) + 44 * 2 ^ (-53 : ℤ) := by
  have hu0 := uR_nonneg
  have hu := uR_le
  have hεs : ε ≤ 1 / 1000000 := hε.trans (by norm_num)
  change _ ∧ _ ≤ (12 / 10 * ε + 71 * uR) * _ + 44 * uR
  replace fa : FiniteTy .vec a := finiteTy_of .vec a fa
  replace fb : FiniteTy .vec b := finiteTy_of .vec b fb
  rw [norm_ptVal, norm_ptVal] at h1 h2
  have hab : euclid .vec b * euclid .vec a = euclid .vec a * euclid .vec b := mul_comm _ _
  set p := euclid .vec a * euclid .vec b with hp
  have hp0 : 0 < p := lt_of_lt_of_le (F64.two_zpow_pos _) h1
  obtain ⟨fP, nP⟩ := product_real .vec .vec b a fb fa (by
    rw [hab, ← zpow_natCast]
    exact h2.trans (zpow_le_zpow_right₀ one_le_two (by norm_num)))
  rw [hab] at nP
  change FiniteTy .spin (b * a) at fP
  have htiny : (2 : ℝ) ^ (-1057 : ℤ) ≤ 1 / 100 * uR * p := by
    calc (2 : ℝ) ^ (-1057 : ℤ) ≤ 2 ^ (-7 : ℤ) * 2 ^ (-53 : ℤ) * 2 ^ (-48 : ℤ) := by
          rw [← zpow_add₀ (by norm_num), ← zpow_add₀ (by norm_num)]
          exact zpow_le_zpow_right₀ one_le_two (by norm_num)
      _ ≤ 1 / 100 * uR * p := by
          refine mul_le_mul (mul_le_mul_of_nonneg_right (by norm_num) hu0) h1 (F64.two_zpow_pos _).le
            (by positivity)
  -- the exact product
  set X : Spinor ℝ := rvec (ptVal b) * rvec (ptVal a) with hX
  have lX : length .spin X = p := by rw [hX, rvec_len, norm_ptVal, norm_ptVal]
  have nP' : length .spin (realTy .spin (b * a) - X) ≤ 2702 / 100 * uR * p := by
    rw [length_spin_sub]
    have e : realMV .vec b * realMV .vec a = promote .spin X := by
      rw [hX, rvec_ptVal, rvec_ptVal]
      unfold realMV
      mv_ring
    rw [e] at nP
    refine (show _ ≤ _ from nP).trans ?_
    generalize (2 : ℝ) ^ (-1057 : ℤ) = x at *
    linarith
  have hr : |euclid .spin (b * a) - p| ≤ 2702 / 100 * uR * p := by
    have a1 := length_le_add (realMV .spin (b * a)) (promote .spin X)
    have a2 := length_le_add (promote .spin X) (realMV .spin (b * a))
    rw [length_mv_sub_comm (promote .spin X)] at a2
    rw [length_realMV, length_promote, lX] at a1 a2
    rw [length_spin_sub] at nP'
    change length .mv (realMV .spin (b * a) - _) ≤ _ at nP'
    rw [abs_le]
    constructor <;> linarith
  have hra := abs_le.1 hr
  have hup : uR * p ≤ 1 / 1000000 * p := mul_le_mul_of_nonneg_right hu hp0.le
  have hElow : 999 / 1000 * p ≤ euclid .spin (b * a) := by linarith
  have hm : (2 : ℝ) ^ (-49 : ℤ) ≤ euclid .spin (b * a) := by
    have e : (2 : ℝ) ^ (-49 : ℤ) = 1 / 2 * 2 ^ (-48 : ℤ) := by norm_num
    rw [e]
    generalize (2 : ℝ) ^ (-48 : ℤ) = x at *
    linarith only [h1, hElow, hp0]
  have hm' : (2 : ℝ) ^ (-51 : ℤ) ≤ euclid .spin (b * a) :=
    (zpow_le_zpow_right₀ (by norm_num) (by norm_num)).trans hm
  have hE : 0 < euclid .spin (b * a) := lt_of_lt_of_le (F64.two_zpow_pos _) hm
  have hEup : euclid .spin (b * a) ≤ 2 ^ (402 : ℤ) := by
    have e : (2 : ℝ) ^ (402 : ℤ) = 4 * 2 ^ (400 : ℤ) := by
      rw [show (402 : ℤ) = 2 + 400 from by norm_num only, zpow_add₀ (by norm_num)]; norm_num
    rw [e]
    generalize (2 : ℝ) ^ (400 : ℤ) = x at *
    linarith only [h2, hra.2, hup, hp0]
  have hcen : Central .spin (b * a) := by
    refine central_of_len (fun c hc => ?_) hm hEup
    have f0 := fP 0; have f4 := fP 4; have f5 := fP 5; have f6 := fP 6
    simp only [comps, List.mem_cons, List.not_mem_nil, or_false] at hc
    rcases hc with rfl | rfl | rfl | rfl
    · exact f0
    · exact f4
    · exact f5
    · exact f6
  obtain ⟨s1, s2, s3, s4⟩ := logR_spec (b * a) hm' hc
  obtain ⟨-, -, e3⟩ := logG2_est hε0 (hε.trans (by norm_num)) hlog (b * a) D hcen hv hm' hc
  -- angles
  have r1 : eps < length .spin (realTy .spin (b * a) : Spinor ℝ) := by
    rw [length_realTy]
    refine lt_of_lt_of_le ?_ hm'
    unfold eps; norm_num
  have r2 : |(realTy .spin (b * a) : Spinor ℝ).theSca.theData.d0| ≤ (1 - eps) * length .spin (realTy .spin (b * a) : Spinor ℝ) := by
    rw [length_realTy]
    refine hc.trans (mul_le_mul_of_nonneg_right ?_ (Real.sqrt_nonneg _))
    unfold eps; norm_num
  have hbA := biv_pos _ r1 r2
  have hang : argOf (realTy .spin (b * a)) = angleF (b * a) := by rw [argOf_angle r1 r2, ← angleF_eq]
  have hbX : 0 < length .biv X.theBiv := by
    obtain ⟨hV, -⟩ := offAxis_V hE hc
    have hb1 : (2 : ℝ) ^ (-25 : ℤ) * (999 / 1000 * p) ≤ euclid .biv (b * a).theBiv := by
      rw [le_div_iff₀ hE] at hV
      exact (mul_le_mul_of_nonneg_left hElow (F64.two_zpow_pos _).le).trans hV
    rw [← length_realTy] at hb1
    have h5 : length .biv (realTy .biv (b * a).theBiv) ≤ length .biv X.theBiv + 2702 / 100 * uR * p := by
      exact (biv_tri (realTy .spin (b * a)) X).trans (add_le_add le_rfl nP')
    have h6 : 2702 / 100 * uR * p < (2 : ℝ) ^ (-25 : ℤ) * (999 / 1000 * p) := by
      have : 2702 / 100 * uR < (2 : ℝ) ^ (-25 : ℤ) * (999 / 1000) := by unfold uR; norm_num
      have := mul_lt_mul_of_pos_right this hp0
      linarith
    linarith
  have hdiff := angle_diff hbA hbX
  rw [length_realTy, lX, hang, hX, argOf_rvec] at hdiff
  have hsq : 999 / 1000 * p ≤ √(euclid .spin (b * a) * p) := by
    refine Real.le_sqrt_of_sq_le ?_
    nlinarith
  have hd1 : |angleF (b * a) - angle (ptVal a) (ptVal b)| ≤ 43 * uR := by
    have k1 := mul_le_mul_of_nonneg_left hsq (abs_nonneg (angleF (b * a) - angle (ptVal a) (ptVal b)))
    have k2 := mul_le_mul_of_nonneg_left nP' (by linarith [Real.pi_pos] : 0 ≤ Real.pi / 2)
    have k3 : Real.pi / 2 * (2702 / 100 * uR * p) ≤ 1571 / 1000 * (2702 / 100 * uR * p) :=
      mul_le_mul_of_nonneg_right (by linarith [Real.pi_lt_d4]) (by positivity)
    have k4 := k1.trans (hdiff.trans (k2.trans k3))
    by_contra hcon
    push Not at hcon
    have k5 := mul_lt_mul_of_pos_right hcon (by positivity : 0 < 999 / 1000 * p)
    have k6 : 0 ≤ uR * p := by positivity
    generalize uR = u at *
    linarith
  -- the computed bivector
  obtain ⟨hn, hfin⟩ := biv_norm_est (by positivity) e3
  rw [s2] at hn
  have hpi := Real.pi_lt_d2
  have hα0 : 0 < angleF (b * a) := lt_of_lt_of_le (F64.two_zpow_pos _) s3
  have ht : (2 : ℝ) * 2 ^ (-669 : ℤ) ≤ 1 / 100 * uR := by
    have : (2 : ℝ) ^ (-669 : ℤ) ≤ 2 ^ (-10 : ℤ) * 2 ^ (-53 : ℤ) := by
      rw [← zpow_add₀ (by norm_num)]
      exact zpow_le_zpow_right₀ one_le_two (by norm_num)
    have e : (2 : ℝ) ^ (-10 : ℤ) = 1 / 1024 := by norm_num
    rw [e] at this
    change _ ≤ 1 / 1024 * uR at this
    generalize (2 : ℝ) ^ (-669 : ℤ) = x at *
    linarith
  have hn' := abs_le.1 hn
  have hεα : ε * angleF (b * a) ≤ 1 / 1000000 * angleF (b * a) := mul_le_mul_of_nonneg_right hεs hα0.le
  have huα : uR * angleF (b * a) ≤ 1 / 1000000 * angleF (b * a) := mul_le_mul_of_nonneg_right hu hα0.le
  have hle4 : euclid .biv (logG2 (b * a : Spinor F64) D).theBiv ≤ 4 := by
    generalize (2 : ℝ) * 2 ^ (-669 : ℤ) = x at *
    linarith
  have hge : (2 : ℝ) ^ (-28 : ℤ) ≤ euclid .biv (logG2 (b * a : Spinor F64) D).theBiv := by
    have e : (2 : ℝ) ^ (-28 : ℤ) = 1 / 4 * 2 ^ (-26 : ℤ) := by norm_num
    have hx : (2 : ℝ) * 2 ^ (-669 : ℤ) ≤ 1 / 4 * 2 ^ (-26 : ℤ) := by
      refine ht.trans ?_
      unfold uR; norm_num
    rw [e]
    generalize (2 : ℝ) * 2 ^ (-669 : ℤ) = x at *
    generalize (2 : ℝ) ^ (-26 : ℤ) = y at *
    linarith
  have hcB := central_biv hfin hge hle4
  obtain ⟨fm, em⟩ := C34_magnitude .biv _ hcB
  refine ⟨fm, ?_⟩
  change |((magnitudeTy .biv (logG2 (b * a : Spinor F64) D).theBiv).value : ℝ) - _| ≤ _
  have hφ0 := angle_nonneg (ptVal a) (ptVal b)
  change _ ≤ 52 / 10 * uR * _ at em
  exact angle_final hu0 hu hε0 hεs hα0.le hφ0 ht em hn hd1

/-- `(1, -1, 0)` and `(1, 0, -1)`: sixty degrees, in binary64 to within `2^-45`. -/
example (D : BiVector F64) : letI := refLibLog
    |((magnitude (T := BiVector F64) (logG2 (rotB * rotA : Spinor F64) D).theBiv).value : ℝ) - Real.pi / 3|
      ≤ 2 ^ (-45 : ℤ) := by
  let _ := refLibLog
  obtain ⟨-, h2, -, h4, h5⟩ := onesSpin_ok
  obtain ⟨k1, k2, k3⟩ := refLibLog_ok
  have p := F64.two_zpow_pos (K := ℝ) (-53)
  have e : ((-1 : F64)).value = -1 := F64.hasVal_one.neg.2
  have e1 : (1 : F64).value = 1 := F64.hasVal_one.2
  have e0 : (0 : F64).value = 0 := F64.hasVal_zero'.2
  have v1 : ptVal rotA = !₂[1, 0, -1] := by simp [ptVal, rotA, e, e1, e0]
  have v2 : ptVal rotB = !₂[1, -1, 0] := by simp [ptVal, rotB, e, e1, e0]
  have n1 : ‖ptVal rotA‖ = √2 := by
    rw [v1, ← Real.sqrt_sq (norm_nonneg _), normSq_E3]; congr 1; simp; norm_num
  have n2 : ‖ptVal rotB‖ = √2 := by
    rw [v2, ← Real.sqrt_sq (norm_nonneg _), normSq_E3]; congr 1; simp; norm_num
  have hs : √(2 : ℝ) * √2 = 2 := Real.mul_self_sqrt (by norm_num)
  have f1 := F64.hasVal_one.1
  have f0 := F64.hasVal_zero'.1
  have fm := F64.neg_finite f1
  obtain ⟨-, g⟩ := C79_angle_binary64 (2 ^ (-53 : ℤ)) p.le (zpow_le_zpow_right₀ one_le_two (by norm_num))
    k1 rotA rotB
    (by
      intro c hc
      simp only [comps, rotA, List.mem_cons, List.not_mem_nil, or_false] at hc
      rcases hc with rfl | rfl | rfl
      exacts [f1, f0, fm])
    (by
      intro c hc
      simp only [comps, rotB, List.mem_cons, List.not_mem_nil, or_false] at hc
      rcases hc with rfl | rfl | rfl
      exacts [f1, fm, f0])
    (by rw [n1, n2, hs]; norm_num)
    (by
      rw [n1, n2, hs]
      have : (2 : ℝ) ^ (1 : ℤ) ≤ 2 ^ (400 : ℤ) := zpow_le_zpow_right₀ one_le_two (by norm_num)
      simpa only [zpow_one] using this)
    (by rw [rot_product]; exact h2) (by rw [rot_product]; exact h4) D
  have ha : angle (ptVal rotA) (ptVal rotB) = Real.pi / 3 := by
    unfold angle
    rw [n1, n2, hs, v1, v2, inner_E3, ← Real.arccos_cos (x := Real.pi / 3) (by positivity) (by linarith [Real.pi_pos]),
      Real.cos_pi_div_three]
    congr 1
    simp
  rw [ha] at g
  refine g.trans ?_
  have hpi := Real.pi_lt_d2
  have : (12 / 10 * (2 : ℝ) ^ (-53 : ℤ) + 71 * 2 ^ (-53 : ℤ)) * (Real.pi / 3) ≤ (12 / 10 * (2 : ℝ) ^ (-53 : ℤ) + 71 * 2 ^ (-53 : ℤ)) * 2 :=
    mul_le_mul_of_nonneg_left (by linarith) (by positivity)
  refine (add_le_add this le_rfl).trans ?_
  norm_num

/-- The same directions in exact arithmetic. -/
example (D : BiVector XR) :
    magnitude (T := BiVector XR) (logG2 (vecOf !₂[1, -1, 0] * vecOf !₂[1, 0, -1]) D).theBiv = val (Real.pi / 3) := by
  have n1 : ‖(!₂[1, 0, -1] : E3)‖ = √2 := by
    rw [← Real.sqrt_sq (norm_nonneg _), normSq_E3]; congr 1; simp; norm_num
  have n2 : ‖(!₂[1, -1, 0] : E3)‖ = √2 := by
    rw [← Real.sqrt_sq (norm_nonneg _), normSq_E3]; congr 1; simp; norm_num
  have hs : √(2 : ℝ) * √2 = 2 := Real.mul_self_sqrt (by norm_num)
  have hi : ⟪(!₂[1, 0, -1] : E3), !₂[1, -1, 0]⟫ = 1 := by rw [inner_E3]; simp
  have hv : Valid (1 : ℝ) := by
    refine Or.inr ⟨?_, ?_⟩
    · rw [abs_one, div_le_one (by positivity)]; exact one_le_pow₀ (by norm_num)
    · rw [abs_one]; exact lt_big (by norm_num)
  obtain ⟨h, -⟩ := C79_angle !₂[1, 0, -1] !₂[1, -1, 0] D (by rw [hi]; exact hv) (by
    have : (!₂[1, -1, 0] : E3) 1 * (!₂[1, 0, -1] : E3) 2 - (!₂[1, -1, 0] : E3) 2 * (!₂[1, 0, -1] : E3) 1 = 1 := by
      simp
    rw [this]; exact hv)
    (by rw [n1, n2, hs]; unfold eps; norm_num) (by rw [n1, n2, hs, hi]; unfold eps; norm_num)
  rw [h]
  congr 1
  unfold angle
  rw [n1, n2, hs, hi, ← Real.arccos_cos (x := Real.pi / 3) (by positivity) (by linarith [Real.pi_pos]),
    Real.cos_pi_div_three]

end Engabra
