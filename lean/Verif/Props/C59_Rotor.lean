import Verif.Lemmas.RotorEst
import Verif.Props.C58_RigidBody
import Verif.Props.C51_LogAccuracy

/-! # C59: the rotor that turns one vector into another

`sqrtG2(b * a)` is the spinor `R` for which `R * a * reverse(R)` points along `b`: the root of a
product of vectors, as in `test/test_g3func_G2.cpp:206-221`, put to use.  First for exact numbers,
then in binary64. -/

namespace Engabra

open F64 (Finite HasVal)
open Spec XR

/-! ## exact numbers -/

/-- Any spinor with positive scalar part whose square is `b * a` takes `a` to `|a|^2 b`. -/
theorem C59_root (a b : Vector ℝ) (R : Spinor ℝ) (h : R * R = b * a) (hw : 0 < R.theSca.theData.d0) :
    R * a * reverse R = (⟨magSq a * b, gzero⟩ : ImSpin ℝ) := by
  obtain ⟨⟨a0, a1, a2⟩⟩ := a
  obtain ⟨⟨b0, b1, b2⟩⟩ := b
  obtain ⟨⟨⟨w⟩⟩, ⟨⟨x, y, z⟩⟩⟩ := R
  simp only [engabra, Spinor.mk.injEq, Scalar.mk.injEq, A1.mk.injEq, BiVector.mk.injEq,
    A3.mk.injEq] at h hw ⊢
  obtain ⟨h1, h2, h3, h4⟩ := h
  have k : x * a0 + y * a1 + z * a2 = 0 := by
    have : 2 * w * (x * a0 + y * a1 + z * a2) = 0 := by
      linear_combination a0 * h2 + a1 * h3 + a2 * h4
    rcases mul_eq_zero.1 this with h0 | h0
    · linarith
    · exact h0
  simp only [ImSpin.mk.injEq, Vector.mk.injEq, TriVector.mk.injEq, A1.mk.injEq, A3.mk.injEq]
  refine ⟨⟨?_, ?_, ?_⟩, ?_⟩
  · linear_combination a0 * h1 - a2 * h3 + a1 * h4 + 2 * x * k
  · linear_combination a1 * h1 - a0 * h4 + a2 * h2 + 2 * y * k
  · linear_combination a2 * h1 - a1 * h2 + a0 * h3 + 2 * z * k
  · ring

/-- **C59**, exact numbers: `sqrtG2(b * a)` turns `a` into the direction of `b`. -/
theorem C59_exact (a b : Vector ℝ) (D : BiVector XR)
    (hw : Valid (b * a : Spinor ℝ).theSca.theData.d0) (hb : Valid (b * a : Spinor ℝ).theBiv.theData.d0)
    (hf : FirstOk (b * a : Spinor ℝ).theBiv) (hr : 4 * eps ≤ length .spin (b * a : Spinor ℝ))
    (hc : |(b * a : Spinor ℝ).theSca.theData.d0| ≤ (1 - eps) * length .spin (b * a : Spinor ℝ)) :
    let R := sqrtG2 (lift .vec b * lift .vec a) D
    ∃ W : ImSpin ℝ, R * lift .vec a * reverse R = lift .imsp W ∧
      W.theVec.xyz = smul (dot a.xyz a.xyz) b.xyz ∧ W.theTri.theData.d0 = 0 := by
  intro R
  have e : (lift .vec b * lift .vec a : Spinor XR) = lift .spin (b * a : Spinor ℝ) := mul_lift .vec .vec b a
  obtain ⟨Q, hQ, hQ0⟩ := C24_principal (b * a) D hw hb hf hr hc
  have hs := C24_sqrt_partial (b * a) D hw hb hf hr hc
  rw [hQ] at hs
  have hsq : Q * Q = b * a := lift_injective .spin hs
  refine ⟨⟨magSq a * b, gzero⟩, ?_, ?_, rfl⟩
  · have hR : R = lift .spin Q := by rw [← hQ, ← e]
    rw [hR, ← C59_root a b Q hsq hQ0]
    rfl
  · obtain ⟨⟨a0, a1, a2⟩⟩ := a
    obtain ⟨⟨b0, b1, b2⟩⟩ := b
    simp only [engabra, Vector.xyz, smul, dot, V3.mk.injEq]
    refine ⟨?_, ?_, ?_⟩ <;> ring

/-! ## binary64 -/

/-- A spinor whose square is near `b * a`. -/
theorem rotor_off (a b : Vector ℝ) (R : Spinor ℝ) (hw : 0 < R.theSca.theData.d0) {δ : ℝ}
    (h : length .spin (R * R - b * a : Spinor ℝ) ≤ δ) :
    length .mv (promote .spin R * promote .vec a * promote .spin (reverse R)
        - promote .vec (magSq a * b : Vector ℝ))
      ≤ δ * length .vec a * (1 + length .spin R / R.theSca.theData.d0) := by
  set k : ℝ := R.theBiv.theData.d0 * a.theData.d0 + R.theBiv.theData.d1 * a.theData.d1
    + R.theBiv.theData.d2 * a.theData.d2 with hk
  have e : promote .spin R * promote .vec a * promote .spin (reverse R)
        - promote .vec (magSq a * b : Vector ℝ)
      = promote .spin (R * R - b * a : Spinor ℝ) * promote .vec a
        - promote .spin R * promote .tri (⟨⟨2 * k⟩⟩ : TriVector ℝ) := by
    rw [hk]; mv_ring
  have hd0 : 0 ≤ length .spin (R * R - b * a : Spinor ℝ) := length_nonneg _ _
  have ha0 : 0 ≤ length .vec a := length_nonneg _ _
  have hr0 : 0 ≤ length .spin R := length_nonneg _ _
  have hkw : |2 * k| ≤ δ * length .vec a / R.theSca.theData.d0 := by
    rw [le_div_iff₀ hw, ← abs_of_pos hw, ← abs_mul]
    refine le_trans (Real.abs_le_sqrt (y := magSqTy .spin (R * R - b * a : Spinor ℝ) * magSqTy .vec a) ?_) ?_
    · obtain ⟨⟨a0, a1, a2⟩⟩ := a
      obtain ⟨⟨b0, b1, b2⟩⟩ := b
      obtain ⟨⟨⟨w⟩⟩, ⟨⟨x, y, z⟩⟩⟩ := R
      have key : ∀ s p q r : ℝ, (p * a0 + q * a1 + r * a2) ^ 2
          ≤ (s ^ 2 + p ^ 2 + q ^ 2 + r ^ 2) * (a0 ^ 2 + a1 ^ 2 + a2 ^ 2) := fun s p q r => by
        nlinarith [sq_nonneg (p * a1 - q * a0), sq_nonneg (p * a2 - r * a0), sq_nonneg (q * a2 - r * a1),
          mul_nonneg (sq_nonneg s) (add_nonneg (add_nonneg (sq_nonneg a0) (sq_nonneg a1)) (sq_nonneg a2))]
      have := key (w * w - (x * x + y * y + z * z) - (b0 * a0 + b1 * a1 + b2 * a2))
        (2 * w * x - (b1 * a2 - b2 * a1)) (2 * w * y - (b2 * a0 - b0 * a2)) (2 * w * z - (b0 * a1 - b1 * a0))
      simp only [magSqTy, engabra]
      linear_combination this
    · rw [Real.sqrt_mul (C13_magSq_nonneg .spin _), ← length_eq, ← length_eq]
      exact mul_le_mul_of_nonneg_right h ha0
  have ht : length .tri (⟨⟨2 * k⟩⟩ : TriVector ℝ) = |2 * k| := by
    rw [length_eq, ← Real.sqrt_sq_eq_abs]
    congr 1
    simp only [magSqTy, engabra]; ring
  have h1 := length_tri (promote .spin (R * R - b * a : Spinor ℝ) * promote .vec a) (promote .mv gzero)
    (promote .spin R * promote .tri (⟨⟨2 * k⟩⟩ : TriVector ℝ))
  rw [length_mv_sub_comm (promote .mv gzero),
    show ∀ X : MultiVector ℝ, X - promote .mv gzero = X by intro X; mv_ring,
    show ∀ X : MultiVector ℝ, X - promote .mv gzero = X by intro X; mv_ring,
    length_mv_mul .spin .vec (Or.inl rfl), length_mv_mul .spin .tri (Or.inl rfl), ht] at h1
  rw [e]
  have h2 := mul_le_mul_of_nonneg_left hkw hr0
  have h3 := mul_le_mul_of_nonneg_right h ha0
  refine h1.trans ((add_le_add h3 h2).trans_eq ?_)
  ring

/-- Relative error of the turned vector: `p` is the product of the lengths, `κ` the cosine of half
the angle. -/
noncomputable def rotorErr (ε κ p : ℝ) : ℝ :=
  (5 * |Real.log p| + 50) * ε + (1700 + 40 / κ) * 2 ^ (-53 : ℤ)

theorem central_of_len {S : Spinor F64} (f : ∀ c ∈ comps .spin S, c.Finite)
    (h1 : (2 : ℝ) ^ (-49 : ℤ) ≤ euclid .spin S) (h2 : euclid .spin S ≤ 2 ^ (402 : ℤ)) :
    Central .spin S := by
  have hle : ∀ c ∈ comps .spin S, |(c.value : ℝ)| ≤ euclid .spin S := fun c hc => by
    apply Real.abs_le_sqrt
    have := (Rat.cast_le (K := ℝ)).2 (list_le_sum (comps .spin S) hc)
    rw [pow_two, ← Rat.cast_mul]
    exact this
  refine ⟨fun c hc => ⟨f c hc, ?_⟩, ?_⟩
  · have h3 := (hle c hc).trans (h2.trans (zpow_le_zpow_right₀ one_le_two (by norm_num : (402 : ℤ) ≤ 500)))
    rw [← cast_zpow, ← Rat.cast_abs] at h3
    exact (Rat.cast_le (K := ℝ)).1 h3
  · by_contra hcon
    push Not at hcon
    have h4 := list_sum_le (comps .spin S) ((2 : ℚ) ^ (-1000 : ℤ)) fun c hc => by
      have h5 := mul_self_le_mul_self (abs_nonneg _) (hcon c hc).le
      rw [abs_mul_abs_self, ← zpow_add₀ two_ne_zero] at h5
      exact h5
    have h6 : (sqSum .spin S : ℝ) ≤ 4 * (2 : ℝ) ^ (-1000 : ℤ) := by
      have := (Rat.cast_le (K := ℝ)).2 h4
      rw [Rat.cast_mul, cast_zpow] at this
      exact this
    have h7 : (4 : ℝ) * 2 ^ (-1000 : ℤ) = 2 ^ (-499 : ℤ) * 2 ^ (-499 : ℤ) := by
      rw [show (4 : ℝ) = 2 ^ (2 : ℤ) by norm_num, ← zpow_add₀ two_ne_zero, ← zpow_add₀ two_ne_zero]
      norm_num only
    have h8 : euclid .spin S ≤ 2 ^ (-499 : ℤ) := by
      refine Real.sqrt_le_iff.2 ⟨(F64.two_zpow_pos _).le, ?_⟩
      rw [pow_two, ← h7]; exact h6
    have h9 : (2 : ℝ) ^ (-499 : ℤ) < 2 ^ (-49 : ℤ) := zpow_lt_zpow_right₀ one_lt_two (by norm_num)
    linarith only [h1, h8, h9]

theorem near_of_comps {S : Spinor F64} {R : Spinor ℝ} {δ : ℝ} (hδ : 0 ≤ δ)
    (h : List.Forall₂ (fun g y => g.Finite ∧ |(g.value : ℝ) - y| ≤ δ) (comps .spin S) (comps .spin R)) :
    FiniteTy .spin S ∧ length .mv (realMV .spin S - promote .spin R) ≤ 2 * δ := by
  obtain ⟨⟨⟨x0⟩⟩, ⟨⟨x1, x2, x3⟩⟩⟩ := R
  obtain ⟨⟨⟨a0⟩⟩, ⟨⟨a1, a2, a3⟩⟩⟩ := S
  simp only [comps, List.forall₂_cons, List.forall₂_nil_left_iff, and_true] at h
  obtain ⟨⟨f0, g0⟩, ⟨f1, g1⟩, ⟨f2, g2⟩, ⟨f3, g3⟩⟩ := h
  constructor
  · apply finiteTy_of
    intro c hc
    simp only [comps, List.mem_cons, List.not_mem_nil, or_false] at hc
    rcases hc with rfl | rfl | rfl | rfl <;> assumption
  · rw [length_eq]
    apply Real.sqrt_le_iff.2
    refine ⟨by linarith, ?_⟩
    have q : ∀ {x : ℝ}, |x| ≤ δ → x ^ 2 ≤ δ ^ 2 := fun h => by
      rw [← sq_abs]; exact pow_le_pow_left₀ (abs_nonneg _) h 2
    have := q g0; have := q g1; have := q g2; have := q g3
    simp only [realMV, realTy, mapTy, magSqTy, engabra]
    nlinarith

/-- The arithmetic of the error bound. -/
theorem rotor_arith {u D q P V ε l L κ : ℝ} (hu0 : 0 ≤ u) (hu : u ≤ 1 / 1000000) (hε0 : 0 ≤ ε)
    (hD : D = 2 * ((l + 9) * ε + 380 * u)) (hD0 : 0 ≤ D) (hD1 : D ≤ 1 / 100) (hP : 0 ≤ P) (hV : 0 ≤ V)
    (hq0 : 0 ≤ q) (hq : q ≤ (1 + 28 * u) * P) (hl : l ≤ L + 1) (hL : 0 ≤ L) (hκ : 0 < κ) {T x : ℝ}
    (hT : T ≤ u * (V * P)) (hx : x ≤ 6 / 5 / κ) :
    ((1 + D) ^ 2 * (1 + 27 * u) ^ 2 - 1) * (q * V) + T + 28 * u * P * V * (1 + x)
      ≤ ((5 * L + 50) * ε + (1700 + 40 / κ) * u) * (V * P) := by
  have hVP : 0 ≤ V * P := mul_nonneg hV hP
  have huV : 0 ≤ u * (V * P) := mul_nonneg hu0 hVP
  have h1 : (1 + D) ^ 2 ≤ 1 + 201 / 100 * D := by nlinarith
  have h2 : (1 + 27 * u) ^ 2 ≤ 1 + 55 * u := by nlinarith
  have h3 : (1 + D) ^ 2 * (1 + 27 * u) ^ 2 ≤ (1 + 201 / 100 * D) * (1 + 55 * u) :=
    mul_le_mul h1 h2 (by positivity) (by positivity)
  have h4 : D * u ≤ 1 / 100 * u := mul_le_mul_of_nonneg_right hD1 hu0
  have h5 : (1 + D) ^ 2 * (1 + 27 * u) ^ 2 - 1 ≤ 201 / 100 * D + 57 * u := by linarith
  have h50 : 0 ≤ 201 / 100 * D + 57 * u := by positivity
  have h6 : q * V ≤ (1 + 28 * u) * (V * P) := by
    have := mul_le_mul_of_nonneg_right hq hV
    linarith
  have h7 : ((1 + D) ^ 2 * (1 + 27 * u) ^ 2 - 1) * (q * V)
      ≤ (201 / 100 * D + 57 * u) * ((1 + 28 * u) * (V * P)) :=
    mul_le_mul h5 h6 (mul_nonneg hq0 hV) h50
  have h8 : (201 / 100 * D + 57 * u) * (1 + 28 * u) ≤ 202 / 100 * D + 58 * u := by nlinarith
  have h9 : D ≤ 2 * ((L + 10) * ε + 380 * u) := by
    have := mul_le_mul_of_nonneg_right hl hε0
    rw [hD]; linarith
  have hLe : 0 ≤ L * ε := mul_nonneg hL hε0
  have h10 : 202 / 100 * D + 58 * u ≤ (5 * L + 50) * ε + 1600 * u := by linarith
  have h11 := mul_le_mul_of_nonneg_right (h8.trans h10) hVP
  have h12 : 28 * u * P * V * (1 + x) ≤ 28 * u * P * V * (1 + 6 / 5 / κ) :=
    mul_le_mul_of_nonneg_left (by linarith) (by positivity)
  have hκi : 0 ≤ u * (V * P) / κ := div_nonneg huV hκ.le
  have e1 : 28 * u * P * V * (1 + 6 / 5 / κ) = 28 * (u * (V * P)) + 168 / 5 * (u * (V * P) / κ) := by
    field_simp; ring
  have e2 : ((5 * L + 50) * ε + (1700 + 40 / κ) * u) * (V * P)
      = ((5 * L + 50) * ε) * (V * P) + 1700 * (u * (V * P)) + 40 * (u * (V * P) / κ) := by
    field_simp; ring
  rw [e2]
  rw [e1] at h12
  linarith

/-- The scalar part of the root is not small against its length. -/
theorem root_scalar {X Q : Spinor ℝ} {a b : Vector ℝ} {q κ P : ℝ} (hQ : Q * Q = X)
    (hr : length .spin Q = √q) (hq0 : 0 < q) (hw : 0 < Q.theSca.theData.d0)
    (hδ : length .spin (Q * Q - b * a : Spinor ℝ) ≤ 28 * uR * P) (hκ0 : (2 : ℝ) ^ (-23 : ℤ) ≤ κ)
    (hP0 : 0 < P) (hκ : (2 * κ ^ 2 - 1) * P ≤ dot a.xyz b.xyz) (hq2 : (1 - 28 * uR) * P ≤ q)
    (hq1 : q ≤ 101 / 100 * P) : √q / Q.theSca.theData.d0 ≤ 6 / 5 / κ := by
  have hsq : √q ^ 2 = q := Real.sq_sqrt hq0.le
  have hκp : 0 < κ := lt_of_lt_of_le (F64.two_zpow_pos _) hκ0
  have h1 := spin_length_sq Q
  rw [hr, hsq] at h1
  have h2 : X.theSca.theData.d0 = Q.theSca.theData.d0 ^ 2 - length .biv Q.theBiv ^ 2 := by
    rw [← hQ, length_sq]
    simp only [magSqTy, engabra]; ring
  have h3 : |X.theSca.theData.d0 - dot a.xyz b.xyz| ≤ 28 * uR * P := by
    refine le_trans ?_ hδ
    rw [length_eq, hQ]
    apply Real.abs_le_sqrt
    have h4 : ∀ Z : Spinor ℝ, Z.theSca.theData.d0 ^ 2 ≤ magSqTy .spin Z := fun Z => by
      obtain ⟨⟨⟨z0⟩⟩, ⟨⟨z4, z5, z6⟩⟩⟩ := Z
      simp only [magSqTy, engabra]
      nlinarith [sq_nonneg z4, sq_nonneg z5, sq_nonneg z6]
    refine le_trans (le_of_eq ?_) (h4 _)
    simp only [engabra, dot, Vector.xyz]; ring
  have h5 := (abs_le.1 h3).1
  have h6 : uR ≤ 1 / 128 * κ ^ 2 := by
    have h7 := pow_le_pow_left₀ (F64.two_zpow_pos _).le hκ0 2
    have h8 : ((2 : ℝ) ^ (-23 : ℤ)) ^ 2 = 128 * uR := by unfold uR; norm_num
    rw [h8] at h7
    generalize uR = u at *
    linarith only [h7]
  have h9 := mul_le_mul_of_nonneg_right h6 hP0.le
  have hκP : 0 ≤ κ ^ 2 * P := by positivity
  have h10 : 25 / 32 * (κ ^ 2 * P) ≤ Q.theSca.theData.d0 ^ 2 := by
    generalize uR = u at *
    linarith only [h1, h2, h5, h9, hκ, hq2]
  rw [div_le_div_iff₀ hw hκp, ← sq_le_sq₀ (by positivity) (by positivity), mul_pow, mul_pow, hsq]
  have h11 := mul_le_mul_of_nonneg_right hq1 (sq_nonneg κ)
  linarith only [h10, h11, hκP]

/-- **C59.**  In binary64, with `R = sqrtG2(b * a)`: the vector part of `R * a * reverse(R)` is
`|a|^2 b` and its trivector part is zero, up to a relative error. -/
theorem C59_rotor [LibM F64] (ε κ : ℝ) (hε0 : 0 ≤ ε) (hε : ε ≤ 2 ^ (-20 : ℤ)) (hlog : LibmLogOk ε)
    (hlib : LibmOk ε) (hexp : LibmExpOk ε) (a b : Vector F64) (D : BiVector F64)
    (fa : ∀ c ∈ comps .vec a, c.Finite) (fb : ∀ c ∈ comps .vec b, c.Finite)
    (ha : norm3 (vecVal a) ≤ 2 ^ (200 : ℤ)) (hb : norm3 (vecVal b) ≤ 2 ^ (200 : ℤ))
    (hP : (2 : ℝ) ^ (-48 : ℤ) ≤ norm3 (vecVal a) * norm3 (vecVal b))
    (hv : isValid (b * a : Spinor F64) = true) (hc : OffAxis (b * a)) (hf : FirstFair (b * a))
    (hκ0 : (2 : ℝ) ^ (-23 : ℤ) ≤ κ)
    (hκ : (2 * κ ^ 2 - 1) * (norm3 (vecVal a) * norm3 (vecVal b)) ≤ dot (vecVal a) (vecVal b)) :
    let R := sqrtG2 (b * a) D
    let w : ImSpin F64 := R * a * reverse R
    (∀ k, (cf (promote .imsp w) k).Finite) ∧
    dist3 (vecVal w.theVec) (smul (dot (vecVal a) (vecVal a)) (vecVal b))
      ≤ rotorErr ε κ (norm3 (vecVal a) * norm3 (vecVal b))
        * (norm3 (vecVal a) ^ 2 * norm3 (vecVal b)) ∧
    |(w.theTri.theData.d0.value : ℝ)|
      ≤ rotorErr ε κ (norm3 (vecVal a) * norm3 (vecVal b))
        * (norm3 (vecVal a) ^ 2 * norm3 (vecVal b)) := by
  intro R w
  rw [← euclid_vec3, ← euclid_vec3] at *
  have hA0 : 0 ≤ euclid .vec a := Real.sqrt_nonneg _
  have hB0 : 0 ≤ euclid .vec b := Real.sqrt_nonneg _
  have hu0 := uR_nonneg
  have hu := uR_le
  have hκp : 0 < κ := lt_of_lt_of_le (F64.two_zpow_pos _) hκ0
  set P := euclid .vec a * euclid .vec b with hPd
  have hP0 : 0 < P := lt_of_lt_of_le (F64.two_zpow_pos _) hP
  have hPup : P ≤ 2 ^ (400 : ℤ) := by
    refine (mul_le_mul ha hb hB0 (F64.two_zpow_pos _).le).trans_eq ?_
    rw [← zpow_add₀ two_ne_zero]; norm_num only
  -- the product
  obtain ⟨fS, gS⟩ := product_real .vec .vec b a (finiteTy_of .vec b fb) (finiteTy_of .vec a fa) (by
    rw [mul_comm, ← hPd]
    refine hPup.trans ?_
    rw [← zpow_natCast]
    exact zpow_le_zpow_right₀ one_le_two (by norm_num))
  rw [mul_comm (euclid .vec b), ← hPd] at gS
  change FiniteTy .spin (b * a : Spinor F64) at fS
  change length .mv (realMV .spin (b * a : Spinor F64) - _) ≤ _ at gS
  have gS' : length .mv (realMV .spin (b * a : Spinor F64) - realMV .vec b * realMV .vec a)
      ≤ 28 * uR * P := by
    have t1 : (2 : ℝ) ^ (-1057 : ℤ) ≤ uR * 2 ^ (-48 : ℤ) := by
      unfold uR
      rw [← zpow_add₀ two_ne_zero]
      exact zpow_le_zpow_right₀ one_le_two (by norm_num)
    have t2 := mul_le_mul_of_nonneg_left hP hu0
    generalize uR = u at *
    generalize (2 : ℝ) ^ (-1057 : ℤ) = T at *
    generalize (2 : ℝ) ^ (-48 : ℤ) = T' at *
    linarith only [gS, t1, t2]
  have fSc : ∀ c ∈ comps .spin (b * a : Spinor F64), c.Finite := by
    have f0 := fS 0; have f4 := fS 4; have f5 := fS 5; have f6 := fS 6
    generalize (b * a : Spinor F64) = S at *
    obtain ⟨⟨⟨s0⟩⟩, ⟨⟨s1, s2, s3⟩⟩⟩ := S
    simp only [cf_0, cf_4, cf_5, cf_6, engabra] at f0 f4 f5 f6
    intro c hc
    simp only [comps, List.mem_cons, List.not_mem_nil, or_false] at hc
    rcases hc with rfl | rfl | rfl | rfl <;> assumption
  have hBA : length .mv (realMV .vec b * realMV .vec a) = P := by
    unfold realMV
    rw [length_mv_mul .vec .vec (Or.inl rfl), length_realTy, length_realTy, mul_comm]
  have hq1 : euclid .spin (b * a : Spinor F64) ≤ (1 + 28 * uR) * P := by
    have := length_le_add (realMV .spin (b * a : Spinor F64)) (realMV .vec b * realMV .vec a)
    rw [length_realMV, hBA] at this
    generalize uR = u at *
    linarith only [this, gS']
  have hq2 : (1 - 28 * uR) * P ≤ euclid .spin (b * a : Spinor F64) := by
    have := length_le_add (realMV .vec b * realMV .vec a) (realMV .spin (b * a : Spinor F64))
    rw [length_realMV, hBA, length_mv_sub_comm] at this
    generalize uR = u at *
    linarith only [this, gS']
  set q := euclid .spin (b * a : Spinor F64) with hqd
  have hPu : P * uR ≤ P * (1 / 1000000) := mul_le_mul_of_nonneg_left hu hP0.le
  have hq2' : 99 / 100 * P ≤ q := by
    generalize uR = u at *
    linarith only [hq2, hPu, hP0]
  have hq1' : q ≤ 101 / 100 * P := by
    generalize uR = u at *
    linarith only [hq1, hPu, hP0]
  have hq0 : 0 < q := by linarith only [hq2', hP0]
  have hqm : (2 : ℝ) ^ (-49 : ℤ) ≤ q := by
    have e : (2 : ℝ) ^ (-48 : ℤ) = 2 * 2 ^ (-49 : ℤ) := by
      rw [← zpow_one_add₀ two_ne_zero]; norm_num only
    have p := F64.two_zpow_pos (K := ℝ) (-49)
    generalize (2 : ℝ) ^ (-48 : ℤ) = T at *
    generalize (2 : ℝ) ^ (-49 : ℤ) = T' at *
    linarith only [hP, e, hq2', p]
  have hqM : q ≤ 2 ^ (402 : ℤ) := by
    have e : (2 : ℝ) ^ (402 : ℤ) = 4 * 2 ^ (400 : ℤ) := by
      rw [show (4 : ℝ) = 2 ^ (2 : ℤ) by norm_num, ← zpow_add₀ two_ne_zero]; norm_num only
    generalize (2 : ℝ) ^ (402 : ℤ) = T at *
    generalize (2 : ℝ) ^ (400 : ℤ) = T' at *
    linarith only [hPup, e, hq1', hP0]
  have hcen := central_of_len fSc hqm hqM
  -- the root
  obtain ⟨Q, hQ, hw, hnear⟩ := C51_sqrt ε hε0 hε hlog hlib hexp (b * a) D hcen hv hqm hc hf
  rw [← hqd] at hnear
  have hl0 := abs_nonneg (Real.log q)
  have hη0 : 0 ≤ (|Real.log q| + 9) * ε + 380 * 2 ^ (-53 : ℤ) :=
    add_nonneg (mul_nonneg (by linarith) hε0) (mul_nonneg (by norm_num) hu0)
  obtain ⟨fR, gR⟩ := near_of_comps (mul_nonneg (Real.sqrt_nonneg q) hη0) hnear
  have hr : length .spin Q = √q := by
    have h1 := length_mv_mul .spin .spin (Or.inl rfl) Q Q
    rw [show promote .spin Q * promote .spin Q = promote .spin (Q * Q : Spinor ℝ) by mv_ring,
      hQ, length_promote, length_realTy, ← hqd] at h1
    rw [h1, Real.sqrt_mul_self (length_nonneg _ _)]
  have hsq : √q ^ 2 = q := Real.sq_sqrt hq0.le
  have hlogq : |Real.log q| ≤ |Real.log P| + 1 := by
    have h1 : Real.log q = Real.log P + Real.log (q / P) := by
      rw [← Real.log_mul hP0.ne' (div_pos hq0 hP0).ne', mul_div_cancel₀ _ hP0.ne']
    have h2 : |Real.log (q / P)| ≤ 1 := by
      have h3 : q / P ≤ 101 / 100 := (div_le_iff₀ hP0).2 hq1'
      have h4 : 99 / 100 ≤ q / P := (le_div_iff₀ hP0).2 hq2'
      have h5 := Real.log_le_sub_one_of_pos (div_pos hq0 hP0)
      have h6 := Real.one_sub_inv_le_log_of_pos (div_pos hq0 hP0)
      have h7 : (q / P)⁻¹ ≤ 100 / 99 := (inv_anti₀ (by norm_num) h4).trans_eq (by norm_num)
      rw [abs_le]
      constructor
      · linarith only [h6, h7]
      · linarith only [h5, h3]
    rw [h1]
    exact (abs_add_le _ _).trans (by linarith)
  have hl400 : |Real.log q| ≤ 400 :=
    log_abs_le ((zpow_le_zpow_right₀ one_le_two (by norm_num)).trans hqm)
      (hqM.trans (zpow_le_zpow_right₀ one_le_two (by norm_num)))
  set η := (|Real.log q| + 9) * ε + 380 * 2 ^ (-53 : ℤ) with hη
  have hη1 : 2 * η ≤ 1 / 100 := by
    have h1 : (|Real.log q| + 9) * ε ≤ 409 * 2 ^ (-20 : ℤ) :=
      mul_le_mul (by linarith) hε hε0 (by norm_num)
    have h2 : (380 : ℝ) * 2 ^ (-53 : ℤ) ≤ 380 * (1 / 1000000) :=
      mul_le_mul_of_nonneg_left hu (by norm_num)
    have h3 : (409 : ℝ) * 2 ^ (-20 : ℤ) ≤ 1 / 1000 := by norm_num
    generalize (2 : ℝ) ^ (-53 : ℤ) = u at *
    generalize (2 : ℝ) ^ (-20 : ℤ) = u' at *
    rw [hη]
    linarith only [h1, h2, h3]
  have hA1 : euclid .vec a ≤ 2 ^ 300 := ha.trans (by
    rw [← zpow_natCast]; exact zpow_le_zpow_right₀ one_le_two (by norm_num))
  have hsq300 : √q ≤ 2 ^ 300 := by
    refine Real.sqrt_le_iff.2 ⟨by positivity, hqM.trans ?_⟩
    rw [← pow_mul, ← zpow_natCast]; exact zpow_le_zpow_right₀ one_le_two (by norm_num)
  obtain ⟨fw, gw⟩ := sandwich_scaled .vec (S := R) (R := Q) a fR (finiteTy_of .vec a fa) hr
    (D := 2 * η) (by refine gR.trans_eq ?_; ring) (by linarith) hη1 hsq300 hA1
  refine ⟨fw, ?_⟩
  -- the exact part
  have hδ : length .spin (Q * Q - realTy .vec b * realTy .vec a : Spinor ℝ) ≤ 28 * uR * P := by
    rw [← length_promote, hQ]
    refine le_trans (le_of_eq ?_) gS'
    congr 1
    unfold realMV
    generalize realTy .spin (b * a : Spinor F64) = X
    generalize realTy .vec b = Y
    generalize realTy .vec a = Z
    mv_ring
  have hoff := rotor_off (realTy .vec a) (realTy .vec b) Q hw hδ
  rw [length_realTy, hr] at hoff
  -- the scalar part of the root
  have hwr : √q / Q.theSca.theData.d0 ≤ 6 / 5 / κ :=
    root_scalar hQ hr hq0 hw hδ hκ0 hP0 hκ hq2 hq1'
  have hT : (2 : ℝ) ^ (-700 : ℤ) ≤ uR * (euclid .vec a * P) := by
    have h1 : (2 : ℝ) ^ (-248 : ℤ) ≤ euclid .vec a := by
      have h2 := hP.trans (mul_le_mul_of_nonneg_left hb hA0)
      rw [← div_le_iff₀ (F64.two_zpow_pos _), ← zpow_sub₀ two_ne_zero] at h2
      exact h2
    refine le_trans ?_ (mul_le_mul_of_nonneg_left (mul_le_mul h1 hP (F64.two_zpow_pos _).le hA0) hu0)
    unfold uR
    rw [← zpow_add₀ two_ne_zero, ← zpow_add₀ two_ne_zero]
    exact zpow_le_zpow_right₀ one_le_two (by norm_num)
  have hfin := rotor_arith (q := q) (V := euclid .vec a) hu0 hu hε0 (D := 2 * η) rfl (by linarith) hη1
    hP0.le hA0 hq0.le hq1 hlogq (abs_nonneg _) hκp hT hwr
  have htot : length .mv (realMV .imsp w - promote .vec (magSq (realTy .vec a) * realTy .vec b : Vector ℝ))
      ≤ rotorErr ε κ P * (euclid .vec a ^ 2 * euclid .vec b) := by
    have h1 := length_tri (realMV .imsp w)
      (promote .spin Q * realMV .vec a * promote .spin (reverse Q))
      (promote .vec (magSq (realTy .vec a) * realTy .vec b : Vector ℝ))
    rw [hsq] at gw
    refine h1.trans ((add_le_add (show _ ≤ _ from gw) (show _ ≤ _ from hoff)).trans (hfin.trans_eq ?_))
    rw [hPd]; unfold rotorErr uR; ring
  have hx : (magSq (realTy .vec a) * realTy .vec b : Vector ℝ).xyz
      = smul (dot (vecVal a) (vecVal a)) (vecVal b) := by
    simp only [realTy, mapTy, engabra, Vector.xyz, smul, dot, vecVal, V3.mk.injEq]
    refine ⟨?_, ?_, ?_⟩ <;> ring
  rw [← hx]
  exact ⟨(imsp_parts w _).1.trans htot, (imsp_parts w _).2.trans htot⟩

/-! ## Non-triviality: from `e1 - e3` to `e1 - e2`, sixty degrees -/

/-- `e1 - e3` -/
noncomputable def rotA : Vector F64 := ⟨⟨1, 0, -1⟩⟩
/-- `e1 - e2` -/
noncomputable def rotB : Vector F64 := ⟨⟨1, -1, 0⟩⟩

theorem rot_product : (rotB * rotA : Spinor F64) = onesSpin := by
  have rep : ∀ n : ℤ, |n| ≤ 2 → F64.Rep (n : ℚ) ∧ |(n : ℚ)| < 2 ^ 1024 := fun n hn => by
    refine ⟨⟨n, 0, hn.trans (by norm_num), by norm_num, by simp⟩, ?_⟩
    have h1 : |(n : ℚ)| ≤ 2 := by exact_mod_cast hn
    have h2 : (2 : ℚ) ^ 2 ≤ 2 ^ 1024 := pow_le_pow_right₀ one_le_two (by norm_num)
    refine lt_of_le_of_lt h1 (lt_of_lt_of_le (by norm_num) h2)
  have mul : ∀ {x y : F64} {m n : ℤ}, HasVal x m → HasVal y n → |m * n| ≤ 2 → HasVal (x * y) (m * n : ℤ) :=
    fun {x y m n} hx hy h => by
      have := rep _ h
      push_cast at this ⊢
      exact hx.mul hy this.1 this.2
  have add : ∀ {x y : F64} {m n : ℤ}, HasVal x m → HasVal y n → |m + n| ≤ 2 → HasVal (x + y) (m + n : ℤ) :=
    fun {x y m n} hx hy h => by
      have := rep _ h
      push_cast at this ⊢
      exact hx.add hy this.1 this.2
  have sub : ∀ {x y : F64} {m n : ℤ}, HasVal x m → HasVal y n → |m - n| ≤ 2 → HasVal (x - y) (m - n : ℤ) :=
    fun {x y m n} hx hy h => by
      have := rep _ h
      push_cast at this ⊢
      exact hx.sub hy this.1 this.2
  have h1 : HasVal 1 (1 : ℤ) := by simpa using F64.hasVal_one
  have h0 : HasVal 0 (0 : ℤ) := by simpa using F64.hasVal_zero'
  have hm : HasVal (-1) (-1 : ℤ) := by simpa using F64.hasVal_one.neg
  have one : ∀ {x : F64}, HasVal x (1 : ℤ) → x = 1 := fun {x} h => by
    obtain ⟨hf, hv⟩ := h
    rw [F64.one_eq]
    cases x with
    | nan => exact absurd hf id
    | inf s => exact absurd hf id
    | zero s => simp [F64.value] at hv
    | fin v h =>
      have : v = 1 := by simpa [F64.value] using hv
      subst this; rfl
  have s := add (add (add h0 (mul h1 h1 (by norm_num)) (by norm_num)) (mul hm h0 (by norm_num)) (by norm_num))
    (mul h0 hm (by norm_num)) (by norm_num)
  have x := sub (mul hm hm (by norm_num)) (mul h0 h0 (by norm_num)) (by norm_num)
  have y := sub (mul h0 h1 (by norm_num)) (mul h1 hm (by norm_num)) (by norm_num)
  have z := sub (mul h1 h0 (by norm_num)) (mul hm h1 (by norm_num)) (by norm_num)
  norm_num only at s x y z
  have s' := one (by exact_mod_cast s)
  have x' := one (by exact_mod_cast x)
  have y' := one (by exact_mod_cast y)
  have z' := one (by exact_mod_cast z)
  have key : ∀ {p q r t : F64}, p = 1 → q = 1 → r = 1 → t = 1 →
      (⟨⟨⟨p⟩⟩, ⟨⟨q, r, t⟩⟩⟩ : Spinor F64) = onesSpin := by
    rintro _ _ _ _ rfl rfl rfl rfl; rfl
  exact key s' x' y' z'

theorem rot_vals : vecVal rotA = ⟨1, 0, -1⟩ ∧ vecVal rotB = ⟨1, -1, 0⟩ := by
  have e : ((-1 : F64)).value = -1 := F64.hasVal_one.neg.2
  have e1 : (1 : F64).value = 1 := F64.hasVal_one.2
  have e0 : (0 : F64).value = 0 := F64.hasVal_zero'.2
  constructor <;> simp [vecVal, rotA, rotB, e, e1, e0]

/-- With a library accurate to `2^-53` the difference from `2 (e1 - e2)` is below `2^-39`. -/
example (D : BiVector F64) : letI := refLibLog
    let R := sqrtG2 (rotB * rotA) D
    let w : ImSpin F64 := R * rotA * reverse R
    dist3 (vecVal w.theVec) ⟨2, -2, 0⟩ ≤ 2 ^ (-39 : ℤ) ∧
    |(w.theTri.theData.d0.value : ℝ)| ≤ 2 ^ (-39 : ℤ) := by
  let _ := refLibLog
  obtain ⟨-, h2, -, h4, h5⟩ := onesSpin_ok
  obtain ⟨k1, k2, k3⟩ := refLibLog_ok
  obtain ⟨v1, v2⟩ := rot_vals
  have p := F64.two_zpow_pos (K := ℝ) (-53)
  have n1 : norm3 (vecVal rotA) = √2 := by rw [v1]; norm_num [norm3, dot]
  have n2 : norm3 (vecVal rotB) = √2 := by rw [v2]; norm_num [norm3, dot]
  have hs2 : √(2 : ℝ) ≤ 2 := Real.sqrt_le_iff.2 ⟨by norm_num, by norm_num⟩
  have hs : √(2 : ℝ) * √2 = 2 := Real.mul_self_sqrt (by norm_num)
  have big : (2 : ℝ) ≤ 2 ^ (200 : ℤ) := by
    have : (2 : ℝ) ^ (1 : ℤ) ≤ 2 ^ (200 : ℤ) := zpow_le_zpow_right₀ one_le_two (by norm_num)
    simpa only [zpow_one] using this
  have f1 := F64.hasVal_one.1
  have f0 := F64.hasVal_zero'.1
  have fm := F64.neg_finite f1
  obtain ⟨-, g1, g2⟩ := C59_rotor (2 ^ (-53 : ℤ)) (1 / 2) p.le
    (zpow_le_zpow_right₀ one_le_two (by norm_num)) k1 k2 k3 rotA rotB D
    (by
      intro c hc
      simp only [comps, rotA, List.mem_cons, List.not_mem_nil, or_false] at hc
      rcases hc with rfl | rfl | rfl
      exacts [f1, f0, fm])
    (by
      intro c hc
      simp only [comps, rotB, List.mem_cons, List.not_mem_nil, or_false] at hc
      rcases hc with rfl | rfl | rfl
      exacts [f1, fm, f0])
    (by rw [n1]; exact hs2.trans big) (by rw [n2]; exact hs2.trans big)
    (by rw [n1, n2, hs]; norm_num) (by rw [rot_product]; exact h2) (by rw [rot_product]; exact h4)
    (by rw [rot_product]; exact h5) (by norm_num) (by
      rw [n1, n2, hs, v1, v2]; norm_num [dot])
  have hl : |Real.log 2| ≤ 1 := by
    rw [abs_of_pos (Real.log_pos one_lt_two)]; linarith [Real.log_two_lt_d9]
  have hE : rotorErr (2 ^ (-53 : ℤ)) (1 / 2) (norm3 (vecVal rotA) * norm3 (vecVal rotB))
      * (norm3 (vecVal rotA) ^ 2 * norm3 (vecVal rotB)) ≤ 2 ^ (-39 : ℤ) := by
    rw [n1, n2, hs, Real.sq_sqrt (by norm_num)]
    have h6 : rotorErr (2 ^ (-53 : ℤ)) (1 / 2) 2 ≤ 1900 * 2 ^ (-53 : ℤ) := by
      unfold rotorErr
      generalize (2 : ℝ) ^ (-53 : ℤ) = u at *
      have := mul_le_mul_of_nonneg_right hl p.le
      norm_num
      linarith
    refine (mul_le_mul h6 (mul_le_mul_of_nonneg_left hs2 (by norm_num)) (by positivity)
      (by positivity)).trans ?_
    norm_num
  have hx : smul (dot (vecVal rotA) (vecVal rotA)) (vecVal rotB) = ⟨2, -2, 0⟩ := by
    rw [v1, v2]; norm_num [smul, dot]
  rw [hx] at g1
  exact ⟨g1.trans hE, g2.trans hE⟩

/-- The same vectors meet the hypotheses for exact numbers. -/
example : ∃ a b : Vector ℝ, Valid (b * a : Spinor ℝ).theSca.theData.d0 ∧
    Valid (b * a : Spinor ℝ).theBiv.theData.d0 ∧ FirstOk (b * a : Spinor ℝ).theBiv ∧
    4 * eps ≤ length .spin (b * a : Spinor ℝ) ∧
    |(b * a : Spinor ℝ).theSca.theData.d0| ≤ (1 - eps) * length .spin (b * a : Spinor ℝ) := by
  have e : ((⟨⟨1, -1, 0⟩⟩ : Vector ℝ) * (⟨⟨1, 0, -1⟩⟩ : Vector ℝ) : Spinor ℝ) = ⟨⟨⟨1⟩⟩, ⟨⟨1, 1, 1⟩⟩⟩ := by
    simp only [engabra]; norm_num
  have hl : length .spin (⟨⟨⟨1⟩⟩, ⟨⟨1, 1, 1⟩⟩⟩ : Spinor ℝ) = 2 := by
    rw [length_eq, show (2 : ℝ) = √(2 ^ 2) by rw [Real.sqrt_sq (by norm_num)]]
    congr 1
    simp only [magSqTy, engabra]; norm_num
  have hv : Valid (1 : ℝ) := by
    refine Or.inr ⟨?_, ?_⟩
    · rw [abs_one, div_le_one (by positivity)]; exact one_le_pow₀ (by norm_num)
    · rw [abs_one]; exact lt_big (by norm_num)
  refine ⟨⟨⟨1, 0, -1⟩⟩, ⟨⟨1, -1, 0⟩⟩, ?_⟩
  rw [e, hl, eps_val]
  refine ⟨hv, hv, Or.inr ?_, by norm_num, by norm_num⟩
  have hb : length .biv (⟨⟨1, 1, 1⟩⟩ : BiVector ℝ) ≤ 2 := by
    rw [length_eq]
    refine Real.sqrt_le_iff.2 ⟨by norm_num, ?_⟩
    simp only [magSqTy, engabra]; norm_num
  rw [abs_one]
  have h1 : (1 : ℝ) / 2 ^ 800 ≤ 1 / 2 ^ 1 :=
    one_div_le_one_div_of_le (by norm_num) (pow_le_pow_right₀ one_le_two (by norm_num))
  refine (mul_le_mul h1 hb (length_nonneg _ _) (by norm_num)).trans_eq (by norm_num)

end Engabra
