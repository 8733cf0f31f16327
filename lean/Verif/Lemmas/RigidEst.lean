import Verif.Lemmas.RealLen
import Verif.Lemmas.ScaleF64
import Verif.Lemmas.NearlyRange
import Verif.Spec.Rotation

/-! # Estimates for C58: a spinor made of angles, and its sandwich -/

namespace Engabra

open F64 (Finite HasVal)
open Spec

/-- The exact components of a computed vector. -/
noncomputable def vecVal (v : Vector F64) : V3 ℝ :=
  ⟨v.theData.d0.value, v.theData.d1.value, v.theData.d2.value⟩

/-- The exact components of a computed bivector. -/
noncomputable def bivVal (b : BiVector F64) : V3 ℝ :=
  ⟨b.theData.d0.value, b.theData.d1.value, b.theData.d2.value⟩

/-- Specification: angles whose halves are exact in binary64 and in the range where `exp` is
accurate: each component is zero or has magnitude from `2^-399` to `2^501`. -/
def Angle (A : BiVector F64) : Prop :=
  ∀ c ∈ comps .biv A, c.Finite ∧
    (c.value = 0 ∨ (2 : ℚ) ^ (-399 : ℤ) ≤ |c.value| ∧ |c.value| ≤ (2 : ℚ) ^ (501 : ℤ))

/-- `exp(.5*A0) * exp(.5*A1) * ...` (`README.md:242-243`; there the angles are roll, elevation and
azimuth). -/
noncomputable def attitude [LibM F64] (A0 : BiVector F64) (As : List (BiVector F64)) : Spinor F64 :=
  As.foldl (fun S A => S * expBiv ((Dbl.lit (1 / 2) : F64) * A : BiVector F64))
    (expBiv ((Dbl.lit (1 / 2) : F64) * A0 : BiVector F64))

/-! ## exact rotations -/

/-- The sandwich with the exponential of `B` is the rotation by `2 B`. -/
theorem sandwich_exp (B : BiVector ℝ) (v : Vector ℝ) :
    (sandwich (expR 0 B) v).xyz
      = turn ⟨2 * B.theData.d0, 2 * B.theData.d1, 2 * B.theData.d2⟩ v.xyz := by
  obtain ⟨⟨p, q, r⟩⟩ := B
  obtain ⟨⟨x, y, z⟩⟩ := v
  have hb : length .biv (⟨⟨p, q, r⟩⟩ : BiVector ℝ) ^ 2 = p ^ 2 + q ^ 2 + r ^ 2 := by
    rw [length_sq]; simp only [magSqTy, engabra]; ring
  have hb0 : 0 ≤ length .biv (⟨⟨p, q, r⟩⟩ : BiVector ℝ) := length_nonneg _ _
  have hθ : √(dot (⟨2 * p, 2 * q, 2 * r⟩ : V3 ℝ) ⟨2 * p, 2 * q, 2 * r⟩)
      = 2 * length .biv (⟨⟨p, q, r⟩⟩ : BiVector ℝ) := by
    rw [← Real.sqrt_sq (by positivity : 0 ≤ 2 * length .biv (⟨⟨p, q, r⟩⟩ : BiVector ℝ)), mul_pow, hb]
    congr 1
    simp only [dot]; ring
  unfold turn norm3
  simp only [hθ]
  unfold expR
  rw [Real.exp_zero, one_mul, one_mul]
  generalize length .biv (⟨⟨p, q, r⟩⟩ : BiVector ℝ) = b at *
  have h1 : Real.cos (2 * b) = Real.cos b ^ 2 - Real.sin b ^ 2 := Real.cos_two_mul' b
  have h2 : Real.sin (2 * b) = 2 * Real.sin b * Real.cos b := Real.sin_two_mul b
  have h3 := Real.sin_sq_add_cos_sq b
  rw [h1, h2]
  rcases hb0.eq_or_lt with hz | hp
  · subst hz
    have hpqr : p = 0 ∧ q = 0 ∧ r = 0 := by
      refine ⟨?_, ?_, ?_⟩ <;> nlinarith [sq_nonneg p, sq_nonneg q, sq_nonneg r]
    obtain ⟨rfl, rfl, rfl⟩ := hpqr
    simp only [sandwich, Vector.xyz, engabra, Real.cos_zero, Real.sin_zero, Spec.add, smul, cross, dot,
      V3.mk.injEq]
    refine ⟨?_, ?_, ?_⟩ <;> ring
  · have hs : Real.sin b = Real.sin b / b * b := by field_simp
    have e1 : 2 * Real.sin b * Real.cos b / (2 * b) = Real.sin b / b * Real.cos b := by field_simp
    have e2 : (1 - (Real.cos b ^ 2 - Real.sin b ^ 2)) / (2 * b) ^ 2 = (Real.sin b / b) ^ 2 / 2 := by
      rw [show 1 - (Real.cos b ^ 2 - Real.sin b ^ 2) = 2 * Real.sin b ^ 2 by linarith]
      field_simp
    have e3 : Real.cos b ^ 2 - Real.sin b ^ 2
        = Real.cos b ^ 2 - (Real.sin b / b) ^ 2 * (p ^ 2 + q ^ 2 + r ^ 2) := by
      rw [← hb]; field_simp
    rw [e1, e2, e3]
    generalize Real.sin b / b = s
    generalize Real.cos b = c
    simp only [sandwich, Vector.xyz, engabra, Spec.add, smul, cross, dot, V3.mk.injEq]
    refine ⟨?_, ?_, ?_⟩ <;> ring

theorem length_expR_zero (B : BiVector ℝ) : length .spin (expR 0 B) = 1 := by
  rw [length_eq, show magSqTy .spin (expR 0 B) = Real.exp 0 ^ 2 from magSq_expR 0 B, Real.exp_zero,
    one_pow, Real.sqrt_one]

/-! ## estimates -/

theorem length_reverse_sub (S : Spinor F64) (R : Spinor ℝ) :
    length .mv (realMV .spin (reverse S) - promote .spin (reverse R))
      = length .mv (realMV .spin S - promote .spin R) := by
  rw [length_eq, length_eq]
  congr 1
  have h : ∀ x : F64, (-x).value = -x.value := F64.value_neg
  simp only [realMV, realTy, mapTy, magSqTy, engabra, h, Rat.cast_neg]
  ring

/-- Product of two computed factors near exact unit spinors. -/
theorem unit_product {S E : Spinor F64} {R X : Spinor ℝ} (fS : FiniteTy .spin S)
    (fE : FiniteTy .spin E) (hR : length .spin R = 1) (hX : length .spin X = 1) {D d c : ℝ}
    (hS : length .mv (realMV .spin S - promote .spin R) ≤ D)
    (hE : length .mv (realMV .spin E - promote .spin X) ≤ d) (hD : D ≤ 1 / 100) (hd : d ≤ 1 / 100)
    (hc : d + 28 * uR ≤ c) :
    FiniteTy .spin (S * E) ∧ length .spin (R * X) = 1 ∧
    length .mv (realMV .spin (S * E) - promote .spin (R * X)) ≤ (1 + D) * (1 + c) - 1 := by
  have hRX : promote .spin (R * X) = promote .spin R * promote .spin X := by mv_ring
  have hRX1 : length .spin (R * X) = 1 := by
    rw [← length_promote, hRX, length_mul_left .spin rfl, length_promote, hR, hX, one_mul]
  have lS : euclid .spin S ≤ 1 + D := by
    have := length_le_add (realMV .spin S) (promote .spin R)
    rw [length_realMV, length_promote, hR] at this
    linarith
  have lE : euclid .spin E ≤ 1 + d := by
    have := length_le_add (realMV .spin E) (promote .spin X)
    rw [length_realMV, length_promote, hX] at this
    linarith
  have hS0 : 0 ≤ euclid .spin S := Real.sqrt_nonneg _
  have hE0 : 0 ≤ euclid .spin E := Real.sqrt_nonneg _
  have hD0 : 0 ≤ D := (length_nonneg _ _).trans hS
  have hd0 : 0 ≤ d := (length_nonneg _ _).trans hE
  have hSE : euclid .spin S * euclid .spin E ≤ (1 + D) * (1 + d) :=
    mul_le_mul lS lE hE0 (by linarith)
  obtain ⟨f, h1⟩ := product_real .spin .spin S E fS fE (by
    refine hSE.trans (small_le_pow ?_)
    nlinarith)
  refine ⟨f, hRX1, ?_⟩
  have h2 := length_tri (realMV .spin (S * E)) (realMV .spin S * realMV .spin E)
    (promote .spin (R * X))
  have h3 := length_tri (realMV .spin S * realMV .spin E) (promote .spin R * realMV .spin E)
    (promote .spin (R * X))
  have e1 : length .mv (realMV .spin S * realMV .spin E - promote .spin R * realMV .spin E)
      ≤ D * (1 + d) := by
    rw [show realMV .spin S * realMV .spin E - promote .spin R * realMV .spin E
      = (realMV .spin S - promote .spin R) * promote .spin (realTy .spin E) by
        unfold realMV; mv_ring, length_mul_right .spin rfl, length_realTy]
    exact mul_le_mul hS lE hE0 hD0
  have e2 : length .mv (promote .spin R * realMV .spin E - promote .spin (R * X)) ≤ d := by
    rw [hRX, show promote .spin R * realMV .spin E - promote .spin R * promote .spin X
      = promote .spin R * (realMV .spin E - promote .spin X) by unfold realMV; mv_ring,
      length_mul_left .spin rfl, hR, one_mul]
    exact hE
  have ht : (2 : ℝ) ^ (-1057 : ℤ) ≤ 1 / 1000 * uR := by
    refine le_trans ?_ (mul_le_mul_of_nonneg_right (show (2 : ℝ) ^ (-10 : ℤ) ≤ 1 / 1000 by norm_num)
      uR_nonneg)
    rw [← zpow_add₀ two_ne_zero]
    exact zpow_le_zpow_right₀ one_le_two (by norm_num)
  have h1' : length .mv (realMV .spin (S * E) - realMV .spin S * realMV .spin E)
      ≤ 27 * uR * ((1 + D) * (1 + d)) + 1 / 1000 * uR := by
    refine (show _ ≤ _ from h1).trans ?_
    exact add_le_add (mul_le_mul_of_nonneg_left hSE (by have := uR_nonneg; linarith)) ht
  have hu0 := uR_nonneg
  generalize uR = u at *
  have hDu : 0 ≤ D * u := mul_nonneg hD0 hu0
  have hdu : d * u ≤ 1 / 100 * u := mul_le_mul_of_nonneg_right hd hu0
  have hDdu : d * (D * u) ≤ 1 / 100 * (D * u) := mul_le_mul_of_nonneg_right hd hDu
  have hDc : D * (d + 28 * u) ≤ D * c := mul_le_mul_of_nonneg_left hc hD0
  nlinarith

/-- `S * v * reverse(S)` with `S` near an exact unit spinor. -/
theorem sandwich_est (t : Ty) {S : Spinor F64} {R : Spinor ℝ} (v : t.D F64) (fS : FiniteTy .spin S)
    (fv : FiniteTy t v) (hR : length .spin R = 1) {D : ℝ}
    (hS : length .mv (realMV .spin S - promote .spin R) ≤ D) (hD : D ≤ 1 / 100)
    (hv : euclid t v ≤ 2 ^ 1000) :
    FiniteTy _ (mulTy (mulRes .spin t) .spin (mulTy .spin t S v) (reverse S)) ∧
    length .mv (realMV _ (mulTy (mulRes .spin t) .spin (mulTy .spin t S v) (reverse S))
        - promote .spin R * realMV t v * promote .spin (reverse R))
      ≤ ((1 + D) ^ 2 * (1 + 27 * uR) ^ 2 - 1) * euclid t v + 2 ^ (-1055 : ℤ) := by
  have hD0 : 0 ≤ D := (length_nonneg _ _).trans hS
  have hv0 : 0 ≤ euclid t v := Real.sqrt_nonneg _
  have hu0 := uR_nonneg
  have hu1 := uR_small
  have hS0 : 0 ≤ euclid .spin S := Real.sqrt_nonneg _
  have lS : euclid .spin S ≤ 1 + D := by
    have := length_le_add (realMV .spin S) (promote .spin R)
    rw [length_realMV, length_promote, hR] at this
    linarith
  have hrev : length .mv (realMV .spin (reverse S) - promote .spin (reverse R)) ≤ D := by
    rw [length_reverse_sub]; exact hS
  have hrR : length .spin (reverse R) = 1 := by
    rw [← hR, length_eq, length_eq]
    congr 1
    simp only [magSqTy, engabra]; ring
  have lr : euclid .spin (reverse S) ≤ 1 + D := by
    have := length_le_add (realMV .spin (reverse S)) (promote .spin (reverse R))
    rw [length_realMV, length_promote, hrR] at this
    linarith
  have hr0 : 0 ≤ euclid .spin (reverse S) := Real.sqrt_nonneg _
  have fr : FiniteTy .spin (reverse S) := by
    apply finiteTy_of
    intro c hc
    have f := fun k => fS k
    have f0 := f 0; have f4 := f 4; have f5 := f 5; have f6 := f 6
    simp only [cf_0, cf_4, cf_5, cf_6, engabra] at f0 f4 f5 f6
    simp only [comps, engabra, List.mem_cons, List.not_mem_nil, or_false] at hc
    rcases hc with rfl | rfl | rfl | rfl
    · exact f0
    · exact F64.neg_finite f4
    · exact F64.neg_finite f5
    · exact F64.neg_finite f6
  have hp : ∀ n : ℕ, (2 : ℝ) * 2 ^ n = 2 ^ (n + 1) := fun n => by ring
  have h1v : euclid .spin S * euclid t v ≤ (1 + D) * euclid t v :=
    mul_le_mul_of_nonneg_right lS hv0
  have hbig : (2 : ℝ) ^ 1001 ≤ 2 ^ 1002 := pow_le_pow_right₀ one_le_two (by norm_num)
  have hbig2 : (2 : ℝ) ^ 1003 ≤ 2 ^ 1022 := pow_le_pow_right₀ one_le_two (by norm_num)
  have hone : (1 : ℝ) ≤ 2 ^ 1000 := one_le_pow₀ one_le_two
  have p0 := hp 1000; have p1 := hp 1001; have p2 := hp 1002
  simp only [Nat.reduceAdd] at p0 p1 p2
  have hTT : (2 : ℝ) ^ (-1057 : ℤ) ≤ 1 := zpow_le_one_of_nonpos₀ one_le_two (by norm_num)
  have hT0 : (0 : ℝ) ≤ 2 ^ (-1057 : ℤ) := (F64.two_zpow_pos _).le
  have hT4 : (2 : ℝ) ^ (-1055 : ℤ) = 4 * 2 ^ (-1057 : ℤ) := by
    rw [show (-1055 : ℤ) = 2 + -1057 by norm_num, zpow_add₀ two_ne_zero]; norm_num
  rw [hT4]
  have hDv : D * euclid t v ≤ 1 / 100 * euclid t v := mul_le_mul_of_nonneg_right hD hv0
  obtain ⟨f1, g1⟩ := product_real .spin t S v fS fv (by
    generalize euclid t v = V at *
    generalize (2 : ℝ) ^ 1000 = a at *
    generalize (2 : ℝ) ^ 1001 = b at *
    generalize (2 : ℝ) ^ 1002 = c at *
    generalize (2 : ℝ) ^ 1003 = d at *
    generalize (2 : ℝ) ^ 1022 = e at *
    linarith)
  have lw : euclid _ (mulTy .spin t S v)
      ≤ (1 + 27 * uR) * ((1 + D) * euclid t v) + 2 ^ (-1057 : ℤ) := by
    have := length_le_add (realMV _ (mulTy .spin t S v)) (realMV .spin S * realMV t v)
    rw [length_realMV, show length .mv (realMV .spin S * realMV t v) = euclid .spin S * euclid t v by
      rw [realMV, length_mul_left .spin rfl, length_realTy, length_realMV]] at this
    have h3 := mul_le_mul_of_nonneg_left h1v (by linarith : 0 ≤ 27 * uR)
    linarith
  generalize hw : mulTy .spin t S v = w at *
  have hw0 : 0 ≤ euclid _ w := Real.sqrt_nonneg _
  have hwr : euclid _ w * euclid .spin (reverse S) ≤ euclid _ w * (1 + D) :=
    mul_le_mul_of_nonneg_left lr hw0
  obtain ⟨f2, g2⟩ := product_real _ .spin w (reverse S) f1 fr (by
    refine hwr.trans ?_
    have h5 : euclid _ w * (1 + D) ≤ euclid _ w * 2 :=
      mul_le_mul_of_nonneg_left (by linarith) hw0
    have h6 : (1 + 27 * uR) * ((1 + D) * euclid t v) ≤ 2 * ((1 + D) * euclid t v) :=
      mul_le_mul_of_nonneg_right (by generalize uR = u at *; linarith) (mul_nonneg (by linarith) hv0)
    generalize (2 : ℝ) ^ (-1057 : ℤ) = T at *
    generalize uR = u at *
    generalize euclid t v = V at *
    generalize euclid _ w = W at *
    generalize (2 : ℝ) ^ 1000 = a at *
    generalize (2 : ℝ) ^ 1001 = b at *
    generalize (2 : ℝ) ^ 1002 = c at *
    generalize (2 : ℝ) ^ 1003 = d at *
    generalize (2 : ℝ) ^ 1022 = e at *
    linarith)
  refine ⟨f2, ?_⟩
  have h2 := length_tri (realMV _ (mulTy _ .spin w (reverse S))) (realMV _ w * realMV .spin (reverse S))
    (promote .spin R * realMV t v * promote .spin (reverse R))
  have h3 := length_tri (realMV _ w * realMV .spin (reverse S))
    (promote .spin R * realMV t v * realMV .spin (reverse S))
    (promote .spin R * realMV t v * promote .spin (reverse R))
  have e1 : length .mv (realMV _ w * realMV .spin (reverse S)
        - promote .spin R * realMV t v * realMV .spin (reverse S))
      ≤ (27 * uR * ((1 + D) * euclid t v) + 2 ^ (-1057 : ℤ) + D * euclid t v) * (1 + D) := by
    rw [show realMV _ w * realMV .spin (reverse S)
        - promote .spin R * realMV t v * realMV .spin (reverse S)
      = (realMV _ w - promote .spin R * realMV t v) * promote .spin (realTy .spin (reverse S)) by
        generalize realMV _ w = X; generalize realMV t v = Y; unfold realMV; mv_ring,
      length_mul_right .spin rfl, length_realTy]
    refine mul_le_mul ?_ lr hr0 (by positivity)
    have h4 := length_tri (realMV _ w) (realMV .spin S * realMV t v) (promote .spin R * realMV t v)
    rw [show realMV .spin S * realMV t v - promote .spin R * realMV t v
      = (realMV .spin S - promote .spin R) * realMV t v by
        generalize realMV t v = Y; unfold realMV; mv_ring] at h4
    have h5 : length .mv ((realMV .spin S - promote .spin R) * realMV t v) ≤ D * euclid t v := by
      have : realMV .spin S - promote .spin R = promote .spin (realTy .spin S - R) := by
        unfold realMV; mv_ring
      rw [this] at hS ⊢
      rw [length_mul_left .spin rfl, length_realMV, ← length_promote]
      exact mul_le_mul_of_nonneg_right hS hv0
    have h6 := mul_le_mul_of_nonneg_left h1v (by linarith : 0 ≤ 27 * uR)
    linarith
  have e2 : length .mv (promote .spin R * realMV t v * realMV .spin (reverse S)
        - promote .spin R * realMV t v * promote .spin (reverse R)) ≤ D * euclid t v := by
    have : realMV .spin (reverse S) - promote .spin (reverse R)
        = promote .spin (realTy .spin (reverse S) - reverse R) := by
      unfold realMV; mv_ring
    rw [show promote .spin R * realMV t v * realMV .spin (reverse S)
        - promote .spin R * realMV t v * promote .spin (reverse R)
      = promote .spin R * (realMV t v * promote .spin (realTy .spin (reverse S) - reverse R)) by
        generalize realMV t v = Y; unfold realMV; mv_ring,
      length_mul_left .spin rfl, hR, one_mul, length_mul_right .spin rfl, length_realMV,
      ← length_promote, ← this, mul_comm]
    exact mul_le_mul_of_nonneg_right hrev hv0
  have g2' : length .mv (realMV _ (mulTy _ .spin w (reverse S)) - realMV _ w * realMV .spin (reverse S))
      ≤ 27 * uR * (((1 + 27 * uR) * ((1 + D) * euclid t v) + 2 ^ (-1057 : ℤ)) * (1 + D))
        + 2 ^ (-1057 : ℤ) := by
    refine g2.trans (add_le_add (mul_le_mul_of_nonneg_left (hwr.trans ?_) (by linarith)) le_rfl)
    exact mul_le_mul_of_nonneg_right lw (by linarith)
  have hfin := h2.trans (add_le_add g2' (h3.trans (add_le_add e1 e2)))
  refine hfin.trans ?_
  generalize (2 : ℝ) ^ (-1057 : ℤ) = T at *
  have h7 : 27 * uR * (T * (1 + D)) ≤ 27 / 1000 * (T * (1 + D)) :=
    mul_le_mul_of_nonneg_right (by linarith) (mul_nonneg hT0 (by linarith))
  have h8 : T * D ≤ T * (1 / 100) := mul_le_mul_of_nonneg_left hD hT0
  generalize uR = u at *
  generalize euclid t v = V at *
  linear_combination h7 + 1027 / 1000 * h8 + (4 - 1 - 1 - 27 / 1000 - 1027 / 1000 / 100) * hT0

/-- `exp` of a bivector as a unit spinor. -/
theorem exp_near [LibM F64] {ε : ℝ} (hε0 : 0 ≤ ε) (hε : ε ≤ 1 / 100) (hlib : LibmOk ε)
    (B : BiVector F64) (h : ∀ c ∈ comps .biv B, c.Finite ∧
      (c.value = 0 ∨ (2 : ℚ) ^ (-400 : ℤ) ≤ |c.value| ∧ |c.value| ≤ (2 : ℚ) ^ (500 : ℤ)))
    {b : ℝ} (hb : euclid .biv B ≤ b) :
    FiniteTy .spin (expBiv B) ∧
    length .mv (realMV .spin (expBiv B) - promote .spin (expR 0 (realTy .biv B)))
      ≤ 22 / 10 * ε + (20 + 12 * b) * uR := by
  have hE0 : 0 ≤ euclid .biv B := Real.sqrt_nonneg _
  have hu0 := uR_nonneg
  have hb0 : 0 ≤ b := hE0.trans hb
  have hkey : ∃ δ : ℝ, 0 ≤ δ ∧ 2 * δ ≤ 22 / 10 * ε + (20 + 12 * b) * uR ∧
      List.Forall₂ (fun c y => c.Finite ∧ |(c.value : ℝ) - y| ≤ δ)
        (comps .spin (expBiv B)) (comps .spin (expR 0 (realTy .biv B))) := by
    by_cases hz : ∀ c ∈ comps .biv B, c.value = 0
    · refine ⟨0, le_rfl, by rw [mul_zero]; positivity, ?_⟩
      obtain ⟨h1, -⟩ := C46_tiny B (fun c hc => ⟨(h c hc).1, by
          rw [hz c hc, abs_zero]; exact (F64.two_zpow_pos _).le⟩)
        (valid_of_tiny (h _ (by simp [comps])).1 (by
          rw [show B.theData.d0.value = 0 from hz _ (by simp [comps]), abs_zero]
          exact (F64.two_zpow_pos _).le))
      have hE : euclid .biv B = 0 := by
        refine le_antisymm ?_ hE0
        have := euclid_biv_le (B := B) le_rfl (fun c hc => by rw [hz c hc, Rat.cast_zero, abs_zero])
        linarith
      rw [h1, exp_comps, hE]
      have f1 := F64.hasVal_one
      have f0 := F64.hasVal_zero'
      simp [comps, f1.1, f0.1, f1.2, f0.2]
    · push Not at hz
      obtain ⟨c, hc, hcz⟩ := hz
      have hcen : Central .biv B := by
        refine ⟨fun d hd => ⟨(h d hd).1, ?_⟩, c, hc, ?_⟩
        · rcases (h d hd).2 with h0 | h0
          · rw [h0, abs_zero]; exact (F64.two_zpow_pos _).le
          · exact h0.2
        · rcases (h c hc).2 with h0 | h0
          · exact absurd h0 hcz
          · exact (zpow_le_zpow_right₀ (by norm_num) (by norm_num)).trans h0.1
      refine ⟨11 / 10 * ε + (10 + 6 * b) * uR, by positivity, by linarith, ?_⟩
      have hx := expBiv_exact hε0 hε hlib B hcen (by
        rcases (h B.theData.d0 (by simp [comps])).2 with h0 | h0
        · exact Or.inl h0
        · exact Or.inr h0.1)
      rw [exp_comps, Real.exp_zero, show (fun x : ℝ => (1 : ℝ) * x) = id by funext x; exact one_mul x,
        List.map_id]
      refine hx.imp fun c y hcy => ⟨hcy.1, hcy.2.2.trans ?_⟩
      have := mul_le_mul_of_nonneg_right hb hu0
      linarith
  obtain ⟨δ, hδ0, hδ, hk⟩ := hkey
  generalize expR 0 (realTy .biv B) = X at *
  generalize expBiv B = E at *
  obtain ⟨⟨⟨x0⟩⟩, ⟨⟨x1, x2, x3⟩⟩⟩ := X
  obtain ⟨⟨⟨a0⟩⟩, ⟨⟨a1, a2, a3⟩⟩⟩ := E
  simp only [comps, List.forall₂_cons, List.forall₂_nil_left_iff, and_true] at hk
  obtain ⟨⟨f0, g0⟩, ⟨f1, g1⟩, ⟨f2, g2⟩, ⟨f3, g3⟩⟩ := hk
  constructor
  · apply finiteTy_of
    intro c hc
    simp only [comps, List.mem_cons, List.not_mem_nil, or_false] at hc
    rcases hc with rfl | rfl | rfl | rfl <;> assumption
  · refine le_trans ?_ hδ
    rw [length_eq]
    apply Real.sqrt_le_iff.2
    refine ⟨by linarith, ?_⟩
    have q : ∀ {x : ℝ}, |x| ≤ δ → x ^ 2 ≤ δ ^ 2 := fun h => by
      rw [← sq_abs]; exact pow_le_pow_left₀ (abs_nonneg _) h 2
    have := q g0; have := q g1; have := q g2; have := q g3
    simp only [realMV, realTy, mapTy, magSqTy, engabra]
    nlinarith

/-- Halving is exact. -/
theorem half_exact {c : F64} (hf : c.Finite)
    (h : c.value = 0 ∨ (2 : ℚ) ^ (-399 : ℤ) ≤ |c.value| ∧ |c.value| ≤ (2 : ℚ) ^ (501 : ℤ)) :
    HasVal ((Dbl.lit (1 / 2) : F64) * c) (1 / 2 * c.value) := by
  have hl : HasVal (Dbl.lit (1 / 2) : F64) (1 / 2) := by
    have := F64.pow2_val (e := -1) (by norm_num) (by norm_num)
    rw [show (2 : ℚ) ^ (-1 : ℤ) = 1 / 2 by norm_num] at this
    have e : F64.pow2 (-1) = (Dbl.lit (1 / 2) : F64) := by
      unfold F64.pow2; congr 1; norm_num
    rwa [e] at this
  have hlt : |1 / 2 * c.value| < 2 ^ 1024 := by
    have h1 : |c.value| < 2 ^ 1024 := F64.value_lt
    rw [abs_mul, abs_of_pos (by norm_num : (0 : ℚ) < 1 / 2)]
    have := abs_nonneg c.value
    generalize (2 : ℚ) ^ 1024 = P at *
    linarith
  refine hl.mul (HasVal.of hf) ?_ hlt
  rcases h with h | ⟨h, -⟩
  · rw [h, mul_zero]; exact F64.rep_zero
  · have e1 : (1 / 2 : ℚ) * c.value = 2 ^ (-1 : ℤ) * c.value := by norm_num
    have h1 : F64.rnVal ((2 : ℚ) ^ (-1 : ℤ) * c.value) = 2 ^ (-1 : ℤ) * F64.rnVal c.value := by
      apply rnVal_scale_normal
      · exact (zpow_le_zpow_right₀ (by norm_num) (by norm_num)).trans h
      · rw [abs_mul, abs_of_pos (F64.two_zpow_pos (K := ℚ) (-1))]
        refine le_trans ?_ (mul_le_mul_of_nonneg_left h (F64.two_zpow_pos _).le)
        rw [← zpow_add₀ two_ne_zero]
        exact zpow_le_zpow_right₀ (by norm_num) (by norm_num)
    rw [F64.rnVal_exact F64.value_rep] at h1
    rw [e1, ← h1]
    exact F64.rnVal_rep _

theorem realTy_half (A : BiVector F64) (h : Angle A) :
    realTy .biv ((Dbl.lit (1 / 2) : F64) * A : BiVector F64)
      = ⟨⟨1 / 2 * (bivVal A).x, 1 / 2 * (bivVal A).y, 1 / 2 * (bivVal A).z⟩⟩ := by
  obtain ⟨⟨a, b, c⟩⟩ := A
  have h' := fun x hx => half_exact (h x hx).1 (h x hx).2
  simp only [comps, List.mem_cons, List.not_mem_nil, or_false, forall_eq_or_imp, forall_eq] at h'
  obtain ⟨h0, h1, h2⟩ := h'
  simp only [realTy, mapTy, engabra, bivVal]
  rw [h0.2, h1.2, h2.2]
  push_cast
  rfl

/-- One factor of the attitude. -/
theorem angle_near [LibM F64] {ε Θ : ℝ} (hε0 : 0 ≤ ε) (hε : ε ≤ 1 / 100) (hlib : LibmOk ε)
    (A : BiVector F64) (h : Angle A) (hA : norm3 (bivVal A) ≤ Θ) :
    ∃ X : Spinor ℝ, length .spin X = 1 ∧ (∀ v : Vector ℝ, (sandwich X v).xyz = turn (bivVal A) v.xyz) ∧
    FiniteTy .spin (expBiv ((Dbl.lit (1 / 2) : F64) * A : BiVector F64)) ∧
    length .mv (realMV .spin (expBiv ((Dbl.lit (1 / 2) : F64) * A : BiVector F64)) - promote .spin X)
      ≤ 22 / 10 * ε + (20 + 6 * Θ) * uR := by
  have hr := realTy_half A h
  have hE : euclid .biv ((Dbl.lit (1 / 2) : F64) * A : BiVector F64) = 1 / 2 * norm3 (bivVal A) := by
    rw [← length_realTy, hr, length_eq, norm3, show magSqTy .biv (⟨⟨1 / 2 * (bivVal A).x,
      1 / 2 * (bivVal A).y, 1 / 2 * (bivVal A).z⟩⟩ : BiVector ℝ)
        = (1 / 2) ^ 2 * dot (bivVal A) (bivVal A) by simp only [magSqTy, engabra, dot]; ring,
      Real.sqrt_mul (by positivity), Real.sqrt_sq (by norm_num)]
  obtain ⟨f, g⟩ := exp_near hε0 hε hlib ((Dbl.lit (1 / 2) : F64) * A : BiVector F64) (by
    obtain ⟨⟨a, b, c⟩⟩ := A
    intro x hx
    have key : ∀ d ∈ comps .biv (⟨⟨a, b, c⟩⟩ : BiVector F64), ((Dbl.lit (1 / 2) : F64) * d).Finite ∧
        (((Dbl.lit (1 / 2) : F64) * d).value = 0 ∨
          (2 : ℚ) ^ (-400 : ℤ) ≤ |((Dbl.lit (1 / 2) : F64) * d).value| ∧
          |((Dbl.lit (1 / 2) : F64) * d).value| ≤ (2 : ℚ) ^ (500 : ℤ)) := by
      intro d hd
      obtain ⟨k1, k2⟩ := h d hd
      obtain ⟨v1, v2⟩ := half_exact k1 k2
      refine ⟨v1, ?_⟩
      rw [v2]
      rcases k2 with k | ⟨k, k'⟩
      · left; rw [k, mul_zero]
      · right
        rw [abs_mul, abs_of_pos (by norm_num : (0 : ℚ) < 1 / 2)]
        rw [show (-399 : ℤ) = 1 + -400 by norm_num, zpow_add₀ two_ne_zero, zpow_one] at k
        rw [show (501 : ℤ) = 1 + 500 by norm_num, zpow_add₀ two_ne_zero, zpow_one] at k'
        generalize (2 : ℚ) ^ (-400 : ℤ) = P at *
        generalize (2 : ℚ) ^ (500 : ℤ) = Q at *
        constructor <;> linarith
    simp only [comps, engabra, List.mem_cons, List.not_mem_nil, or_false] at hx key
    rcases hx with rfl | rfl | rfl
    · exact key a (Or.inl rfl)
    · exact key b (Or.inr (Or.inl rfl))
    · exact key c (Or.inr (Or.inr rfl))) (b := 1 / 2 * Θ) (by rw [hE]; linarith)
  refine ⟨_, length_expR_zero _, fun v => ?_, f, g.trans (le_of_eq (by ring))⟩
  rw [sandwich_exp, hr]
  congr 1
  simp only [bivVal, V3.mk.injEq]
  refine ⟨?_, ?_, ?_⟩ <;> ring

/-- The attitude as a unit spinor. -/
theorem attitude_near [LibM F64] {ε Θ : ℝ} (hε0 : 0 ≤ ε) (hlib : LibmOk ε)
    (A0 : BiVector F64) (As : List (BiVector F64))
    (h : ∀ A ∈ A0 :: As, Angle A ∧ norm3 (bivVal A) ≤ Θ) {c : ℝ}
    (hc : 22 / 10 * ε + (48 + 6 * Θ) * uR ≤ c) (hn : (As.length + 1 : ℕ) * c ≤ 1 / 256) :
    ∃ R : Spinor ℝ, length .spin R = 1 ∧
      (∀ v : Vector ℝ, (sandwich R v).xyz = turns ((A0 :: As).map bivVal) v.xyz) ∧
      FiniteTy .spin (attitude A0 As) ∧
      length .mv (realMV .spin (attitude A0 As) - promote .spin R) ≤ (1 + c) ^ (As.length + 1) - 1 := by
  have hu0 := uR_nonneg
  have hΘ0 : 0 ≤ Θ := (Real.sqrt_nonneg _).trans (h A0 (by simp)).2
  have hΘu := mul_nonneg hΘ0 hu0
  have hd0 : 0 ≤ 22 / 10 * ε + (20 + 6 * Θ) * uR := by positivity
  have hdc : 22 / 10 * ε + (20 + 6 * Θ) * uR + 28 * uR ≤ c := by linarith
  have hc0 : 0 ≤ c := by linarith
  have hc1 : c ≤ 1 / 256 := by
    refine le_trans ?_ hn
    push_cast
    have : 0 ≤ (As.length : ℝ) * c := by positivity
    linarith
  have hε : ε ≤ 1 / 100 := by linarith
  have hd : 22 / 10 * ε + (20 + 6 * Θ) * uR ≤ 1 / 100 := by linarith
  have main : ∀ (As : List (BiVector F64)) (S : Spinor F64) (R : Spinor ℝ) (k : ℕ)
      (rot : V3 ℝ → V3 ℝ), (∀ A ∈ As, Angle A ∧ norm3 (bivVal A) ≤ Θ) →
      length .spin R = 1 → (∀ v : Vector ℝ, (sandwich R v).xyz = rot v.xyz) → FiniteTy .spin S →
      length .mv (realMV .spin S - promote .spin R) ≤ (1 + c) ^ k - 1 →
      ((k + As.length : ℕ) : ℝ) * c ≤ 1 / 256 →
      ∃ R' : Spinor ℝ, length .spin R' = 1 ∧
        (∀ v : Vector ℝ, (sandwich R' v).xyz = rot (turns (As.map bivVal) v.xyz)) ∧
        FiniteTy .spin
          (As.foldl (fun S A => S * expBiv ((Dbl.lit (1 / 2) : F64) * A : BiVector F64)) S) ∧
        length .mv (realMV .spin
          (As.foldl (fun S A => S * expBiv ((Dbl.lit (1 / 2) : F64) * A : BiVector F64)) S)
            - promote .spin R') ≤ (1 + c) ^ (k + As.length) - 1 := by
    intro As
    induction As with
    | nil => intro S R k rot _ h1 h2 h3 h4 _; exact ⟨R, h1, h2, h3, h4⟩
    | cons A As ih =>
      intro S R k rot hA h1 h2 h3 h4 h5
      obtain ⟨X, x1, x2, x3, x4⟩ := angle_near hε0 hε hlib A (hA A (by simp)).1 (hA A (by simp)).2
      have hk : (k : ℝ) * c ≤ 1 / 256 := by
        refine le_trans (mul_le_mul_of_nonneg_right ?_ hc0) h5
        exact_mod_cast Nat.le_add_right _ _
      have hpow : (1 + c) ^ k ≤ 1 + 65 / 64 * (k * c) := pow_near_one hc0 k (by linarith)
      obtain ⟨y1, y2, y3⟩ := unit_product h3 x3 h1 x1 h4 x4 (by linarith) hd hdc
      rw [List.foldl_cons]
      obtain ⟨R', r1, r2, r3, r4⟩ := ih (S * expBiv ((Dbl.lit (1 / 2) : F64) * A : BiVector F64))
        (R * X) (k + 1) (fun v => rot (turn (bivVal A) v)) (fun B hB => hA B (by simp [hB])) y2
        (fun v => by rw [C22_comp, h2, x2]) y1
        (y3.trans (le_of_eq (by rw [pow_succ]; ring))) (by
          rw [List.length_cons, ← add_assoc, add_right_comm] at h5; exact h5)
      refine ⟨R', r1, r2, r3, ?_⟩
      rw [List.length_cons, ← add_assoc, add_right_comm]
      exact r4
  obtain ⟨X, x1, x2, x3, x4⟩ := angle_near hε0 hε hlib A0 (h A0 (by simp)).1 (h A0 (by simp)).2
  obtain ⟨R, r1, r2, r3, r4⟩ := main As (expBiv ((Dbl.lit (1 / 2) : F64) * A0 : BiVector F64)) X 1
    (turn (bivVal A0)) (fun A hA => h A (by simp [hA])) x1 x2 x3
    (x4.trans (by rw [pow_one]; linarith)) (by rw [add_comm]; exact hn)
  refine ⟨R, r1, r2, r3, ?_⟩
  rw [add_comm As.length 1]
  exact r4

end Engabra
