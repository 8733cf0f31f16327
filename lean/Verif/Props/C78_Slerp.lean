import Verif.Lemmas.InverseEst
import Verif.Props.C58_Angle
import Verif.Props.C59_Rotor
import Verif.Props.C67_Attitude
import Verif.Props.C75_Interpolate
import Verif.Props.C77_Power

/-! # C78: interpolation between attitudes in binary64 -/

namespace Engabra
open F64 (HasVal)
open Spec

/-! ## Specification

`slerp`, `arc` and `inner4` are those of C75. -/

/-- `exp(t * logG2(T * reverse(S), D)) * S` -/
noncomputable def interpF [LibM F64] (S T : Spinor F64) (t : F64) (D : BiVector F64) : Spinor F64 :=
  powF (T * reverse S) t D * S

/-! ## Spherical interpolation and powers -/

theorem argOf_rel {X Y : Spinor ℝ} (hX : magSq X = 1) (hY : magSq Y = 1) :
    argOf (Y * reverse X) = arc X Y := by
  unfold argOf arc
  rw [rel_unit hX hY, div_one, rel_sca]

/-- **C78.** Spherical linear interpolation between unit spinors is the power of the relative spinor. -/
theorem C78_slerp_power (X Y : Spinor ℝ) (hX : magSq X = 1) (hY : magSq Y = 1)
    (hb : 0 < length .biv (Y * reverse X).theBiv) (t : ℝ) :
    deMoivre (Y * reverse X) t * X = slerp X Y t := by
  obtain ⟨-, hcos, hsin⟩ := spin_cos_sin hb
  rw [argOf_rel hX hY, rel_unit hX hY, div_one] at hcos hsin
  rw [rel_sca] at hcos
  unfold slerp deMoivre
  rw [argOf_rel hX hY, rel_unit hX hY, Real.one_rpow, one_mul, one_mul, ← hsin,
    show (1 - t) * arc X Y = arc X Y - t * arc X Y by ring, Real.sin_sub, hcos]
  have hs0 : Real.sin (arc X Y) ≠ 0 := by rw [hsin]; exact hb.ne'
  simp only [engabra] at hX
  clear hsin hb
  generalize Real.sin (arc X Y) = sn at *
  generalize Real.sin (t * arc X Y) = st at *
  generalize Real.cos (t * arc X Y) = ct at *
  unfold inner4
  obtain ⟨⟨⟨s0⟩⟩, ⟨⟨s1, s2, s3⟩⟩⟩ := X
  obtain ⟨⟨⟨t0⟩⟩, ⟨⟨t1, t2, t3⟩⟩⟩ := Y
  simp only at hX
  ext <;> simp only [engabra] <;> field_simp
  · linear_combination (st * t0 * hX)
  · linear_combination (st * t1 * hX)
  · linear_combination (st * t2 * hX)
  · linear_combination (st * t3 * hX)

/-! ## Powers do not spread errors -/

/-- Shrinking two angles and keeping the directions brings the points of the sphere closer. -/
theorem shrink {θ φ τ m : ℝ} (h0 : 0 ≤ θ) (h1 : θ ≤ Real.pi / 2) (k0 : 0 ≤ φ) (k1 : φ ≤ Real.pi / 2)
    (t0 : 0 ≤ τ) (t1 : τ ≤ 1) (hm : |m| ≤ 1) :
    0 ≤ 1 - Real.cos (τ * θ) * Real.cos (τ * φ) - Real.sin (τ * θ) * Real.sin (τ * φ) * m ∧
    1 - Real.cos (τ * θ) * Real.cos (τ * φ) - Real.sin (τ * θ) * Real.sin (τ * φ) * m
      ≤ 1 - Real.cos θ * Real.cos φ - Real.sin θ * Real.sin φ * m := by
  have hm1 := (abs_le.1 hm).2
  have ht : ∀ x : ℝ, 0 ≤ x → x ≤ Real.pi / 2 → 0 ≤ τ * x ∧ τ * x ≤ x := fun x hx _ =>
    ⟨mul_nonneg t0 hx, mul_le_of_le_one_left hx t1⟩
  obtain ⟨a0, a1⟩ := ht θ h0 h1
  obtain ⟨b0, b1⟩ := ht φ k0 k1
  have hp := Real.pi_pos
  have s1 : Real.sin (τ * θ) ≤ Real.sin θ := Real.sin_le_sin_of_le_of_le_pi_div_two (by linarith) h1 a1
  have s2 : Real.sin (τ * φ) ≤ Real.sin φ := Real.sin_le_sin_of_le_of_le_pi_div_two (by linarith) k1 b1
  have p1 : 0 ≤ Real.sin (τ * θ) := Real.sin_nonneg_of_nonneg_of_le_pi a0 (by linarith)
  have p2 : 0 ≤ Real.sin (τ * φ) := Real.sin_nonneg_of_nonneg_of_le_pi b0 (by linarith)
  have hs := mul_le_mul s1 s2 p2 (p1.trans s1)
  have hc : Real.cos (θ - φ) ≤ Real.cos (τ * θ - τ * φ) := by
    rw [← Real.cos_abs (θ - φ), ← Real.cos_abs (τ * θ - τ * φ), ← mul_sub, abs_mul, abs_of_nonneg t0]
    have hle : |θ - φ| ≤ Real.pi / 2 := abs_le.2 ⟨by linarith, by linarith⟩
    exact Real.cos_le_cos_of_nonneg_of_le_pi (mul_nonneg t0 (abs_nonneg _)) (by linarith)
      (mul_le_of_le_one_left (abs_nonneg _) t1)
  have c1 := Real.cos_le_one (τ * θ - τ * φ)
  rw [Real.cos_sub] at hc c1
  rw [Real.cos_sub] at hc
  have q := mul_le_mul_of_nonneg_right hs (by linarith : 0 ≤ 1 - m)
  have q0 := mul_nonneg (mul_nonneg p1 p2) (by linarith : 0 ≤ 1 - m)
  constructor <;> linarith

/-- Squared distance of two spinors in polar form. -/
theorem polar_dist {a b ρ σ c s c' s' : ℝ} {A B : BiVector ℝ} (hA : length .biv A = a)
    (hB : length .biv B = b) (ha : 0 < a) (hb : 0 < b) (h1 : c ^ 2 + s ^ 2 = 1) (h2 : c' ^ 2 + s' ^ 2 = 1) :
    length .spin (⟨⟨⟨ρ * c⟩⟩, (ρ * (s / a) : ℝ) * A⟩ - ⟨⟨⟨σ * c'⟩⟩, (σ * (s' / b) : ℝ) * B⟩ : Spinor ℝ) ^ 2
      = (ρ - σ) ^ 2 + 2 * ρ * σ * (1 - c * c' - s * s' * ((A.theData.d0 * B.theData.d0
        + A.theData.d1 * B.theData.d1 + A.theData.d2 * B.theData.d2) / (a * b))) := by
  have eA : A.theData.d0 ^ 2 + A.theData.d1 ^ 2 + A.theData.d2 ^ 2 = a ^ 2 := by
    rw [← hA, length_sq]; simp only [magSqTy, engabra]; ring
  have eB : B.theData.d0 ^ 2 + B.theData.d1 ^ 2 + B.theData.d2 ^ 2 = b ^ 2 := by
    rw [← hB, length_sq]; simp only [magSqTy, engabra]; ring
  rw [length_sq]
  obtain ⟨⟨x0, x1, x2⟩⟩ := A
  obtain ⟨⟨y0, y1, y2⟩⟩ := B
  simp only at eA eB
  simp only [magSqTy, engabra]
  have e1 : c ^ 2 = 1 - s ^ 2 := by linarith
  have e2 : c' ^ 2 = 1 - s' ^ 2 := by linarith
  field_simp
  linear_combination (a ^ 2 * b ^ 2 * ρ ^ 2) * h1 + (a ^ 2 * b ^ 2 * σ ^ 2) * h2
    + (ρ ^ 2 * s ^ 2 * b ^ 2) * eA + (σ ^ 2 * s' ^ 2 * a ^ 2) * eB

/-- Powers between 0 and 1 of spinors with nonnegative scalar parts: a spinor near a unit spinor has its
power near the power of that spinor. -/
theorem deMoivre_near {A X : Spinor ℝ} {d τ : ℝ} (hX : length .spin X = 1)
    (hbX : 0 < length .biv X.theBiv) (hbA : 0 < length .biv A.theBiv)
    (sA : 0 ≤ A.theSca.theData.d0) (sX : 0 ≤ X.theSca.theData.d0)
    (hd : length .spin (A - X) ≤ d) (hd1 : d ≤ 1 / 20) (t0 : 0 ≤ τ) (t1 : τ ≤ 1) :
    length .spin (deMoivre A τ - deMoivre X τ) ≤ 106 / 100 * d := by
  have hd0 : 0 ≤ d := (length_nonneg _ _).trans hd
  obtain ⟨hr, cA, nA⟩ := spin_cos_sin hbA
  obtain ⟨-, cX, nX⟩ := spin_cos_sin hbX
  have hang : ∀ {S : Spinor ℝ}, 0 ≤ S.theSca.theData.d0 → 0 ≤ argOf S ∧ argOf S ≤ Real.pi / 2 :=
    fun {S} h => ⟨Real.arccos_nonneg _, Real.arccos_le_pi_div_two.2 (div_nonneg h (length_nonneg _ _))⟩
  obtain ⟨a0, a1⟩ := hang sA
  obtain ⟨x0, x1⟩ := hang sX
  set m := (A.theBiv.theData.d0 * X.theBiv.theData.d0 + A.theBiv.theData.d1 * X.theBiv.theData.d1
    + A.theBiv.theData.d2 * X.theBiv.theData.d2) / (length .biv A.theBiv * length .biv X.theBiv) with hm
  have hm1 : |m| ≤ 1 := by
    rw [hm, abs_div, abs_of_pos (mul_pos hbA hbX), div_le_one (mul_pos hbA hbX)]
    refine abs_le_of_sq_le_sq ?_ (mul_pos hbA hbX).le
    rw [mul_pow, length_sq, length_sq]
    generalize A.theBiv = P
    generalize X.theBiv = Q
    obtain ⟨⟨p0, p1, p2⟩⟩ := P
    obtain ⟨⟨q0, q1, q2⟩⟩ := Q
    simp only [magSqTy, engabra]
    linarith [sq_nonneg (p0 * q1 - p1 * q0), sq_nonneg (p0 * q2 - p2 * q0), sq_nonneg (p1 * q2 - p2 * q1)]
  obtain ⟨w0, w1⟩ := shrink (m := m) a0 a1 x0 x1 t0 t1 hm1
  have eP : length .spin (deMoivre A τ - deMoivre X τ) ^ 2 = _ :=
    polar_dist (ρ := length .spin A ^ τ) (σ := length .spin X ^ τ) (c := Real.cos (τ * argOf A))
      (s := Real.sin (τ * argOf A)) (c' := Real.cos (τ * argOf X)) (s' := Real.sin (τ * argOf X))
      (A := A.theBiv) (B := X.theBiv) rfl rfl hbA hbX (Real.cos_sq_add_sin_sq _) (Real.cos_sq_add_sin_sq _)
  have eQ : length .spin (deMoivre A 1 - deMoivre X 1) ^ 2 = _ :=
    polar_dist (ρ := length .spin A ^ (1 : ℝ)) (σ := length .spin X ^ (1 : ℝ)) (c := Real.cos (1 * argOf A))
      (s := Real.sin (1 * argOf A)) (c' := Real.cos (1 * argOf X)) (s' := Real.sin (1 * argOf X))
      (A := A.theBiv) (B := X.theBiv) rfl rfl hbA hbX (Real.cos_sq_add_sin_sq _) (Real.cos_sq_add_sin_sq _)
  rw [C77_one A hbA, C77_one X hbX, hX, Real.one_rpow, Real.rpow_one, one_mul, one_mul, ← hm] at eQ
  rw [hX, Real.one_rpow, ← hm] at eP
  have hd2 := pow_le_pow_left₀ (length_nonneg _ _) hd 2
  rw [eQ] at hd2
  clear_value m
  generalize length .spin A = r at *
  generalize 1 - Real.cos (τ * argOf A) * Real.cos (τ * argOf X)
    - Real.sin (τ * argOf A) * Real.sin (τ * argOf X) * m = w at *
  generalize 1 - Real.cos (argOf A) * Real.cos (argOf X) - Real.sin (argOf A) * Real.sin (argOf X) * m = W at *
  have hW : 0 ≤ W := w0.trans w1
  have hrd : |r - 1| ≤ d := by
    refine abs_le_of_sq_le_sq ?_ hd0
    have := mul_nonneg hr.le hW
    linarith
  refine abs_le_of_sq_le_sq' ?_ (by linarith) |>.2
  rw [eP]
  have hrW := mul_nonneg hr.le hW
  rcases le_total 1 r with h | h
  · have p1 : r ^ τ ≤ r := by
      calc r ^ τ ≤ r ^ (1 : ℝ) := Real.rpow_le_rpow_of_exponent_le h t1
        _ = r := Real.rpow_one r
    have p2 : 1 ≤ r ^ τ := Real.one_le_rpow h t0
    have q1 : (r ^ τ - 1) ^ 2 ≤ (r - 1) ^ 2 := pow_le_pow_left₀ (by linarith) (by linarith) 2
    have q2 : r ^ τ * w ≤ r * W := mul_le_mul p1 w1 w0 hr.le
    nlinarith
  · have p1 : r ≤ r ^ τ := by
      calc r = r ^ (1 : ℝ) := (Real.rpow_one r).symm
        _ ≤ r ^ τ := Real.rpow_le_rpow_of_exponent_ge hr h t1
    have p2 : r ^ τ ≤ 1 := Real.rpow_le_one hr.le h t0
    have q1 : (r ^ τ - 1) ^ 2 ≤ (r - 1) ^ 2 := by
      rw [← sq_abs, ← sq_abs (r - 1), abs_of_nonpos (by linarith), abs_of_nonpos (by linarith)]
      exact pow_le_pow_left₀ (by linarith) (by linarith) 2
    have q2 : r ^ τ * w ≤ 1 * W := mul_le_mul p2 w1 w0 zero_le_one
    have q3 : (1 - d) * W ≤ r * W := mul_le_mul_of_nonneg_right (by linarith [(abs_le.1 hrd).1]) hW
    have q4 : d * W ≤ 1 / 20 * W := mul_le_mul_of_nonneg_right hd1 hW
    nlinarith [sq_nonneg (r - 1)]

/-! ## Accuracy -/

theorem rpow_near_one {r τ d : ℝ} (hr : 0 < r) (h : |r - 1| ≤ d) (t1 : |τ| ≤ 1) (hd : d ≤ 1 / 20) :
    r ^ τ ≤ 11 / 10 ∧ |τ * Real.log r| ≤ 11 / 10 * d := by
  have hd0 : 0 ≤ d := (abs_nonneg _).trans h
  have a := abs_le.1 h
  have hl : |Real.log r| ≤ 11 / 10 * d := by
    have u := Real.log_le_sub_one_of_pos hr
    have v := Real.one_sub_inv_le_log_of_pos hr
    have e : 1 - r⁻¹ = (r - 1) / r := by field_simp
    rw [e] at v
    have w : -(11 / 10 * d) ≤ (r - 1) / r := by
      rw [le_div_iff₀ hr]
      nlinarith
    rw [abs_le]
    constructor <;> linarith
  have hτ : |τ * Real.log r| ≤ 11 / 10 * d := by
    rw [abs_mul]; exact (mul_le_of_le_one_left (abs_nonneg _) t1).trans hl
  refine ⟨?_, hτ⟩
  rw [Real.rpow_def_of_pos hr, mul_comm]
  have := Real.exp_bound' (x := 11 / 200) (n := 2) (by norm_num) (by norm_num) (by norm_num)
  have h2 : Real.exp (τ * Real.log r) ≤ Real.exp (11 / 200) :=
    Real.exp_le_exp.2 (by linarith [le_abs_self (τ * Real.log r)])
  refine h2.trans (this.trans ?_)
  norm_num [Finset.sum_range_succ, Nat.factorial]

/-- The computed relative spinor. -/
theorem rel_near {S T : Spinor F64} {X Y : Spinor ℝ} (fS : FiniteTy .spin S) (fT : FiniteTy .spin T)
    (hX : magSq X = 1) (hY : magSq Y = 1) {δ : ℝ} (hδ : δ ≤ 1 / 1000)
    (hS : length .spin (realTy .spin S - X) ≤ δ) (hT : length .spin (realTy .spin T - Y) ≤ δ) :
    FiniteTy .spin (T * reverse S) ∧
    length .spin (realTy .spin (T * reverse S) - Y * reverse X) ≤ 201 / 100 * δ + 29 * uR ∧
    |euclid .spin (T * reverse S) - 1| ≤ 201 / 100 * δ + 29 * uR ∧
    201 / 100 * δ + 29 * uR ≤ 1 / 400 := by
  have len1 : ∀ {Z : Spinor ℝ}, magSq Z = 1 → length .spin Z = 1 := fun {Z} h => by
    rw [length_eq, show magSqTy .spin Z = magSq Z from rfl, h, Real.sqrt_one]
  have lY := len1 hY
  have lrX : length .spin (reverse X) = 1 := by rw [length_rev, len1 hX]
  have hδ0 : 0 ≤ δ := (length_nonneg _ _).trans hS
  rw [length_spin_sub] at hS hT
  have hu0 := uR_nonneg
  have hu := uR_le
  have hSr : length .mv (realMV .spin (reverse S) - promote .spin (reverse X)) ≤ δ := by
    rw [length_reverse_sub]; exact hS
  obtain ⟨fQ, lQ, nQ⟩ := unit_product fT (finite_rev fS) lY lrX hT hSr (by linarith) (by linarith) le_rfl
  have hD1 : (1 + δ) * (1 + (δ + 28 * uR)) - 1 ≤ 201 / 100 * δ + 29 * uR := by
    have a : δ * δ ≤ 1 / 1000 * δ := mul_le_mul_of_nonneg_right hδ hδ0
    have b : δ * uR ≤ 1 / 1000 * uR := mul_le_mul_of_nonneg_right hδ hu0
    generalize uR = u at *
    nlinarith
  have nQ' := nQ.trans hD1
  refine ⟨fQ, ?_, ?_, by linarith⟩
  · rw [length_spin_sub]; exact nQ'
  · have a1 := length_le_add (realMV .spin (T * reverse S)) (promote .spin (Y * reverse X))
    have a2 := length_le_add (promote .spin (Y * reverse X)) (realMV .spin (T * reverse S))
    rw [length_mv_sub_comm (promote .spin (Y * reverse X))] at a2
    rw [length_realMV, length_promote, lQ] at a1 a2
    rw [abs_le]
    constructor <;> linarith

/-- **C78.** `exp(t * logG2(T * reverse(S), D)) * S`, where `S` and `T` are within `δ` of exact unit
spinors `X` and `Y` at an angle of at most a right angle: the result is within `4 δ + 22 ε + 1000 u` of the spherical
interpolation between `X` and `Y` by the fraction `t`. -/
theorem C78_interp [LibM F64] (ε : ℝ) (hε0 : 0 ≤ ε) (hε : ε ≤ 2 ^ (-20 : ℤ)) (hlog : LibmLogOk ε)
    (hlib : LibmOk ε) (hexp : LibmExpOk ε) (S T : Spinor F64) (X Y : Spinor ℝ)
    (fS : FiniteTy .spin S) (fT : FiniteTy .spin T)
    (hX : magSq X = 1) (hY : magSq Y = 1) (hXY : 0 ≤ inner4 X Y)
    (hb : 0 < length .biv (Y * reverse X).theBiv) (δ : ℝ) (hδ : δ ≤ 1 / 1000)
    (hS : length .spin (realTy .spin S - X) ≤ δ) (hT : length .spin (realTy .spin T - Y) ≤ δ)
    (D : BiVector F64) (hv : isValid (T * reverse S) = true) (hc : OffAxis (T * reverse S))
    (hf : FirstFair (T * reverse S)) (hs : 0 ≤ (T * reverse S).theSca.theData.d0.value)
    (t : F64) (ht : Exponent t) (ht0 : 0 < t.value) :
    FiniteTy .spin (interpF S T t D) ∧
    length .spin (realTy .spin (interpF S T t D) - slerp X Y t.value)
      ≤ 4 * δ + 22 * ε + 1000 * 2 ^ (-53 : ℤ) := by
  have len1 : ∀ {Z : Spinor ℝ}, magSq Z = 1 → length .spin Z = 1 := fun {Z} h => by
    rw [length_eq, show magSqTy .spin Z = magSq Z from rfl, h, Real.sqrt_one]
  have lX := len1 hX
  have hδ0 : 0 ≤ δ := (length_nonneg _ _).trans hS
  have hS0 := hS
  have hT0 := hT
  rw [length_spin_sub] at hS hT ⊢
  have hu0 := uR_nonneg
  have hu := uR_le
  change _ ∧ _ ≤ 4 * δ + 22 * ε + 1000 * uR
  have hεs : ε ≤ 1 / 1000000 := hε.trans (by norm_num)
  obtain ⟨fQ, nQ', hr, hd20⟩ := rel_near fS fT hX hY hδ hS0 hT0
  have lQ := rel_unit hX hY
  have hra := abs_le.1 hr
  have hm : (2 : ℝ) ^ (-51 : ℤ) ≤ euclid .spin (T * reverse S) := by
    have : (2 : ℝ) ^ (-51 : ℤ) ≤ 9 / 10 := by norm_num
    exact this.trans (by linarith)
  have hE : 0 < euclid .spin (T * reverse S) := lt_of_lt_of_le (F64.two_zpow_pos _) hm
  have hcen := central_unit fQ (by linarith) (by linarith)
  have hpow := C77_power ε hε0 hε hlog hlib hexp (T * reverse S) D hcen hv hm hc hf t ht
  obtain ⟨tf, t1, t2⟩ := ht
  have ht0' : (0 : ℝ) < t.value := by exact_mod_cast ht0
  obtain ⟨p1, p2⟩ := rpow_near_one (τ := t.value) hE hr t2 (by linarith)
  have hβ : euclid .spin (T * reverse S) ^ (t.value : ℝ)
          * ((11 / 10 * |t.value * Real.log (euclid .spin (T * reverse S))| + 9) * ε
            + (11 / 10 * |t.value * Real.log (euclid .spin (T * reverse S))| + 390) * 2 ^ (-53 : ℤ))
      ≤ 10 * ε + 430 * uR := by
    change _ * (_ + _ * uR) ≤ _
    have a1 : (11 / 10 * |t.value * Real.log (euclid .spin (T * reverse S))| + 9) * ε ≤ 901 / 100 * ε :=
      mul_le_mul_of_nonneg_right (by linarith) hε0
    have a2 : (11 / 10 * |t.value * Real.log (euclid .spin (T * reverse S))| + 390) * uR ≤ 3901 / 10 * uR :=
      mul_le_mul_of_nonneg_right (by linarith) hu0
    refine (mul_le_mul p1 (add_le_add a1 a2) (by positivity) (by norm_num)).trans ?_
    generalize uR = u at *
    linarith
  obtain ⟨fP, nP⟩ := near_of_comps (δ := 10 * ε + 430 * uR) (by positivity)
    (hpow.imp fun g y h => ⟨h.1, h.2.trans hβ⟩)
  have hbQ : 0 < length .biv (realTy .spin (T * reverse S) : Spinor ℝ).theBiv := by
    change 0 < length .biv (realTy .biv (T * reverse S).theBiv)
    rw [length_realTy]
    obtain ⟨hV, -⟩ := offAxis_V hE hc
    have := mul_pos (lt_of_lt_of_le (F64.two_zpow_pos _) hV) hE
    rwa [div_mul_cancel₀ _ hE.ne'] at this
  have hsR : 0 ≤ (realTy .spin (T * reverse S) : Spinor ℝ).theSca.theData.d0 := by
    change (0 : ℝ) ≤ ((T * reverse S).theSca.theData.d0.value : ℝ)
    exact_mod_cast hs
  have nD := deMoivre_near lQ hb hbQ hsR (by rw [rel_sca]; exact hXY) nQ' (by linarith) ht0'.le
    ((le_abs_self _).trans t2)
  rw [length_spin_sub] at nD
  have nR : length .mv (realMV .spin (powF (T * reverse S) t D)
      - promote .spin (deMoivre (Y * reverse X) t.value)) ≤ 22 / 10 * δ + 20 * ε + 900 * uR := by
    refine (length_tri _ (promote .spin (deMoivre (realTy .spin (T * reverse S)) t.value)) _).trans ?_
    generalize uR = u at *
    linarith
  have lD : length .spin (deMoivre (Y * reverse X) t.value) = 1 := by
    rw [deMoivre_expR hb, rel_unit hX hY, Real.log_one, mul_zero]
    exact length_expR_zero _
  obtain ⟨fG, lG, nG⟩ := unit_product fP fS lD lX nR hS (by
    generalize uR = u at *
    linarith) (by linarith) le_rfl
  refine ⟨fG, ?_⟩
  rw [C78_slerp_power X Y hX hY hb] at nG
  refine nG.trans ?_
  have a1 : δ * δ ≤ 1 / 1000 * δ := mul_le_mul_of_nonneg_right hδ hδ0
  have a2 : δ * uR ≤ 1 / 1000 * uR := mul_le_mul_of_nonneg_right hδ hu0
  have a3 : δ * ε ≤ 1 / 1000 * ε := mul_le_mul_of_nonneg_right hδ hε0
  have a4 : ε * uR ≤ 1 / 1000000 * uR := mul_le_mul_of_nonneg_right hεs hu0
  have a5 : uR * uR ≤ 1 / 1000000 * uR := mul_le_mul_of_nonneg_right hu hu0
  generalize uR = u at *
  nlinarith

/-- Components of a difference. -/
theorem comp_sub_le (A B : Spinor ℝ) {d : ℝ} (h : length .spin (A - B) ≤ d) :
    |A.theSca.theData.d0 - B.theSca.theData.d0| ≤ d ∧
    |A.theBiv.theData.d0 - B.theBiv.theData.d0| ≤ d := by
  have hq : length .spin (A - B) ^ 2 = (A.theSca.theData.d0 - B.theSca.theData.d0) ^ 2
      + (A.theBiv.theData.d0 - B.theBiv.theData.d0) ^ 2
      + (A.theBiv.theData.d1 - B.theBiv.theData.d1) ^ 2
      + (A.theBiv.theData.d2 - B.theBiv.theData.d2) ^ 2 := by
    rw [length_sq]; simp only [magSqTy, engabra]; ring
  have h0 := length_nonneg .spin (A - B)
  generalize length .spin (A - B) = l at *
  constructor
  · refine (abs_le_of_sq_le_sq ?_ h0).trans h
    nlinarith [sq_nonneg (A.theBiv.theData.d0 - B.theBiv.theData.d0),
      sq_nonneg (A.theBiv.theData.d1 - B.theBiv.theData.d1),
      sq_nonneg (A.theBiv.theData.d2 - B.theBiv.theData.d2)]
  · refine (abs_le_of_sq_le_sq ?_ h0).trans h
    nlinarith [sq_nonneg (A.theSca.theData.d0 - B.theSca.theData.d0),
      sq_nonneg (A.theBiv.theData.d1 - B.theBiv.theData.d1),
      sq_nonneg (A.theBiv.theData.d2 - B.theBiv.theData.d2)]

/-- **C78.** The same with conditions on the exact attitudes only: the cosine of the angle between them is
between 0.01 and 0.99, and the plane of the relative rotation is not within 0.01 of one that contains
the first axis. -/
theorem C78_moderate [LibM F64] (ε : ℝ) (hε0 : 0 ≤ ε) (hε : ε ≤ 2 ^ (-20 : ℤ)) (hlog : LibmLogOk ε)
    (hlib : LibmOk ε) (hexp : LibmExpOk ε) (S T : Spinor F64) (X Y : Spinor ℝ)
    (fS : FiniteTy .spin S) (fT : FiniteTy .spin T) (hX : magSq X = 1) (hY : magSq Y = 1)
    (h1 : 1 / 100 ≤ inner4 X Y) (h2 : inner4 X Y ≤ 99 / 100)
    (h3 : 1 / 100 ≤ |(Y * reverse X).theBiv.theData.d0|) (δ : ℝ) (hδ : δ ≤ 1 / 1000)
    (hS : length .spin (realTy .spin S - X) ≤ δ) (hT : length .spin (realTy .spin T - Y) ≤ δ)
    (D : BiVector F64) (t : F64) (ht : Exponent t) (ht0 : 0 < t.value) :
    FiniteTy .spin (interpF S T t D) ∧
    length .spin (realTy .spin (interpF S T t D) - slerp X Y t.value)
      ≤ 4 * δ + 22 * ε + 1000 * 2 ^ (-53 : ℤ) := by
  obtain ⟨fQ, nQ, hr, hd⟩ := rel_near fS fT hX hY hδ hS hT
  obtain ⟨c0, c1⟩ := comp_sub_le _ _ (nQ.trans hd)
  rw [rel_sca] at c0
  have hra := abs_le.1 (hr.trans hd)
  have c0' := abs_le.1 c0
  have e0 : (realTy .spin (T * reverse S) : Spinor ℝ).theSca.theData.d0
    = ((T * reverse S).theSca.theData.d0.value : ℝ) := rfl
  have e1 : (realTy .spin (T * reverse S) : Spinor ℝ).theBiv.theData.d0
    = ((T * reverse S).theBiv.theData.d0.value : ℝ) := rfl
  rw [e0] at c0'
  rw [e1] at c1
  have f0 : (T * reverse S).theSca.theData.d0.Finite := fQ 0
  have f4 : (T * reverse S).theBiv.theData.d0.Finite := fQ 4
  have k1 : 1 / 200 ≤ |((T * reverse S).theBiv.theData.d0.value : ℝ)| := by
    have := abs_sub_abs_le_abs_sub (Y * reverse X).theBiv.theData.d0 ((T * reverse S).theBiv.theData.d0.value : ℝ)
    rw [abs_sub_comm] at this
    linarith
  have val : ∀ {x : F64}, x.Finite → 1 / 200 ≤ |(x.value : ℝ)| → isValidDub x = true := fun {x} hf h => by
    refine F64.valid_of_value hf (Or.inr ?_)
    have : (2 : ℚ) ^ (-1022 : ℤ) ≤ 1 / 200 := by
      calc (2 : ℚ) ^ (-1022 : ℤ) ≤ 2 ^ (-8 : ℤ) := zpow_le_zpow_right₀ one_le_two (by norm_num)
        _ ≤ _ := by norm_num
    refine this.trans ?_
    have h' : (((1 / 200 : ℚ)) : ℝ) ≤ ((|x.value| : ℚ) : ℝ) := by
      rw [Rat.cast_abs]; refine le_trans (le_of_eq ?_) h; norm_num
    exact Rat.cast_le.1 h'
  refine C78_interp ε hε0 hε hlog hlib hexp S T X Y fS fT hX hY (by linarith) ?_ δ hδ hS hT D ?_ ?_ ?_ ?_ t ht ht0
  · refine lt_of_le_of_ne (length_nonneg _ _) fun h => ?_
    have := length_eq_zero_biv h.symm
    rw [this] at h3
    norm_num [engabra] at h3
  · change (isValidDub (T * reverse S).theSca.theData.d0
      && isValidDub (T * reverse S).theBiv.theData.d0) = true
    rw [val f0 (by rw [le_abs]; left; linarith), val f4 k1]
    rfl
  · unfold OffAxis
    rw [abs_of_nonneg (by linarith)]
    have e : (9999 : ℝ) / 10000 ≤ 1 - 2 ^ (-49 : ℤ) := by norm_num
    have := mul_le_mul e (by linarith : (997 : ℝ) / 1000 ≤ euclid .spin (T * reverse S)) (by norm_num)
      (le_trans (by norm_num) e)
    refine le_trans ?_ this
    linarith
  · right
    have hle : euclid .biv (T * reverse S).theBiv ≤ 2 := by
      have hq := spin_length_sq (realTy .spin (T * reverse S) : Spinor ℝ)
      rw [length_realTy, show (realTy .spin (T * reverse S) : Spinor ℝ).theBiv
        = realTy .biv (T * reverse S).theBiv from rfl, length_realTy] at hq
      refine abs_le_of_sq_le_sq' ?_ (by norm_num) |>.2
      nlinarith [sq_nonneg (realTy .spin (T * reverse S) : Spinor ℝ).theSca.theData.d0]
    calc (2 : ℝ) ^ (-300 : ℤ) * euclid .biv (T * reverse S).theBiv ≤ 2 ^ (-10 : ℤ) * 2 :=
          mul_le_mul (zpow_le_zpow_right₀ one_le_two (by norm_num)) hle (Real.sqrt_nonneg _) (by norm_num)
      _ ≤ 1 / 200 := by norm_num
      _ ≤ _ := k1
  · have : (0 : ℝ) ≤ ((T * reverse S).theSca.theData.d0.value : ℝ) := by linarith
    exact_mod_cast this

/-- Half way from no rotation to a third of a turn about the diagonal. -/
example (D : BiVector F64) (t h : F64) (ht : HasVal t ((2 : ℚ) ^ (-1 : ℤ))) (hh : HasVal h ((2 : ℚ) ^ (-1 : ℤ))) :
    letI := refLibLog
    length .spin (realTy .spin (interpF gone ⟨⟨⟨h⟩⟩, ⟨⟨h, h, h⟩⟩⟩ t D)
        - slerp gone ⟨⟨⟨1 / 2⟩⟩, ⟨⟨1 / 2, 1 / 2, 1 / 2⟩⟩⟩ (1 / 2))
      ≤ 2 ^ (-42 : ℤ) := by
  let _ := refLibLog
  obtain ⟨k1, k2, k3⟩ := refLibLog_ok
  have p := F64.two_zpow_pos (K := ℝ) (-53)
  obtain ⟨g1, g2, -⟩ := gone_unit
  have hv : (h.value : ℝ) = 1 / 2 := by rw [hh.2]; norm_num
  have tv : (t.value : ℝ) = 1 / 2 := by rw [ht.2]; norm_num
  have r : realTy .spin (⟨⟨⟨h⟩⟩, ⟨⟨h, h, h⟩⟩⟩ : Spinor F64) = ⟨⟨⟨1 / 2⟩⟩, ⟨⟨1 / 2, 1 / 2, 1 / 2⟩⟩⟩ := by
    simp only [realTy, mapTy, hv]
  have z : ∀ A : Spinor ℝ, length .spin (A - A) ≤ 0 := fun A => by
    rw [length_spin_sub, length_mv_self]
  have := (C78_moderate (2 ^ (-53 : ℤ)) p.le (zpow_le_zpow_right₀ one_le_two (by norm_num)) k1 k2 k3
    gone ⟨⟨⟨h⟩⟩, ⟨⟨h, h, h⟩⟩⟩ gone ⟨⟨⟨1 / 2⟩⟩, ⟨⟨1 / 2, 1 / 2, 1 / 2⟩⟩⟩ g1
    (finiteTy_of _ _ (by
      intro c hc
      have : c = h := by simpa [comps] using hc
      rw [this]; exact hh.1))
    (by simp [engabra]) (by simp only [engabra]; norm_num) (by unfold inner4; norm_num [engabra])
    (by unfold inner4; norm_num [engabra]) (by norm_num [engabra]) 0 (by norm_num)
    (by rw [g2]; exact z _) (by rw [r]; exact z _) D t
    ⟨ht.1, by rw [tv]; norm_num, by rw [tv]; norm_num⟩ (by rw [ht.2]; norm_num)).2
  rw [tv] at this
  refine this.trans ?_
  have e : (2 : ℝ) ^ (-42 : ℤ) = 2048 * 2 ^ (-53 : ℤ) := by norm_num
  rw [e]
  linarith

end Engabra
