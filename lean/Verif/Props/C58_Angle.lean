import Verif.Props.C58_RigidBody
import Verif.Props.C51_LogAccuracy

/-! # C58: the angle of a composed attitude

`ang3D` of `README.md:244-245`: twice the bivector part of `logG2` of a spinor made of several
angles stands for the same rotation as the sequence. -/

namespace Engabra

open F64 (Finite HasVal)
open Spec

theorem lit_two : HasVal (Dbl.lit 2 : F64) 2 := by
  have := F64.pow2_val (e := 1) (by norm_num) (by norm_num)
  rw [zpow_one] at this
  have e : F64.pow2 1 = (Dbl.lit 2 : F64) := by unfold F64.pow2; rw [zpow_one]
  rwa [e] at this

/-- Doubling is exact. -/
theorem double_exact {c : F64} (hf : c.Finite) (h : |c.value| ≤ 4) :
    HasVal ((Dbl.lit 2 : F64) * c) (2 * c.value) := by
  refine lit_two.mul (HasVal.of hf) ?_ ?_
  · obtain ⟨m, e, hm, he, hv⟩ : F64.Rep c.value := F64.value_rep
    refine ⟨m, e + 1, hm, by omega, ?_⟩
    rw [hv, zpow_add₀ two_ne_zero]; ring
  · rw [abs_mul, abs_two]
    have : (8 : ℚ) < 2 ^ 1024 := by
      rw [show (8 : ℚ) = 2 ^ 3 by norm_num]
      exact pow_lt_pow_right₀ one_lt_two (by norm_num)
    generalize (2 : ℚ) ^ 1024 = P at *
    linarith

theorem comp_le_length_biv (B : BiVector ℝ) {y : ℝ} (hy : y ∈ comps .biv B) : |y| ≤ length .biv B := by
  rw [length_eq]
  apply Real.abs_le_sqrt
  obtain ⟨⟨b0, b1, b2⟩⟩ := B
  simp only [magSqTy, engabra]
  simp only [comps, List.mem_cons, List.not_mem_nil, or_false] at hy
  have := sq_nonneg b0; have := sq_nonneg b1; have := sq_nonneg b2
  rcases hy with rfl | rfl | rfl <;> linarith

/-- Two unit spinors. -/
theorem sandwich_close {X R : Spinor ℝ} (hX : length .spin X = 1) (hR : length .spin R = 1) {d : ℝ}
    (h : length .mv (promote .spin X - promote .spin R) ≤ d) (v : Vector ℝ) :
    dist3 (sandwich X v).xyz (sandwich R v).xyz ≤ 2 * d * norm3 v.xyz := by
  have e3 : ∀ v w : Vector ℝ, dist3 v.xyz w.xyz = length .mv (promote .vec v - promote .vec w) := by
    intro v w
    rw [length_eq, dist3, norm3]
    congr 1
    simp only [dot, sub3, Vector.xyz, magSqTy, engabra]; ring
  have en : norm3 v.xyz = length .vec v := by
    rw [length_eq, norm3]
    congr 1
    simp only [dot, Vector.xyz, magSqTy, engabra]; ring
  have hrX : length .spin (reverse X) = 1 := by
    rw [← hX, length_eq, length_eq]
    congr 1
    simp only [magSqTy, engabra]; ring
  have hrev : length .spin (reverse X - reverse R) ≤ d := by
    refine le_trans (le_of_eq ?_) h
    rw [length_eq, length_eq]
    congr 1
    simp only [magSqTy, engabra]; ring
  have hd : length .spin (X - R) ≤ d := by
    refine le_trans (le_of_eq ?_) h
    rw [length_eq, length_eq]
    congr 1
    simp only [magSqTy, engabra]; ring
  rw [e3, en, ← vec_sandwich, ← vec_sandwich]
  have h1 := length_tri (promote .spin X * promote .vec v * promote .spin (reverse X))
    (promote .spin R * promote .vec v * promote .spin (reverse X))
    (promote .spin R * promote .vec v * promote .spin (reverse R))
  have h2 : length .mv (promote .spin X * promote .vec v * promote .spin (reverse X)
      - promote .spin R * promote .vec v * promote .spin (reverse X)) ≤ d * length .vec v := by
    rw [show promote .spin X * promote .vec v * promote .spin (reverse X)
      - promote .spin R * promote .vec v * promote .spin (reverse X)
      = promote .spin (X - R) * promote .vec v * promote .spin (reverse X) by mv_ring,
      length_mul_right .spin rfl, hrX, mul_one, length_mul_left .spin rfl, length_promote]
    exact mul_le_mul_of_nonneg_right hd (length_nonneg _ _)
  have h3 : length .mv (promote .spin R * promote .vec v * promote .spin (reverse X)
      - promote .spin R * promote .vec v * promote .spin (reverse R)) ≤ d * length .vec v := by
    rw [show promote .spin R * promote .vec v * promote .spin (reverse X)
      - promote .spin R * promote .vec v * promote .spin (reverse R)
      = promote .spin R * (promote .vec v * promote .spin (reverse X - reverse R)) by mv_ring,
      length_mul_left .spin rfl, hR, one_mul, length_mul_right .spin rfl, length_promote, mul_comm]
    exact mul_le_mul_of_nonneg_right hrev (length_nonneg _ _)
  linarith

/-- Four components. -/
theorem length_of_comps {X Y : Spinor ℝ} {δ : ℝ} (hδ : 0 ≤ δ)
    (h : List.Forall₂ (fun x y => |x - y| ≤ δ) (comps .spin X) (comps .spin Y)) :
    length .mv (promote .spin X - promote .spin Y) ≤ 2 * δ := by
  obtain ⟨⟨⟨x0⟩⟩, ⟨⟨x1, x2, x3⟩⟩⟩ := X
  obtain ⟨⟨⟨y0⟩⟩, ⟨⟨y1, y2, y3⟩⟩⟩ := Y
  simp only [comps, List.forall₂_cons, List.forall₂_nil_left_iff, and_true] at h
  obtain ⟨g0, g1, g2, g3⟩ := h
  rw [length_eq]
  apply Real.sqrt_le_iff.2
  refine ⟨by linarith, ?_⟩
  have q : ∀ {x : ℝ}, |x| ≤ δ → x ^ 2 ≤ δ ^ 2 := fun h => by
    rw [← sq_abs]; exact pow_le_pow_left₀ (abs_nonneg _) h 2
  have := q g0; have := q g1; have := q g2; have := q g3
  simp only [magSqTy, engabra]
  nlinarith

/-- A spinor of length near one is in the central range. -/
theorem central_unit {S : Spinor F64} (f : FiniteTy .spin S) (h1 : 9 / 10 ≤ euclid .spin S)
    (h2 : euclid .spin S ≤ 2) : Central .spin S := by
  obtain ⟨⟨⟨a⟩⟩, ⟨⟨b, c, d⟩⟩⟩ := S
  have f0 := f 0; have f4 := f 4; have f5 := f 5; have f6 := f 6
  simp only [cf_0, cf_4, cf_5, cf_6, engabra] at f0 f4 f5 f6
  have hsq : euclid .spin (⟨⟨⟨a⟩⟩, ⟨⟨b, c, d⟩⟩⟩ : Spinor F64) ^ 2
      = (a.value : ℝ) ^ 2 + b.value ^ 2 + c.value ^ 2 + d.value ^ 2 := by
    rw [← length_realTy, length_sq]
    simp only [realTy, mapTy, magSqTy, engabra]; ring
  have hle : euclid .spin (⟨⟨⟨a⟩⟩, ⟨⟨b, c, d⟩⟩⟩ : Spinor F64) ^ 2 ≤ 4 := by nlinarith
  have hge : 81 / 100 ≤ euclid .spin (⟨⟨⟨a⟩⟩, ⟨⟨b, c, d⟩⟩⟩ : Spinor F64) ^ 2 := by nlinarith
  rw [hsq] at hle hge
  have hbig : (2 : ℚ) ≤ 2 ^ (500 : ℤ) := by
    calc (2 : ℚ) = 2 ^ (1 : ℤ) := (zpow_one _).symm
      _ ≤ _ := zpow_le_zpow_right₀ one_le_two (by norm_num)
  have hsm : (2 : ℚ) ^ (-500 : ℤ) ≤ 1 / 4 := by
    calc (2 : ℚ) ^ (-500 : ℤ) ≤ 2 ^ (-2 : ℤ) := zpow_le_zpow_right₀ one_le_two (by norm_num)
      _ = 1 / 4 := by norm_num
  have q : ∀ {x : ℚ}, (x : ℝ) ^ 2 ≤ 4 → |x| ≤ 2 ^ (500 : ℤ) := fun {x} h => by
    refine le_trans ?_ hbig
    have : |(x : ℝ)| ≤ 2 := abs_le_of_sq_le_sq' (by linarith) zero_le_two |> abs_le.2
    exact_mod_cast this
  constructor
  · intro x hx
    simp only [comps, List.mem_cons, List.not_mem_nil, or_false] at hx
    have := sq_nonneg (a.value : ℝ); have := sq_nonneg (b.value : ℝ)
    have := sq_nonneg (c.value : ℝ); have := sq_nonneg (d.value : ℝ)
    rcases hx with rfl | rfl | rfl | rfl
    · exact ⟨f0, q (by linarith)⟩
    · exact ⟨f4, q (by linarith)⟩
    · exact ⟨f5, q (by linarith)⟩
    · exact ⟨f6, q (by linarith)⟩
  · by_contra hcon
    push Not at hcon
    have r : ∀ x ∈ comps .spin (⟨⟨⟨a⟩⟩, ⟨⟨b, c, d⟩⟩⟩ : Spinor F64), (x.value : ℝ) ^ 2 ≤ 1 / 16 := by
      intro x hx
      have h3 := (hcon x hx).le.trans hsm
      have h4 : |(x.value : ℝ)| ≤ 1 / 4 := by
        have := (Rat.cast_le (K := ℝ)).2 h3
        rw [Rat.cast_abs] at this
        refine this.trans (le_of_eq ?_)
        norm_num
      rw [← sq_abs]
      nlinarith [abs_nonneg (x.value : ℝ)]
    have r0 := r a (by simp [comps]); have r1 := r b (by simp [comps])
    have r2 := r c (by simp [comps]); have r3 := r d (by simp [comps])
    linarith

/-- **C58.**  `2 * logG2(S).theBiv` for the spinor `S` of a sequence of angles: the rotation by this
one angle is the composition of the rotations of the sequence.  `S` is valid and not within `2^-49`
of a real number, that is of no turn or of a full turn. -/
theorem C58_angle [LibM F64] (ε Θ : ℝ) (hε0 : 0 ≤ ε) (hlib : LibmOk ε) (hlog : LibmLogOk ε)
    (hε : ε ≤ 2 ^ (-20 : ℤ))
    (A0 : BiVector F64) (As : List (BiVector F64))
    (h : ∀ A ∈ A0 :: As, Angle A ∧ norm3 (bivVal A) ≤ Θ)
    (hn : rigidErr (As.length + 1) ε Θ ≤ 1 / 128) (D : BiVector F64)
    (hv : isValid (attitude A0 As) = true) (hoff : OffAxis (attitude A0 As)) (v : V3 ℝ) :
    dist3 (turn (bivVal ((Dbl.lit 2 : F64) * (logG2 (attitude A0 As) D).theBiv : BiVector F64)) v)
        (turns ((A0 :: As).map bivVal) v)
      ≤ (2 * rigidErr (As.length + 1) ε Θ + 24 * ε + 1400 * 2 ^ (-53 : ℤ)) * norm3 v := by
  have hΘ0 : 0 ≤ Θ := (Real.sqrt_nonneg _).trans (h A0 (by simp)).2
  have hu0 := uR_nonneg
  have hu1 := uR_small
  have hΘu := mul_nonneg hΘ0 hu0
  set n := As.length + 1 with hnd
  have hn1 : (1 : ℝ) ≤ n := by rw [hnd]; exact_mod_cast Nat.le_add_left _ _
  have hnε : 0 ≤ n * ε := by positivity
  have hnu : uR ≤ n * uR := by
    have := mul_le_mul_of_nonneg_right hn1 hu0
    linarith
  have hnΘ : 0 ≤ n * (Θ * uR) := mul_nonneg (by linarith) hΘu
  have hK : rigidErr n ε Θ = 5 * (n * ε) + 160 * (n * uR) + 13 * (n * (Θ * uR)) := by
    unfold rigidErr uR; ring
  have hexc : (n : ℝ) * (22 / 10 * ε + (48 + 6 * Θ) * uR)
      = 22 / 10 * (n * ε) + 48 * (n * uR) + 6 * (n * (Θ * uR)) := by ring
  have hc0 : 0 ≤ 22 / 10 * ε + (48 + 6 * Θ) * uR := by linarith
  have hnc : (n : ℝ) * (22 / 10 * ε + (48 + 6 * Θ) * uR) ≤ 1 / 256 := by
    rw [hK] at hn
    rw [hexc]
    linarith
  obtain ⟨R, r1, r2, r3, r4⟩ := attitude_near hε0 hlib A0 As h le_rfl hnc
  have hpow := pow_near_one hc0 n (by linarith)
  set S := attitude A0 As
  have hD : length .mv (realMV .spin S - promote .spin R)
      ≤ 65 / 64 * (22 / 10 * (n * ε) + 48 * (n * uR) + 6 * (n * (Θ * uR))) := by
    rw [← hexc]
    refine r4.trans ?_
    change (1 + _) ^ n - 1 ≤ _
    linarith
  have hD' : length .mv (realMV .spin S - promote .spin R) ≤ 65 / 64 / 256 := by
    rw [← hexc] at hD
    linarith
  have lS : |euclid .spin S - 1| ≤ length .mv (realMV .spin S - promote .spin R) := by
    have t1 := length_le_add (realMV .spin S) (promote .spin R)
    have t2 := length_le_add (promote .spin R) (realMV .spin S)
    rw [length_mv_sub_comm] at t2
    rw [length_realMV, length_promote, r1] at t1 t2
    rw [abs_le]
    constructor <;> linarith
  obtain ⟨lS1, lS2⟩ := abs_le.1 lS
  have hcen : Central .spin S := central_unit r3 (by linarith) (by linarith)
  have hm : (2 : ℝ) ^ (-51 : ℤ) ≤ euclid .spin S := by
    refine (zpow_le_zpow_right₀ one_le_two (by norm_num : (-51 : ℤ) ≤ -1)).trans ?_
    norm_num
    linarith
  have hE : 0 < euclid .spin S := by linarith
  have hε' : ε ≤ 1 / 100 := hε.trans (by norm_num)
  obtain ⟨-, -, e3⟩ := logG2_est hε0 hε' hlog S D hcen hv hm hoff
  obtain ⟨s1, s2, s3, s4⟩ := logR_spec S hm hoff
  -- the exact unit spinor
  have hU : length .mv (promote .spin (expR 0 (logR S).theBiv) - realMV .spin S)
      = |euclid .spin S - 1| := by
    have e : realTy .spin S = euclid .spin S * expR 0 (logR S).theBiv := by
      rw [← s1]
      have : Real.exp ((logR S).theSca.theData.d0) = euclid .spin S := Real.exp_log hE
      generalize (logR S).theBiv = B at *
      unfold expR
      rw [this, Real.exp_zero]
      ext <;> simp only [engabra] <;> ring
    rw [realMV, e, show promote .spin (expR 0 (logR S).theBiv)
        - promote .spin (euclid .spin S * expR 0 (logR S).theBiv)
      = promote .sca (⟨⟨1 - euclid .spin S⟩⟩ : Scalar ℝ) * promote .spin (expR 0 (logR S).theBiv) by
        mv_ring, length_mul_right .spin rfl, length_expR_zero, mul_one, length_promote, length_eq,
      show magSqTy .sca (⟨⟨1 - euclid .spin S⟩⟩ : Scalar ℝ) = (euclid .spin S - 1) ^ 2 by
        simp only [magSqTy, engabra]; ring, Real.sqrt_sq_eq_abs]
  -- the computed logarithm
  have hc1 : 11 / 10 * ε + 64 * uR ≤ 1 / 1000 := by
    have e1 : (2 : ℝ) ^ (-20 : ℤ) ≤ 1 / 10000 := by norm_num
    have e2 := uR_le
    generalize (2 : ℝ) ^ (-20 : ℤ) = x at *
    generalize uR = u at *
    linarith
  have hp := (expR_pert (l := 0) (l' := 0) (d := 0) (B := (logR S).theBiv)
    (B' := realTy .biv (logG2 S D).theBiv) (c := 11 / 10 * ε + 64 * uR) (by simp) (by norm_num)
    (by positivity) hc1 (by
      rw [s2]; exact (zpow_le_zpow_right₀ one_le_two (by norm_num)).trans s3)
    (by rw [s2]; exact s4.le.trans (by linarith [Real.pi_lt_d2])) (by
      have := e3.imp fun g y hgy => weak669 hgy.1.2
      generalize (logR S).theBiv = B at *
      generalize (logG2 S D).theBiv = G at *
      obtain ⟨⟨g0, g1, g2⟩⟩ := G
      obtain ⟨⟨b0, b1, b2⟩⟩ := B
      simp only [comps, List.forall₂_cons, List.forall₂_nil_left_iff, and_true] at this
      exact .cons this.1 (.cons this.2.1 (.cons this.2.2 .nil)))).1
  have hX : length .mv (promote .spin (expR 0 (realTy .biv (logG2 S D).theBiv))
      - promote .spin (expR 0 (logR S).theBiv)) ≤ 117 / 10 * ε + 681 * uR := by
    refine (length_of_comps (by positivity) hp).trans ?_
    rw [Real.exp_zero, one_mul, mul_zero, zero_add]
    have ht : (2 : ℝ) ^ (-600 : ℤ) ≤ uR := zpow_le_zpow_right₀ one_le_two (by norm_num)
    generalize (2 : ℝ) ^ (-600 : ℤ) = T at *
    generalize uR = u at *
    linarith
  -- doubling
  have hdbl : bivVal ((Dbl.lit 2 : F64) * (logG2 S D).theBiv : BiVector F64)
      = ⟨2 * (realTy .biv (logG2 S D).theBiv : BiVector ℝ).theData.d0,
         2 * (realTy .biv (logG2 S D).theBiv : BiVector ℝ).theData.d1,
         2 * (realTy .biv (logG2 S D).theBiv : BiVector ℝ).theData.d2⟩ := by
    have hlen : ∀ y ∈ comps .biv (logR S).theBiv, |y| ≤ 315 / 100 := by
      intro y hy
      have h5 : length .biv (logR S).theBiv ≤ 315 / 100 := by
        rw [s2]; exact s4.le.trans (by linarith [Real.pi_lt_d2])
      exact (comp_le_length_biv _ hy).trans h5
    have ht : (2 : ℝ) ^ (-669 : ℤ) ≤ 1 / 100 := by
      refine (zpow_le_zpow_right₀ one_le_two (by norm_num : (-669 : ℤ) ≤ -7)).trans ?_
      norm_num
    have key : ∀ {g : F64} {y : ℝ}, |y| ≤ 315 / 100 →
        (g.Finite ∧ |(g.value : ℝ) - y| ≤ (11 / 10 * ε + 64 * uR) * |y| + 2 ^ (-669 : ℤ)) →
        ((Dbl.lit 2 : F64) * g).value = 2 * g.value := by
      intro g y hy hg
      refine (double_exact hg.1 ?_).2
      have h6 : |(g.value : ℝ)| ≤ 4 := by
        have h7 := abs_sub_abs_le_abs_sub (g.value : ℝ) y
        have h8 : (11 / 10 * ε + 64 * uR) * |y| ≤ 1 / 1000 * (315 / 100) :=
          mul_le_mul hc1 hy (abs_nonneg _) (by norm_num)
        linarith [hg.2]
      exact_mod_cast h6
    generalize (logR S).theBiv = B at *
    generalize (logG2 S D).theBiv = G at *
    obtain ⟨⟨b0, b1, b2⟩⟩ := B
    obtain ⟨⟨g0, g1, g2⟩⟩ := G
    simp only [comps, List.forall₂_cons, List.forall₂_nil_left_iff, and_true] at e3
    simp only [comps, List.mem_cons, List.not_mem_nil, or_false, forall_eq_or_imp, forall_eq] at hlen
    have k0 := key hlen.1 e3.1.1
    have k1 := key hlen.2.1 e3.2.1.1
    have k2 := key hlen.2.2 e3.2.2.1
    simp only [bivVal, realTy, mapTy, engabra, V3.mk.injEq]
    rw [k0, k1, k2]
    push_cast
    exact ⟨rfl, rfl, rfl⟩
  have hfin : length .mv (promote .spin (expR 0 (realTy .biv (logG2 S D).theBiv)) - promote .spin R)
      ≤ rigidErr n ε Θ + 12 * ε + 700 * uR := by
    have t1 := length_tri (promote .spin (expR 0 (realTy .biv (logG2 S D).theBiv)))
      (promote .spin (expR 0 (logR S).theBiv)) (promote .spin R)
    have t2 := length_tri (promote .spin (expR 0 (logR S).theBiv)) (realMV .spin S) (promote .spin R)
    rw [hU] at t2
    rw [hK]
    generalize uR = u at *
    linarith
  have := sandwich_close (length_expR_zero _) r1 hfin ⟨⟨v.x, v.y, v.z⟩⟩
  rw [sandwich_exp, r2, ← hdbl] at this
  refine this.trans (le_of_eq ?_)
  change 2 * _ * norm3 v = _
  unfold uR
  ring

/-! ## the hypotheses are met -/

theorem valid_of_half {x : F64} (hf : x.Finite) (h : 1 / 10 ≤ |(x.value : ℝ)|) : isValidDub x = true := by
  have h' : (2 : ℚ) ^ (-1022 : ℤ) ≤ |x.value| := by
    have h1 : (2 : ℝ) ^ (-1022 : ℤ) ≤ 1 / 10 :=
      (zpow_le_zpow_right₀ one_le_two (by norm_num : (-1022 : ℤ) ≤ -4)).trans (by norm_num)
    have h2 := h1.trans h
    rw [← cast_zpow, ← Rat.cast_abs] at h2
    exact Rat.cast_le.1 h2
  rw [C11_double]
  cases x with
  | nan => exact absurd hf id
  | inf _ => exact absurd hf id
  | zero s => exact Or.inl ⟨s, rfl⟩
  | fin v hv => exact Or.inr ⟨v, hv, rfl, by
      rw [zpow_neg, ← one_div] at h'
      exact_mod_cast h'⟩

/-- The attitude of the angle `e23 + e31 + e12`. -/
theorem ones_attitude : letI := refLibLog
    isValid (attitude (⟨⟨1, 1, 1⟩⟩ : BiVector F64) []) = true ∧
    OffAxis (attitude (⟨⟨1, 1, 1⟩⟩ : BiVector F64) []) := by
  let _ := refLibLog
  obtain ⟨-, k2, -⟩ := refLibLog_ok
  have f1 := F64.hasVal_one
  have hh : realTy .biv ((Dbl.lit (1 / 2) : F64) * (⟨⟨1, 1, 1⟩⟩ : BiVector F64) : BiVector F64)
      = ⟨⟨1 / 2, 1 / 2, 1 / 2⟩⟩ := by
    rw [realTy_half _ angle_ones.1]
    simp [bivVal, f1.2]
  have hE2 : length .biv (⟨⟨1 / 2, 1 / 2, 1 / 2⟩⟩ : BiVector ℝ) ^ 2 = 3 / 4 := by
    rw [length_sq]; simp only [magSqTy, engabra]; norm_num
  have hE : euclid .biv ((Dbl.lit (1 / 2) : F64) * (⟨⟨1, 1, 1⟩⟩ : BiVector F64) : BiVector F64)
      = length .biv (⟨⟨1 / 2, 1 / 2, 1 / 2⟩⟩ : BiVector ℝ) := by
    rw [← length_realTy, hh]
  have hE0 : 0 ≤ length .biv (⟨⟨1 / 2, 1 / 2, 1 / 2⟩⟩ : BiVector ℝ) := length_nonneg _ _
  have hE1 : length .biv (⟨⟨1 / 2, 1 / 2, 1 / 2⟩⟩ : BiVector ℝ) ≤ 1 := by nlinarith
  have hv : HasVal ((Dbl.lit (1 / 2) : F64) * 1) (1 / 2) := by
    have := half_exact f1.1 (angle_ones.1 1 (by simp [comps])).2
    rwa [f1.2, mul_one] at this
  obtain ⟨f, g⟩ := exp_near (b := 1) (F64.two_zpow_pos (K := ℝ) (-53)).le (by norm_num) k2
    ((Dbl.lit (1 / 2) : F64) * (⟨⟨1, 1, 1⟩⟩ : BiVector F64) : BiVector F64) (by
      intro c hc
      have : c = (Dbl.lit (1 / 2) : F64) * 1 := by simpa [comps, engabra] using hc
      subst this
      refine ⟨hv.1, Or.inr ?_⟩
      rw [hv.2, abs_of_pos (by norm_num)]
      constructor
      · exact (zpow_le_zpow_right₀ one_le_two (by norm_num : (-400 : ℤ) ≤ -1)).trans (by norm_num)
      · exact le_trans (by norm_num : (1 / 2 : ℚ) ≤ 1) (one_le_zpow₀ one_le_two (by norm_num)))
    (by rw [hE]; exact hE1)
  have hg : length .mv (realMV .spin (expBiv ((Dbl.lit (1 / 2) : F64) * (⟨⟨1, 1, 1⟩⟩ : BiVector F64)
      : BiVector F64)) - promote .spin (expR 0 ⟨⟨1 / 2, 1 / 2, 1 / 2⟩⟩)) ≤ 1 / 100 := by
    rw [hh] at g
    refine g.trans ?_
    norm_num
  have hsin : 7 / 8 * length .biv (⟨⟨1 / 2, 1 / 2, 1 / 2⟩⟩ : BiVector ℝ)
      ≤ Real.sin (length .biv (⟨⟨1 / 2, 1 / 2, 1 / 2⟩⟩ : BiVector ℝ)) := by
    have hb0 : 0 < length .biv (⟨⟨1 / 2, 1 / 2, 1 / 2⟩⟩ : BiVector ℝ) := by
      rcases hE0.eq_or_lt with h0 | h0
      · rw [← h0] at hE2; norm_num at hE2
      · exact h0
    have h1 := (Real.sin_gt_sub_cube hb0).le
    rw [pow_succ, hE2] at h1
    linarith
  have hcos1 := Real.one_sub_sq_div_two_le_cos (x := length .biv (⟨⟨1 / 2, 1 / 2, 1 / 2⟩⟩ : BiVector ℝ))
  have hcos2 : Real.cos (length .biv (⟨⟨1 / 2, 1 / 2, 1 / 2⟩⟩ : BiVector ℝ)) ≤ 8 / 10 := by
    have h1 := Real.sin_sq_add_cos_sq (length .biv (⟨⟨1 / 2, 1 / 2, 1 / 2⟩⟩ : BiVector ℝ))
    have h2 := mul_self_le_mul_self (by positivity) hsin
    by_contra hc
    push Not at hc
    nlinarith
  have hex : expR 0 (⟨⟨1 / 2, 1 / 2, 1 / 2⟩⟩ : BiVector ℝ)
      = ⟨⟨⟨Real.cos (length .biv (⟨⟨1 / 2, 1 / 2, 1 / 2⟩⟩ : BiVector ℝ))⟩⟩,
        (Real.sin (length .biv (⟨⟨1 / 2, 1 / 2, 1 / 2⟩⟩ : BiVector ℝ))
          / length .biv (⟨⟨1 / 2, 1 / 2, 1 / 2⟩⟩ : BiVector ℝ) : ℝ)
            * (⟨⟨1 / 2, 1 / 2, 1 / 2⟩⟩ : BiVector ℝ)⟩ := by
    unfold expR; rw [Real.exp_zero, one_mul, one_mul]
  have hone := length_expR_zero (⟨⟨1 / 2, 1 / 2, 1 / 2⟩⟩ : BiVector ℝ)
  have hsb : 7 / 8 ≤ Real.sin (length .biv (⟨⟨1 / 2, 1 / 2, 1 / 2⟩⟩ : BiVector ℝ))
      / length .biv (⟨⟨1 / 2, 1 / 2, 1 / 2⟩⟩ : BiVector ℝ) := by
    rw [le_div_iff₀]
    · exact hsin
    · rcases hE0.eq_or_lt with h0 | h0
      · rw [← h0] at hE2; norm_num at hE2
      · exact h0
  rw [hex] at hg hone
  change isValid (expBiv _) = true ∧ OffAxis (expBiv _)
  generalize expBiv ((Dbl.lit (1 / 2) : F64) * (⟨⟨1, 1, 1⟩⟩ : BiVector F64) : BiVector F64) = S at *
  generalize length .biv (⟨⟨1 / 2, 1 / 2, 1 / 2⟩⟩ : BiVector ℝ) = b at *
  generalize Real.sin b / b = s at *
  generalize Real.cos b = c at *
  have lS : 99 / 100 ≤ euclid .spin S := by
    have t2 := length_le_add (promote .spin ⟨⟨⟨c⟩⟩, s * (⟨⟨1 / 2, 1 / 2, 1 / 2⟩⟩ : BiVector ℝ)⟩)
      (realMV .spin S)
    rw [length_mv_sub_comm, length_realMV, length_promote, hone] at t2
    linarith
  have f0 := f 0
  have f4 := f 4
  simp only [cf_0, cf_4, engabra] at f0 f4
  have hsq : length .mv (realMV .spin S
      - promote .spin ⟨⟨⟨c⟩⟩, s * (⟨⟨1 / 2, 1 / 2, 1 / 2⟩⟩ : BiVector ℝ)⟩) ^ 2 ≤ (1 / 100) ^ 2 :=
    pow_le_pow_left₀ (length_nonneg _ _) hg 2
  rw [length_sq] at hsq
  simp only [realMV, realTy, mapTy, magSqTy, engabra] at hsq
  have d0 : |(S.theSca.theData.d0.value : ℝ) - c| ≤ 1 / 100 := by
    refine abs_le_of_sq_le_sq ?_ (by norm_num)
    nlinarith [sq_nonneg ((S.theBiv.theData.d0.value : ℝ) - s * (1 / 2)),
      sq_nonneg ((S.theBiv.theData.d1.value : ℝ) - s * (1 / 2)),
      sq_nonneg ((S.theBiv.theData.d2.value : ℝ) - s * (1 / 2))]
  have d1 : |(S.theBiv.theData.d0.value : ℝ) - s * (1 / 2)| ≤ 1 / 100 := by
    refine abs_le_of_sq_le_sq ?_ (by norm_num)
    nlinarith [sq_nonneg ((S.theSca.theData.d0.value : ℝ) - c),
      sq_nonneg ((S.theBiv.theData.d1.value : ℝ) - s * (1 / 2)),
      sq_nonneg ((S.theBiv.theData.d2.value : ℝ) - s * (1 / 2))]
  rw [abs_le] at d0 d1
  constructor
  · change (isValidDub S.theSca.theData.d0 && isValidDub S.theBiv.theData.d0) = true
    rw [valid_of_half f0, valid_of_half f4]
    · rfl
    · rw [abs_of_nonneg] <;> linarith
    · rw [abs_of_nonneg] <;> nlinarith
  · unfold OffAxis
    rw [abs_of_nonneg (by nlinarith)]
    have h49 : (2 : ℝ) ^ (-49 : ℤ) ≤ 1 / 100 := by norm_num
    clear g hsq
    generalize (2 : ℝ) ^ (-49 : ℤ) = t at *
    have h50 := mul_le_mul (by linarith : (99 / 100 : ℝ) ≤ 1 - t) lS (by norm_num)
      (by linarith)
    linarith [d0.2]

/-- The angle recovered from the attitude of one angle. -/
example (D : BiVector F64) (v : V3 ℝ) : letI := refLibLog
    dist3 (turn (bivVal ((Dbl.lit 2 : F64) * (logG2 (attitude (⟨⟨1, 1, 1⟩⟩ : BiVector F64) []) D).theBiv
      : BiVector F64)) v) (turn ⟨1, 1, 1⟩ v) ≤ 2 ^ (-42 : ℤ) * norm3 v := by
  let _ := refLibLog
  obtain ⟨k1, k2, k3⟩ := refLibLog_ok
  obtain ⟨h1, h2⟩ := ones_attitude
  have hK : rigidErr 1 (2 ^ (-53 : ℤ)) 2 = 191 * 2 ^ (-53 : ℤ) := by
    unfold rigidErr; push_cast; ring
  have h := C58_angle (2 ^ (-53 : ℤ)) 2 (by positivity) k2 k1
    (zpow_le_zpow_right₀ one_le_two (by norm_num)) (⟨⟨1, 1, 1⟩⟩ : BiVector F64) []
    (by
      intro A hA
      rw [List.mem_singleton] at hA
      subst hA
      exact angle_ones) (by change rigidErr 1 _ _ ≤ _; rw [hK]; norm_num) D h1 h2 v
  have e : turns (List.map bivVal [(⟨⟨1, 1, 1⟩⟩ : BiVector F64)]) v = turn ⟨1, 1, 1⟩ v := by
    simp [turns, bivVal, F64.hasVal_one.2]
  rw [e] at h
  refine h.trans (mul_le_mul_of_nonneg_right ?_ (Real.sqrt_nonneg _))
  change 2 * rigidErr 1 _ _ + _ + _ ≤ _
  rw [hK]
  norm_num

/-- **C58, the README as written.** `S*v*reverse(S)` is an `ImSpin` for a vector and a `Spinor` for
a bivector (and for the difference of two positions an `ImSpin` as well), not the `Vector` and
`BiVector` the README declares; the members `.theVec` and `.theBiv` have the declared types. -/
theorem C58_readme_types (S : Spinor F64) (v : Vector F64) (M : BiVector F64) :
    (∃ r : ImSpin F64, mulTy .imsp .spin (mulTy .spin .vec S v) (reverseTy .spin S) = r ∧
      mulRes (mulRes .spin .vec) .spin = .imsp ∧ Ty.imsp ≠ .vec) ∧
    ∃ r : Spinor F64, mulTy .spin .spin (mulTy .spin .biv S M) (reverseTy .spin S) = r ∧
      mulRes (mulRes .spin .biv) .spin = .spin ∧ Ty.spin ≠ .biv :=
  ⟨⟨_, rfl, rfl, by decide⟩, _, rfl, rfl, by decide⟩

end Engabra
