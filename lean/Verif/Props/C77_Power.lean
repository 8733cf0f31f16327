import Verif.Props.C51_LogAccuracy

/-! # C77: real powers of a spinor in binary64 -/

namespace Engabra
open F64 (HasVal)
open Spec

/-! ## Specification -/

/-- Angle of a spinor: the number in `[0, π]` whose cosine is the scalar part over the magnitude. -/
noncomputable def argOf (S : Spinor ℝ) : ℝ := Real.arccos (S.theSca.theData.d0 / length .spin S)

/-- de Moivre's power: magnitude to the power `a`, angle times `a`, same plane. -/
noncomputable def deMoivre (S : Spinor ℝ) (a : ℝ) : Spinor ℝ :=
  ⟨⟨⟨length .spin S ^ a * Real.cos (a * argOf S)⟩⟩,
    (length .spin S ^ a * (Real.sin (a * argOf S) / length .biv S.theBiv) : ℝ) * S.theBiv⟩

/-- `exp(t * logG2(S, D))` -/
noncomputable def powF [LibM F64] (S : Spinor F64) (t : F64) (D : BiVector F64) : Spinor F64 :=
  expSpin (t * logG2 S D)

/-- An exponent of at least 2^-13 and at most one in magnitude. -/
def Exponent (t : F64) : Prop :=
  t.Finite ∧ (2 : ℝ) ^ (-13 : ℤ) ≤ |(t.value : ℝ)| ∧ |(t.value : ℝ)| ≤ 1

/-! ## Laws of the exact power -/

theorem spin_cos_sin {S : Spinor ℝ} (hb : 0 < length .biv S.theBiv) :
    0 < length .spin S ∧ Real.cos (argOf S) = S.theSca.theData.d0 / length .spin S ∧
    Real.sin (argOf S) = length .biv S.theBiv / length .spin S := by
  have h := spin_length_sq S
  have hr : 0 < length .spin S := by
    refine lt_of_le_of_ne (length_nonneg _ _) fun h0 => ?_
    rw [← h0] at h
    have := sq_nonneg S.theSca.theData.d0
    have := pow_pos hb 2
    linarith
  have hq : (S.theSca.theData.d0 / length .spin S) ^ 2 = 1 - (length .biv S.theBiv / length .spin S) ^ 2 := by
    field_simp
    linarith
  have hle : |S.theSca.theData.d0 / length .spin S| ≤ 1 := by
    rw [← sq_le_one_iff_abs_le_one, hq]
    linarith [sq_nonneg (length .biv S.theBiv / length .spin S)]
  refine ⟨hr, Real.cos_arccos (abs_le.1 hle).1 (abs_le.1 hle).2, ?_⟩
  unfold argOf
  rw [Real.sin_arccos, hq, sub_sub_cancel, Real.sqrt_sq (div_pos hb hr).le]

/-- de Moivre's power as an exponential. -/
theorem deMoivre_expR {S : Spinor ℝ} (hb : 0 < length .biv S.theBiv) (a : ℝ) :
    deMoivre S a = expR (a * Real.log (length .spin S))
      ((a * (argOf S / length .biv S.theBiv) : ℝ) * S.theBiv) := by
  obtain ⟨hr, -, -⟩ := spin_cos_sin hb
  rw [← mul_div_assoc, expR_dir _ _ _ hb, mul_comm a (Real.log _), ← Real.rpow_def_of_pos hr]
  rfl

/-- **C77.** The first power is the spinor itself. -/
theorem C77_one (S : Spinor ℝ) (hb : 0 < length .biv S.theBiv) : deMoivre S 1 = S := by
  obtain ⟨hr, hc, hs⟩ := spin_cos_sin hb
  unfold deMoivre
  rw [Real.rpow_one, one_mul, hc, hs]
  obtain ⟨⟨⟨s⟩⟩, B⟩ := S
  simp only at *
  have e1 : ∀ r : ℝ, 0 < r → r * (s / r) = s := fun r h => by field_simp
  have e2 : ∀ r b : ℝ, 0 < r → 0 < b → r * (b / r / b) = 1 := fun r b h h' => by field_simp
  rw [e1 _ hr, e2 _ _ hr hb]
  congr 1
  ext <;> simp only [engabra] <;> ring

/-- **C77.** Powers multiply by adding exponents. -/
theorem C77_add (S : Spinor ℝ) (hb : 0 < length .biv S.theBiv) (a b : ℝ) :
    deMoivre S a * deMoivre S b = deMoivre S (a + b) := by
  rw [deMoivre_expR hb, deMoivre_expR hb, deMoivre_expR hb, expR_mul_plane]
  congr 1
  · ring
  · congr 1; ring

/-- **C77.** The zeroth power is one, and the power `-a` is the inverse of the power `a`. -/
theorem C77_zero_neg (S : Spinor ℝ) (hb : 0 < length .biv S.theBiv) (a : ℝ) :
    deMoivre S 0 = ⟨⟨⟨1⟩⟩, ⟨⟨0, 0, 0⟩⟩⟩ ∧ deMoivre S a * deMoivre S (-a) = ⟨⟨⟨1⟩⟩, ⟨⟨0, 0, 0⟩⟩⟩ := by
  have h0 : deMoivre S 0 = ⟨⟨⟨1⟩⟩, ⟨⟨0, 0, 0⟩⟩⟩ := by
    unfold deMoivre
    simp [engabra]
  exact ⟨h0, by rw [C77_add S hb, add_neg_cancel, h0]⟩

/-- Natural powers by repeated multiplication. -/
def spow (S : Spinor ℝ) : ℕ → Spinor ℝ
  | 0 => ⟨⟨⟨1⟩⟩, ⟨⟨0, 0, 0⟩⟩⟩
  | n + 1 => spow S n * S

/-- **C77.** The `n`-fold product of the power `a` is the power `n a`: in particular the power `1/n` is
an `n`-th root. -/
theorem C77_root (S : Spinor ℝ) (hb : 0 < length .biv S.theBiv) (n : ℕ) (a : ℝ) :
    spow (deMoivre S a) n = deMoivre S (n * a) ∧ (n ≠ 0 → spow (deMoivre S (1 / n)) n = S) := by
  have h : ∀ (n : ℕ) (a : ℝ), spow (deMoivre S a) n = deMoivre S (n * a) := by
    intro n a
    induction n with
    | zero => rw [Nat.cast_zero, zero_mul, (C77_zero_neg S hb 0).1]; rfl
    | succ n ih =>
      rw [spow, ih, C77_add S hb]
      congr 1
      push_cast; ring
  refine ⟨h n a, fun hn => ?_⟩
  rw [h, mul_one_div_cancel (Nat.cast_ne_zero.2 hn), C77_one S hb]

/-! ## Accuracy -/

/-- Multiplication by a factor of at most one. -/
theorem frac_mul {t x : F64} (ht : t.Finite) (h1 : |(t.value : ℝ)| ≤ 1) (hx : x.Finite) :
    (t * x).Finite ∧
    |((t * x).value : ℝ) - t.value * x.value| ≤ uR * |(t.value * x.value : ℝ)| + 2 ^ (-1075 : ℤ) ∧
    (x.value = 0 → (t * x).value = 0) := by
  have hq : |t.value| ≤ 1 := by
    have : ((|t.value| : ℚ) : ℝ) ≤ ((1 : ℚ) : ℝ) := by rw [Rat.cast_abs, Rat.cast_one]; exact h1
    exact Rat.cast_le.1 this
  have hb : |F64.rnVal (t.value * x.value)| < 2 ^ 1024 := by
    refine lt_of_le_of_lt ?_ (F64.value_lt (x := x))
    rw [← F64.rnVal_abs]
    have hr : F64.Rep |x.value| := by
      obtain ⟨m, e, hm, he, hv⟩ := F64.value_rep (x := x)
      exact ⟨|m|, e, by rwa [abs_abs], he, by
        rw [hv, abs_mul, abs_of_pos (F64.two_zpow_pos (K := ℚ) e), Int.cast_abs]⟩
    refine F64.rnVal_le_rep (K := ℚ) hr ?_
    rw [abs_mul]
    simp only [Rat.cast_id]
    exact mul_le_of_le_one_left (abs_nonneg _) hq
  obtain ⟨f1, f2⟩ := F64.mul_spec ht hx hb
  have e2 : (t * x).value = F64.rnVal (t.value * x.value) := by rw [F64.mul_def, f2]
  refine ⟨f1, ?_, fun h0 => by rw [e2, h0, mul_zero, F64.rnVal_zero]⟩
  have := F64.rnVal_err_rel (K := ℚ) (t.value * x.value)
  simp only [Rat.cast_id] at this
  have h2 := (Rat.cast_le (K := ℝ)).2 (this.trans (max_le (le_add_of_nonneg_right
    (F64.two_zpow_pos (K := ℚ) (-1075)).le) (le_add_of_nonneg_left (mul_nonneg
    (F64.two_zpow_pos (K := ℚ) (-53)).le (abs_nonneg _)))))
  rw [e2]
  push_cast at h2
  exact h2

/-- The computed exponential of a computed logarithm times `t`. -/
theorem pow_of_log [LibM F64] {ε : ℝ} (hε0 : 0 ≤ ε) (hε : ε ≤ 2 ^ (-20 : ℤ)) (hlib : LibmOk ε)
    (hexp : LibmExpOk ε) (t : F64) (ht : Exponent t) (L' : Spinor F64) (L : Spinor ℝ)
    (e1 : L'.theSca.theData.d0.Finite)
    (e2 : |(L'.theSca.theData.d0.value : ℝ) - L.theSca.theData.d0| ≤ ε * |L.theSca.theData.d0| + 6 * uR)
    (e3 : List.Forall₂ (fun g y => (g.Finite ∧
        |(g.value : ℝ) - y| ≤ (11 / 10 * ε + 64 * uR) * |y| + 2 ^ (-669 : ℤ)) ∧ (y = 0 → g.value = 0))
      (comps .biv L'.theBiv) (comps .biv L.theBiv))
    (h3 : (2 : ℝ) ^ (-27 : ℤ) ≤ length .biv L.theBiv) (h4 : length .biv L.theBiv ≤ 315 / 100)
    (h0 : L.theBiv.theData.d0 = 0 ∨ (2 : ℝ) ^ (-385 : ℤ) ≤ |L.theBiv.theData.d0|)
    (hla : |L.theSca.theData.d0| ≤ 400) :
    List.Forall₂ (fun g y => g.Finite ∧
        |(g.value : ℝ) - y| ≤ Real.exp (t.value * L.theSca.theData.d0)
          * ((11 / 10 * |t.value * L.theSca.theData.d0| + 9) * ε
            + (11 / 10 * |t.value * L.theSca.theData.d0| + 390) * uR))
        (comps .spin (expSpin (t * L')))
        (comps .spin (expR (t.value * L.theSca.theData.d0) ((t.value : ℝ) * L.theBiv))) := by
  obtain ⟨tf, t1, t2⟩ := ht
  have hε' : ε ≤ 1 / 100 := hε.trans (by norm_num)
  have hu0 := uR_nonneg
  have hu := uR_le
  have hη3 : (2 : ℝ) ^ (-1075 : ℤ) ≤ 1 / 1000 * uR := tiny_le_uR
  have hη0 := F64.two_zpow_pos (K := ℝ) (-1075)
  have hlen : length .biv ((t.value : ℝ) * L.theBiv : BiVector ℝ) = |(t.value : ℝ)| * length .biv L.theBiv :=
    length_smul_biv _ _
  have tpos : 0 < |(t.value : ℝ)| := lt_of_lt_of_le (F64.two_zpow_pos _) t1
  set τ : ℝ := (t.value : ℝ) with hτ
  set l := L.theSca.theData.d0 with hl
  have hτl : |τ * l| ≤ 400 := by
    rw [abs_mul]
    exact (mul_le_of_le_one_left (abs_nonneg _) t2).trans hla
  have hεs : ε ≤ 1 / 1000000 := by
    have e : (2 : ℝ) ^ (-20 : ℤ) ≤ 1 / 1000000 := by norm_num
    exact hε.trans e
  obtain ⟨k1, k2, -⟩ := frac_mul tf t2 e1
  rw [← hτ] at k2
  -- scalar part
  have hd0 : |(((t * L'.theSca.theData.d0 : F64).value : ℚ) : ℝ) - τ * l| ≤ (ε + 101 / 100 * uR) * |τ * l| + 7 * uR := by
    have b := abs_sub_le ((t * L'.theSca.theData.d0 : F64).value : ℝ) (τ * L'.theSca.theData.d0.value) (τ * l)
    have b2 : |τ * (L'.theSca.theData.d0.value : ℝ) - τ * l| ≤ ε * |τ * l| + 6 * uR := by
      rw [← mul_sub, abs_mul, abs_mul]
      have := mul_le_mul_of_nonneg_left e2 (abs_nonneg τ)
      have h6 : |τ| * (6 * uR) ≤ 6 * uR := mul_le_of_le_one_left (by linarith) t2
      linarith
    have b3 : |τ * (L'.theSca.theData.d0.value : ℝ)| ≤ 101 / 100 * |τ * l| + 6 * uR := by
      have := abs_sub_abs_le_abs_sub (τ * (L'.theSca.theData.d0.value : ℝ)) (τ * l)
      have h7 : ε * |τ * l| ≤ 1 / 1000000 * |τ * l| := mul_le_mul_of_nonneg_right hεs (abs_nonneg _)
      have h8 := abs_nonneg (τ * l)
      generalize uR = u at *
      linarith only [this, h7, h8, b2]
    have b4 := mul_le_mul_of_nonneg_left b3 hu0
    have b5 : uR * (6 * uR) ≤ 1 / 1000 * uR := by
      have := mul_le_mul_of_nonneg_left hu hu0
      generalize uR = u at *
      linarith
    generalize (2 : ℝ) ^ (-1075 : ℤ) = x at *
    generalize uR = u at *
    linarith
  have hd : (ε + 101 / 100 * uR) * |τ * l| + 7 * uR ≤ 1 / 100 := by
    have : (ε + 101 / 100 * uR) * |τ * l| ≤ (3 / 1000000) * 400 :=
      mul_le_mul (by linarith) hτl (abs_nonneg _) (by norm_num)
    linarith
  have hcc : 111 / 100 * ε + 66 * uR ≤ 1 / 1000 := by linarith
  have hxl : (2 : ℝ) ^ (-900 : ℤ) ≤ Real.exp (τ * l) ∧ Real.exp (τ * l) ≤ 2 ^ (900 : ℤ) := by
    have hl2 := Real.log_two_gt_d9
    have key : ∀ k : ℤ, (2 : ℝ) ^ k = Real.exp (k * Real.log 2) := fun k => by
      rw [mul_comm, ← Real.rpow_intCast, Real.rpow_def_of_pos (by norm_num)]
    have a := abs_le.1 hτl
    constructor
    · rw [key]; refine Real.exp_le_exp.2 ?_; push_cast; linarith
    · rw [key]; refine Real.exp_le_exp.2 ?_; push_cast; linarith
  have main := exp_of_log (d := (ε + 101 / 100 * uR) * |τ * l| + 7 * uR)
    (c := 111 / 100 * ε + 66 * uR) hε0 hε' hlib hexp (t * L')
    ⟨⟨⟨τ * l⟩⟩, (τ : ℝ) * L.theBiv⟩ k1 hd0 hd (by positivity) hcc ?_
    (by
      simp only [hlen]
      calc (2 : ℝ) ^ (-40 : ℤ) = 2 ^ (-13 : ℤ) * 2 ^ (-27 : ℤ) := by
            rw [← zpow_add₀ (by norm_num)]; norm_num only
        _ ≤ _ := mul_le_mul t1 h3 (F64.two_zpow_pos _).le (abs_nonneg _))
    (by
      simp only [hlen]
      exact (mul_le_of_le_one_left (length_nonneg _ _) t2).trans h4)
    ?_ hxl.1 hxl.2
  · refine main.imp fun g c hgc => ⟨hgc.1, hgc.2.trans (mul_le_mul_of_nonneg_left ?_ (Real.exp_pos _).le)⟩
    have p : 0 ≤ ε * |τ * l| := by positivity
    have q : 0 ≤ uR * |τ * l| := by positivity
    change 101 / 100 * ((ε + 101 / 100 * uR) * |τ * l| + 7 * uR) + 53 / 10 * (111 / 100 * ε + 66 * uR)
      + 23 / 10 * ε + 33 * uR ≤ _
    generalize uR = u at *
    linarith only [hε0, hu0, p, q]
  · have eg : comps .biv (t * L' : Spinor F64).theBiv = (comps .biv L'.theBiv).map (t * ·) := rfl
    have ey : comps .biv (τ * L.theBiv : BiVector ℝ) = (comps .biv L.theBiv).map (τ * ·) := rfl
    rw [eg, ey, List.forall₂_map_left_iff, List.forall₂_map_right_iff]
    refine e3.imp fun g y hgy => ?_
    obtain ⟨⟨a1, a2⟩, a3⟩ := hgy
    obtain ⟨q1, q2, q3⟩ := frac_mul tf t2 a1
    rw [← hτ] at q2
    refine ⟨⟨q1, ?_⟩, fun h0 => q3 (a3 ?_)⟩
    swap
    · rcases mul_eq_zero.1 h0 with h | h
      · rw [h, abs_zero] at tpos; exact absurd tpos (lt_irrefl _)
      · exact h
    have b := abs_sub_le ((t * g : F64).value : ℝ) (τ * g.value) (τ * y)
    have e5 : (2 : ℝ) ^ (-669 : ℤ) ≤ 1 / 4 * 2 ^ (-660 : ℤ) := by
      rw [show (-669 : ℤ) = -9 + -660 from by norm_num only, zpow_add₀ (by norm_num)]
      exact mul_le_mul_of_nonneg_right (by norm_num) (F64.two_zpow_pos _).le
    have e4 : (2 : ℝ) ^ (-1075 : ℤ) ≤ 1 / 4 * 2 ^ (-660 : ℤ) := by
      refine le_trans ?_ e5
      exact zpow_le_zpow_right₀ (by norm_num) (by norm_num)
    have hz := F64.two_zpow_pos (K := ℝ) (-669)
    have b2 : |τ * (g.value : ℝ) - τ * y| ≤ (11 / 10 * ε + 64 * uR) * |τ * y| + 2 ^ (-669 : ℤ) := by
      rw [← mul_sub, abs_mul, abs_mul]
      have := mul_le_mul_of_nonneg_left a2 (abs_nonneg τ)
      have h6 : |τ| * 2 ^ (-669 : ℤ) ≤ 2 ^ (-669 : ℤ) := mul_le_of_le_one_left hz.le t2
      generalize (2 : ℝ) ^ (-669 : ℤ) = z at *
      generalize uR = u at *
      linarith only [this, h6]
    have b3 : |τ * (g.value : ℝ)| ≤ 101 / 100 * |τ * y| + 2 ^ (-669 : ℤ) := by
      have := abs_sub_abs_le_abs_sub (τ * (g.value : ℝ)) (τ * y)
      have h7 : (11 / 10 * ε + 64 * uR) * |τ * y| ≤ 1 / 100 * |τ * y| :=
        mul_le_mul_of_nonneg_right (by linarith) (abs_nonneg _)
      generalize (2 : ℝ) ^ (-669 : ℤ) = z at *
      generalize uR = u at *
      linarith only [this, h7, b2]
    have b4 := mul_le_mul_of_nonneg_left b3 hu0
    have b5 : uR * 2 ^ (-669 : ℤ) ≤ 2 ^ (-669 : ℤ) := mul_le_of_le_one_left hz.le (hu.trans (by norm_num))
    have p : 0 ≤ ε * |τ * y| := by positivity
    have q : 0 ≤ uR * |τ * y| := by positivity
    have z0 := F64.two_zpow_pos (K := ℝ) (-660)
    generalize (2 : ℝ) ^ (-1075 : ℤ) = x at *
    generalize (2 : ℝ) ^ (-669 : ℤ) = z at *
    generalize (2 : ℝ) ^ (-660 : ℤ) = w at *
    generalize uR = u at *
    linarith only [b, b2, b4, b5, p, q, q2, e4, e5, z0]
  · rcases h0 with k | k
    · left
      change τ * L.theBiv.theData.d0 = 0
      rw [k, mul_zero]
    · right
      change _ ≤ |τ * L.theBiv.theData.d0|
      rw [abs_mul]
      calc (2 : ℝ) ^ (-398 : ℤ) = 2 ^ (-13 : ℤ) * 2 ^ (-385 : ℤ) := by
            rw [← zpow_add₀ (by norm_num)]; norm_num only
        _ ≤ _ := mul_le_mul t1 k (F64.two_zpow_pos _).le (abs_nonneg _)

theorem argOf_angle {S : Spinor ℝ} (hr : eps < length .spin S)
    (hc : |S.theSca.theData.d0| ≤ (1 - eps) * length .spin S) : argOf S = angleOf S := by
  have ha := angle_bounds S hr hc
  obtain ⟨c1, -⟩ := cos_sin_angle S hr
  unfold argOf
  rw [← c1, Real.arccos_cos (le_trans (by positivity) ha.1) ha.2.le]

/-- **C77.** `exp(t * logG2(S))` against the exact power `S^t`: with `r = |S|`, every component is
finite and within `r^t ((1.1 |t log r| + 9) ε + (1.1 |t log r| + 390) u)` of the exact one. -/
theorem C77_power [LibM F64] (ε : ℝ) (hε0 : 0 ≤ ε) (hε : ε ≤ 2 ^ (-20 : ℤ)) (hlog : LibmLogOk ε)
    (hlib : LibmOk ε) (hexp : LibmExpOk ε) (S : Spinor F64) (D : BiVector F64) (h : Central .spin S)
    (hv : isValid S = true) (hm : (2 : ℝ) ^ (-51 : ℤ) ≤ euclid .spin S) (hc : OffAxis S)
    (hf : FirstFair S) (t : F64) (ht : Exponent t) :
    List.Forall₂ (fun g y => g.Finite ∧ |(g.value : ℝ) - y| ≤ euclid .spin S ^ (t.value : ℝ)
          * ((11 / 10 * |t.value * Real.log (euclid .spin S)| + 9) * ε
            + (11 / 10 * |t.value * Real.log (euclid .spin S)| + 390) * 2 ^ (-53 : ℤ)))
      (comps .spin (powF S t D)) (comps .spin (deMoivre (realTy .spin S) t.value)) := by
  have hε' : ε ≤ 1 / 100 := hε.trans (by norm_num)
  obtain ⟨h1, h2, h3, h4⟩ := logR_spec S hm hc
  obtain ⟨e1, e2, e3⟩ := logG2_est hε0 hε' hlog S D h hv hm hc
  have hfr := logR_first S hm hc hf
  have hE : 0 < euclid .spin S := lt_of_lt_of_le (F64.two_zpow_pos _) hm
  obtain ⟨-, hup, -⟩ := central_real h
  have hla := log_abs_le hm hup
  have hl : (logR S).theSca.theData.d0 = Real.log (euclid .spin S) := rfl
  have main := pow_of_log hε0 hε hlib hexp t ht (logG2 S D) (logR S) e1 e2 e3
    (by rw [h2]; exact (zpow_le_zpow_right₀ (by norm_num) (by norm_num)).trans h3)
    (by rw [h2]; exact h4.le.trans (Real.pi_lt_d2.le.trans (by norm_num)))
    (hfr.imp id fun k => (zpow_le_zpow_right₀ (by norm_num) (by norm_num)).trans k)
    (by rw [hl]; exact hla)
  have hex : Real.exp (t.value * (logR S).theSca.theData.d0) = euclid .spin S ^ (t.value : ℝ) := by
    rw [hl, Real.rpow_def_of_pos hE, mul_comm]
  have r1 : eps < length .spin (realTy .spin S : Spinor ℝ) := by
    rw [length_realTy]
    refine lt_of_lt_of_le ?_ hm
    unfold eps; norm_num
  have r2 : |(realTy .spin S : Spinor ℝ).theSca.theData.d0| ≤ (1 - eps) * length .spin (realTy .spin S : Spinor ℝ) := by
    rw [length_realTy]
    refine hc.trans (mul_le_mul_of_nonneg_right ?_ (Real.sqrt_nonneg _))
    unfold eps; norm_num
  have hb := biv_pos _ r1 r2
  have hdm : expR (t.value * (logR S).theSca.theData.d0) ((t.value : ℝ) * (logR S).theBiv)
      = deMoivre (realTy .spin S) t.value := by
    rw [deMoivre_expR hb, argOf_angle r1 r2, ← angleF_eq, length_realTy]
    have e : (realTy .spin S : Spinor ℝ).theBiv = realTy .biv S.theBiv := rfl
    rw [e, length_realTy]
    congr 1
    ext <;> simp only [logR, engabra] <;> ring
  rw [hex, hdm, hl] at main
  exact main

/-- The powers 1/2 and -1/2 of `1 + e23 + e31 + e12`. -/
example (D : BiVector F64) (t : F64) (ht : HasVal t ((2 : ℚ) ^ (-1 : ℤ)) ∨ HasVal t (-(2 : ℚ) ^ (-1 : ℤ))) :
    letI := refLibLog
    List.Forall₂ (fun g y => g.Finite ∧ |(g.value : ℝ) - y| ≤ 2 ^ (-43 : ℤ))
      (comps .spin (powF onesSpin t D)) (comps .spin (deMoivre (realTy .spin onesSpin) t.value)) := by
  let _ := refLibLog
  obtain ⟨h1, h2, h3, h4, h5⟩ := onesSpin_ok
  obtain ⟨k1, k2, k3⟩ := refLibLog_ok
  have p := F64.two_zpow_pos (K := ℝ) (-53)
  have hl : |Real.log 2| ≤ 1 := by
    rw [abs_of_pos (Real.log_pos one_lt_two)]; linarith [Real.log_two_lt_d9]
  have hta : |(t.value : ℝ)| = 1 / 2 ∧ t.Finite := by
    rcases ht with h | h
    · exact ⟨by rw [h.2]; norm_num, h.1⟩
    · exact ⟨by rw [h.2]; norm_num [abs_neg], h.1⟩
  refine (C77_power (2 ^ (-53 : ℤ)) p.le (zpow_le_zpow_right₀ one_le_two (by norm_num)) k1 k2 k3
    onesSpin D h1 h2 (by rw [h3]; norm_num) h4 h5 t ⟨hta.2, by rw [hta.1]; norm_num, by rw [hta.1]; norm_num⟩).imp
    fun g c h => ⟨h.1, h.2.trans ?_⟩
  rw [h3]
  have hs : (2 : ℝ) ^ (t.value : ℝ) ≤ 2 := by
    calc (2 : ℝ) ^ (t.value : ℝ) ≤ (2 : ℝ) ^ (1 : ℝ) :=
          Real.rpow_le_rpow_of_exponent_le one_le_two (by linarith [le_abs_self (t.value : ℝ), hta.1])
      _ = 2 := Real.rpow_one 2
  have hm : |(t.value : ℝ) * Real.log 2| ≤ 1 := by
    rw [abs_mul, hta.1]; linarith
  refine (mul_le_mul_of_nonneg_right hs (by positivity)).trans ?_
  have e : (2 : ℝ) ^ (-43 : ℤ) = 1024 * 2 ^ (-53 : ℤ) := by norm_num
  rw [e]
  have := mul_le_mul_of_nonneg_right hm p.le
  generalize (2 : ℝ) ^ (-53 : ℤ) = u at *
  linarith

end Engabra
