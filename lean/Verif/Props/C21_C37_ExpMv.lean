import Verif.Props.C20_Exp
import Mathlib.Analysis.Complex.Exponential
import Mathlib.Analysis.SpecialFunctions.ExpDeriv
import Mathlib.Analysis.SpecialFunctions.Trigonometric.DerivHyp

/-! # C21: `exp(MultiVector)`, and C37: what it prints

Ideal arithmetic.  The function agrees with the series on spinors, and on nothing with a
non-zero vector only or trivector only. -/

namespace Engabra
open XR Spec

/-- `priv::sync` on reals. -/
noncomputable def syncR (x : ℝ) : ℝ :=
  if x < 1 / 10000 then x * x * (x * x) / 120 - x * x / 6 + 1 else Real.sin x / x

theorem sync_val (x : ℝ) : sync (val x) = val (syncR x) := by
  unfold sync syncR
  have h1 : (Dbl.lit (1 / 10000) : XR) = val (1 / 10000) := by rw [lit_def]; norm_num
  have h2 : (Dbl.lit 120 : XR) = val 120 := by rw [lit_def]; norm_num
  have h3 : (Dbl.lit 6 : XR) = val 6 := by rw [lit_def]; norm_num
  rw [h1, h2, h3]
  by_cases h : x < 1 / 10000
  · rw [if_pos ((lt_val _ _).2 h), if_pos h]
    simp only [sq, val_mul]
    rw [val_div _ _ (by norm_num), val_div _ _ (by norm_num), XR.one_def, val_sub, val_add]
  · rw [if_neg (fun h' => h ((lt_val _ _).1 h')), if_neg h, sin_val, val_div]
    intro h0; apply h; rw [h0]; norm_num

/-- The formula of `exp(MultiVector)` on reals. -/
noncomputable def expMvR (A : MultiVector ℝ) : MultiVector ℝ :=
  let a0 := A.theSca.theData.d0
  let a1 := A.theVec.theData.d0
  let a2 := A.theVec.theData.d1
  let a3 := A.theVec.theData.d2
  let a12 := A.theBiv.theData.d2
  let a13 := -A.theBiv.theData.d1
  let a23 := A.theBiv.theData.d0
  let a123 := A.theTri.theData.d0
  let apos := √((a3 - a12) * (a3 - a12) + (a2 + a13) * (a2 + a13) + (a1 - a23) * (a1 - a23))
  let aneg := √((a3 + a12) * (a3 + a12) + (a2 - a13) * (a2 - a13) + (a1 + a23) * (a1 + a23))
  let h := 1 / 2 * Real.exp a0
  let p := Real.exp a123
  let n := Real.exp (-a123)
  let sp := syncR apos
  let sn := syncR aneg
  let cp := Real.cos apos
  let cn := Real.cos aneg
  ⟨⟨⟨h * (p * cp + n * cn)⟩⟩,
   ⟨⟨h * (p * (a1 - a23) * sp + n * (a1 + a23) * sn),
     h * (p * (a2 + a13) * sp + n * (a2 - a13) * sn),
     h * (p * (a3 - a12) * sp + n * (a3 + a12) * sn)⟩⟩,
   ⟨⟨h * (-p * (a1 - a23) * sp + n * (a1 + a23) * sn),
     h * -(p * (a2 + a13) * sp - n * (a2 - a13) * sn),
     h * (-p * (a3 - a12) * sp + n * (a3 + a12) * sn)⟩⟩,
   ⟨⟨h * (p * cp - n * cn)⟩⟩⟩

/-- What `isValid(MultiVector)` looks at: the first component of each grade. -/
def ValidFirst (A : MultiVector ℝ) : Prop :=
  Valid A.theSca.theData.d0 ∧ Valid A.theVec.theData.d0 ∧ Valid A.theBiv.theData.d0 ∧
    Valid A.theTri.theData.d0

theorem isValid_mv_lift (A : MultiVector ℝ) : isValid (lift .mv A) = true ↔ ValidFirst A := by
  change (isValidDub (val _) && isValidDub (val _) && isValidDub (val _) && isValidDub (val _)) = true ↔ _
  simp only [Bool.and_eq_true, isValidDub_val, ValidFirst, and_assoc]

theorem expMv_lift (A : MultiVector ℝ) (h : ValidFirst A) :
    expMv (lift .mv A) = lift .mv (expMvR A) := by
  unfold expMv expMvIO
  rw [if_pos ((isValid_mv_lift A).2 h)]
  have hl : (Dbl.lit (1 / 2) : XR) = val (1 / 2) := by rw [lit_def]; norm_num
  simp only [lift, mapTy, val_sub, val_add, val_mul, val_neg, sq, hl, exp_val]
  have hnn : ∀ x y z : ℝ, 0 ≤ x * x + y * y + z * z := fun x y z =>
    add_nonneg (add_nonneg (mul_self_nonneg x) (mul_self_nonneg y)) (mul_self_nonneg z)
  rw [sqrt_val _ (hnn _ _ _), sqrt_val _ (hnn _ _ _)]
  simp only [sync_val, cos_val, val_mul, val_add, val_sub, val_neg]
  rfl

theorem expMvR_spin (S : Spinor ℝ) : expMvR (toMV S)
    = toMV (⟨⟨⟨Real.exp S.theSca.theData.d0 * Real.cos (length .biv S.theBiv)⟩⟩,
      (Real.exp S.theSca.theData.d0 * syncR (length .biv S.theBiv) : ℝ) * S.theBiv⟩ : Spinor ℝ) := by
  obtain ⟨⟨⟨s⟩⟩, ⟨⟨b0, b1, b2⟩⟩⟩ := S
  have h1 : length .biv (⟨⟨b0, b1, b2⟩⟩ : BiVector ℝ)
      = √((0 - b2) * (0 - b2) + (0 + -b1) * (0 + -b1) + (0 - b0) * (0 - b0)) := by
    rw [length_eq]
    congr 1
    simp only [magSqTy, engabra]; ring
  have h2 : length .biv (⟨⟨b0, b1, b2⟩⟩ : BiVector ℝ)
      = √((0 + b2) * (0 + b2) + (0 - -b1) * (0 - -b1) + (0 + b0) * (0 + b0)) := by
    rw [length_eq]
    congr 1
    simp only [magSqTy, engabra]; ring
  unfold expMvR
  simp only [htoMvSpin, ← h1, ← h2]
  ext <;> simp only [engabra, Real.exp_zero, neg_zero] <;> ring

/-- **C21.** On spinor-valued multivectors with `|B| = 0` or `|B| ≥ 1e-4`, `exp` is the
series. -/
theorem C21_exp_spinor_valued_partial (S : Spinor ℝ) (hs : Valid S.theSca.theData.d0)
    (hb : Valid S.theBiv.theData.d0)
    (h : S.theBiv = gzero ∨ 1 / 10000 ≤ length .biv S.theBiv) :
    ∃ E : MultiVector ℝ, expMv (lift .mv (toMV S)) = lift .mv E ∧ IsExp (toMV S) E := by
  refine ⟨_, expMv_lift _ ⟨hs, Or.inl rfl, hb, Or.inl rfl⟩, ?_⟩
  rw [expMvR_spin]
  obtain ⟨⟨⟨s⟩⟩, B⟩ := S
  have := isExp_expR s B
  simp only at h
  rcases h with h | h
  · subst h
    rw [expR_zero] at this
    rw [length_biv_zero]
    have e : ((Real.exp s * syncR 0 : ℝ) * (gzero : BiVector ℝ)) = gzero := by
      ext <;> simp [engabra]
    simp only [Real.cos_zero, mul_one, e]
    exact this
  · have e : syncR (length .biv B) = Real.sin (length .biv B) / length .biv B := by
      unfold syncR
      rw [if_neg (not_lt.2 h)]
    simp only [e]
    exact this

/-- Error of the polynomial used below `1e-4`. -/
theorem syncR_error (x : ℝ) (h0 : 0 < x) (h1 : x < 1 / 10000) :
    |syncR x - Real.sin x / x| ≤ x ^ 6 / 4410 := by
  have hb := Complex.exp_bound (x := x * Complex.I) (n := 7)
    (by rw [norm_mul, Complex.norm_I, mul_one, Complex.norm_real, Real.norm_eq_abs, abs_of_pos h0]; linarith)
    (by norm_num)
  have him : (Complex.exp (x * Complex.I) - ∑ m ∈ Finset.range 7, ((x : ℂ) * Complex.I) ^ m / (m.factorial : ℂ)).im
      = Real.sin x - (x - x ^ 3 / 6 + x ^ 5 / 120) := by
    have e : ∑ m ∈ Finset.range 7, ((x : ℂ) * Complex.I) ^ m / (m.factorial : ℂ)
        = ((1 - x ^ 2 / 2 + x ^ 4 / 24 - x ^ 6 / 720 : ℝ) : ℂ)
          + ((x - x ^ 3 / 6 + x ^ 5 / 120 : ℝ) : ℂ) * Complex.I := by
      have I2 : Complex.I ^ 2 = -1 := Complex.I_sq
      have I3 : Complex.I ^ 3 = -Complex.I := by rw [pow_succ, I2]; ring
      have I4 : Complex.I ^ 4 = 1 := by rw [pow_succ, I3]; ring_nf; rw [I2]; ring
      have I5 : Complex.I ^ 5 = Complex.I := by rw [pow_succ, I4]; ring
      have I6 : Complex.I ^ 6 = -1 := by rw [pow_succ, I5]; ring_nf; rw [I2]
      simp only [Finset.sum_range_succ, Finset.sum_range_zero, mul_pow, I2, I3, I4, I5, I6,
        Nat.factorial]
      push_cast
      ring
    rw [e, Complex.exp_mul_I, ← Complex.ofReal_cos, ← Complex.ofReal_sin, Complex.sub_im,
      Complex.add_im, Complex.add_im, Complex.ofReal_im, Complex.ofReal_im,
      Complex.im_ofReal_mul, Complex.im_ofReal_mul, Complex.I_im]
    ring
  have h2 := (Complex.abs_im_le_norm _).trans hb
  rw [him, norm_mul, Complex.norm_I, mul_one, Complex.norm_real, Real.norm_eq_abs, abs_of_pos h0] at h2
  have h3 : x ^ 7 * (((Nat.succ 7 : ℕ) : ℝ) * (((Nat.factorial 7 : ℕ) : ℝ) * ((7 : ℕ) : ℝ))⁻¹) = x ^ 7 / 4410 := by
    norm_num [Nat.factorial]; ring
  rw [h3] at h2
  have h4 : syncR x - Real.sin x / x = -(Real.sin x - (x - x ^ 3 / 6 + x ^ 5 / 120)) / x := by
    unfold syncR
    rw [if_pos h1]
    field_simp
    ring
  rw [h4, abs_div, abs_neg, abs_of_pos h0, div_le_iff₀ h0]
  calc _ ≤ _ := h2
    _ = _ := by ring

/-- **C21.** Below `|B| = 1e-4` the scalar part of a spinor's exponential is exact and each
bivector component is off by a relative error of at most `|B|^6/4410 < 3·10⁻²⁸`. -/
theorem C21_exp_spinor_small (S : Spinor ℝ) (hs : Valid S.theSca.theData.d0)
    (hb : Valid S.theBiv.theData.d0) (h0 : S.theBiv ≠ gzero)
    (h : length .biv S.theBiv < 1 / 10000) :
    ∃ E F : Spinor ℝ, expMv (lift .mv (toMV S)) = lift .mv (toMV E) ∧
      IsExp (toMV S) (toMV F) ∧ E.theSca = F.theSca ∧
      (∃ q : ℝ, |q| ≤ length .biv S.theBiv ^ 6 / 4410 ∧
        E.theBiv = F.theBiv + (Real.exp S.theSca.theData.d0 * q : ℝ) * S.theBiv) := by
  obtain ⟨⟨⟨s⟩⟩, B⟩ := S
  simp only at *
  have hpos : 0 < length .biv B := lt_of_le_of_ne (length_nonneg .biv B)
    (fun h => h0 (length_eq_zero_biv h.symm))
  have hl := expMv_lift (toMV (⟨⟨⟨s⟩⟩, B⟩ : Spinor ℝ)) ⟨hs, Or.inl rfl, hb, Or.inl rfl⟩
  rw [expMvR_spin] at hl
  refine ⟨_, expR s B, hl, isExp_expR s B, rfl,
    syncR (length .biv B) - Real.sin (length .biv B) / length .biv B,
    syncR_error _ hpos h, ?_⟩
  unfold expR
  ext <;> simp only [engabra] <;> ring

/-! ## Complex arguments and vectors: not the exponential -/

theorem powMv_nonneg_vec (v : Vector ℝ) (n : ℕ) :
    ∃ c : ℝ, powMv (toMV v) (2 * n) = ⟨⟨⟨magSq v ^ n⟩⟩, ⟨⟨0, 0, 0⟩⟩, ⟨⟨0, 0, 0⟩⟩, ⟨⟨0⟩⟩⟩ ∧
      powMv (toMV v) (2 * n + 1) = toMV (c * v) := by
  induction n with
  | zero =>
    refine ⟨1, ?_, ?_⟩
    · change (gone : MultiVector ℝ) = _
      ext <;> simp [engabra]
    · change (gone : MultiVector ℝ) * toMV v = _
      mv_ring
  | succ n ih =>
    obtain ⟨c, h1, h2⟩ := ih
    have e1 : powMv (toMV v) (2 * (n + 1)) = ⟨⟨⟨magSq v ^ (n + 1)⟩⟩, ⟨⟨0, 0, 0⟩⟩, ⟨⟨0, 0, 0⟩⟩, ⟨⟨0⟩⟩⟩ := by
      change powMv (toMV v) (2 * n) * toMV v * toMV v = _
      rw [h1]
      ext <;> simp only [engabra] <;> ring
    refine ⟨magSq v ^ (n + 1), e1, ?_⟩
    change powMv (toMV v) (2 * (n + 1)) * toMV v = _
    rw [e1]
    mv_ring

/-- The series of a non-zero vector has a scalar part above 1 ... -/
theorem exp_vec_scalar (v : Vector ℝ) (hv : magSq v ≠ 0) (E : MultiVector ℝ)
    (h : IsExp (toMV v) E) : 1 < E.theSca.theData.d0 := by
  have h0 := h 0 (by norm_num)
  have hnn : ∀ n : ℕ, 0 ≤ (comps .mv (powMv (toMV v) n)).getD 0 0 / (n.factorial : ℝ) := by
    intro n
    apply div_nonneg _ (by positivity)
    rcases Nat.even_or_odd' n with ⟨k, rfl | rfl⟩
    · obtain ⟨c, e, -⟩ := powMv_nonneg_vec v k
      rw [e]
      exact pow_nonneg (C13_magSq_nonneg .vec v) _
    · obtain ⟨c, -, e⟩ := powMv_nonneg_vec v k
      rw [e]
      exact le_refl (0 : ℝ)
  have hle := sum_le_hasSum {0, 2} (fun i _ => hnn i) h0
  rw [Finset.sum_pair (by norm_num)] at hle
  obtain ⟨-, e0, -⟩ := powMv_nonneg_vec v 0
  obtain ⟨-, e2, -⟩ := powMv_nonneg_vec v 1
  rw [show 2 * 0 = 0 from rfl] at e0
  rw [show 2 * 1 = 2 from rfl] at e2
  rw [e0, e2] at hle
  have hp : 0 < magSq v := lt_of_le_of_ne (C13_magSq_nonneg .vec v) hv.symm
  change magSq v ^ 0 / ((Nat.factorial 0 : ℕ) : ℝ) + magSq v ^ 1 / ((Nat.factorial 2 : ℕ) : ℝ)
    ≤ E.theSca.theData.d0 at hle
  norm_num [Nat.factorial] at hle
  linarith

/-- **C21, violated.** For no non-zero vector is `exp(MultiVector(v))` the exponential: the
scalar part of the result never exceeds 1, that of the series is above 1. -/
theorem C21_fails_for_every_vector (v : Vector ℝ) (hv : Valid v.theData.d0) (hne : magSq v ≠ 0) :
    ∃ E : MultiVector ℝ, expMv (lift .mv (toMV v)) = lift .mv E ∧ ¬ IsExp (toMV v) E ∧
      E.theSca.theData.d0 ≤ 1 := by
  have hle : (expMvR (toMV v)).theSca.theData.d0 ≤ 1 := by
    simp only [expMvR, htoMvVec, Real.exp_zero, neg_zero]
    have := Real.cos_le_one (√((v.theData.d2 - 0) * (v.theData.d2 - 0) + (v.theData.d1 + 0) * (v.theData.d1 + 0) + (v.theData.d0 - 0) * (v.theData.d0 - 0)))
    have := Real.cos_le_one (√((v.theData.d2 + 0) * (v.theData.d2 + 0) + (v.theData.d1 - 0) * (v.theData.d1 - 0) + (v.theData.d0 + 0) * (v.theData.d0 + 0)))
    linarith
  exact ⟨_, expMv_lift _ ⟨Or.inl rfl, hv, Or.inl rfl, Or.inl rfl⟩,
    fun h => absurd (exp_vec_scalar v hne _ h) (not_lt.2 hle), hle⟩

/-- What it is instead: `cos|v| + sin|v|/|v| v`. -/
theorem C21_vector_value (v : Vector ℝ) (hv : Valid v.theData.d0)
    (h : 1 / 10000 ≤ length .vec v) :
    expMv (lift .mv (toMV v)) = lift .mv (toMV (⟨⟨⟨Real.cos (length .vec v)⟩⟩, gzero⟩ : ComPlex ℝ)
      + toMV ((Real.sin (length .vec v) / length .vec v : ℝ) * v)) := by
  rw [expMv_lift _ ⟨Or.inl rfl, hv, Or.inl rfl, Or.inl rfl⟩]
  congr 1
  obtain ⟨⟨x, y, z⟩⟩ := v
  have h1 : length .vec (⟨⟨x, y, z⟩⟩ : Vector ℝ)
      = √((z - 0) * (z - 0) + (y + -0) * (y + -0) + (x - 0) * (x - 0)) := by
    rw [length_eq]; congr 1; simp only [magSqTy, engabra]; ring
  have h2 : length .vec (⟨⟨x, y, z⟩⟩ : Vector ℝ)
      = √((z + 0) * (z + 0) + (y - -0) * (y - -0) + (x + 0) * (x + 0)) := by
    rw [length_eq]; congr 1; simp only [magSqTy, engabra]; ring
  have e : syncR (length .vec (⟨⟨x, y, z⟩⟩ : Vector ℝ))
      = Real.sin (length .vec ⟨⟨x, y, z⟩⟩) / length .vec ⟨⟨x, y, z⟩⟩ := by
    unfold syncR
    rw [if_neg (not_lt.2 h)]
  unfold expMvR
  simp only [htoMvVec, ← h1, ← h2, e]
  ext <;> simp only [engabra, Real.exp_zero, neg_zero] <;> ring

theorem powMv_tri (t : ℝ) (n : ℕ) :
    powMv (toMV (⟨⟨t⟩⟩ : TriVector ℝ)) (2 * n)
      = ⟨⟨⟨(-1) ^ n * t ^ (2 * n)⟩⟩, ⟨⟨0, 0, 0⟩⟩, ⟨⟨0, 0, 0⟩⟩, ⟨⟨0⟩⟩⟩ ∧
    powMv (toMV (⟨⟨t⟩⟩ : TriVector ℝ)) (2 * n + 1)
      = ⟨⟨⟨0⟩⟩, ⟨⟨0, 0, 0⟩⟩, ⟨⟨0, 0, 0⟩⟩, ⟨⟨(-1) ^ n * t ^ (2 * n + 1)⟩⟩⟩ := by
  induction n with
  | zero =>
    constructor
    · change (gone : MultiVector ℝ) = _
      ext <;> simp [engabra]
    · change (gone : MultiVector ℝ) * toMV (⟨⟨t⟩⟩ : TriVector ℝ) = _
      mv_ring
  | succ n ih =>
    obtain ⟨h1, h2⟩ := ih
    have e1 : powMv (toMV (⟨⟨t⟩⟩ : TriVector ℝ)) (2 * (n + 1))
        = ⟨⟨⟨(-1) ^ (n + 1) * t ^ (2 * (n + 1))⟩⟩, ⟨⟨0, 0, 0⟩⟩, ⟨⟨0, 0, 0⟩⟩, ⟨⟨0⟩⟩⟩ := by
      change powMv (toMV (⟨⟨t⟩⟩ : TriVector ℝ)) (2 * n + 1) * toMV (⟨⟨t⟩⟩ : TriVector ℝ) = _
      rw [h2]
      ext <;> simp only [engabra] <;> ring
    refine ⟨e1, ?_⟩
    change powMv (toMV (⟨⟨t⟩⟩ : TriVector ℝ)) (2 * (n + 1)) * toMV (⟨⟨t⟩⟩ : TriVector ℝ) = _
    rw [e1]
    ext <;> simp only [engabra] <;> ring

/-- The exponential of a trivector: scalar part `cos t`. -/
theorem exp_tri_scalar (t : ℝ) (E : MultiVector ℝ)
    (h : IsExp (toMV (⟨⟨t⟩⟩ : TriVector ℝ)) E) : E.theSca.theData.d0 = Real.cos t := by
  have h0 := h 0 (by norm_num)
  have hc := Real.hasSum_cos t
  have he : HasSum (fun n : ℕ => (comps .mv (powMv (toMV (⟨⟨t⟩⟩ : TriVector ℝ)) n)).getD 0 0
      / (n.factorial : ℝ)) (Real.cos t + 0) := by
    apply HasSum.even_add_odd
    · convert hc using 2 with n
      rw [(powMv_tri t n).1]
      rfl
    · convert hasSum_zero using 2 with n
      rw [(powMv_tri t n).2]
      exact zero_div _
  rw [add_zero] at he
  exact h0.unique he

/-- **C21, violated.** For no `t ≠ 0` is `exp(t e123)` the exponential: the result is
`cosh t + sinh t e123`, the series is `cos t + ...`. -/
theorem C21_fails_for_every_trivector (t : ℝ) (ht : t ≠ 0) (hv : Valid t) :
    expMv (lift .mv (toMV (⟨⟨t⟩⟩ : TriVector ℝ)))
      = lift .mv (toMV (⟨⟨⟨Real.cosh t⟩⟩, ⟨⟨Real.sinh t⟩⟩⟩ : ComPlex ℝ)) ∧
    ¬ IsExp (toMV (⟨⟨t⟩⟩ : TriVector ℝ)) (toMV (⟨⟨⟨Real.cosh t⟩⟩, ⟨⟨Real.sinh t⟩⟩⟩ : ComPlex ℝ)) := by
  constructor
  · rw [expMv_lift _ ⟨Or.inl rfl, Or.inl rfl, Or.inl rfl, hv⟩]
    congr 1
    unfold expMvR
    simp only [htoMvTri, Real.cosh_eq, Real.sinh_eq]
    ext <;> simp [engabra] <;> ring
  · intro h
    have h1 := exp_tri_scalar t _ h
    change Real.cosh t = Real.cos t at h1
    have h2 := Real.one_lt_cosh.2 ht
    have h3 := Real.cos_le_one t
    linarith

/-- An invalid first component of any grade gives `null`. -/
theorem C21_null (A : MultiVector ℝ) (h : ¬ ValidFirst A) :
    expMv (lift .mv A) = gnull Dbl.nan := by
  unfold expMv expMvIO
  rw [if_neg (fun h' => h ((isValid_mv_lift A).1 h'))]

/-! ## C37: the diagnostic output -/

/-- **C37, violated** (library functions should not write to the program's standard output):
for every argument that passes `isValid`, over every number type, a call of
`exp(MultiVector)` writes these ten lines to `std::cout`. -/
theorem C37_exp_prints {α : Type} [Dbl α] [LibM α] (A : MultiVector α) (h : isValid A = true) :
    (expMvIO A).1.map Prod.fst = ["apos: ", "aneg: ", "cospos: ", "cosneg: ", "syncpos: ",
      "syncneg: ", "hea0  : ", "epa123: ", "ena123: ", " sum  : "] := by
  unfold expMvIO
  rw [if_pos h]
  rfl

/-- **C37**, what remains: an invalid argument prints nothing.  Partial: the full claim is false
(`C37_exp_prints`). -/
theorem C37_exp_silent_partial {α : Type} [Dbl α] [LibM α] (A : MultiVector α)
    (h : isValid A = false) : (expMvIO A).1 = [] := by
  unfold expMvIO
  rw [if_neg (by rw [h]; decide)]

/-- Non-triviality. -/
example : isValid (lift .mv (gone : MultiVector ℝ)) = true :=
  (isValid_mv_lift _).2 ⟨Or.inr ⟨by
    change (1 : ℝ) / 2 ^ 1022 ≤ |1|
    rw [abs_one, div_le_one (by positivity)]; exact one_le_pow₀ (by norm_num),
    by change |(1 : ℝ)| < _; rw [abs_one]; exact lt_big (by norm_num)⟩,
    Or.inl rfl, Or.inl rfl, Or.inl rfl⟩

theorem valid_between {r : ℝ} (h1 : 1 / 2 ^ 20 ≤ r) (h2 : r ≤ 2 ^ 20) : Valid r := by
  have hp : (0 : ℝ) < 1 / 2 ^ 20 := by positivity
  refine Or.inr ⟨?_, ?_⟩
  · rw [abs_of_pos (by linarith)]
    refine le_trans ?_ h1
    exact one_div_le_one_div_of_le (by positivity) (pow_le_pow_right₀ (by norm_num) (by norm_num))
  · rw [abs_of_pos (by linarith)]
    exact lt_of_le_of_lt h2 (pow_lt_pow_right₀ (by norm_num) (by norm_num))

/-- A spinor, a small spinor, a vector and a trivector, for `C21_exp_spinor_valued_partial`,
`C21_exp_spinor_small`, `C21_vector_value` and `C21_fails_for_every_trivector`. -/
example : (Valid (3 : ℝ) ∧ 1 / 10000 ≤ length .biv (⟨⟨3, 4, 0⟩⟩ : BiVector ℝ)) ∧
    (Valid (1 / 2 ^ 20 : ℝ) ∧ (⟨⟨1 / 2 ^ 20, 0, 0⟩⟩ : BiVector ℝ) ≠ gzero ∧
      length .biv (⟨⟨1 / 2 ^ 20, 0, 0⟩⟩ : BiVector ℝ) < 1 / 10000) ∧
    (1 / 10000 ≤ length .vec (⟨⟨3, 4, 0⟩⟩ : Vector ℝ) ∧ magSq (⟨⟨3, 4, 0⟩⟩ : Vector ℝ) ≠ 0) ∧
    ((2 : ℝ) ≠ 0 ∧ Valid (2 : ℝ)) := by
  refine ⟨⟨valid_between (by norm_num) (by norm_num), ?_⟩,
    ⟨valid_between le_rfl (by norm_num), ?_, ?_⟩, ⟨?_, ?_⟩, by norm_num,
    valid_between (by norm_num) (by norm_num)⟩
  · rw [length_eq]
    refine Real.le_sqrt_of_sq_le ?_
    simp only [magSqTy, engabra]; norm_num
  · intro h
    have := congrArg (fun B : BiVector ℝ => B.theData.d0) h
    simp only [engabra] at this
    norm_num at this
  · rw [length_eq, Real.sqrt_lt' (by norm_num)]
    simp only [magSqTy, engabra]; norm_num
  · rw [length_eq]
    refine Real.le_sqrt_of_sq_le ?_
    simp only [magSqTy, engabra]; norm_num
  · simp only [engabra]; norm_num

/-- A multivector whose trivector component is a subnormal number, for `C21_null` and
`C37_exp_silent_partial`. -/
example : ¬ ValidFirst (mvOf8 1 2 3 4 5 6 7 (1 / 2 ^ 1023) : MultiVector ℝ) := by
  rintro ⟨-, -, -, h⟩
  have h1 : (0 : ℝ) < 1 / 2 ^ 1023 := by positivity
  rcases h with h | ⟨h, -⟩
  · exact h1.ne' h
  · change (1 : ℝ) / 2 ^ 1022 ≤ |1 / 2 ^ 1023| at h
    rw [abs_of_pos h1, div_le_div_iff₀ (by positivity) (by positivity), one_mul, one_mul] at h
    exact absurd (pow_lt_pow_right₀ (by norm_num : (1 : ℝ) < 2) (by norm_num : 1022 < 1023)) (not_lt.2 h)

end Engabra
