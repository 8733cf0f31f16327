import Verif.Lemmas.SqNear

/-! # C34: magnitude and direction of every finite object

No band of sizes is left out: `magnitude` is infinite, or finite with a stated error; `direction`
is null exactly for the objects all of whose squares underflow, and otherwise finite. -/

namespace Engabra

open F64 (Finite HasVal)

theorem castQ_up {u t S a : ℝ} (hu0 : 0 ≤ u) (hu : u ≤ 1 / 1000) (ht : 0 ≤ t) (hS : 0 ≤ S)
    (h : a ≤ (1 + u) ^ 8 * (S + 8 * t)) : a ≤ (1 + 81 / 10 * u) * S + 9 * t := by
  have h8 : (1 + u) ^ 8 ≤ 1 + 81 / 10 * u := by
    have e : (1 + u) ^ 8 = 1 + 8 * u + u * (28 * u + 56 * u ^ 2 + 70 * u ^ 3 + 56 * u ^ 4 + 28 * u ^ 5
      + 8 * u ^ 6 + u ^ 7) := by ring
    have h1 : u ≤ 1 := by linarith
    have b2 : u ^ 2 ≤ u / 1000 := by nlinarith
    have bk : ∀ k : ℕ, 2 ≤ k → u ^ k ≤ u / 1000 := fun k hk =>
      (pow_le_pow_of_le_one hu0 h1 hk).trans b2
    have b3 := bk 3 (by norm_num)
    have b4 := bk 4 (by norm_num)
    have b5 := bk 5 (by norm_num)
    have b6 := bk 6 (by norm_num)
    have b7 := bk 7 (by norm_num)
    rw [e]
    have : 28 * u + 56 * u ^ 2 + 70 * u ^ 3 + 56 * u ^ 4 + 28 * u ^ 5 + 8 * u ^ 6 + u ^ 7 ≤ 1 / 10 := by
      linarith
    nlinarith
  have := mul_le_mul_of_nonneg_right h8 (show 0 ≤ S + 8 * t by linarith)
  nlinarith

theorem castQ_dn {u t S a : ℝ} (hu0 : 0 ≤ u) (hu : u ≤ 1 / 1000) (ht : 0 ≤ t) (hS : 0 ≤ S)
    (h0 : 0 ≤ a) (h : (1 - u) ^ 8 * (S - 8 * t) ≤ a) : (1 - 8 * u) * S - 8 * t ≤ a := by
  have h8 : 1 - 8 * u ≤ (1 - u) ^ 8 := by
    have := one_add_mul_le_pow (a := -u) (by linarith) 8
    have e : (1 + -u) ^ 8 = (1 - u) ^ 8 := by ring
    rw [e] at this
    push_cast at this
    linarith
  rcases le_total 0 (S - 8 * t) with hs | hs
  · have := mul_le_mul_of_nonneg_right h8 hs
    nlinarith
  · nlinarith

theorem t_real : ((8 : ℕ) : ℝ) * (2 : ℝ) ^ (-1075 : ℤ) = 8 * (2 : ℝ) ^ (-1075 : ℤ) := by norm_num only

/-- The computed squared magnitude, over the reals. -/
theorem magSq_total (t : Ty) (x : t.D F64) (hf : ∀ c ∈ comps t x, c.Finite) :
    (magSqTy t x = .inf false ∧
      (2 : ℝ) ^ 1024 ≤ (1 + 81 / 10 * uR) * (sqSum t x : ℝ) + 9 * (2 : ℝ) ^ (-1075 : ℤ)) ∨
    ((magSqTy t x).Finite ∧ 0 ≤ (magSqTy t x).value ∧
      ((magSqTy t x).value : ℝ) ≤ (1 + 81 / 10 * uR) * (sqSum t x : ℝ) + 9 * (2 : ℝ) ^ (-1075 : ℤ) ∧
      (1 - 8 * uR) * (sqSum t x : ℝ) - 8 * (2 : ℝ) ^ (-1075 : ℤ) ≤ ((magSqTy t x).value : ℝ)) := by
  obtain ⟨hS, h⟩ := magSq_near t x hf
  have hSr : (0 : ℝ) ≤ (sqSum t x : ℝ) := by exact_mod_cast hS
  have ht : (0 : ℝ) ≤ (2 : ℝ) ^ (-1075 : ℤ) := (F64.two_zpow_pos _).le
  have up : ∀ q : ℚ, q ≤ (1 + (2 : ℚ) ^ (-53 : ℤ)) ^ 8 * (sqSum t x + (8 : ℕ) * (2 : ℚ) ^ (-1075 : ℤ)) →
      (q : ℝ) ≤ (1 + 81 / 10 * uR) * (sqSum t x : ℝ) + 9 * (2 : ℝ) ^ (-1075 : ℤ) := by
    intro q hq
    have h6 := (Rat.cast_le (K := ℝ)).2 hq
    rw [Rat.cast_mul, Rat.cast_pow, Rat.cast_add, Rat.cast_add, Rat.cast_mul, cast_zpow, cast_zpow,
      Rat.cast_one, Rat.cast_natCast, t_real] at h6
    exact castQ_up uR_nonneg uR_small ht hSr h6
  rcases h with ⟨h1, h2⟩ | ⟨h1, h2, h3, h4⟩
  · refine Or.inl ⟨h1, ?_⟩
    have := up _ h2
    rwa [Rat.cast_pow, Rat.cast_ofNat] at this
  · refine Or.inr ⟨h1, h2, up _ h3, ?_⟩
    have h6 := (Rat.cast_le (K := ℝ)).2 h4
    rw [Rat.cast_mul, Rat.cast_pow, Rat.cast_sub, Rat.cast_sub, Rat.cast_mul, cast_zpow, cast_zpow,
      Rat.cast_one, Rat.cast_natCast, t_real] at h6
    exact castQ_dn uR_nonneg uR_small ht hSr (by exact_mod_cast h2) h6

theorem value_lt_max {a : F64} (h : a.Finite) : a.value < 2 ^ 1024 := by
  cases a with
  | nan => exact absurd h id
  | inf _ => exact absurd h id
  | zero s => exact pow_pos two_pos _
  | fin v hv => exact (le_abs_self v).trans_lt hv.lt

/-- The square root of a finite non-negative double. -/
theorem sqrt_total {a : F64} (hf : a.Finite) (h0 : 0 ≤ a.value) :
    (Dbl.sqrt a).Finite ∧ |((Dbl.sqrt a).value : ℝ) - √(a.value : ℝ)| ≤ uR * √(a.value : ℝ) := by
  rcases h0.eq_or_lt with hz | hpos
  · have hr : (Dbl.sqrt a).Finite ∧ (Dbl.sqrt a).value = 0 := by
      rw [F64.sqrt_def]
      cases a with
      | nan => exact absurd hf id
      | inf _ => exact absurd hf id
      | zero s => exact ⟨trivial, rfl⟩
      | fin v hv => exact absurd hz.symm hv.1
    refine ⟨hr.1, ?_⟩
    rw [hr.2, ← hz, Rat.cast_zero, Real.sqrt_zero, sub_self, abs_zero, mul_zero]
  · have hmp : 0 < √(a.value : ℝ) := Real.sqrt_pos.2 (by exact_mod_cast hpos)
    have hbig : √(a.value : ℝ) ≤ 2 ^ 1022 := by
      refine Real.sqrt_le_iff.2 ⟨by positivity, ?_⟩
      have h1 : (a.value : ℝ) ≤ 2 ^ 1024 := by
        have := (Rat.cast_le (K := ℝ)).2 (value_lt_max hf).le
        rwa [Rat.cast_pow, Rat.cast_ofNat] at this
      rw [← pow_mul]
      exact h1.trans (pow_le_pow_right₀ (by norm_num) (by norm_num))
    obtain ⟨hmf, hmv⟩ := F64.sqrt_spec hf hpos hbig
    refine ⟨hmf, ?_⟩
    have hdmin : (2 : ℝ) ^ (-1074 : ℤ) ≤ (a.value : ℝ) := by
      have : (2 : ℚ) ^ (-1074 : ℤ) ≤ a.value := by
        cases a with
        | nan => exact absurd hf id
        | inf _ => exact absurd hf id
        | zero s => exact absurd hpos (lt_irrefl _)
        | fin v hv => have := hv.ge; rwa [abs_of_pos (show (0 : ℚ) < v from hpos)] at this
      have h6 := (Rat.cast_le (K := ℝ)).2 this
      rwa [cast_zpow] at h6
    have hlo : (2 : ℝ) ^ (-537 : ℤ) ≤ √(a.value : ℝ) := by
      refine Real.le_sqrt_of_sq_le ?_
      rw [pow_two, ← zpow_add₀ (by norm_num)]
      exact hdmin
    have hr := F64.rn_rel (x := √(a.value : ℝ)) (by
      rw [abs_of_pos hmp]
      exact (zpow_le_zpow_right₀ (by norm_num) (by norm_num)).trans hlo)
    rw [abs_of_pos hmp, ← hmv] at hr
    exact hr

/-- Magnitude in the two cases. -/
theorem magnitude_total (t : Ty) (x : t.D F64) (hf : ∀ c ∈ comps t x, c.Finite) :
    (magnitudeTy t x = .inf false ∧
      (2 : ℝ) ^ 1024 ≤ (1 + 81 / 10 * uR) * (sqSum t x : ℝ) + 9 * (2 : ℝ) ^ (-1075 : ℤ)) ∨
    ((magnitudeTy t x).Finite ∧ ∃ a : ℝ, 0 ≤ a ∧ a < 2 ^ 1024 ∧
      |((magnitudeTy t x).value : ℝ) - √a| ≤ uR * √a ∧
      a ≤ (1 + 81 / 10 * uR) * (sqSum t x : ℝ) + 9 * (2 : ℝ) ^ (-1075 : ℤ) ∧
      (1 - 8 * uR) * (sqSum t x : ℝ) - 8 * (2 : ℝ) ^ (-1075 : ℤ) ≤ a) := by
  rcases magSq_total t x hf with ⟨h1, h2⟩ | ⟨h1, h2, h3, h4⟩
  · refine Or.inl ⟨?_, h2⟩
    unfold magnitudeTy
    rw [h1]; rfl
  · obtain ⟨h5, h6⟩ := sqrt_total h1 h2
    refine Or.inr ⟨h5, ((magSqTy t x).value : ℝ), by exact_mod_cast h2, ?_, h6, h3, h4⟩
    have := (Rat.cast_lt (K := ℝ)).2 (value_lt_max h1)
    rwa [Rat.cast_pow, Rat.cast_ofNat] at this

theorem tiny_le : (2 : ℝ) ^ (-1075 : ℤ) ≤ 1 / 1000 := by
  calc (2 : ℝ) ^ (-1075 : ℤ) ≤ (2 : ℝ) ^ (-53 : ℤ) := zpow_le_zpow_right₀ (by norm_num) (by norm_num)
    _ ≤ _ := by norm_num

theorem big_ge : (2 : ℝ) ^ 100 ≤ (2 : ℝ) ^ 1024 := pow_le_pow_right₀ (by norm_num) (by norm_num)

/-- **C34, the overflow threshold.**  For every finite object: the magnitude is finite when the exact
sum of squares is below `2^1024` by nine units roundoff, infinite when it is above by as much. -/
theorem C34_overflow (t : Ty) (x : t.D F64) (hf : ∀ c ∈ comps t x, c.Finite) :
    ((sqSum t x : ℝ) ≤ (2 : ℝ) ^ 1024 * (1 - 9 * (2 : ℝ) ^ (-53 : ℤ)) → (magnitudeTy t x).Finite) ∧
    ((2 : ℝ) ^ 1024 * (1 + 9 * (2 : ℝ) ^ (-53 : ℤ)) ≤ (sqSum t x : ℝ) → magnitudeTy t x = .inf false) := by
  have ht := tiny_le
  have hb := big_ge
  have hu : uR = (2 : ℝ) ^ (-53 : ℤ) := rfl
  have hbu : (64 : ℝ) ≤ uR * (2 : ℝ) ^ 1024 := by
    have h := mul_le_mul_of_nonneg_left hb uR_nonneg
    refine le_trans ?_ h
    rw [hu]; norm_num
  have hu0 := uR_nonneg
  have hu1 := uR_small
  have hu2 : uR * uR * (2 : ℝ) ^ 1024 ≤ 1 / 1000 * (uR * (2 : ℝ) ^ 1024) := by
    rw [mul_assoc]
    exact mul_le_mul_of_nonneg_right hu1 (le_trans (by norm_num) hbu)
  rw [← hu]
  constructor
  · intro hS
    rcases magnitude_total t x hf with ⟨-, h2⟩ | ⟨h1, -⟩
    · exfalso
      have h3 := mul_le_mul_of_nonneg_left hS (show 0 ≤ 1 + 81 / 10 * uR by linarith)
      generalize (2 : ℝ) ^ (-1075 : ℤ) = τ at *
      generalize uR = u at *
      generalize (2 : ℝ) ^ 1024 = P at *
      generalize (sqSum t x : ℝ) = S at *
      have e : (1 + 81 / 10 * u) * (P * (1 - 9 * u)) = P - 9 / 10 * (u * P) - 729 / 10 * (u * u * P) := by ring
      rw [e] at h3
      have h4 : 0 ≤ u * u * P := by nlinarith
      linarith only [h2, h3, hbu, ht, h4]
    · exact h1
  · intro hS
    rcases magnitude_total t x hf with ⟨h1, -⟩ | ⟨-, a, h0, h1, h2, h3, h4⟩
    · exact h1
    · exfalso
      have h5 := mul_le_mul_of_nonneg_left hS (show 0 ≤ 1 - 8 * uR by
        generalize uR = u at hu1 ⊢; linarith only [hu1])
      generalize (2 : ℝ) ^ (-1075 : ℤ) = τ at *
      generalize uR = u at *
      generalize (2 : ℝ) ^ 1024 = P at *
      generalize (sqSum t x : ℝ) = S at *
      have e : (1 - 8 * u) * (P * (1 + 9 * u)) = P + u * P - 72 * (u * u * P) := by ring
      rw [e] at h5
      linarith only [h1, h4, h5, hbu, ht, hu2]

/-- From the square to the root. -/
theorem mag_root_total {u τ S E a m : ℝ} (hu0 : 0 ≤ u) (hu : u ≤ 1 / 100000) (hτ : 0 < τ) (hE : 0 < E)
    (hS : E * E = S) (ha : 0 ≤ a) (hup : a ≤ (1 + 81 / 10 * u) * S + 9 * τ)
    (hdn : (1 - 8 * u) * S - 8 * τ ≤ a) (hm : |m - √a| ≤ u * √a) :
    |m - E| ≤ 6 * u * E + 32 * τ / E := by
  have hr0 := Real.sqrt_nonneg a
  have hrr : √a * √a = a := Real.mul_self_sqrt ha
  generalize √a = r at *
  subst hS
  have hfac : |r - E| * (r + E) ≤ 81 / 10 * u * (E * E) + 9 * τ := by
    rw [← abs_of_nonneg (show 0 ≤ r + E by linarith), ← abs_mul, show (r - E) * (r + E) = a - E * E by
      rw [← hrr]; ring, abs_le]
    have := mul_nonneg hu0 (mul_self_nonneg E)
    constructor <;> nlinarith
  have hd : |r - E| ≤ 5 * u * E - u * E / 10 + 31 * τ / E := by
    rcases le_total (1000 * τ) (E * E) with hc | hc
    · have hr1 : 98 / 100 * E ≤ r := by
        by_contra hcon
        push Not at hcon
        have h1 : r * r ≤ (98 / 100 * E) * (98 / 100 * E) := mul_self_le_mul_self hr0 hcon.le
        have h2 := mul_le_mul_of_nonneg_right hu (mul_self_nonneg E)
        rw [hrr] at h1
        have h3 := mul_pos hE hE
        nlinarith
      have h1 : |r - E| * (198 / 100 * E) ≤ 81 / 10 * u * (E * E) + 9 * τ :=
        le_trans (mul_le_mul_of_nonneg_left (by linarith) (abs_nonneg _)) hfac
      have h2 : |r - E| ≤ (81 / 10 * u * (E * E) + 9 * τ) / (198 / 100 * E) := by
        rw [le_div_iff₀ (by positivity)]; exact h1
      refine h2.trans ?_
      have e : (81 / 10 * u * (E * E) + 9 * τ) / (198 / 100 * E)
          = 81 / 10 / (198 / 100) * (u * E) + 9 / (198 / 100) * (τ / E) := by field_simp
      rw [e]
      have h3 := mul_nonneg hu0 hE.le
      have h4 : 0 ≤ τ / E := (div_pos hτ hE).le
      have e2 : 31 * τ / E = 31 * (τ / E) := by ring
      rw [e2]
      generalize τ / E = q at *
      have e3 : 5 * u * E - u * E / 10 = 49 / 10 * (u * E) := by ring
      rw [e3]
      generalize u * E = w at *
      norm_num
      nlinarith only [h3, h4]
    · have h1 : |r - E| * E ≤ 81 / 10 * u * (E * E) + 9 * τ :=
        le_trans (mul_le_mul_of_nonneg_left (by linarith) (abs_nonneg _)) hfac
      have h2 : 81 / 10 * u * (E * E) ≤ τ := by
        have := mul_le_mul_of_nonneg_left hc hu0
        have := mul_le_mul_of_nonneg_right hu hτ.le
        nlinarith
      have h3 : |r - E| ≤ 31 * τ / E := by
        rw [le_div_iff₀ hE]; linarith
      have h4 := mul_nonneg hu0 hE.le
      nlinarith only [h3, h4]
  have h1 := abs_sub_le m r E
  have h2 : r ≤ E + |r - E| := by linarith [le_abs_self (r - E)]
  have h3 := mul_le_mul_of_nonneg_left h2 hu0
  have h4 := mul_le_mul_of_nonneg_right hu (abs_nonneg (r - E))
  have h5 := mul_nonneg hu0 hE.le
  have e : 32 * τ / E = 32 * (τ / E) := by ring
  have e2 : 31 * τ / E = 31 * (τ / E) := by ring
  have h6 : 0 ≤ τ / E := (div_pos hτ hE).le
  rw [e2] at hd
  rw [e]
  generalize τ / E = q at *
  have e3 : 5 * u * E - u * E / 10 = 49 / 10 * (u * E) := by ring
  have e4 : 6 * u * E = 6 * (u * E) := by ring
  rw [e3] at hd
  rw [e4]
  have h7 : u * (E + |r - E|) = u * E + u * |r - E| := by ring
  rw [h7] at h3
  have h8 : u * (u * E) ≤ 1 / 100000 * (u * E) := mul_le_mul_of_nonneg_right hu h5
  generalize u * E = w at *
  generalize |r - E| = D at *
  linarith only [h1, hm, h3, h4, hd, h5, h6]

theorem uR_small' : uR ≤ 1 / 100000 := by unfold uR; norm_num

theorem t_1070 : (2 : ℝ) ^ (-1070 : ℤ) = 32 * (2 : ℝ) ^ (-1075 : ℤ) := by
  rw [show (-1070 : ℤ) = 5 + -1075 by norm_num only, zpow_add₀ (by norm_num)]; norm_num only

/-- **C34, magnitude**, for every finite object: the result is infinite (and the exact sum of squares
then exceeds `2^1024 (1 - 9u)`), or it is within six units roundoff, plus `2^-1070` divided by the
length, of the length. -/
theorem C34_magnitude_total (t : Ty) (x : t.D F64) (hf : ∀ c ∈ comps t x, c.Finite)
    (hE : 0 < euclid t x) :
    (magnitudeTy t x = .inf false ∧
      (2 : ℝ) ^ 1024 * (1 - 9 * (2 : ℝ) ^ (-53 : ℤ)) < (sqSum t x : ℝ)) ∨
    ((magnitudeTy t x).Finite ∧
      |((magnitudeTy t x).value : ℝ) - euclid t x|
        ≤ 6 * (2 : ℝ) ^ (-53 : ℤ) * euclid t x + (2 : ℝ) ^ (-1070 : ℤ) / euclid t x) := by
  have hEE : euclid t x * euclid t x = (sqSum t x : ℝ) :=
    Real.mul_self_sqrt (Real.sqrt_pos.1 hE).le
  rcases magnitude_total t x hf with ⟨h1, -⟩ | ⟨h1, a, h0, -, h2, h3, h4⟩
  · refine Or.inl ⟨h1, ?_⟩
    by_contra hc
    have := (C34_overflow t x hf).1 (not_lt.1 hc)
    rw [h1] at this
    exact this
  · refine Or.inr ⟨h1, ?_⟩
    rw [t_1070]
    exact mag_root_total uR_nonneg uR_small' (F64.two_zpow_pos _) hE hEE h0 h3 h4 h2

/-! ## direction -/

theorem t_1069 : (2 : ℝ) ^ (-1069 : ℤ) = 2 * (2 : ℝ) ^ (-1070 : ℤ) := by
  rw [show (-1069 : ℤ) = 1 + -1070 by norm_num only, zpow_add₀ (by norm_num), zpow_one]

/-- The rounded reciprocal of a magnitude. -/
theorem recip_near {m : F64} (hmf : m.Finite) (hloq : (2 : ℚ) ^ (-538 : ℤ) ≤ m.value)
    (hupq : m.value ≤ (2 : ℚ) ^ (513 : ℤ)) :
    (1 / m).Finite ∧ |((1 / m).value : ℝ) - 1 / (m.value : ℝ)| ≤ uR * (1 / (m.value : ℝ)) := by
  have hq : 0 < m.value := lt_of_lt_of_le (F64.two_zpow_pos _) hloq
  have hi1 : 1 / m.value ≤ (2 : ℚ) ^ (538 : ℤ) := by
    rw [div_le_iff₀ hq]
    calc (1 : ℚ) = (2 : ℚ) ^ (538 : ℤ) * (2 : ℚ) ^ (-538 : ℤ) := by
          rw [← zpow_add₀ (by norm_num)]; norm_num only
      _ ≤ _ := mul_le_mul_of_nonneg_left hloq (F64.two_zpow_pos _).le
  have hi2 : (2 : ℚ) ^ (-513 : ℤ) ≤ 1 / m.value := by
    rw [le_div_iff₀ hq]
    calc _ ≤ (2 : ℚ) ^ (-513 : ℤ) * (2 : ℚ) ^ (513 : ℤ) :=
          mul_le_mul_of_nonneg_left hupq (F64.two_zpow_pos _).le
      _ = 1 := by rw [← zpow_add₀ (by norm_num)]; norm_num only
  have hi0 : 0 < 1 / m.value := lt_of_lt_of_le (F64.two_zpow_pos _) hi2
  have h1v : (1 : F64).value = 1 := F64.hasVal_one.2
  have hd := F64.div_spec F64.hasVal_one.1 hmf hq.ne' (by
    rw [h1v]
    apply F64.safe_lt
    rw [abs_of_pos hi0]
    refine hi1.trans ?_
    have : (2 : ℚ) ^ (538 : ℤ) ≤ F64.safe := by
      unfold F64.safe
      rw [← zpow_natCast]; exact zpow_le_zpow_right₀ (by norm_num) (by norm_num)
    have h0 := F64.one_le_safe
    generalize (2 : ℚ) ^ (538 : ℤ) = P at *
    linarith only [this, h0])
  rw [h1v] at hd
  have hrel := F64.rn_rel (K := ℚ) (x := 1 / m.value) (by
    rw [abs_of_pos hi0]
    exact (zpow_le_zpow_right₀ (by norm_num) (by norm_num)).trans hi2)
  rw [abs_of_pos hi0, Rat.cast_id, ← hd.2] at hrel
  refine ⟨hd.1, ?_⟩
  have h6 := (Rat.cast_le (K := ℝ)).2 hrel
  rw [Rat.cast_abs, Rat.cast_sub, Rat.cast_mul, cast_zpow, Rat.cast_div, Rat.cast_one] at h6
  exact h6

/-- Magnitude and its reciprocal for lengths of at least `2^-530`. -/
theorem recip_total {t : Ty} {x : t.D F64} (hf : ∀ c ∈ comps t x, c.Finite)
    (hS : (sqSum t x : ℝ) ≤ (2 : ℝ) ^ 1024 * (1 - 9 * (2 : ℝ) ^ (-53 : ℤ)))
    (hE : (2 : ℝ) ^ (-530 : ℤ) ≤ euclid t x) :
    directionTy t x = smulTy t (1 / magnitudeTy t x) x ∧ (1 / magnitudeTy t x).Finite ∧
    |((magnitudeTy t x).value : ℝ) - euclid t x|
      ≤ (6 * uR + (2 : ℝ) ^ (-1070 : ℤ) / (euclid t x * euclid t x)) * euclid t x ∧
    6 * uR + (2 : ℝ) ^ (-1070 : ℤ) / (euclid t x * euclid t x) ≤ 1 / 300 ∧
    |((1 / magnitudeTy t x).value : ℝ) - 1 / ((magnitudeTy t x).value : ℝ)|
      ≤ uR * (1 / ((magnitudeTy t x).value : ℝ)) := by
  have hEp : 0 < euclid t x := lt_of_lt_of_le (F64.two_zpow_pos _) hE
  obtain ⟨hmf, hm⟩ : (magnitudeTy t x).Finite ∧
      |((magnitudeTy t x).value : ℝ) - euclid t x|
        ≤ 6 * (2 : ℝ) ^ (-53 : ℤ) * euclid t x + (2 : ℝ) ^ (-1070 : ℤ) / euclid t x := by
    rcases C34_magnitude_total t x hf hEp with h | h
    · exact absurd h.2 (not_lt.2 hS)
    · exact h
  have hEu : euclid t x ≤ 2 ^ 512 := by
    refine Real.sqrt_le_iff.2 ⟨by positivity, ?_⟩
    rw [← pow_mul]
    refine hS.trans ?_
    have h1 : (0 : ℝ) ≤ (2 : ℝ) ^ 1024 := by positivity
    have h2 := uR_nonneg
    have h3 := mul_nonneg h1 h2
    change (2 : ℝ) ^ 1024 * (1 - 9 * uR) ≤ (2 : ℝ) ^ 1024
    generalize (2 : ℝ) ^ 1024 = P at *
    generalize uR = u at *
    linarith only [h3]
  have hδ : 6 * uR + (2 : ℝ) ^ (-1070 : ℤ) / (euclid t x * euclid t x) ≤ 1 / 300 := by
    have h1 : (2 : ℝ) ^ (-1070 : ℤ) / (euclid t x * euclid t x) ≤ (2 : ℝ) ^ (-10 : ℤ) := by
      rw [div_le_iff₀ (mul_pos hEp hEp)]
      calc (2 : ℝ) ^ (-1070 : ℤ) = (2 : ℝ) ^ (-10 : ℤ) * ((2 : ℝ) ^ (-530 : ℤ) * (2 : ℝ) ^ (-530 : ℤ)) := by
            rw [← zpow_add₀ (by norm_num), ← zpow_add₀ (by norm_num)]; norm_num only
        _ ≤ _ := mul_le_mul_of_nonneg_left (mul_self_le_mul_self (F64.two_zpow_pos _).le hE)
            (F64.two_zpow_pos _).le
    have h2 := uR_small'
    have h3 : (2 : ℝ) ^ (-10 : ℤ) = 1 / 1024 := by norm_num
    rw [h3] at h1
    generalize uR = u at *
    generalize (2 : ℝ) ^ (-1070 : ℤ) / (euclid t x * euclid t x) = q at *
    linarith only [h1, h2]
  have hm' : |((magnitudeTy t x).value : ℝ) - euclid t x|
      ≤ (6 * uR + (2 : ℝ) ^ (-1070 : ℤ) / (euclid t x * euclid t x)) * euclid t x := by
    have e : (2 : ℝ) ^ (-1070 : ℤ) / (euclid t x * euclid t x) * euclid t x
        = (2 : ℝ) ^ (-1070 : ℤ) / euclid t x := by
      rw [div_mul_eq_mul_div, mul_div_mul_right _ _ hEp.ne']
    rw [add_mul, e]
    exact hm
  have hb := abs_le.1 (hm'.trans (mul_le_mul_of_nonneg_right hδ hEp.le))
  have hlo : (2 : ℝ) ^ (-531 : ℤ) ≤ ((magnitudeTy t x).value : ℝ) := by
    have e : (2 : ℝ) ^ (-530 : ℤ) = 2 * (2 : ℝ) ^ (-531 : ℤ) := by
      rw [show (-530 : ℤ) = 1 + -531 from by norm_num only, zpow_add₀ (by norm_num), zpow_one]
    rw [e] at hE
    have h1 := hb.1
    generalize (2 : ℝ) ^ (-531 : ℤ) = P at *
    generalize euclid t x = E at *
    linarith only [h1, hE, hEp]
  have hup : ((magnitudeTy t x).value : ℝ) ≤ (2 : ℝ) ^ (513 : ℤ) := by
    have e : (2 : ℝ) ^ (513 : ℤ) = 2 * 2 ^ 512 := by
      rw [show (513 : ℤ) = 1 + 512 from by norm_num only, zpow_add₀ (by norm_num), zpow_one,
        show (512 : ℤ) = ((512 : ℕ) : ℤ) from rfl, zpow_natCast]
    rw [e]
    have h1 := hb.2
    generalize (2 : ℝ) ^ 512 = P at *
    generalize euclid t x = E at *
    linarith only [h1, hEu, hEp]
  have hloq : (2 : ℚ) ^ (-531 : ℤ) ≤ (magnitudeTy t x).value := by
    rw [← cast_zpow] at hlo; exact Rat.cast_le.1 hlo
  have hupq : (magnitudeTy t x).value ≤ (2 : ℚ) ^ (513 : ℤ) := by
    rw [← cast_zpow] at hup; exact Rat.cast_le.1 hup
  obtain ⟨g1, g2⟩ := recip_near hmf
    ((zpow_le_zpow_right₀ (by norm_num) (by norm_num)).trans hloq) hupq
  refine ⟨?_, g1, hm', hδ, g2⟩
  unfold directionTy pairMagDirTy
  simp only []
  rw [if_pos]
  rw [F64.denormMin_val.flt (HasVal.of hmf), decide_eq_true_iff]
  exact lt_of_lt_of_le (zpow_lt_zpow_right₀ (by norm_num) (by norm_num)) hloq

/-- **C34, direction.**  For every finite object of length at least `2^-530` whose sum of squares does
not overflow, the components of the direction are those of the argument, in the same order, each one
mapped to a finite number within nine units roundoff, plus `2^-1069` divided by the squared length,
of the exact quotient. -/
theorem C34_direction_total (t : Ty) (x : t.D F64) (hf : ∀ c ∈ comps t x, c.Finite)
    (hS : (sqSum t x : ℝ) ≤ (2 : ℝ) ^ 1024 * (1 - 9 * (2 : ℝ) ^ (-53 : ℤ)))
    (hE : (2 : ℝ) ^ (-530 : ℤ) ≤ euclid t x) :
    ∃ f : F64 → F64, comps t (directionTy t x) = (comps t x).map f ∧
      ∀ c ∈ comps t x, (f c).Finite ∧
        |((f c).value : ℝ) - (c.value : ℝ) / euclid t x|
          ≤ (9 * (2 : ℝ) ^ (-53 : ℤ) + (2 : ℝ) ^ (-1069 : ℤ) / (euclid t x * euclid t x))
              * |(c.value : ℝ) / euclid t x| + (2 : ℝ) ^ (-1075 : ℤ) := by
  have hEp : 0 < euclid t x := lt_of_lt_of_le (F64.two_zpow_pos _) hE
  obtain ⟨hdir, hrf, hm, hδ, hr⟩ := recip_total hf hS hE
  refine ⟨(1 / magnitudeTy t x * ·), ?_, fun c hc => ?_⟩
  · rw [hdir, comps_smul]
  have hcE : |(c.value : ℝ) / euclid t x| ≤ 1 := by
    rw [abs_div, abs_of_pos hEp, div_le_one hEp]
    apply Real.abs_le_sqrt
    have := (Rat.cast_le (K := ℝ)).2 (list_le_sum (comps t x) hc)
    rw [Rat.cast_mul, ← pow_two] at this
    exact this
  have hq0 : 0 ≤ (2 : ℝ) ^ (-1070 : ℤ) / (euclid t x * euclid t x) :=
    div_nonneg (F64.two_zpow_pos _).le (mul_pos hEp hEp).le
  have e69 : (2 : ℝ) ^ (-1069 : ℤ) / (euclid t x * euclid t x)
      = 2 * ((2 : ℝ) ^ (-1070 : ℤ) / (euclid t x * euclid t x)) := by rw [t_1069, mul_div_assoc]
  rw [e69]
  generalize (2 : ℝ) ^ (-1070 : ℤ) / (euclid t x * euclid t x) = q at *
  have hδ0 : 0 ≤ 6 * uR + q := add_nonneg (mul_nonneg (by norm_num) uR_nonneg) hq0
  generalize 1 / magnitudeTy t x = r at *
  have h0 := dir_near (y := (c.value : ℝ)) (d := (r.value : ℝ) * c.value) (η := 0) uR_nonneg uR_small
    hδ0 hδ hEp hm hr (by
      rw [sub_self, abs_zero, add_zero]
      exact mul_nonneg uR_nonneg (abs_nonneg _))
  have hprod : |r.value * c.value| ≤ 2 := by
    have h1 : |(r.value : ℝ) * c.value| ≤ 2 := by
      have h2 := abs_sub_abs_le_abs_sub ((r.value : ℝ) * c.value) (c.value / euclid t x)
      have h3 : (21 / 20 * (6 * uR + q) + 21 / 10 * uR)
          * |(c.value : ℝ) / euclid t x| ≤ 1 * 1 := by
        refine mul_le_mul ?_ hcE (abs_nonneg _) zero_le_one
        have := uR_small
        generalize uR = u at *
        linarith only [hδ, this]
      linarith only [h0, h2, h3, hcE]
    exact_mod_cast h1
  have hsp := F64.mul_spec hrf (hf c hc) (F64.safe_lt (hprod.trans (by
    have h0 := F64.one_le_safe
    linarith only [h0])))
  refine ⟨hsp.1, ?_⟩
  have h6 := (Rat.cast_le (K := ℝ)).2 (F64.rn_err (r.value * c.value))
  rw [← hsp.2, Rat.cast_abs, Rat.cast_sub, Rat.cast_add, Rat.cast_mul, Rat.cast_mul, cast_zpow,
    cast_zpow, Rat.cast_abs, Rat.cast_mul] at h6
  have h7 := dir_near uR_nonneg uR_small hδ0 hδ hEp hm hr h6
  refine h7.trans (add_le_add_left (mul_le_mul_of_nonneg_right ?_ (abs_nonneg _)) _)
  have h10 := uR_nonneg
  change _ ≤ 9 * uR + _
  generalize uR = u at *
  linarith only [hq0, h10]

/-- **C34, direction.**  It then has unit length up to rounding and the underflow of the squares. -/
theorem C34_unit_total (t : Ty) (x : t.D F64) (hf : ∀ c ∈ comps t x, c.Finite)
    (hS : (sqSum t x : ℝ) ≤ (2 : ℝ) ^ 1024 * (1 - 9 * (2 : ℝ) ^ (-53 : ℤ)))
    (hE : (2 : ℝ) ^ (-530 : ℤ) ≤ euclid t x) :
    |((sqSum t (directionTy t x) : ℚ) : ℝ) - 1|
      ≤ 19 * (2 : ℝ) ^ (-53 : ℤ) + (2 : ℝ) ^ (-1067 : ℤ) / (euclid t x * euclid t x) := by
  obtain ⟨f, hff, hd⟩ := C34_direction_total t x hf hS hE
  have hEp : 0 < euclid t x := lt_of_lt_of_le (F64.two_zpow_pos _) hE
  have hS0 : 0 < (sqSum t x : ℝ) := Real.sqrt_pos.1 hEp
  have hEE : euclid t x * euclid t x = (sqSum t x : ℝ) := Real.mul_self_sqrt hS0.le
  have hη : (2 : ℝ) ^ (-1075 : ℤ) ≤ 1 / 100 * uR := by
    unfold uR
    rw [show (-1075 : ℤ) = -1022 + -53 from by norm_num only, zpow_add₀ (by norm_num)]
    refine mul_le_mul_of_nonneg_right ?_ uR_nonneg
    calc (2 : ℝ) ^ (-1022 : ℤ) ≤ (2 : ℝ) ^ (-7 : ℤ) :=
          zpow_le_zpow_right₀ (by norm_num) (by norm_num)
      _ ≤ _ := by norm_num
  have hη0 : 0 ≤ (2 : ℝ) ^ (-1075 : ℤ) := (F64.two_zpow_pos _).le
  obtain ⟨q, hq⟩ : ∃ q, q = (2 : ℝ) ^ (-1069 : ℤ) / (euclid t x * euclid t x) := ⟨_, rfl⟩
  have hq0 : 0 ≤ q := hq ▸ div_nonneg (F64.two_zpow_pos _).le (mul_pos hEp hEp).le
  have hq1 : q ≤ 1 / 512 := by
    rw [hq, div_le_iff₀ (mul_pos hEp hEp)]
    calc (2 : ℝ) ^ (-1069 : ℤ) = (2 : ℝ) ^ (-9 : ℤ) * ((2 : ℝ) ^ (-530 : ℤ) * (2 : ℝ) ^ (-530 : ℤ)) := by
          rw [← zpow_add₀ (by norm_num), ← zpow_add₀ (by norm_num)]; norm_num only
      _ ≤ _ := by
          refine mul_le_mul (by norm_num) (mul_self_le_mul_self (F64.two_zpow_pos _).le hE) ?_ (by norm_num)
          exact mul_nonneg (F64.two_zpow_pos _).le (F64.two_zpow_pos _).le
  have h67 : (2 : ℝ) ^ (-1067 : ℤ) / (euclid t x * euclid t x) = 4 * q := by
    rw [hq, show (-1067 : ℤ) = 2 + -1069 from by norm_num only, zpow_add₀ (by norm_num), mul_div_assoc]
    norm_num only
  rw [← hq] at hd
  have hu2 := uR_small'
  have hu0 := uR_nonneg
  change ∀ c ∈ comps t x, (f c).Finite ∧ _ ≤ (9 * uR + _) * _ + _ at hd
  change _ ≤ 19 * uR + _
  rw [h67]
  have key := sum_est (comps t x) f (euclid t x)
    (201 / 100 * (9 * uR + q)) (3 * (2 : ℝ) ^ (-1075 : ℤ))
    (fun c hc => by
      refine sq_near ?_ ?_ hη0 ?_ ?_ (hd c hc).2
      · generalize uR = u at *
        linarith only [hu0, hq0]
      · generalize uR = u at *
        linarith only [hu2, hq1]
      · generalize (2 : ℝ) ^ (-1075 : ℤ) = P at *
        generalize uR = u at *
        linarith only [hη, hu2]
      · rw [abs_div, abs_of_pos hEp, div_le_one hEp]
        apply Real.abs_le_sqrt
        have := (Rat.cast_le (K := ℝ)).2 (list_le_sum (comps t x) hc)
        rw [Rat.cast_mul, ← pow_two] at this
        exact this)
  rw [← hff] at key
  change |((sqSum t (directionTy t x) : ℚ) : ℝ) - (sqSum t x : ℝ) / _| ≤ _ * ((sqSum t x : ℝ) / _)
    + _ at key
  rw [hEE, div_self hS0.ne', mul_one] at key
  refine key.trans ?_
  have hn : ((comps t x).length : ℝ) ≤ 8 := by exact_mod_cast comps_length t x
  have h2 : ((comps t x).length : ℝ) * (3 * (2 : ℝ) ^ (-1075 : ℤ)) ≤ 8 * (3 * (2 : ℝ) ^ (-1075 : ℤ)) :=
    mul_le_mul_of_nonneg_right hn (by positivity)
  clear hq h67
  generalize (2 : ℝ) ^ (-1075 : ℤ) = P at *
  generalize uR = u at *
  linarith only [h2, hη, hq0, hu0]

end Engabra
