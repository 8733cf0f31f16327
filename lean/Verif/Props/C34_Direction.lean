import Verif.Lemmas.Approx
import Verif.Props.C27_Reject
import Mathlib.Tactic.FinCases

/-! # C34: magnitude and direction in binary64

Outside a central range of sizes `direction` loses valid non-zero arguments: it returns null when
all squares underflow and zero when one overflows.  Inside that range magnitude and direction
are accurate to a few units roundoff. -/

namespace Engabra

open F64 (Finite HasVal uro tinyErr NN)

/-- The components of a scaled object. -/
theorem comps_smul {α : Type} [Add α] [Sub α] [Mul α] [Neg α] [Zero α] (t : Ty) (s : α)
    (x : t.D α) : comps t (smulTy t s x) = (comps t x).map (s * ·) := by
  cases t <;> simp only [comps, engabra, List.map_cons, List.map_nil]

namespace F64

theorem zero_add_zero : (0 : F64) + 0 = 0 := by
  rw [zero_def, add_def]; simp [add, addFin, value, signbit]

theorem nn_zero : NN (0 : F64) := Or.inr (Or.inl rfl)

theorem denormMin_val : HasVal (Dbl.denormMin F64) ((2 : ℚ) ^ (-1074 : ℤ)) := by
  apply lit_pow (by norm_num) (by norm_num)
  rw [zpow_neg, one_div]; rfl

/-- Squares of tiny components all vanish. -/
theorem magSq_underflow (t : Ty) (x : t.D F64)
    (h : ∀ c ∈ comps t x, c.Finite ∧ |c.value| ≤ (2 : ℚ) ^ (-538 : ℤ)) : magSqTy t x = 0 := by
  have hs : ∀ c ∈ comps t x, c * c = 0 := fun c hc => sq_underflow (h c hc).1 (h c hc).2
  cases t <;> simp only [comps, List.forall_mem_cons, List.not_mem_nil, false_imp_iff,
    implies_true, and_true] at hs <;> simp only [engabra, hs, zero_add_zero]

/-- One huge component makes the squared magnitude infinite. -/
theorem magSq_overflow (t : Ty) (x : t.D F64) (hf : ∀ c ∈ comps t x, c.Finite)
    (h : ∃ c ∈ comps t x, (2 : ℚ) ^ 512 ≤ |c.value|) : magSqTy t x = inf false := by
  have hn : ∀ c ∈ comps t x, NN (c * c) := fun c hc => nn_sq (finite_ne_nan (hf c hc))
  have hb : ∃ c ∈ comps t x, c * c = inf false := by
    obtain ⟨c, hc, hb⟩ := h
    exact ⟨c, hc, sq_overflow (hf c hc) hb⟩
  cases t <;>
    simp only [comps, List.forall_mem_cons, List.not_mem_nil, false_imp_iff, implies_true,
      and_true, List.exists_mem_cons_iff, false_and, exists_false, or_false] at hn hb <;>
    (try casesm* _ ∧ _) <;> (try casesm* _ ∨ _) <;>
    simp (maxDischargeDepth := 20) only [engabra, nn_add_inf, inf_add_nn, nn_add, nn_zero, *]

theorem Fits.cast {c : F64} {q A q' A' : ℚ} {n : ℕ} (h : Fits c q A n) (hn : n ≤ 8) (hq : q = q')
    (hA : A = A') : Fits c q' A' 8 := by
  subst hq hA
  exact ⟨h.1.mono hn, fun _ => h.2 hn⟩

/-- Prove a `Fits` goal with unknown value, absolute sum and depth. -/
macro "fits_sq" : tactic => `(tactic| repeat' first
  | with_reducible assumption
  | with_reducible exact F64.Fits.zero
  | with_reducible apply F64.Fits.add
  | with_reducible apply F64.Fits.mul)

end F64

/-- Specification: the exact sum of the squares of the components. -/
def sqSum (t : Ty) (x : t.D F64) : ℚ := ((comps t x).map fun c => c.value * c.value).sum

theorem magSq_fits (t : Ty) (x : t.D F64) (hf : ∀ c ∈ comps t x, c.Finite) :
    F64.Fits (magSqTy t x) (sqSum t x) (sqSum t x) 8 := by
  unfold sqSum
  cases t <;>
    simp only [comps, List.forall_mem_cons, List.not_mem_nil, false_imp_iff, implies_true,
      and_true] at hf <;> (try casesm* _ ∧ _) <;>
    simp only [engabra, comps, List.map_cons, List.map_nil, List.sum_cons, List.sum_nil]
  all_goals
    refine F64.Fits.cast (by fits_sq) (by decide) ?_ ?_
    · ring
    · simp only [abs_mul_abs_self]; ring

/-! ## Loss of valid arguments -/

/-- **C34 is violated** for small arguments, of every type: when no component exceeds `2^-538`
(about `1e-162`) the magnitude is zero and the direction is null. -/
theorem C34_fails_underflow (t : Ty) (x : t.D F64)
    (h : ∀ c ∈ comps t x, c.Finite ∧ |c.value| ≤ (2 : ℚ) ^ (-538 : ℤ)) :
    magnitudeTy t x = 0 ∧ directionTy t x = gnullTy Dbl.nan t := by
  have hm : magnitudeTy t x = 0 := by
    unfold magnitudeTy
    rw [F64.magSq_underflow t x h]; rfl
  refine ⟨hm, ?_⟩
  unfold directionTy pairMagDirTy
  simp only [hm]
  rw [if_neg]
  rw [F64.denormMin_val.flt F64.hasVal_zero']
  rw [decide_eq_true_iff, not_lt]
  exact (F64.two_zpow_pos _).le

/-- **C34 is violated** for large arguments, of every type: when some component is at least `2^512`
(about `1.3e154`) the magnitude is infinite and every component of the direction is zero. -/
theorem C34_fails_overflow (t : Ty) (x : t.D F64) (hf : ∀ c ∈ comps t x, c.Finite)
    (h : ∃ c ∈ comps t x, (2 : ℚ) ^ 512 ≤ |c.value|) :
    magnitudeTy t x = .inf false ∧ ∀ d ∈ comps t (directionTy t x), d.Finite ∧ d.value = 0 := by
  have hm : magnitudeTy t x = .inf false := by
    unfold magnitudeTy
    rw [F64.magSq_overflow t x hf h]; rfl
  refine ⟨hm, ?_⟩
  unfold directionTy pairMagDirTy
  simp only [hm]
  have hlt : Dbl.lt (Dbl.denormMin F64) (.inf false) = true := by
    have h1 := F64.denormMin_val.1
    generalize Dbl.denormMin F64 = d at h1
    cases d <;> first | rfl | exact absurd h1 id
  rw [if_pos hlt, comps_smul]
  intro d hd
  obtain ⟨c, hc, rfl⟩ := List.mem_map.1 hd
  have h1 : (1 : F64) / .inf false = .zero (xor (1 : F64).signbit false) := by
    rw [F64.one_eq]; rfl
  rw [h1]
  exact (F64.hasVal_zero _).zero_mul (F64.HasVal.of (hf c hc))

/-! ## Accuracy in the central range -/

namespace F64
variable {K : Type} [Field K] [LinearOrder K] [IsStrictOrderedRing K] [FloorRing K]

/-- Relative error of a rounding in the normal range. -/
theorem rn_rel {x : K} (h : (2 : K) ^ (-1022 : ℤ) ≤ |x|) :
    |(rnVal x : K) - x| ≤ (2 : K) ^ (-53 : ℤ) * |x| := by
  refine (rnVal_err_rel x).trans (max_le le_rfl ?_)
  rw [show (-1075 : ℤ) = -53 + -1022 from by norm_num only, zpow_add₀ (by norm_num)]
  exact mul_le_mul_of_nonneg_left h (two_zpow_pos _).le

theorem safe_lt_real {x : ℝ} (h : |x| ≤ 2 ^ 1022) : |rnVal x| < 2 ^ 1024 := by
  have hr := rep_pow ((1022 : ℕ) : ℤ) (by norm_num)
  rw [zpow_natCast] at hr
  rw [← rnVal_abs]
  have h3 := rnVal_le_rep (K := ℝ) hr (x := |x|) (by rw [Rat.cast_pow, Rat.cast_ofNat]; exact h)
  exact lt_of_le_of_lt h3 (pow_lt_pow_right₀ (by norm_num) (by norm_num))

theorem sqrt_spec {s : F64} (hs : s.Finite) (h0 : 0 < s.value) (h1 : √(s.value : ℝ) ≤ 2 ^ 1022) :
    (Dbl.sqrt s).Finite ∧ (Dbl.sqrt s).value = rnVal (√(s.value : ℝ)) := by
  cases s with
  | nan => exact absurd hs id
  | inf _ => exact absurd hs id
  | zero _ => exact absurd h0 (lt_irrefl _)
  | fin v hv =>
    have e : (Dbl.sqrt (fin v hv) : F64) = roundTo (√(v : ℝ)) := by
      rw [sqrt_def]; exact if_neg (not_lt.2 (le_of_lt h0))
    rw [e]
    refine roundTo_value (safe_lt_real ?_)
    rw [abs_of_nonneg (Real.sqrt_nonneg _)]
    exact h1

theorem div_spec {x y : F64} (hx : x.Finite) (hy : y.Finite) (h0 : y.value ≠ 0)
    (hb : |rnVal (x.value / y.value)| < 2 ^ 1024) :
    (x / y).Finite ∧ (x / y).value = rnVal (x.value / y.value) := by
  rw [div_def]
  cases y with
  | nan => exact absurd hy id
  | inf _ => exact absurd hy id
  | zero _ => exact absurd rfl h0
  | fin w hw =>
    cases x with
    | nan => exact absurd hx id
    | inf _ => exact absurd hx id
    | zero s =>
      refine ⟨trivial, ?_⟩
      simp [F64.div, value, rnVal_zero]
    | fin v hv => exact roundTo_value hb

end F64

/-! ### Real estimates -/

section
variable {S s m r x d u η : ℝ}

theorem sqrt_est (hu0 : 0 ≤ u) (hu : u ≤ 1 / 1000) (hS : 0 < S) (h : |s - S| ≤ 81 / 10 * u * S) :
    |√s - √S| ≤ 41 / 10 * u * √S := by
  have hSs : 0 < √S := Real.sqrt_pos.2 hS
  have hSq : √S * √S = S := Real.mul_self_sqrt hS.le
  have h2 := abs_le.1 h
  have hs : 0 ≤ s := by nlinarith
  have hsq : √s * √s = s := Real.mul_self_sqrt hs
  have h0 : 0 ≤ √s := Real.sqrt_nonneg s
  rw [abs_le]
  constructor
  · by_contra hc
    rw [not_le] at hc
    have hc' : √s < √S * (1 - 41 / 10 * u) := by linarith
    have : √s * √s < (√S * (1 - 41 / 10 * u)) * (√S * (1 - 41 / 10 * u)) :=
      mul_self_lt_mul_self h0 hc'
    have e : (√S * (1 - 41 / 10 * u)) * (√S * (1 - 41 / 10 * u))
        = S * (1 - 82 / 10 * u + 1681 / 100 * (u * u)) := by
      conv_rhs => rw [← hSq]
      generalize √S = z at *; ring
    rw [hsq, e] at this
    have hk : 1681 / 100 * (u * u) ≤ 1 / 10 * u := by nlinarith
    have := mul_le_mul_of_nonneg_left hk hS.le
    nlinarith
  · by_contra hc
    rw [not_le] at hc
    have hc' : √S * (1 + 41 / 10 * u) < √s := by linarith
    have : (√S * (1 + 41 / 10 * u)) * (√S * (1 + 41 / 10 * u)) < √s * √s :=
      mul_self_lt_mul_self (by positivity) hc'
    have e : (√S * (1 + 41 / 10 * u)) * (√S * (1 + 41 / 10 * u))
        = S * (1 + 82 / 10 * u + 1681 / 100 * (u * u)) := by
      conv_rhs => rw [← hSq]
      generalize √S = z at *; ring
    rw [hsq, e] at this
    have hk : 0 ≤ S * (u * u) := by positivity
    have hk2 : 0 ≤ S * u := by positivity
    nlinarith

theorem mag_est (hu0 : 0 ≤ u) (hu : u ≤ 1 / 1000) (hS : 0 < S) (h : |s - S| ≤ 81 / 10 * u * S)
    (hm : |m - √s| ≤ u * √s) : |m - √S| ≤ 52 / 10 * u * √S := by
  have h1 := sqrt_est hu0 hu hS h
  have hSs : 0 < √S := Real.sqrt_pos.2 hS
  have h2 := abs_le.1 h1
  have h3 : √s ≤ 11 / 10 * √S := by nlinarith
  have h4 : |m - √S| ≤ |m - √s| + |√s - √S| := abs_sub_le _ _ _
  have h5 := mul_le_mul_of_nonneg_left h3 hu0
  linarith

theorem dir_est (hu0 : 0 ≤ u) (hu : u ≤ 1 / 1000) (hS : 0 < S)
    (hm : |m - √S| ≤ 52 / 10 * u * √S) (hr : |r - 1 / m| ≤ u * (1 / m))
    (hd : |d - r * x| ≤ u * |r * x| + η) :
    |d - x / √S| ≤ 8 * u * |x / √S| + η := by
  have hSs : 0 < √S := Real.sqrt_pos.2 hS
  have hm2 := abs_le.1 hm
  have hk : u * √S ≤ 1 / 1000 * √S := mul_le_mul_of_nonneg_right hu hSs.le
  have hk0 : 0 ≤ u * √S := mul_nonneg hu0 hSs.le
  have hmpos : 0 < m := by linarith
  -- `ρ = r √S` is close to one
  have hρ : |r * √S - 1| ≤ 65 / 10 * u := by
    have e : r * √S - 1 = (r - 1 / m) * √S + (√S - m) / m := by field_simp; ring
    have h1 : |(r - 1 / m) * √S| ≤ u * (1 / m) * √S := by
      rw [abs_mul, abs_of_pos hSs]; exact mul_le_mul_of_nonneg_right hr hSs.le
    have h2 : |(√S - m) / m| ≤ 52 / 10 * u * √S / m := by
      rw [abs_div, abs_of_pos hmpos, abs_sub_comm]
      exact div_le_div_of_nonneg_right hm hmpos.le
    have h3 : √S / m ≤ 101 / 100 := by
      rw [div_le_iff₀ hmpos]; linarith
    have h4 : u * (1 / m) * √S = u * (√S / m) := by ring
    have h5 : 52 / 10 * u * √S / m = 52 / 10 * (u * (√S / m)) := by ring
    have h6 := mul_le_mul_of_nonneg_left h3 hu0
    rw [e]
    refine (abs_add_le _ _).trans ?_
    rw [h4] at h1; rw [h5] at h2
    linarith
  have hy : r * x = (r * √S) * (x / √S) := by field_simp
  rw [hy] at hd
  generalize x / √S = y at *
  generalize r * √S = ρ at *
  have hρ2 : |ρ| ≤ 101 / 100 := by
    have := abs_le.1 hρ
    rw [abs_le]; constructor <;> linarith
  have t1 : |ρ * y| ≤ 101 / 100 * |y| := by
    rw [abs_mul]; exact mul_le_mul_of_nonneg_right hρ2 (abs_nonneg y)
  have t2 : |ρ * y - y| ≤ 65 / 10 * u * |y| := by
    have e : ρ * y - y = (ρ - 1) * y := by ring
    rw [e, abs_mul]; exact mul_le_mul_of_nonneg_right hρ (abs_nonneg y)
  have t3 : |d - y| ≤ |d - ρ * y| + |ρ * y - y| := abs_sub_le _ _ _
  have t4 := mul_le_mul_of_nonneg_left t1 hu0
  have t5 : 0 ≤ u * |y| := mul_nonneg hu0 (abs_nonneg y)
  linarith

theorem sq_est {y : ℝ} (hu0 : 0 ≤ u) (hu : u ≤ 1 / 1000) (hη0 : 0 ≤ η) (hη : η ≤ 1 / 100)
    (hy : |y| ≤ 1) (hd : |d - y| ≤ 8 * u * |y| + η) :
    |d * d - y * y| ≤ 161 / 10 * u * (y * y) + 3 * η := by
  have e : d * d - y * y = (d - y) * ((d - y) + 2 * y) := by ring
  have h1 : |(d - y) + 2 * y| ≤ (8 * u * |y| + η) + 2 * |y| := by
    refine (abs_add_le _ _).trans ?_
    rw [abs_mul, abs_two]; linarith
  have h0 : 0 ≤ |y| := abs_nonneg y
  rw [e, abs_mul]
  refine (mul_le_mul hd h1 (abs_nonneg _) (by positivity)).trans ?_
  rw [← abs_mul_abs_self y]
  generalize |y| = a at *
  have k1 : (u * a) * (u * a) ≤ 1 / 1000 * (u * (a * a)) := by
    have : 0 ≤ u * (a * a) := by positivity
    nlinarith
  have k2 : u * a ≤ 1 / 1000 := by nlinarith
  have k3 : η * (u * a) ≤ η * (1 / 1000) := mul_le_mul_of_nonneg_left k2 hη0
  have k4 : η * a ≤ η * 1 := mul_le_mul_of_nonneg_left hy hη0
  have k5 : η * η ≤ η * (1 / 100) := mul_le_mul_of_nonneg_left hη hη0
  have k6 : 0 ≤ u * (a * a) := by positivity
  nlinarith
end

/-- The central range: all components finite and at most `2^500` (about `3e150`) in absolute
value, and some component at least `2^-500`. -/
def Central (t : Ty) (x : t.D F64) : Prop :=
  (∀ c ∈ comps t x, c.Finite ∧ |c.value| ≤ (2 : ℚ) ^ (500 : ℤ)) ∧
  ∃ c ∈ comps t x, (2 : ℚ) ^ (-500 : ℤ) ≤ |c.value|

theorem comps_length (t : Ty) (x : t.D F64) : (comps t x).length ≤ 8 := by
  cases t <;> simp [comps]

theorem list_sum_le (l : List F64) (B : ℚ) (h : ∀ c ∈ l, c.value * c.value ≤ B) :
    (l.map fun c => c.value * c.value).sum ≤ l.length * B := by
  induction l with
  | nil => simp
  | cons a l ih =>
    rw [List.map_cons, List.sum_cons, List.length_cons]
    have h1 := h a (by simp)
    have h2 := ih fun c hc => h c (by simp [hc])
    push_cast
    linarith

theorem list_le_sum (l : List F64) {c : F64} (hc : c ∈ l) :
    c.value * c.value ≤ (l.map fun c => c.value * c.value).sum := by
  induction l with
  | nil => simp at hc
  | cons a l ih =>
    rw [List.map_cons, List.sum_cons]
    have hn : 0 ≤ (l.map fun c => c.value * c.value).sum :=
      List.sum_nonneg fun q hq => by
        obtain ⟨c, -, rfl⟩ := List.mem_map.1 hq
        exact mul_self_nonneg _
    rcases List.mem_cons.1 hc with rfl | hc
    · linarith
    · have := ih hc
      have := mul_self_nonneg a.value
      linarith

theorem central_sqSum {t : Ty} {x : t.D F64} (h : Central t x) :
    (2 : ℚ) ^ (-1000 : ℤ) ≤ sqSum t x ∧ sqSum t x ≤ (2 : ℚ) ^ (1003 : ℤ) := by
  constructor
  · obtain ⟨c, hc, hb⟩ := h.2
    refine le_trans ?_ (list_le_sum _ hc)
    rw [show (-1000 : ℤ) = -500 + -500 from by norm_num only, zpow_add₀ (by norm_num),
      ← abs_mul_abs_self c.value]
    exact mul_le_mul hb hb (F64.two_zpow_pos _).le (abs_nonneg _)
  · refine (list_sum_le (comps t x) ((2 : ℚ) ^ (1000 : ℤ)) fun c hc => ?_).trans ?_
    · rw [show (1000 : ℤ) = 500 + 500 from by norm_num only, zpow_add₀ (by norm_num),
        ← abs_mul_abs_self]
      exact mul_le_mul (h.1 c hc).2 (h.1 c hc).2 (abs_nonneg _) (F64.two_zpow_pos _).le
    · rw [show (1003 : ℤ) = 3 + 1000 from by norm_num only, zpow_add₀ (by norm_num)]
      refine mul_le_mul_of_nonneg_right ?_ (F64.two_zpow_pos _).le
      have := comps_length t x
      have h8 : ((comps t x).length : ℚ) ≤ 8 := by exact_mod_cast this
      refine h8.trans (by norm_num)

/-- Specification: the exact Euclidean norm of the components. -/
noncomputable def euclid (t : Ty) (x : t.D F64) : ℝ := √(sqSum t x : ℝ)

/-- unit roundoff, as a real -/
noncomputable abbrev uR : ℝ := (2 : ℝ) ^ (-53 : ℤ)

theorem uR_small : uR ≤ 1 / 1000 := by unfold uR; norm_num
theorem uR_nonneg : 0 ≤ uR := (F64.two_zpow_pos _).le

/-- Computed squared magnitude. -/
theorem magSq_est {t : Ty} {x : t.D F64} (h : Central t x) :
    (magSqTy t x).Finite ∧
    |((magSqTy t x).value : ℝ) - (sqSum t x : ℝ)| ≤ 81 / 10 * uR * (sqSum t x : ℝ) := by
  obtain ⟨h1, h2⟩ := central_sqSum h
  have hF := magSq_fits t x fun c hc => (h.1 c hc).1
  have hfin : (magSqTy t x).Finite := hF.2 le_rfl (h2.trans (by
    unfold F64.safe
    rw [← zpow_natCast]
    exact zpow_le_zpow_right₀ (by norm_num) (by norm_num)))
  refine ⟨hfin, ?_⟩
  have h3 := hF.1.2 hfin
  have hu : (1 + uro) ^ 8 - 1 ≤ 801 / 100 * uro := by unfold uro; norm_num
  have ht : 4 ^ 8 * tinyErr ≤ 9 / 100 * uro * sqSum t x := by
    have e : (4 : ℚ) ^ 8 * tinyErr = 2 ^ (-6 : ℤ) * uro * 2 ^ (-1000 : ℤ) := by
      unfold tinyErr uro
      rw [show (4 : ℚ) ^ 8 = 2 ^ (16 : ℤ) from by norm_num, ← zpow_add₀ (by norm_num),
        ← zpow_add₀ (by norm_num), ← zpow_add₀ (by norm_num)]
      norm_num only
    rw [e]
    refine mul_le_mul ?_ h1 (F64.two_zpow_pos _).le (mul_nonneg (by norm_num) F64.uro_pos.le)
    exact mul_le_mul_of_nonneg_right (by norm_num) F64.uro_pos.le
  have hS : 0 ≤ sqSum t x := (F64.two_zpow_pos _).le.trans h1
  have h4 := mul_le_mul_of_nonneg_right hu hS
  have h5 : |(magSqTy t x).value - sqSum t x| ≤ 81 / 10 * uro * sqSum t x := by
    generalize sqSum t x = S at *
    generalize uro = u at *
    linarith
  have h6 : ((|(magSqTy t x).value - sqSum t x| : ℚ) : ℝ)
      ≤ ((81 / 10 * uro * sqSum t x : ℚ) : ℝ) := Rat.cast_le.2 h5
  have e : ((uro : ℚ) : ℝ) = uR := by unfold uro uR; rw [Rat.cast_zpow, Rat.cast_ofNat]
  rw [Rat.cast_abs, Rat.cast_sub, Rat.cast_mul, Rat.cast_mul, e] at h6
  refine h6.trans (le_of_eq ?_)
  norm_num

theorem cast_zpow (e : ℤ) : (((2 : ℚ) ^ e : ℚ) : ℝ) = (2 : ℝ) ^ e := by
  rw [Rat.cast_zpow, Rat.cast_ofNat]

theorem central_real {t : Ty} {x : t.D F64} (h : Central t x) :
    (2 : ℝ) ^ (-500 : ℤ) ≤ euclid t x ∧ euclid t x ≤ (2 : ℝ) ^ (502 : ℤ) ∧
    0 < (sqSum t x : ℝ) := by
  obtain ⟨h1, h2⟩ := central_sqSum h
  have h1' : (2 : ℝ) ^ (-1000 : ℤ) ≤ (sqSum t x : ℝ) := by
    rw [← cast_zpow]; exact Rat.cast_le.2 h1
  have h2' : (sqSum t x : ℝ) ≤ (2 : ℝ) ^ (1003 : ℤ) := by
    rw [← cast_zpow]; exact Rat.cast_le.2 h2
  unfold euclid
  refine ⟨?_, ?_, lt_of_lt_of_le (F64.two_zpow_pos _) h1'⟩
  · apply Real.le_sqrt_of_sq_le
    rw [pow_two, ← zpow_add₀ (by norm_num)]
    exact h1'
  · rw [Real.sqrt_le_left (F64.two_zpow_pos _).le, pow_two, ← zpow_add₀ (by norm_num)]
    exact h2'.trans (zpow_le_zpow_right₀ (by norm_num) (by norm_num))

/-- **C34, central range.**  The computed magnitude is finite and within six units roundoff of
the exact one, for every type. -/
theorem C34_magnitude (t : Ty) (x : t.D F64) (h : Central t x) :
    (magnitudeTy t x).Finite ∧
    |((magnitudeTy t x).value : ℝ) - euclid t x| ≤ 52 / 10 * (2 : ℝ) ^ (-53 : ℤ) * euclid t x := by
  obtain ⟨hl, hu, hS⟩ := central_real h
  obtain ⟨hf, he⟩ := magSq_est h
  have hs := sqrt_est uR_nonneg uR_small hS he
  change |√((magSqTy t x).value : ℝ) - euclid t x| ≤ 41 / 10 * uR * euclid t x at hs
  have hs2 := abs_le.1 hs
  have hE : 0 < euclid t x := lt_of_lt_of_le (F64.two_zpow_pos _) hl
  have hk : 41 / 10 * uR * euclid t x ≤ 1 / 2 * euclid t x :=
    mul_le_mul_of_nonneg_right (by linarith [uR_small]) hE.le
  have hpos : 0 < √((magSqTy t x).value : ℝ) := by linarith
  have hv : 0 < (magSqTy t x).value := by exact_mod_cast Real.sqrt_pos.1 hpos
  have hup : √((magSqTy t x).value : ℝ) ≤ (2 : ℝ) ^ (503 : ℤ) := by
    rw [show (503 : ℤ) = 1 + 502 from by norm_num only, zpow_add₀ (by norm_num), zpow_one]
    generalize (2 : ℝ) ^ (502 : ℤ) = P at *
    linarith
  have hlo : (2 : ℝ) ^ (-501 : ℤ) ≤ √((magSqTy t x).value : ℝ) := by
    have e : (2 : ℝ) ^ (-500 : ℤ) = 2 * (2 : ℝ) ^ (-501 : ℤ) := by
      rw [show (-500 : ℤ) = 1 + -501 from by norm_num only, zpow_add₀ (by norm_num), zpow_one]
    rw [e] at hl
    linarith
  obtain ⟨hmf, hmv⟩ := F64.sqrt_spec hf hv (hup.trans (by
    rw [← zpow_natCast]; exact zpow_le_zpow_right₀ (by norm_num) (by norm_num)))
  refine ⟨hmf, mag_est uR_nonneg uR_small hS he ?_⟩
  unfold magnitudeTy
  rw [hmv]
  have := F64.rn_rel (x := √((magSqTy t x).value : ℝ)) (by
    rw [abs_of_pos hpos]
    exact (zpow_le_zpow_right₀ (by norm_num) (by norm_num)).trans hlo)
  rwa [abs_of_pos hpos] at this

/-- The reciprocal of the magnitude. -/
theorem recip_est {t : Ty} {x : t.D F64} (h : Central t x) :
    directionTy t x = smulTy t (1 / magnitudeTy t x) x ∧ (1 / magnitudeTy t x).Finite ∧
    (0 : ℝ) < (magnitudeTy t x).value ∧
    |((1 / magnitudeTy t x).value : ℝ) - 1 / ((magnitudeTy t x).value : ℝ)|
      ≤ uR * (1 / ((magnitudeTy t x).value : ℝ)) ∧
    ((1 / magnitudeTy t x).value : ℝ) ≤ 2 ^ (502 : ℤ) := by
  obtain ⟨hl, hu, hS⟩ := central_real h
  obtain ⟨hf, he⟩ := C34_magnitude t x h
  have hE : 0 < euclid t x := lt_of_lt_of_le (F64.two_zpow_pos _) hl
  have he2 := abs_le.1 he
  have hk : 52 / 10 * uR * euclid t x ≤ 1 / 2 * euclid t x :=
    mul_le_mul_of_nonneg_right (by linarith [uR_small]) hE.le
  have hpos : 0 < ((magnitudeTy t x).value : ℝ) := by linarith
  have hlo : (2 : ℝ) ^ (-501 : ℤ) ≤ ((magnitudeTy t x).value : ℝ) := by
    have e : (2 : ℝ) ^ (-500 : ℤ) = 2 * (2 : ℝ) ^ (-501 : ℤ) := by
      rw [show (-500 : ℤ) = 1 + -501 from by norm_num only, zpow_add₀ (by norm_num), zpow_one]
    rw [e] at hl
    linarith
  have hup : ((magnitudeTy t x).value : ℝ) ≤ (2 : ℝ) ^ (503 : ℤ) := by
    rw [show (503 : ℤ) = 1 + 502 from by norm_num only, zpow_add₀ (by norm_num), zpow_one]
    generalize (2 : ℝ) ^ (502 : ℤ) = P at *
    linarith
  have hloq : (2 : ℚ) ^ (-501 : ℤ) ≤ (magnitudeTy t x).value := by
    rw [← cast_zpow] at hlo; exact Rat.cast_le.1 hlo
  have hupq : (magnitudeTy t x).value ≤ (2 : ℚ) ^ (503 : ℤ) := by
    rw [← cast_zpow] at hup; exact Rat.cast_le.1 hup
  have hq : 0 < (magnitudeTy t x).value := lt_of_lt_of_le (F64.two_zpow_pos _) hloq
  have hi1 : 1 / (magnitudeTy t x).value ≤ (2 : ℚ) ^ (501 : ℤ) := by
    rw [div_le_iff₀ hq]
    calc (1 : ℚ) = (2 : ℚ) ^ (501 : ℤ) * (2 : ℚ) ^ (-501 : ℤ) := by
          rw [← zpow_add₀ (by norm_num)]; norm_num only
      _ ≤ _ := mul_le_mul_of_nonneg_left hloq (F64.two_zpow_pos _).le
  have hi2 : (2 : ℚ) ^ (-503 : ℤ) ≤ 1 / (magnitudeTy t x).value := by
    rw [le_div_iff₀ hq]
    calc _ ≤ (2 : ℚ) ^ (-503 : ℤ) * (2 : ℚ) ^ (503 : ℤ) :=
          mul_le_mul_of_nonneg_left hupq (F64.two_zpow_pos _).le
      _ = 1 := by rw [← zpow_add₀ (by norm_num)]; norm_num only
  have hi0 : 0 < 1 / (magnitudeTy t x).value := lt_of_lt_of_le (F64.two_zpow_pos _) hi2
  have h1v : (1 : F64).value = 1 := F64.hasVal_one.2
  have hd := F64.div_spec F64.hasVal_one.1 hf hq.ne' (by
    rw [h1v]
    apply F64.safe_lt
    rw [abs_of_pos hi0]
    refine hi1.trans ?_
    have : (2 : ℚ) ^ (501 : ℤ) ≤ F64.safe := by
      unfold F64.safe
      rw [← zpow_natCast]; exact zpow_le_zpow_right₀ (by norm_num) (by norm_num)
    have h0 := F64.one_le_safe
    generalize (2 : ℚ) ^ (501 : ℤ) = P at *
    linarith)
  rw [h1v] at hd
  have hrel := F64.rn_rel (K := ℚ) (x := 1 / (magnitudeTy t x).value) (by
    rw [abs_of_pos hi0]
    exact (zpow_le_zpow_right₀ (by norm_num) (by norm_num)).trans hi2)
  rw [abs_of_pos hi0, Rat.cast_id, ← hd.2] at hrel
  refine ⟨?_, hd.1, hpos, ?_, ?_⟩
  · unfold directionTy pairMagDirTy
    simp only []
    rw [if_pos]
    rw [F64.denormMin_val.flt (HasVal.of hf), decide_eq_true_iff]
    exact lt_of_lt_of_le (zpow_lt_zpow_right₀ (by norm_num) (by norm_num)) hloq
  · have h6 := (Rat.cast_le (K := ℝ)).2 hrel
    rw [Rat.cast_abs, Rat.cast_sub, Rat.cast_mul, cast_zpow, Rat.cast_div, Rat.cast_one] at h6
    exact h6
  · have hr := F64.rnVal_le_rep (K := ℚ) (F64.rep_pow 501 (by norm_num)) hi1
    rw [← hd.2] at hr
    have h6 := (Rat.cast_le (K := ℝ)).2 hr
    rw [cast_zpow] at h6
    exact h6.trans (zpow_le_zpow_right₀ (by norm_num) (by norm_num))

/-- **C34, central range.**  Component by component the computed direction is finite and within
eight units roundoff (plus underflow) of the exact one, for every type: the components of the
direction are those of the argument, in the same order, each one mapped to a number `d` with
this property. -/
theorem C34_direction (t : Ty) (x : t.D F64) (h : Central t x) :
    ∃ f : F64 → F64, comps t (directionTy t x) = (comps t x).map f ∧
      ∀ c ∈ comps t x, (f c).Finite ∧
        |((f c).value : ℝ) - (c.value : ℝ) / euclid t x|
          ≤ 8 * (2 : ℝ) ^ (-53 : ℤ) * |(c.value : ℝ) / euclid t x| + (2 : ℝ) ^ (-1075 : ℤ) := by
  obtain ⟨hdir, hrf, hmpos, hr, hrb⟩ := recip_est h
  obtain ⟨hl, hu, hS⟩ := central_real h
  obtain ⟨-, he⟩ := C34_magnitude t x h
  refine ⟨(1 / magnitudeTy t x * ·), ?_, fun c hc => ?_⟩
  · rw [hdir, comps_smul]
  have hcf := (h.1 c hc).1
  have hcb := (h.1 c hc).2
  generalize 1 / magnitudeTy t x = r at *
  have hr0 : 0 ≤ (r.value : ℝ) := by
    have h1 := (abs_le.1 hr).1
    have h2 : 0 < 1 / ((magnitudeTy t x).value : ℝ) := one_div_pos.2 hmpos
    have h3 := mul_le_mul_of_nonneg_right uR_small h2.le
    linarith
  have hrq0 : 0 ≤ r.value := by exact_mod_cast hr0
  have hrq : r.value ≤ (2 : ℚ) ^ (502 : ℤ) := by
    rw [← cast_zpow] at hrb; exact Rat.cast_le.1 hrb
  have hprod : |r.value * c.value| ≤ (2 : ℚ) ^ (1002 : ℤ) := by
    rw [abs_mul, abs_of_nonneg hrq0, show (1002 : ℤ) = 502 + 500 from by norm_num only,
      zpow_add₀ (by norm_num)]
    exact mul_le_mul hrq hcb (abs_nonneg _) (F64.two_zpow_pos _).le
  have hsp := F64.mul_spec hrf hcf (F64.safe_lt (hprod.trans (by
    have h1 : (2 : ℚ) ^ (1002 : ℤ) ≤ F64.safe := by
      unfold F64.safe
      rw [← zpow_natCast]; exact zpow_le_zpow_right₀ (by norm_num) (by norm_num)
    have h0 := F64.one_le_safe
    generalize (2 : ℚ) ^ (1002 : ℤ) = P at *
    linarith)))
  refine ⟨hsp.1, dir_est uR_nonneg uR_small hS he hr ?_⟩
  have h6 := (Rat.cast_le (K := ℝ)).2 (F64.rn_err (r.value * c.value))
  rw [← hsp.2, Rat.cast_abs, Rat.cast_sub, Rat.cast_add, Rat.cast_mul, Rat.cast_mul, cast_zpow,
    cast_zpow, Rat.cast_abs, Rat.cast_mul] at h6
  exact h6

/-- Specification: sum of the squares of a list of computed numbers, exactly. -/
def sqSumL (l : List F64) : ℚ := (l.map fun c => c.value * c.value).sum

theorem sum_est (l : List F64) (f : F64 → F64) (E ε η : ℝ)
    (h : ∀ c ∈ l, |((f c).value : ℝ) * (f c).value - (c.value : ℝ) / E * ((c.value : ℝ) / E)|
      ≤ ε * ((c.value : ℝ) / E * ((c.value : ℝ) / E)) + η) :
    |((sqSumL (l.map f) : ℚ) : ℝ) - (sqSumL l : ℝ) / (E * E)|
      ≤ ε * ((sqSumL l : ℝ) / (E * E)) + l.length * η := by
  induction l with
  | nil => simp [sqSumL]
  | cons a l ih =>
    have h1 := h a (by simp)
    have h2 := ih fun c hc => h c (by simp [hc])
    unfold sqSumL at *
    rw [List.map_cons, List.map_cons, List.map_cons, List.sum_cons, List.sum_cons,
      List.length_cons]
    generalize (((l.map f).map fun c => c.value * c.value).sum : ℚ) = A at *
    generalize ((l.map fun c => c.value * c.value).sum : ℚ) = B at *
    push_cast
    have e : ((a.value : ℝ) * a.value + B) / (E * E)
        = (a.value : ℝ) / E * ((a.value : ℝ) / E) + (B : ℝ) / (E * E) := by
      rw [add_div, div_mul_div_comm]
    rw [e]
    have h3 := abs_add_le (((f a).value : ℝ) * (f a).value
      - (a.value : ℝ) / E * ((a.value : ℝ) / E)) ((A : ℝ) - (B : ℝ) / (E * E))
    have e2 : ((f a).value : ℝ) * (f a).value + A
        - ((a.value : ℝ) / E * ((a.value : ℝ) / E) + (B : ℝ) / (E * E))
        = (((f a).value : ℝ) * (f a).value - (a.value : ℝ) / E * ((a.value : ℝ) / E))
          + ((A : ℝ) - (B : ℝ) / (E * E)) := by ring
    rw [e2]
    linarith

/-- **C34, central range.**  The computed direction has unit length up to rounding. -/
theorem C34_unit (t : Ty) (x : t.D F64) (h : Central t x) :
    |((sqSum t (directionTy t x) : ℚ) : ℝ) - 1| ≤ 17 * (2 : ℝ) ^ (-53 : ℤ) := by
  obtain ⟨f, hf, hd⟩ := C34_direction t x h
  obtain ⟨hl, hu, hS⟩ := central_real h
  have hE : 0 < euclid t x := lt_of_lt_of_le (F64.two_zpow_pos _) hl
  have hEE : euclid t x * euclid t x = (sqSum t x : ℝ) := Real.mul_self_sqrt hS.le
  have hη : (2 : ℝ) ^ (-1075 : ℤ) ≤ 1 / 100 * uR := by
    unfold uR
    rw [show (-1075 : ℤ) = -1022 + -53 from by norm_num only, zpow_add₀ (by norm_num)]
    refine mul_le_mul_of_nonneg_right ?_ uR_nonneg
    calc (2 : ℝ) ^ (-1022 : ℤ) ≤ (2 : ℝ) ^ (-7 : ℤ) :=
          zpow_le_zpow_right₀ (by norm_num) (by norm_num)
      _ ≤ _ := by norm_num
  have hη0 : 0 ≤ (2 : ℝ) ^ (-1075 : ℤ) := (F64.two_zpow_pos _).le
  have key := sum_est (comps t x) f (euclid t x) (161 / 10 * uR) (3 * (2 : ℝ) ^ (-1075 : ℤ))
    (fun c hc => by
      refine sq_est uR_nonneg uR_small hη0 ?_ ?_ (hd c hc).2
      · have := uR_small
        generalize (2 : ℝ) ^ (-1075 : ℤ) = P at *
        linarith
      · rw [abs_div, abs_of_pos hE, div_le_one hE]
        apply Real.abs_le_sqrt
        have := (Rat.cast_le (K := ℝ)).2 (list_le_sum (comps t x) hc)
        rw [Rat.cast_mul, ← pow_two] at this
        exact this)
  rw [← hf] at key
  change |((sqSum t (directionTy t x) : ℚ) : ℝ) - (sqSum t x : ℝ) / _| ≤ _ * ((sqSum t x : ℝ) / _)
    + _ at key
  rw [hEE, div_self hS.ne', mul_one] at key
  refine key.trans ?_
  have hn : ((comps t x).length : ℝ) ≤ 8 := by exact_mod_cast comps_length t x
  have h2 : ((comps t x).length : ℝ) * (3 * (2 : ℝ) ^ (-1075 : ℤ)) ≤ 8 * (3 * (2 : ℝ) ^ (-1075 : ℤ)) :=
    mul_le_mul_of_nonneg_right hn (by positivity)
  have h0 := uR_nonneg
  change _ ≤ 17 * uR
  generalize (2 : ℝ) ^ (-1075 : ℤ) = P at *
  linarith

theorem valid_of_normal {d : F64} (hf : d.Finite) (h : (2 : ℚ) ^ (-1022 : ℤ) ≤ |d.value|) :
    isValidDub d = true := by
  cases d with
  | nan => exact absurd hf id
  | inf _ => exact absurd hf id
  | zero s => exact isValidDub_zero s
  | fin v hv =>
    unfold isValidDub
    rw [F64.isnormal_def]
    have : F64.isnormal (.fin v hv) = true := by
      unfold F64.isnormal
      rw [decide_eq_true_iff]
      rw [zpow_neg] at h
      rw [one_div]
      exact h
    rw [this, Bool.true_or]

theorem valid_of_tiny {d : F64} (hf : d.Finite) (h : |d.value| ≤ (2 : ℚ) ^ (-1075 : ℤ)) :
    isValidDub d = true := by
  cases d with
  | nan => exact absurd hf id
  | inf _ => exact absurd hf id
  | zero s => exact isValidDub_zero s
  | fin v hv =>
    have h1 := hv.ge
    have h2 : (2 : ℚ) ^ (-1075 : ℤ) < (2 : ℚ) ^ (-1074 : ℤ) :=
      zpow_lt_zpow_right₀ (by norm_num) (by norm_num)
    exact absurd (h1.trans h) (not_le.2 h2)

/-- A component of the direction that comes from a component which is zero or at least `2^-400` is
valid. -/
theorem dir_comp_valid {t : Ty} {x : t.D F64} (h : Central t x) {c d : F64}
    (hc : c.value = 0 ∨ (2 : ℚ) ^ (-400 : ℤ) ≤ |c.value|) (h1 : d.Finite)
    (h2 : |(d.value : ℝ) - (c.value : ℝ) / euclid t x|
      ≤ 8 * (2 : ℝ) ^ (-53 : ℤ) * |(c.value : ℝ) / euclid t x| + (2 : ℝ) ^ (-1075 : ℤ)) :
    isValidDub d = true := by
  obtain ⟨hl, hu, -⟩ := central_real h
  have hE : 0 < euclid t x := lt_of_lt_of_le (F64.two_zpow_pos _) hl
  rcases hc with h0 | hb
  · apply valid_of_tiny h1
    rw [h0, Rat.cast_zero, zero_div, sub_zero, abs_zero, mul_zero, zero_add, ← cast_zpow,
      ← Rat.cast_abs] at h2
    exact Rat.cast_le.1 h2
  · apply valid_of_normal h1
    have hb' : (2 : ℝ) ^ (-400 : ℤ) ≤ |(c.value : ℝ)| := by
      rw [← cast_zpow, ← Rat.cast_abs]; exact Rat.cast_le.2 hb
    have hy : (2 : ℝ) ^ (-902 : ℤ) ≤ |(c.value : ℝ) / euclid t x| := by
      rw [abs_div, abs_of_pos hE, le_div_iff₀ hE]
      calc _ ≤ (2 : ℝ) ^ (-902 : ℤ) * (2 : ℝ) ^ (502 : ℤ) :=
            mul_le_mul_of_nonneg_left hu (F64.two_zpow_pos _).le
        _ = (2 : ℝ) ^ (-400 : ℤ) := by rw [← zpow_add₀ (by norm_num)]; norm_num only
        _ ≤ _ := hb'
    have ht : (2 : ℝ) ^ (-1075 : ℤ) ≤ 1 / 4 * (2 : ℝ) ^ (-902 : ℤ) := by
      rw [show (1 / 4 : ℝ) = (2 : ℝ) ^ (-2 : ℤ) from by norm_num, ← zpow_add₀ (by norm_num)]
      exact zpow_le_zpow_right₀ (by norm_num) (by norm_num)
    have hn : (2 : ℝ) ^ (-1022 : ℤ) ≤ 1 / 4 * (2 : ℝ) ^ (-902 : ℤ) := by
      rw [show (1 / 4 : ℝ) = (2 : ℝ) ^ (-2 : ℤ) from by norm_num, ← zpow_add₀ (by norm_num)]
      exact zpow_le_zpow_right₀ (by norm_num) (by norm_num)
    have hfin : (2 : ℝ) ^ (-1022 : ℤ) ≤ |(d.value : ℝ)| := by
      have h3 := abs_sub_abs_le_abs_sub ((c.value : ℝ) / euclid t x) (d.value : ℝ)
      rw [abs_sub_comm] at h2
      have h4 : 8 * (2 : ℝ) ^ (-53 : ℤ) * |(c.value : ℝ) / euclid t x|
          ≤ 1 / 4 * |(c.value : ℝ) / euclid t x| :=
        mul_le_mul_of_nonneg_right (by norm_num) (abs_nonneg _)
      generalize |(c.value : ℝ) / euclid t x| = y at *
      generalize (2 : ℝ) ^ (-1022 : ℤ) = p at *
      generalize (2 : ℝ) ^ (-1075 : ℤ) = q at *
      generalize (2 : ℝ) ^ (-902 : ℤ) = r at *
      linarith
    rw [← cast_zpow, ← Rat.cast_abs] at hfin
    exact Rat.cast_le.1 hfin

/-- **C34, central range.**  If in addition every component is zero or at least `2^-400` in
absolute value, all components of the direction are valid, and so the direction is.  Partial: without these
hypotheses the claim is false (`C34_fails_underflow`, `C34_fails_overflow`, `C34_fails_subnormal`). -/
theorem C34_valid_partial (t : Ty) (x : t.D F64) (h : Central t x)
    (hc : ∀ c ∈ comps t x, c.value = 0 ∨ (2 : ℚ) ^ (-400 : ℤ) ≤ |c.value|) :
    (∀ d ∈ comps t (directionTy t x), isValidDub d = true) ∧
    isValidTy t (directionTy t x) = true := by
  have hall : ∀ d ∈ comps t (directionTy t x), isValidDub d = true := by
    obtain ⟨f, hf, hd⟩ := C34_direction t x h
    intro d hd'
    rw [hf] at hd'
    obtain ⟨c, hc', rfl⟩ := List.mem_map.1 hd'
    obtain ⟨h1, h2⟩ := hd c hc'
    exact dir_comp_valid h (hc c hc') h1 h2
  refine ⟨hall, ?_⟩
  by_contra hcon
  obtain ⟨c, hc, hv⟩ := C11_invalid_sound t _ (Bool.eq_false_iff.2 hcon)
  rw [hall c hc] at hv
  cases hv

/-! ## A valid argument with a direction that is reported invalid -/

theorem invalid_of_subnormal {d : F64} {q : ℚ} (h : HasVal d q) (h0 : q ≠ 0)
    (h1 : |q| < (2 : ℚ) ^ (-1022 : ℤ)) : isValidDub d = false := by
  obtain ⟨hf, rfl⟩ := h
  cases d with
  | nan => exact absurd hf id
  | inf _ => exact absurd hf id
  | zero s => exact absurd rfl h0
  | fin v hv =>
    rw [Bool.eq_false_iff, Ne, C11_double]
    rintro (⟨s, hs⟩ | ⟨w, hw, he, hb⟩)
    · cases hs
    · cases he
      rw [zpow_neg] at h1
      rw [one_div] at hb
      exact absurd h1 (not_lt.2 hb)

/-- **C34 is violated** in the central range too: all components of the vector
`(2^-1022, 2, 0)` are valid, its magnitude is 2, and the first component of its direction is the
subnormal number `2^-1023`, so that the direction is reported invalid. -/
theorem C34_fails_subnormal : ∃ x : Ty.vec.D F64, Central .vec x ∧
    (∀ c ∈ comps .vec x, isValidDub c = true) ∧ isValidTy .vec (directionTy .vec x) = false := by
  have ha := F64.pow2_val (e := -1022) (by norm_num) (by norm_num)
  have hb := F64.pow2_val (e := 1) (by norm_num) (by norm_num)
  have va := F64.pow2_valid (e := -1022) (by norm_num) (by norm_num)
  have vb := F64.pow2_valid (e := 1) (by norm_num) (by norm_num)
  generalize F64.pow2 (-1022) = a at *
  generalize F64.pow2 1 = b at *
  have h2 : (2 : ℚ) ^ (1 : ℤ) = 2 := by norm_num
  rw [h2] at hb
  have h500 : (2 : ℚ) ≤ (2 : ℚ) ^ (500 : ℤ) := by
    conv_lhs => rw [← zpow_one (2 : ℚ)]
    exact zpow_le_zpow_right₀ (by norm_num) (by norm_num)
  have habs : |a.value| = (2 : ℚ) ^ (-1022 : ℤ) := by
    rw [ha.2]; exact abs_of_pos (F64.two_zpow_pos _)
  have hbabs : |b.value| = 2 := by rw [hb.2]; exact abs_of_pos (by norm_num)
  have h0abs : |(0 : F64).value| = 0 := by rw [F64.hasVal_zero'.2, abs_zero]
  refine ⟨⟨⟨a, b, 0⟩⟩, ⟨?_, b, by simp [comps], ?_⟩, ?_, ?_⟩
  · intro c hc
    simp only [comps, List.mem_cons, List.not_mem_nil, or_false] at hc
    rcases hc with rfl | rfl | rfl
    · exact ⟨ha.1, by rw [habs]; exact zpow_le_zpow_right₀ (by norm_num) (by norm_num)⟩
    · exact ⟨hb.1, by rw [hbabs]; exact h500⟩
    · exact ⟨trivial, by rw [h0abs]; exact (F64.two_zpow_pos _).le⟩
  · rw [hbabs]
    have : (2 : ℚ) ^ (-500 : ℤ) ≤ (2 : ℚ) ^ (1 : ℤ) :=
      zpow_le_zpow_right₀ (by norm_num) (by norm_num)
    rwa [h2] at this
  · intro c hc
    simp only [comps, List.mem_cons, List.not_mem_nil, or_false] at hc
    rcases hc with rfl | rfl | rfl
    · exact va
    · exact vb
    · exact isValidDub_zero'
  · have haa : a * a = 0 := F64.sq_underflow ha.1 (by
      rw [habs]; exact zpow_le_zpow_right₀ (by norm_num) (by norm_num))
    have hbb : HasVal (b * b) (2 * 2) := hb.mul hb
      (by norm_num; exact_mod_cast F64.rep_int 4 (by norm_num))
      (by rw [abs_of_pos (by norm_num)]
          have := F64.two_zpow_lt (e := 2) (by norm_num)
          have hp : |(2 : ℚ) ^ (2 : ℤ)| = 2 * 2 := by rw [abs_of_pos (by norm_num)]; norm_num
          rwa [hp] at this)
    have h4 : (2 : ℚ) * 2 = 4 := by norm_num
    rw [h4] at hbb
    have h00 : HasVal ((0 : F64) * 0) 0 := F64.hasVal_zero_mul trivial
    have hsum : HasVal (magSqTy .vec ⟨⟨a, b, (0 : F64)⟩⟩) 4 := by
      simp only [engabra, haa, F64.zero_add_zero]
      exact (F64.hasVal_zero'.zero_add hbb).add_zero h00
    have hsq : √((4 : ℚ) : ℝ) = ((2 : ℚ) : ℝ) := by
      rw [Real.sqrt_eq_iff_mul_self_eq (by norm_num) (by norm_num)]; norm_num
    have hm : HasVal (magnitudeTy .vec ⟨⟨a, b, (0 : F64)⟩⟩) 2 := by
      have := F64.sqrt_spec hsum.1 (by rw [hsum.2]; norm_num) (by
        rw [hsum.2, hsq]
        have h1 : (2 : ℝ) ^ 1 ≤ (2 : ℝ) ^ 1022 := pow_le_pow_right₀ (by norm_num) (by norm_num)
        rw [pow_one] at h1
        push_cast; exact h1)
      refine ⟨this.1, ?_⟩
      unfold magnitudeTy
      rw [this.2, hsum.2, hsq, F64.rnVal_ratCast']
      exact F64.rnVal_exact (by exact_mod_cast F64.rep_int 2 (by norm_num))
    have hhalf : (1 : ℚ) / 2 = (2 : ℚ) ^ (-1 : ℤ) := by norm_num
    have hr : HasVal (1 / magnitudeTy .vec ⟨⟨a, b, (0 : F64)⟩⟩) ((2 : ℚ) ^ (-1 : ℤ)) := by
      rw [← hhalf]
      refine F64.hasVal_one.div hm (by norm_num) ?_ ?_
      · rw [hhalf]; exact F64.rep_pow _ (by norm_num)
      · rw [hhalf]; exact F64.two_zpow_lt (by norm_num)
    have e : (2 : ℚ) ^ (-1 : ℤ) * (2 : ℚ) ^ (-1022 : ℤ) = (2 : ℚ) ^ (-1023 : ℤ) := by
      rw [← zpow_add₀ (by norm_num)]; norm_num only
    have hd := hr.mul ha (by rw [e]; exact F64.rep_pow _ (by norm_num))
      (by rw [e]; exact F64.two_zpow_lt (by norm_num))
    rw [e] at hd
    have hdir : directionTy .vec (⟨⟨a, b, (0 : F64)⟩⟩ : Ty.vec.D F64)
        = smulTy .vec (1 / magnitudeTy .vec ⟨⟨a, b, (0 : F64)⟩⟩) ⟨⟨a, b, 0⟩⟩ := by
      unfold directionTy pairMagDirTy
      simp only []
      rw [if_pos]
      rw [F64.denormMin_val.flt hm, decide_eq_true_iff]
      have : (2 : ℚ) ^ (-1074 : ℤ) < (2 : ℚ) ^ (1 : ℤ) :=
        zpow_lt_zpow_right₀ (by norm_num) (by norm_num)
      rwa [h2] at this
    have hp : |(2 : ℚ) ^ (-1023 : ℤ)| = (2 : ℚ) ^ (-1023 : ℤ) := abs_of_pos (F64.two_zpow_pos _)
    have hinv := invalid_of_subnormal hd (F64.two_zpow_pos _).ne' (by
      rw [hp]; exact zpow_lt_zpow_right₀ (by norm_num) (by norm_num))
    rw [hdir, C11_first_components]
    generalize 1 / magnitudeTy .vec ⟨⟨a, b, (0 : F64)⟩⟩ = r at *
    simp only [firstComps, engabra, List.all_cons, hinv, Bool.false_and]

/-! ## The hypotheses are met -/

/-- The vector `(1, 8, 0)`: in the central range, with components zero or large enough. -/
example : Central .vec ⟨⟨F64.pow2 0, F64.pow2 3, 0⟩⟩ ∧
    ∀ c ∈ comps .vec ⟨⟨F64.pow2 0, F64.pow2 3, 0⟩⟩,
      c.value = 0 ∨ (2 : ℚ) ^ (-400 : ℤ) ≤ |c.value| := by
  have ha := F64.pow2_val (e := 0) (by norm_num) (by norm_num)
  have hb := F64.pow2_val (e := 3) (by norm_num) (by norm_num)
  generalize F64.pow2 0 = a at *
  generalize F64.pow2 3 = b at *
  have habs : |a.value| = (2 : ℚ) ^ (0 : ℤ) := by
    rw [ha.2]; exact abs_of_pos (F64.two_zpow_pos _)
  have hbabs : |b.value| = (2 : ℚ) ^ (3 : ℤ) := by
    rw [hb.2]; exact abs_of_pos (F64.two_zpow_pos _)
  have h0abs : |(0 : F64).value| = 0 := by rw [F64.hasVal_zero'.2, abs_zero]
  refine ⟨⟨?_, b, by simp [comps], ?_⟩, ?_⟩
  · intro c hc
    simp only [comps, List.mem_cons, List.not_mem_nil, or_false] at hc
    rcases hc with rfl | rfl | rfl
    · exact ⟨ha.1, by rw [habs]; exact zpow_le_zpow_right₀ (by norm_num) (by norm_num)⟩
    · exact ⟨hb.1, by rw [hbabs]; exact zpow_le_zpow_right₀ (by norm_num) (by norm_num)⟩
    · exact ⟨trivial, by rw [h0abs]; exact (F64.two_zpow_pos _).le⟩
  · rw [hbabs]; exact zpow_le_zpow_right₀ (by norm_num) (by norm_num)
  · intro c hc
    simp only [comps, List.mem_cons, List.not_mem_nil, or_false] at hc
    rcases hc with rfl | rfl | rfl
    · right; rw [habs]; exact zpow_le_zpow_right₀ (by norm_num) (by norm_num)
    · right; rw [hbabs]; exact zpow_le_zpow_right₀ (by norm_num) (by norm_num)
    · left; exact F64.hasVal_zero'.2

/-- Valid vectors which lose their direction: `(2^600, 1, 0)` (overflow), `(2^-600, 0, 0)`. -/
example : (∀ c ∈ comps .vec ⟨⟨F64.pow2 600, F64.pow2 0, 0⟩⟩, isValidDub c = true ∧ c.Finite) ∧
    (∃ c ∈ comps .vec ⟨⟨F64.pow2 600, F64.pow2 0, 0⟩⟩, (2 : ℚ) ^ 512 ≤ |c.value|) ∧
    (∀ c ∈ comps .vec ⟨⟨F64.pow2 (-600), 0, 0⟩⟩, isValidDub c = true ∧
      c.Finite ∧ |c.value| ≤ (2 : ℚ) ^ (-538 : ℤ)) := by
  have ha := F64.pow2_val (e := 600) (by norm_num) (by norm_num)
  have hb := F64.pow2_val (e := 0) (by norm_num) (by norm_num)
  have hc' := F64.pow2_val (e := -600) (by norm_num) (by norm_num)
  have va := F64.pow2_valid (e := 600) (by norm_num) (by norm_num)
  have vb := F64.pow2_valid (e := 0) (by norm_num) (by norm_num)
  have vc := F64.pow2_valid (e := -600) (by norm_num) (by norm_num)
  have habs : |(F64.pow2 600).value| = (2 : ℚ) ^ (600 : ℤ) := by
    rw [ha.2]; exact abs_of_pos (F64.two_zpow_pos _)
  have hcabs : |(F64.pow2 (-600)).value| = (2 : ℚ) ^ (-600 : ℤ) := by
    rw [hc'.2]; exact abs_of_pos (F64.two_zpow_pos _)
  have h0abs : |(0 : F64).value| = 0 := by rw [F64.hasVal_zero'.2, abs_zero]
  generalize F64.pow2 600 = a at *
  generalize F64.pow2 (-600) = d at *
  generalize F64.pow2 0 = b at *
  refine ⟨?_, ⟨a, List.mem_cons_self, ?_⟩, ?_⟩
  · intro c hc
    simp only [comps, List.mem_cons, List.not_mem_nil, or_false] at hc
    rcases hc with rfl | rfl | rfl
    · exact ⟨va, ha.1⟩
    · exact ⟨vb, hb.1⟩
    · exact ⟨isValidDub_zero', trivial⟩
  · rw [habs, ← zpow_natCast]
    exact zpow_le_zpow_right₀ (by norm_num) (by norm_num)
  · intro c hc
    simp only [comps, List.mem_cons, List.not_mem_nil, or_false] at hc
    rcases hc with rfl | rfl | rfl
    · exact ⟨vc, hc'.1, by rw [hcabs]; exact zpow_le_zpow_right₀ (by norm_num) (by norm_num)⟩
    · exact ⟨isValidDub_zero', trivial, by rw [h0abs]; exact (F64.two_zpow_pos _).le⟩
    · exact ⟨isValidDub_zero', trivial, by rw [h0abs]; exact (F64.two_zpow_pos _).le⟩

end Engabra
