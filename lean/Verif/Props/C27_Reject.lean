import Verif.Props.C25_C28_Compare
import Mathlib.Algebra.BigOperators.Group.List.Basic

/-! # C27: does `nearlyEquals` reject clearly different values?

In exact arithmetic yes (`C27_exact`, `C27_exact_small`), for arrays of every length.  For IEEE doubles yes up
to a few units in the last place (`C27_double_rejects`).  For IEEE arrays no, when the squared
magnitude of the reference overflows or underflows. -/

namespace Engabra

open F64 (nan inf zero fin IsFin Finite HasVal)

/-! ## Exact arithmetic -/

/-- Specification: Euclidean norm of a list. -/
noncomputable def listNorm (ys : List ℝ) : ℝ := √ (ys.map fun y => y * y).sum
/-- Specification: Euclidean distance of two lists. -/
noncomputable def listDist (xs ys : List ℝ) : ℝ := listNorm (List.zipWith (· - ·) xs ys)

theorem sum_sq_nonneg (ys : List ℝ) : 0 ≤ (ys.map fun y => y * y).sum := by
  induction ys with
  | nil => simp
  | cons y ys ih => simp only [List.map_cons, List.sum_cons]; nlinarith [mul_self_nonneg y]

theorem innerProduct_val (a : ℝ) (ys : List ℝ) :
    innerProduct (XR.val a) (ys.map XR.val) = XR.val (a + (ys.map fun y => y * y).sum) := by
  induction ys generalizing a with
  | nil => simp [innerProduct]
  | cons y ys ih =>
    simp only [List.map_cons, innerProduct, XR.val_mul, XR.val_add, ih, List.sum_cons, add_assoc]

theorem difLoop_val (a : ℝ) (xs ys : List ℝ) :
    difLoop (XR.val a) (xs.map XR.val) (ys.map XR.val)
      = XR.val (a + ((List.zipWith (· - ·) xs ys).map fun d => d * d).sum) := by
  induction xs generalizing a ys with
  | nil => simp [difLoop]
  | cons x xs ih =>
    cases ys with
    | nil => simp [difLoop]
    | cons y ys =>
      simp only [List.map_cons, difLoop, XR.val_sub, XR.val_mul, XR.val_add, ih,
        List.zipWith_cons_cons, List.sum_cons, add_assoc]

theorem all_valid_map (xs : List ℝ) (h : ∀ c ∈ xs, XR.Valid c) :
    (xs.map XR.val).all isValidDub = true := by
  rw [List.all_eq_true]
  intro b hb
  obtain ⟨c, hc, rfl⟩ := List.mem_map.1 hb
  exact (XR.isValidDub_val c).2 (h c hc)

/-- **C27**, exact arithmetic, arrays of every length `n ≥ 1`: unless the reference is (almost)
zero, `nearlyEquals` accepts exactly when the distance is less than the tolerance times the
norm of the reference. -/
theorem C27_exact (xs ys : List ℝ) (tol : ℝ) (hlen : xs.length = ys.length)
    (hx : ∀ c ∈ xs, XR.Valid c) (hy : ∀ c ∈ ys, XR.Valid c) (hbig : 1 / 2 ^ 1022 ≤ listNorm ys) :
    nearlyEqualsArr (xs.map XR.val) (ys.map XR.val) (XR.val tol) = .ok true ↔
      listDist xs ys < tol * listNorm ys := by
  have hn0 : 0 < listNorm ys := lt_of_lt_of_le (by positivity) hbig
  cases xs with
  | nil =>
    cases ys with
    | nil => simp [listNorm] at hn0
    | cons y ys => simp at hlen
  | cons x xs =>
    cases ys with
    | nil => simp [listNorm] at hn0
    | cons y ys =>
      have h1 := all_valid_map _ hx
      have h2 := all_valid_map _ hy
      have h3 := innerProduct_val 0 (y :: ys)
      have h4 := difLoop_val 0 (x :: xs) (y :: ys)
      rw [List.map_cons] at h1 h2 h3 h4
      rw [List.map_cons] at h4
      rw [List.map_cons, List.map_cons, nearlyEqualsArr_eq, h1, h2, XR.zero_def, h3, h4,
        zero_add, zero_add, XR.sqrt_val _ (sum_sq_nonneg _), XR.minDub_def]
      have hS : 0 < ((y :: ys).map fun y => y * y).sum := Real.sqrt_pos.1 hn0
      rw [if_neg (by rw [XR.lt_val]; exact not_lt.2 hbig), XR.val_div _ _ hS.ne',
        XR.sqrt_val _ (div_nonneg (sum_sq_nonneg _) hS.le)]
      simp only [Bool.and_self, Bool.true_and, Run.ok.injEq, isSmallAbs, XR.abs_val]
      rw [XR.lt_val, abs_of_nonneg (Real.sqrt_nonneg _), Real.sqrt_div (sum_sq_nonneg _)]
      exact div_lt_iff₀ hn0

/-- **C27**, exact arithmetic: for an (almost) zero reference the differences are compared with
the tolerance component by component. -/
theorem C27_exact_small (xs ys : List ℝ) (tol : ℝ) (hlen : xs.length = ys.length) (h0 : xs ≠ [])
    (hx : ∀ c ∈ xs, XR.Valid c) (hy : ∀ c ∈ ys, XR.Valid c) (hsm : listNorm ys < 1 / 2 ^ 1022) :
    nearlyEqualsArr (xs.map XR.val) (ys.map XR.val) (XR.val tol) = .ok true ↔
      ∀ d ∈ List.zipWith (· - ·) xs ys, |d| < tol := by
  cases xs with
  | nil => exact absurd rfl h0
  | cons x xs =>
    cases ys with
    | nil => simp at hlen
    | cons y ys =>
      have h1 := all_valid_map _ hx
      have h2 := all_valid_map _ hy
      have h3 := innerProduct_val 0 (y :: ys)
      rw [List.map_cons] at h1 h2 h3
      rw [List.map_cons, List.map_cons, nearlyEqualsArr_eq, h1, h2, XR.zero_def, h3,
        zero_add, XR.sqrt_val _ (sum_sq_nonneg _), XR.minDub_def]
      rw [if_pos (by rw [XR.lt_val]; exact hsm), ← List.map_cons, ← List.map_cons,
        List.zipWith_map]
      simp only [Bool.and_self, Bool.true_and, Run.ok.injEq, List.all_eq_true, id]
      generalize x :: xs = as
      generalize y :: ys = bs
      have key : ∀ a b : ℝ, isSmallAbsDiff (XR.val a) (XR.val b) (XR.val tol) = true
          ↔ |a - b| < tol := by
        intro a b
        unfold isSmallAbsDiff isSmallAbs
        rw [XR.val_sub, XR.abs_val, XR.lt_val]
      induction as generalizing bs with
      | nil => simp
      | cons a as ih =>
        cases bs with
        | nil => simp
        | cons b bs =>
          simp only [List.zipWith_cons_cons, List.mem_cons, forall_eq_or_imp, key, ih bs]

/-- A case satisfying the hypotheses of `C27_exact`: (3,4) against (0,5) differ by √10, more than
half of 5. -/
example : nearlyEqualsArr ([3, 4].map XR.val) ([0, 5].map XR.val) (XR.val (1 / 2)) ≠ .ok true := by
  have hv : ∀ r : ℝ, 1 ≤ r → r ≤ 5 → XR.Valid r := by
    intro r h1 h2
    refine Or.inr ⟨?_, ?_⟩
    · rw [abs_of_pos (by linarith)]
      exact le_trans ((div_le_one (by positivity)).2 (one_le_pow₀ (by norm_num))) h1
    · rw [abs_of_pos (by linarith)]
      calc r < 2 ^ 3 := by linarith
        _ ≤ 2 ^ 1024 := pow_le_pow_right₀ (by norm_num) (by norm_num)
  have hn : listNorm [0, 5] = 5 := by
    unfold listNorm
    rw [show ([0, 5].map fun y : ℝ => y * y).sum = 5 ^ 2 by norm_num]
    exact Real.sqrt_sq (by norm_num)
  rw [Ne, C27_exact [3, 4] [0, 5] (1 / 2) rfl
    (by simp; exact ⟨hv 3 (by norm_num) (by norm_num), hv 4 (by norm_num) (by norm_num)⟩)
    (by simp; exact ⟨Or.inl rfl, hv 5 (by norm_num) (by norm_num)⟩)
    (by rw [hn]; exact le_trans ((div_le_one (by positivity)).2 (one_le_pow₀ (by norm_num)))
          (by norm_num)), hn]
  unfold listDist listNorm
  rw [not_lt]
  apply Real.le_sqrt_of_sq_le
  norm_num

/-! ## IEEE doubles -/

namespace F64

theorem div_value {x y : F64} (hx : x.Finite) (hy : y.value ≠ 0) (h : (x / y).Finite) :
    (x / y).value = rnVal (x.value / y.value) := by
  rw [div_def] at *
  cases y with
  | fin w hw =>
    cases x with
    | nan => exact absurd hx id
    | inf _ => exact absurd hx id
    | zero s => simp [F64.div, value, rnVal_zero]
    | fin v hv => exact (roundTo_value (roundTo_finite h)).2
  | _ => exact absurd rfl hy

theorem lt_finite {x tol : F64} (h : Dbl.lt (Dbl.abs x) tol = true) (ht : tol.Finite) :
    x.Finite := by
  rw [lt_def, abs_def] at h
  cases x with
  | nan => simp [abs, signbit, lt] at h
  | inf s =>
    exfalso
    cases s <;> cases tol <;> first | exact absurd ht id | simp [abs, signbit, neg, lt] at h
  | zero _ => trivial
  | fin _ _ => trivial

theorem abs_lt_iff {x tol : F64} (hx : x.Finite) (ht : tol.Finite) :
    Dbl.lt (Dbl.abs x) tol = true ↔ |x.value| < tol.value := by
  rw [(HasVal.of hx).abs.flt (HasVal.of ht), decide_eq_true_iff]

theorem rn_err (x : ℚ) : |rnVal x - x| ≤ 2 ^ (-53 : ℤ) * |x| + 2 ^ (-1075 : ℤ) := by
  have h := rnVal_err_rel (K := ℚ) x
  rw [Rat.cast_id] at h
  refine h.trans (max_le ?_ ?_)
  · have := (two_zpow_pos (K := ℚ) (-1075)).le
    linarith
  · have := mul_nonneg (two_zpow_pos (K := ℚ) (-53)).le (abs_nonneg x)
    linarith

theorem tiny_le : (2 : ℚ) ^ (-1075 : ℤ) ≤ 2 ^ (-53 : ℤ) :=
  zpow_le_zpow_right₀ (by norm_num) (by norm_num)

end F64

/-- The code of `nearlyEqualsRel` for a reference of normal size. -/
theorem nearlyEqualsRel_large {test ref tol : F64} (hx : isValidDub test = true)
    (hy : isValidDub ref = true) (hbig : (2 : ℚ) ^ (-970 : ℤ) ≤ |ref.value|) :
    nearlyEqualsDub test ref tol = Dbl.lt (Dbl.abs (test / ref - 1)) tol := by
  unfold nearlyEqualsDub nearlyEqualsRel bothAreValid
  rw [hx, hy]
  simp only [Bool.and_self, if_true]
  rw [if_neg]
  · rfl
  · rw [(HasVal.of (F64.valid_finite hy)).abs.flt F64.tolToZero_val]
    simp only [decide_eq_true_eq, not_lt]
    exact hbig

/-- **C27.** IEEE doubles: values whose relative difference exceeds the tolerance by more than
rounding (`2^-50` relative and absolute) are rejected. -/
theorem C27_double_rejects (test ref tol : F64) (ht : tol.Finite)
    (hbig : (2 : ℚ) ^ (-970 : ℤ) ≤ |ref.value|)
    (h : tol.value * (1 + 1 / 2 ^ 50) + 1 / 2 ^ 50 ≤ |test.value / ref.value - 1|) :
    nearlyEqualsDub test ref tol = false := by
  rw [Bool.eq_false_iff]
  intro hc
  obtain ⟨hx, hy⟩ := C25_double_valid test ref tol (Or.inr hc)
  rw [nearlyEqualsRel_large hx hy hbig] at hc
  have hd := F64.lt_finite hc ht
  have hq := (F64.sub_finite hd).1
  rw [F64.abs_lt_iff hd ht, F64.sub_value hd] at hc
  have hr0 : ref.value ≠ 0 := by
    intro e; rw [e, abs_zero] at hbig; exact absurd hbig (not_le.2 (F64.two_zpow_pos _))
  rw [F64.div_value (F64.valid_finite hx) hr0 hq, F64.hasVal_one.2] at hc
  generalize test.value / ref.value = r at h hc
  have e1 := F64.rn_err r
  have e2 := F64.rn_err (F64.rnVal r - 1)
  generalize F64.rnVal r = q at *
  generalize F64.rnVal (q - 1) = d at *
  have hu := F64.tiny_le
  generalize (2 : ℚ) ^ (-1075 : ℤ) = η at *
  have hu2 : (2 : ℚ) ^ (-53 : ℤ) = 1 / 2 ^ 53 := by rw [zpow_neg, one_div]; rfl
  rw [hu2] at *
  have t1 : |q - 1| ≤ |d - (q - 1)| + |d| := by
    have := abs_sub_abs_le_abs_sub (q - 1) d
    rw [abs_sub_comm (q - 1) d] at this; linarith
  have t0 := abs_nonneg d
  have t2 : |r - 1| ≤ |q - r| + |q - 1| := by
    have := abs_sub_le r q 1
    rwa [abs_sub_comm r q] at this
  have t3 : |r| ≤ |r - 1| + 1 := by
    have := abs_sub_abs_le_abs_sub r 1
    rw [abs_one] at this; linarith
  norm_num at h e1 e2 hu
  linarith

/-- **C27.** IEEE doubles: values whose relative difference is below the tolerance by more than
rounding are accepted. -/
theorem C27_double_accepts (test ref tol : F64) (hx : isValidDub test = true)
    (hy : isValidDub ref = true) (ht : tol.Finite) (hbig : (2 : ℚ) ^ (-970 : ℤ) ≤ |ref.value|)
    (ht1 : tol.value ≤ 2 ^ 1000)
    (h : |test.value / ref.value - 1| ≤ tol.value * (1 - 1 / 2 ^ 50) - 1 / 2 ^ 50) :
    nearlyEqualsDub test ref tol = true := by
  rw [nearlyEqualsRel_large hx hy hbig]
  have hr0 : ref.value ≠ 0 := by
    intro e; rw [e, abs_zero] at hbig; exact absurd hbig (not_le.2 (F64.two_zpow_pos _))
  have ht0 : 0 ≤ tol.value := by
    by_contra hc
    have := abs_nonneg (test.value / ref.value - 1)
    norm_num at h
    linarith
  have hb : ∀ z : ℚ, |z| ≤ 2 + tol.value → |F64.rnVal z| < 2 ^ 1024 := by
    intro z hz
    have hr : F64.Rep ((2 : ℚ) ^ (1001 : ℤ)) := F64.rep_pow _ (by norm_num)
    have h2 : |z| ≤ (2 : ℚ) ^ (1001 : ℤ) := by
      have e : (2 : ℚ) ^ (1001 : ℤ) = 2 ^ 1000 + 2 ^ 1000 := by
        rw [show (1001 : ℤ) = ((1001 : ℕ) : ℤ) by norm_num, zpow_natCast, pow_succ, mul_two]
      have h2 : (2 : ℚ) ≤ 2 ^ 1000 := by
        calc (2 : ℚ) = 2 ^ 1 := by norm_num
          _ ≤ 2 ^ 1000 := pow_le_pow_right₀ (by norm_num) (by norm_num)
      rw [e]
      exact hz.trans (add_le_add h2 ht1)
    have h3 := F64.rnVal_le_rep (x := |z|) hr (by rw [Rat.cast_id]; exact h2)
    rw [F64.rnVal_abs] at h3
    exact lt_of_le_of_lt (h3.trans (le_abs_self _)) (F64.two_zpow_lt (by norm_num))
  have hq : (test / ref).Finite ∧ (test / ref).value = F64.rnVal (test.value / ref.value) := by
    have hx' := F64.valid_finite hx
    rw [F64.div_def]
    cases ref with
    | fin w hw =>
      cases test with
      | nan => exact absurd hx' id
      | inf _ => exact absurd hx' id
      | zero s => exact ⟨trivial, by simp [F64.div, F64.value, F64.rnVal_zero]⟩
      | fin v hv =>
        apply F64.roundTo_value
        apply hb
        change |v / w - 1| ≤ _ at h
        have := abs_sub_abs_le_abs_sub (v / w) 1
        rw [abs_one] at this
        norm_num at h
        linarith
    | _ => exact absurd rfl hr0
  have hd : (test / ref - 1).Finite ∧
      (test / ref - 1).value = F64.rnVal ((test / ref).value - 1) := by
    have h1 := HasVal.neg F64.hasVal_one
    have := F64.add_spec hq.1 h1.1 (by
      apply hb
      rw [h1.2, hq.2]
      have e1 := F64.rn_err (test.value / ref.value)
      generalize test.value / ref.value = r at *
      generalize F64.rnVal r = q at *
      have hu := F64.tiny_le
      generalize (2 : ℚ) ^ (-1075 : ℤ) = η at *
      have hu2 : (2 : ℚ) ^ (-53 : ℤ) = 1 / 2 ^ 53 := by rw [zpow_neg, one_div]; rfl
      rw [hu2] at *
      have t2 : |q + -1| ≤ |q - r| + |r - 1| := by
        have := abs_sub_le q r 1
        rwa [sub_eq_add_neg q] at this
      have t3 : |r| ≤ |r - 1| + 1 := by
        have := abs_sub_abs_le_abs_sub r 1
        rw [abs_one] at this; linarith
      clear ht1
      norm_num at *
      linarith)
    rw [h1.2, ← sub_eq_add_neg] at this
    exact this
  rw [F64.abs_lt_iff hd.1 ht, hd.2, hq.2]
  have e1 := F64.rn_err (test.value / ref.value)
  have e2 := F64.rn_err (F64.rnVal (test.value / ref.value) - 1)
  clear hb hq hd ht1 hbig hr0
  generalize test.value / ref.value = r at *
  generalize F64.rnVal r = q at *
  generalize F64.rnVal (q - 1) = d at *
  have hu := F64.tiny_le
  generalize (2 : ℚ) ^ (-1075 : ℤ) = η at *
  have hu2 : (2 : ℚ) ^ (-53 : ℤ) = 1 / 2 ^ 53 := by rw [zpow_neg, one_div]; rfl
  rw [hu2] at *
  have t1 : |d| ≤ |d - (q - 1)| + |q - 1| := by
    have := abs_sub_abs_le_abs_sub d (q - 1); linarith
  have t2 : |q - 1| ≤ |q - r| + |r - 1| := abs_sub_le q r 1
  have t3 : |r| ≤ |r - 1| + 1 := by
    have := abs_sub_abs_le_abs_sub r 1
    rw [abs_one] at this; linarith
  norm_num at *
  linarith

/-! ## IEEE arrays: overflow and underflow of the squared magnitude -/

namespace F64

theorem sq_overflow {c : F64} (h : c.Finite) (hb : (2 : ℚ) ^ 512 ≤ |c.value|) :
    c * c = inf false := by
  cases c with
  | nan => exact absurd h id
  | inf _ => exact absurd h id
  | zero s =>
    rw [(hasVal_zero s).2, _root_.abs_zero] at hb
    exact absurd hb (not_le.2 (by positivity))
  | fin v hv =>
    rw [fin_mul_fin]
    apply roundTo_overflow
    rw [two_pow_split (a := 512) (b := 512) rfl, ← abs_mul_abs_self]
    exact mul_le_mul hb hb (by positivity) (abs_nonneg _)

theorem sq_underflow {c : F64} (h : c.Finite) (hb : |c.value| ≤ (2 : ℚ) ^ (-538 : ℤ)) :
    c * c = 0 := by
  cases c with
  | nan => exact absurd h id
  | inf _ => exact absurd h id
  | zero s => rw [mul_def, zero_def]; simp [mul, mulFin, value]
  | fin v hv =>
    have hp : 0 < v * v := mul_self_pos.2 hv.1
    rw [fin_mul_fin, roundTo_underflow hp.ne', decide_eq_false (not_lt.2 hp.le)]
    · rfl
    · rw [abs_of_pos hp, ← abs_mul_abs_self]
      calc |v| * |v| ≤ (2 : ℚ) ^ (-538 : ℤ) * (2 : ℚ) ^ (-538 : ℤ) :=
            mul_le_mul hb hb (abs_nonneg _) (two_zpow_pos _).le
        _ = (2 : ℚ) ^ (-1076 : ℤ) := by rw [← zpow_add₀ (by norm_num)]; norm_num only
        _ ≤ _ := zpow_le_zpow_right₀ (by norm_num) (by norm_num)

theorem nn_add_inf {a : F64} (h : NN a) : a + inf false = inf false := by
  rcases h with rfl | rfl | ⟨v, hv, rfl, -⟩ <;> rfl

theorem inf_add_nn {a : F64} (h : NN a) : inf false + a = inf false := by
  rw [add_comm', nn_add_inf h]

/-- The squared magnitude overflows as soon as one component is at least `2^512`. -/
theorem innerProduct_overflow (a : F64) (ha : NN a) (ys : List F64) (hf : ∀ c ∈ ys, c.Finite)
    (h : a = inf false ∨ ∃ c ∈ ys, (2 : ℚ) ^ 512 ≤ |c.value|) :
    innerProduct a ys = inf false := by
  induction ys generalizing a with
  | nil => simpa [innerProduct] using h
  | cons y ys ih =>
    have hy := nn_sq (finite_ne_nan (hf y (by simp)))
    refine ih _ (nn_add ha hy) (fun c hc => hf c (by simp [hc])) ?_
    rcases h with rfl | ⟨c, hc, hb⟩
    · exact Or.inl (inf_add_nn hy)
    · rcases List.mem_cons.1 hc with rfl | hc
      · left; rw [sq_overflow (hf c (by simp)) hb, nn_add_inf ha]
      · exact Or.inr ⟨c, hc, hb⟩

/-- The squared magnitude is zero if no component exceeds `2^-538`. -/
theorem innerProduct_underflow (ys : List F64)
    (h : ∀ c ∈ ys, c.Finite ∧ |c.value| ≤ (2 : ℚ) ^ (-538 : ℤ)) : innerProduct 0 ys = 0 := by
  induction ys with
  | nil => rfl
  | cons y ys ih =>
    have hy := h y (by simp)
    have hz : (0 : F64) + 0 = 0 := by
      rw [zero_def, add_def]; simp [add, addFin, value, signbit]
    rw [innerProduct, sq_underflow hy.1 hy.2, hz]
    exact ih fun c hc => h c (by simp [hc])

end F64

/-- **C27 is violated** by IEEE arrays of every length: if one component of the reference is at
least `2^512` (about `1.3e154`) and the differences are small enough not to overflow, the
arrays are reported nearly equal for *every* positive tolerance. -/
theorem C27_fails_overflow (xs ys : List F64) (tol : F64) (h0 : xs ≠ []) (h1 : ys ≠ [])
    (hx : ∀ c ∈ xs, isValidDub c = true) (hy : ∀ c ∈ ys, isValidDub c = true)
    (hbig : ∃ c ∈ ys, (2 : ℚ) ^ 512 ≤ |c.value|) (hdif : (difLoop 0 xs ys).Finite)
    (ht : Dbl.lt 0 tol = true) : nearlyEqualsArr xs ys tol = .ok true := by
  obtain ⟨x, xs, rfl⟩ := List.exists_cons_of_ne_nil h0
  obtain ⟨y, ys, rfl⟩ := List.exists_cons_of_ne_nil h1
  rw [nearlyEqualsArr_eq, List.all_eq_true.2 hx, List.all_eq_true.2 hy,
    F64.innerProduct_overflow 0 (Or.inr (Or.inl rfl)) _ (fun c hc => F64.valid_finite (hy c hc))
      (Or.inr hbig)]
  congr 1
  have hl : Dbl.lt (Dbl.sqrt (inf false)) (Dbl.minDub F64) = false := by
    have := F64.minDub_val.1
    rw [F64.lt_def, F64.sqrt_def]
    cases h : Dbl.minDub F64 <;> rw [h] at this <;> first | exact absurd this id | rfl
  rw [hl]
  simp only [Bool.and_self, Bool.true_and, Bool.false_eq_true, if_false, isSmallAbs]
  generalize difLoop 0 (x :: xs) (y :: ys) = D at hdif
  have hz : ∃ s, Dbl.sqrt (D / inf false) = zero s := by
    rw [F64.div_def, F64.sqrt_def]
    cases D <;> first | exact absurd hdif id | exact ⟨_, rfl⟩
  obtain ⟨s, hs⟩ := hz
  rw [hs]
  have : Dbl.abs (zero s : F64) = 0 := by rw [F64.abs_def]; cases s <;> rfl
  rw [this, ht]

/-- **C27 is violated** by IEEE arrays of every length: if no component of the reference exceeds
`2^-538` (about `1e-162`, far above the smallest valid number) the comparison is absolute, not
relative. -/
theorem C27_fails_underflow (xs ys : List F64) (tol : F64) (h0 : xs ≠ []) (h1 : ys ≠ [])
    (hx : ∀ c ∈ xs, isValidDub c = true) (hy : ∀ c ∈ ys, isValidDub c = true)
    (hsm : ∀ c ∈ ys, |c.value| ≤ (2 : ℚ) ^ (-538 : ℤ)) :
    nearlyEqualsArr xs ys tol
      = .ok ((List.zipWith (fun x y => isSmallAbsDiff x y tol) xs ys).all id) := by
  obtain ⟨x, xs, rfl⟩ := List.exists_cons_of_ne_nil h0
  obtain ⟨y, ys, rfl⟩ := List.exists_cons_of_ne_nil h1
  rw [nearlyEqualsArr_eq, List.all_eq_true.2 hx, List.all_eq_true.2 hy,
    F64.innerProduct_underflow _ (fun c hc => ⟨F64.valid_finite (hy c hc), hsm c hc⟩)]
  have hl : Dbl.lt (Dbl.sqrt (0 : F64)) (Dbl.minDub F64) = true := by
    have : Dbl.sqrt (0 : F64) = 0 := rfl
    rw [this, F64.hasVal_zero'.flt F64.minDub_val]
    exact decide_eq_true (F64.two_zpow_pos _)
  rw [hl]
  simp

namespace F64

/-- `2^e` as a double. -/
noncomputable def pow2 (e : ℤ) : F64 := Dbl.lit ((2 : ℚ) ^ e)

theorem pow2_val {e : ℤ} (h1 : -1074 ≤ e) (h2 : e ≤ 971) : HasVal (pow2 e) ((2 : ℚ) ^ e) :=
  lit_pow h1 h2 rfl

theorem pow2_valid {e : ℤ} (h1 : -1022 ≤ e) (h2 : e ≤ 971) : isValidDub (pow2 e) = true := by
  unfold pow2
  rw [lit_def, roundTo_fin (isFin_pow (by omega) h2), C11_double]
  refine Or.inr ⟨_, _, rfl, ?_⟩
  have hp : |(2 : ℚ) ^ e| = (2 : ℚ) ^ e := abs_of_pos (two_zpow_pos _)
  rw [hp, one_div]
  have : ((2 : ℚ) ^ 1022)⁻¹ = (2 : ℚ) ^ (-1022 : ℤ) := by rw [zpow_neg]; rfl
  rw [this]
  exact zpow_le_zpow_right₀ (by norm_num) h1

end F64

theorem vec_mem {a z : F64} {P : F64 → Prop} (ha : P a) (hz : P z) : ∀ c ∈ [a, z, z], P c := by
  intro c hc
  simp only [List.mem_cons, List.not_mem_nil, or_false] at hc
  rcases hc with rfl | rfl | rfl <;> assumption

theorem isValidDub_zero' : isValidDub (0 : F64) = true := isValidDub_zero false

theorem difLoop_one {a b d : F64} (h : a - b = d) {p : ℚ} (hd : HasVal (d * d) p) :
    HasVal (difLoop 0 [a, 0, 0] [b, 0, 0]) p := by
  simp only [difLoop, h]
  have h4 : HasVal ((0 : F64) - 0) 0 := F64.hasVal_zero'.sub_zero F64.hasVal_zero'
  have h5 := h4.zero_mul h4
  exact ((F64.hasVal_zero'.zero_add hd).add_zero h5).add_zero h5

theorem sq_pow2 {d : F64} {e : ℤ} (h : HasVal d (-(2 : ℚ) ^ e)) (h1 : -1074 ≤ e + e)
    (h2 : e + e < 1024) : HasVal (d * d) ((2 : ℚ) ^ (e + e)) := by
  have e2 : (-(2 : ℚ) ^ e) * (-(2 : ℚ) ^ e) = (2 : ℚ) ^ (e + e) := by
    rw [neg_mul_neg, ← zpow_add₀ (by norm_num)]
  have := h.mul h (by rw [e2]; exact F64.rep_pow _ h1) (by rw [e2]; exact F64.two_zpow_lt h2)
  rwa [e2] at this

/-- **C27 is violated**: the vectors `(2^511, 0, 0)` and `(2^512, 0, 0)`, one twice the other,
are "nearly equal" for every positive tolerance. -/
theorem C27_fails_twice (tol : F64) (ht : Dbl.lt 0 tol = true) :
    nearlyEquals (⟨⟨F64.pow2 511, 0, 0⟩⟩ : Vector F64) ⟨⟨F64.pow2 512, 0, 0⟩⟩ tol = .ok true := by
  have ha := F64.pow2_val (e := 511) (by norm_num) (by norm_num)
  have hb := F64.pow2_val (e := 512) (by norm_num) (by norm_num)
  have va := F64.pow2_valid (e := 511) (by norm_num) (by norm_num)
  have vb := F64.pow2_valid (e := 512) (by norm_num) (by norm_num)
  generalize F64.pow2 511 = a at *
  generalize F64.pow2 512 = b at *
  have e1 : (2 : ℚ) ^ (511 : ℤ) - 2 ^ (512 : ℤ) = -2 ^ (511 : ℤ) := by
    rw [show (512 : ℤ) = 511 + 1 by norm_num only, zpow_add₀ (by norm_num only), zpow_one]
    generalize (2 : ℚ) ^ (511 : ℤ) = p
    ring
  have hr : F64.Rep (-2 ^ (511 : ℤ)) :=
    ⟨-1, 511, by norm_num only, by norm_num only, by rw [Int.cast_neg, Int.cast_one, neg_one_mul]⟩
  have h1 := ha.sub hb (by rw [e1]; exact hr)
    (by rw [e1, abs_neg]; exact F64.two_zpow_lt (by norm_num only))
  rw [e1] at h1
  have h2 := sq_pow2 h1 (by norm_num only) (by norm_num only)
  have hD := (difLoop_one rfl h2).1
  refine C27_fails_overflow [a, 0, 0] [b, 0, 0] tol (List.cons_ne_nil _ _) (List.cons_ne_nil _ _)
    (vec_mem va isValidDub_zero') (vec_mem vb isValidDub_zero')
    ⟨b, List.mem_cons_self, ?_⟩ hD ht
  have hp : |(2 : ℚ) ^ (512 : ℤ)| = (2 : ℚ) ^ (512 : ℤ) := abs_of_pos (F64.two_zpow_pos _)
  rw [hb.2, hp]
  exact le_of_eq (zpow_natCast (2 : ℚ) 512).symm

/-- **C27 is violated**: `(2^-100, 0, 0)` and `(2^-600, 0, 0)`, both valid and differing by a
factor `2^500`, are "nearly equal" within `2^-50`. -/
theorem C27_fails_tiny :
    nearlyEquals (⟨⟨F64.pow2 (-100), 0, 0⟩⟩ : Vector F64) ⟨⟨F64.pow2 (-600), 0, 0⟩⟩
      (F64.pow2 (-50)) = .ok true := by
  have ha := F64.pow2_val (e := -100) (by norm_num) (by norm_num)
  have hb := F64.pow2_val (e := -600) (by norm_num) (by norm_num)
  have ht := F64.pow2_val (e := -50) (by norm_num) (by norm_num)
  have hz : isValidDub (0 : F64) = true := isValidDub_zero false
  have hval : ∀ e : ℤ, -1022 ≤ e → e ≤ 971 → ∀ c ∈ [F64.pow2 e, 0, 0], isValidDub c = true := by
    intro e h1 h2 c hc
    simp only [List.mem_cons, List.not_mem_nil, or_false] at hc
    rcases hc with rfl | rfl | rfl
    · exact F64.pow2_valid h1 h2
    · exact hz
    · exact hz
  refine (C27_fails_underflow _ _ _ (by simp) (by simp)
    (hval _ (by norm_num) (by norm_num)) (hval _ (by norm_num) (by norm_num)) ?_).trans ?_
  · intro c hc
    simp only [List.mem_cons, List.not_mem_nil, or_false] at hc
    have h0 : |(0 : F64).value| ≤ (2 : ℚ) ^ (-538 : ℤ) := by
      rw [F64.hasVal_zero'.2, abs_zero]; exact (F64.two_zpow_pos _).le
    rcases hc with rfl | rfl | rfl
    · rw [hb.2, abs_of_pos (F64.two_zpow_pos _)]
      exact zpow_le_zpow_right₀ (by norm_num) (by norm_num)
    · exact h0
    · exact h0
  · have hfin : ((F64.pow2 (-100)) - F64.pow2 (-600)).Finite ∧
        ((F64.pow2 (-100)) - F64.pow2 (-600)).value
          = F64.rnVal ((2 : ℚ) ^ (-100 : ℤ) - 2 ^ (-600 : ℤ)) := by
      have hn := hb.neg
      have hlt : (2 : ℚ) ^ (-600 : ℤ) ≤ 2 ^ (-100 : ℤ) :=
        zpow_le_zpow_right₀ (by norm_num) (by norm_num)
      have := F64.add_spec ha.1 hn.1 (by
        rw [ha.2, hn.2, ← sub_eq_add_neg]
        have h1 := F64.rnVal_nonneg (sub_nonneg.2 hlt)
        have h2 := F64.rnVal_le_rep (x := (2 : ℚ) ^ (-100 : ℤ) - 2 ^ (-600 : ℤ))
          (F64.rep_pow (-100) (by norm_num))
          (by rw [Rat.cast_id]; linarith [F64.two_zpow_pos (K := ℚ) (-600)])
        rw [abs_of_nonneg h1]
        exact lt_of_le_of_lt (h2.trans (le_abs_self _)) (F64.two_zpow_lt (by norm_num)))
      rw [ha.2, hn.2, ← sub_eq_add_neg] at this
      exact this
    have h1 : isSmallAbsDiff (F64.pow2 (-100)) (F64.pow2 (-600)) (F64.pow2 (-50)) = true := by
      unfold isSmallAbsDiff isSmallAbs
      rw [F64.abs_lt_iff hfin.1 ht.1, hfin.2, ht.2]
      have hlt : (2 : ℚ) ^ (-600 : ℤ) ≤ 2 ^ (-100 : ℤ) :=
        zpow_le_zpow_right₀ (by norm_num) (by norm_num)
      rw [abs_of_nonneg (F64.rnVal_nonneg (sub_nonneg.2 hlt))]
      have h2 := F64.rnVal_le_rep (x := (2 : ℚ) ^ (-100 : ℤ) - 2 ^ (-600 : ℤ))
          (F64.rep_pow (-100) (by norm_num))
          (by rw [Rat.cast_id]; linarith [F64.two_zpow_pos (K := ℚ) (-600)])
      exact lt_of_le_of_lt h2 (zpow_lt_zpow_right₀ (by norm_num) (by norm_num))
    have h2 : isSmallAbsDiff (0 : F64) 0 (F64.pow2 (-50)) = true := by
      unfold isSmallAbsDiff isSmallAbs
      rw [F64.sub_self' F64.hasVal_zero'.1, F64.abs_zero', F64.hasVal_zero'.flt ht]
      exact decide_eq_true (F64.two_zpow_pos _)
    simp [h1, h2]

/-- **C27.** The relative comparison is not symmetric: with tolerance 3/4, 1 is near 2 but 2 is
not near 1. -/
theorem C27_fails_symmetry : ∃ a b tol : F64, isValidDub a = true ∧ isValidDub b = true ∧
    nearlyEqualsDub a b tol = true ∧ nearlyEqualsDub b a tol = false := by
  have h34 : IsFin (3 / 4) := ⟨by norm_num, 3, -2, by norm_num, by norm_num, by norm_num, by
    norm_num⟩
  have h0 := F64.pow2_val (e := 0) (by norm_num) (by norm_num)
  have h1 := F64.pow2_val (e := 1) (by norm_num) (by norm_num)
  have hpos : ∀ e : ℤ, -970 ≤ e → (2 : ℚ) ^ (-970 : ℤ) ≤ |(2 : ℚ) ^ e| := by
    intro e he
    have hp : |(2 : ℚ) ^ e| = (2 : ℚ) ^ e := abs_of_pos (F64.two_zpow_pos _)
    rw [hp]; exact zpow_le_zpow_right₀ (by norm_num) he
  refine ⟨F64.pow2 0, F64.pow2 1, fin (3 / 4) h34, F64.pow2_valid (by norm_num) (by norm_num),
    F64.pow2_valid (by norm_num) (by norm_num), ?_, ?_⟩
  · apply C27_double_accepts _ _ _ (F64.pow2_valid (by norm_num) (by norm_num))
      (F64.pow2_valid (by norm_num) (by norm_num)) (F64.hasVal_fin h34).1
    · rw [h1.2]; exact hpos _ (by norm_num)
    · refine le_trans ?_ (one_le_pow₀ (by norm_num))
      simp only [F64.value]; norm_num
    · rw [h0.2, h1.2]; simp only [F64.value]
      norm_num [abs_of_nonpos, abs_of_nonneg, abs_le]
  · apply C27_double_rejects _ _ _ (F64.hasVal_fin h34).1
    · rw [h0.2]; exact hpos _ (by norm_num)
    · rw [h0.2, h1.2]; simp only [F64.value]
      norm_num

/-- `C27_double_rejects` and `C27_double_accepts` at `2` relative to `1`, for the tolerances `1/2`
and `2`. -/
example : nearlyEqualsDub (F64.pow2 1) (F64.pow2 0) (F64.pow2 (-1)) = false ∧
    nearlyEqualsDub (F64.pow2 1) (F64.pow2 0) (F64.pow2 1) = true := by
  have h1 := F64.pow2_val (e := 1) (by norm_num) (by norm_num)
  have h0 := F64.pow2_val (e := 0) (by norm_num) (by norm_num)
  have hm := F64.pow2_val (e := -1) (by norm_num) (by norm_num)
  have hbig : (2 : ℚ) ^ (-970 : ℤ) ≤ |(F64.pow2 0).value| := by
    rw [h0.2, abs_of_pos (F64.two_zpow_pos _)]
    exact zpow_le_zpow_right₀ (by norm_num) (by norm_num)
  have hv : ∀ e : ℤ, -10 ≤ e → e ≤ 10 → isValidDub (F64.pow2 e) = true := by
    intro e h h'
    exact F64.pow2_valid (by omega) (by omega)
  constructor
  · apply C27_double_rejects _ _ _ hm.1 hbig
    rw [h1.2, h0.2, hm.2]; norm_num
  · apply C27_double_accepts _ _ _ (hv 1 (by norm_num) (by norm_num)) (hv 0 (by norm_num) (by norm_num))
      h1.1 hbig
    · rw [h1.2, ← zpow_natCast]; exact zpow_le_zpow_right₀ (by norm_num) (by norm_num)
    · rw [h1.2, h0.2]; norm_num

end Engabra
