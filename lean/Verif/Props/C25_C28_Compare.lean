import Verif.Props.C10_C12_NullValid
import Verif.Lemmas.XR
import Mathlib.Algebra.Order.BigOperators.Group.List

/-! # C25-C28: comparisons

`nearlyEqualsTy t x y tol` is the overload of `nearlyEquals` for type `t`; `Run.ub` is undefined
behaviour.  `F64` is IEEE binary64, `XR` exact arithmetic. -/

namespace Engabra

open F64 (nan inf zero fin IsFin Finite HasVal)

section Generic
variable {α : Type} [Dbl α]

theorem smallLoop_eq (tol : α) (b : Bool) (xs ys : List α) :
    smallLoop tol b xs ys
      = (b && (List.zipWith (fun x y => isSmallAbsDiff x y tol) xs ys).all id) := by
  induction xs generalizing b ys with
  | nil => simp [smallLoop]
  | cons x xs ih =>
    cases ys with
    | nil => simp [smallLoop]
    | cons y ys => cases b <;> simp [smallLoop, ih]

/-- What `nearlyEquals` on arrays computes, in one equation. -/
theorem nearlyEqualsArr_eq (x y : α) (xs ys : List α) (tol : α) :
    nearlyEqualsArr (x :: xs) (y :: ys) tol = .ok
      ((x :: xs).all isValidDub && (y :: ys).all isValidDub &&
        if Dbl.lt (Dbl.sqrt (innerProduct 0 (y :: ys))) (Dbl.minDub α) then
          (List.zipWith (fun x y => isSmallAbsDiff x y tol) (x :: xs) (y :: ys)).all id
        else isSmallAbs
          (Dbl.sqrt (difLoop 0 (x :: xs) (y :: ys) / innerProduct 0 (y :: ys))) tol) := by
  have hx := C11_array (x :: xs)
  have hy := C11_array (y :: ys)
  rw [if_neg (by simp)] at hx hy
  unfold nearlyEqualsArr
  rw [hx, hy]
  cases h1 : (x :: xs).all isValidDub <;> cases h2 : (y :: ys).all isValidDub <;>
    simp only [Bool.false_and, Bool.true_and, Bool.and_false]
  split_ifs
  · rw [smallLoop_eq]
    simp only [List.all_cons, Bool.and_eq_true] at h1 h2
    simp [nearlyEqualsAbs, bothAreValid, h1.1, h2.1]
  · rfl

/-- **C25.** No undefined behaviour for arrays of equal, non-zero length. -/
theorem C25_array_defined (xs ys : List α) (tol : α) (h : xs.length = ys.length) (h0 : xs ≠ []) :
    ∃ b, nearlyEqualsArr xs ys tol = .ok b := by
  cases xs with
  | nil => exact absurd rfl h0
  | cons x xs =>
    cases ys with
    | nil => simp at h
    | cons y ys => exact ⟨_, nearlyEqualsArr_eq x y xs ys tol⟩

/-- For length zero the code reads element 0 of an empty array. -/
theorem C25_array_empty_ub (tol : α) : nearlyEqualsArr [] [] tol = .ub := rfl

theorem Run.and_ok (a b : Bool) : (Run.ok a).and (.ok b) = .ok (a && b) := by
  cases a <;> rfl

/-- **C25.** The comparison of any two values of any type is defined. -/
theorem C25_defined (t : Ty) (x y : t.D α) (tol : α) :
    ∃ b, nearlyEqualsTy t x y tol = .ok b := by
  cases t <;>
    simp [nearlyEqualsTy, nearlyEquals, A1.toList, A3.toList, nearlyEqualsArr_eq, Run.and_ok]

/-- **C25.** Arrays of any length: if `nearlyEquals` accepts, every element of both arrays is
valid. -/
theorem C25_array_valid (xs ys : List α) (tol : α) (h : nearlyEqualsArr xs ys tol = .ok true) :
    (∀ c ∈ xs, isValidDub c = true) ∧ (∀ c ∈ ys, isValidDub c = true) := by
  cases xs with
  | nil => simp [nearlyEqualsArr, isValidArr] at h
  | cons x xs =>
    cases ys with
    | nil =>
      unfold nearlyEqualsArr at h
      rw [C11_array, if_neg (by simp)] at h
      cases hc : (x :: xs).all isValidDub <;> rw [hc] at h <;> simp [isValidArr] at h
    | cons y ys =>
      rw [nearlyEqualsArr_eq] at h
      simp only [Run.ok.injEq, Bool.and_eq_true, List.all_eq_true] at h
      exact ⟨h.1.1, h.1.2⟩

/-- **C25.** Every type: if `nearlyEquals` accepts, every component (not only the first of each
blade) of both operands is valid.  Equivalently: a NaN, infinity or subnormal number anywhere
gives false, for every tolerance. -/
theorem C25_valid (t : Ty) (x y : t.D α) (tol : α) (h : nearlyEqualsTy t x y tol = .ok true) :
    (∀ c ∈ comps t x, isValidDub c = true) ∧ (∀ c ∈ comps t y, isValidDub c = true) := by
  cases t <;>
    simp only [nearlyEqualsTy, nearlyEquals, A1.toList, A3.toList, nearlyEqualsArr_eq, Run.and_ok,
      nearlyEqualsDub, nearlyEqualsRel, bothAreValid, List.all_cons, List.all_nil, Bool.and_true,
      Run.ok.injEq, Bool.and_eq_true, Bool.if_false_right, decide_eq_true_eq] at h <;>
    simp [comps, h]

/-- **C25.** `nearlyEqualsAbs` and `nearlyEqualsRel` too. -/
theorem C25_double_valid (x y tol : α)
    (h : nearlyEqualsAbs x y tol = true ∨ nearlyEqualsRel x y tol = true) :
    isValidDub x = true ∧ isValidDub y = true := by
  simp only [nearlyEqualsAbs, nearlyEqualsRel] at h
  by_cases hv : bothAreValid x y = true
  · simpa [bothAreValid] using hv
  · rw [if_neg hv, if_neg hv] at h; simp at h
end Generic

/-! ## The tolerance (IEEE) -/

theorem F64.abs_lt_pos (x tol : F64) (h : Dbl.lt (Dbl.abs x) tol = true) :
    Dbl.lt 0 tol = true := by
  rw [F64.lt_def, F64.abs_def] at h
  rw [F64.lt_def, F64.zero_def]
  cases tol with
  | nan => cases hx : F64.abs x <;> rw [hx] at h <;> simp [F64.lt] at h
  | inf t =>
    cases t
    · rfl
    · cases x with
      | nan => simp [F64.abs, F64.signbit, F64.lt] at h
      | inf s => cases s <;> simp [F64.abs, F64.signbit, F64.neg, F64.lt] at h
      | zero s => cases s <;> simp [F64.abs, F64.signbit, F64.neg, F64.lt] at h
      | fin v hv =>
        have h2 := (F64.hasVal_fin hv).abs
        rw [F64.abs_def] at h2
        cases hx : F64.abs (fin v hv) <;> rw [hx] at h h2 <;> simp [F64.lt] at h
  | zero t =>
    have hz := F64.hasVal_zero t
    cases x with
    | nan => simp [F64.abs, F64.signbit, F64.lt] at h
    | inf s => cases s <;> simp [F64.abs, F64.signbit, F64.neg, F64.lt] at h
    | zero s => cases s <;> simp [F64.abs, F64.signbit, F64.neg, F64.lt, F64.value] at h
    | fin v hv =>
      have h2 := (F64.hasVal_fin hv).abs
      have h3 := h2.flt hz
      rw [F64.lt_def, F64.abs_def] at h3
      rw [h3] at h
      exact absurd (of_decide_eq_true h) (not_lt.2 (abs_nonneg v))
  | fin w hw =>
    have hz := F64.hasVal_fin hw
    have h0 := F64.hasVal_zero'.flt hz
    rw [F64.lt_def, F64.zero_def] at h0
    rw [h0]
    cases x with
    | nan => simp [F64.abs, F64.signbit, F64.lt] at h
    | inf s => cases s <;> simp [F64.abs, F64.signbit, F64.neg, F64.lt] at h
    | zero s =>
      have h3 := (F64.hasVal_zero s).abs.flt hz
      rw [F64.lt_def, F64.abs_def] at h3
      rw [h3, abs_zero] at h
      exact h
    | fin v hv =>
      have h3 := (F64.hasVal_fin hv).abs.flt hz
      rw [F64.lt_def, F64.abs_def] at h3
      rw [h3] at h
      exact decide_eq_true (lt_of_le_of_lt (abs_nonneg v) (of_decide_eq_true h))

/-- **C25.** Arrays of any length, IEEE: if `nearlyEquals` accepts, the tolerance compares
greater than zero; so zero, negative and NaN tolerances never accept. -/
theorem C25_array_tolerance (xs ys : List F64) (tol : F64)
    (h : nearlyEqualsArr xs ys tol = .ok true) : Dbl.lt 0 tol = true := by
  cases xs with
  | nil => simp [nearlyEqualsArr, isValidArr] at h
  | cons x xs =>
    cases ys with
    | nil =>
      unfold nearlyEqualsArr at h
      rw [C11_array, if_neg (by simp)] at h
      cases hc : (x :: xs).all isValidDub <;> rw [hc] at h <;> simp [isValidArr] at h
    | cons y ys =>
      rw [nearlyEqualsArr_eq] at h
      simp only [Run.ok.injEq, Bool.and_eq_true] at h
      obtain ⟨-, h⟩ := h
      split_ifs at h
      · simp only [List.zipWith_cons_cons, List.all_cons, Bool.and_eq_true, id] at h
        exact F64.abs_lt_pos _ _ h.1
      · exact F64.abs_lt_pos _ _ h

theorem C25_double_tolerance (x y tol : F64)
    (h : nearlyEqualsAbs x y tol = true ∨ nearlyEqualsRel x y tol = true) :
    Dbl.lt 0 tol = true := by
  simp only [nearlyEqualsAbs, nearlyEqualsRel] at h
  rcases h with h | h <;> split_ifs at h <;> exact F64.abs_lt_pos _ _ h

theorem Run.and_true {a b : Run Bool} (h : a.and b = .ok true) : a = .ok true ∧ b = .ok true := by
  rcases a with _ | _ | _ <;> simp_all [Run.and]

/-- **C25.** Every type, IEEE: zero, negative and NaN tolerances never accept. -/
theorem C25_tolerance (t : Ty) (x y : t.D F64) (tol : F64)
    (h : nearlyEqualsTy t x y tol = .ok true) : Dbl.lt 0 tol = true := by
  cases t
  · exact C25_double_tolerance x y tol (Or.inr (by
      simpa [nearlyEqualsTy, nearlyEqualsDub] using h))
  · exact C25_array_tolerance _ _ _ h
  · exact C25_array_tolerance _ _ _ h
  · exact C25_array_tolerance _ _ _ h
  · exact C25_array_tolerance _ _ _ h
  · exact C25_array_tolerance _ _ _ (Run.and_true h).1
  · exact C25_array_tolerance _ _ _ (Run.and_true h).1
  · exact C25_array_tolerance _ _ _ (Run.and_true h).1
  · exact C25_array_tolerance _ _ _ (Run.and_true h).1
  · exact C25_array_tolerance _ _ _ (Run.and_true (Run.and_true (Run.and_true h).1).1).1

/-! ## C26 -/

namespace F64

theorem sub_self' {x : F64} (h : x.Finite) : x - x = 0 := by
  rw [sub_def, zero_def]
  cases x with
  | nan => exact absurd h id
  | inf _ => exact absurd h id
  | zero s => cases s <;> simp [add, neg, addFin, value, signbit]
  | fin v hv =>
    simp only [add, neg, addFin, value, add_neg_cancel, if_true, signbit]
    by_cases h0 : v < 0
    · have : ¬ (-v < 0) := by linarith
      simp [h0]; exact h0.le
    · simp [h0]

theorem valid_finite {x : F64} (h : isValidDub x = true) : x.Finite := by
  rcases (C11_double x).1 h with ⟨s, rfl⟩ | ⟨v, hv, rfl, -⟩ <;> trivial

theorem abs_zero' : Dbl.abs (0 : F64) = 0 := rfl

/-- Not NaN and not negative (no sign bit). -/
def NN (x : F64) : Prop := x = inf false ∨ x = zero false ∨ ∃ v h, x = fin v h ∧ 0 < v

theorem nn_roundTo {K : Type} [Field K] [LinearOrder K] [IsStrictOrderedRing K] [FloorRing K]
    {x : K} (hx : 0 < x) : NN (roundTo x) := by
  unfold roundTo
  rw [dif_neg hx.ne', decide_eq_false (not_lt.2 hx.le)]
  have h0 := rnVal_nonneg hx.le
  split_ifs with h1 h2
  · exact Or.inr (Or.inl rfl)
  · exact Or.inr (Or.inr ⟨_, _, rfl, lt_of_le_of_ne h0 (Ne.symm h1)⟩)
  · exact Or.inl rfl

theorem nn_add {x y : F64} (hx : NN x) (hy : NN y) : NN (x + y) := by
  rw [add_def]
  rcases hx with rfl | rfl | ⟨v, hv, rfl, v0⟩ <;> rcases hy with rfl | rfl | ⟨w, hw, rfl, w0⟩
  · exact Or.inl rfl
  · exact Or.inl rfl
  · exact Or.inl rfl
  · exact Or.inl rfl
  · exact Or.inr (Or.inl (by simp [add, addFin, value, signbit]))
  · simp only [add, addFin, value, _root_.zero_add, if_neg w0.ne']; exact nn_roundTo w0
  · exact Or.inl rfl
  · simp only [add, addFin, value, _root_.add_zero, if_neg v0.ne']; exact nn_roundTo v0
  · have : 0 < v + w := by linarith
    rw [← add_def, fin_add_fin hv hw this.ne']; exact nn_roundTo this

theorem nn_sq {x : F64} (hx : x ≠ nan) : NN (x * x) := by
  rw [mul_def]
  cases x with
  | nan => exact absurd rfl hx
  | inf s => exact Or.inl (by simp [mul, signbit])
  | zero s => exact Or.inr (Or.inl (by simp [mul, mulFin, value]))
  | fin v hv =>
    have : 0 < v * v := mul_self_pos.2 hv.1
    rw [← mul_def, fin_mul_fin]; exact nn_roundTo this

theorem finite_ne_nan {x : F64} (h : x.Finite) : x ≠ nan := by rintro rfl; exact h

theorem nn_innerProduct (a : F64) (ha : NN a) (xs : List F64) (h : ∀ c ∈ xs, c ≠ nan) :
    NN (innerProduct a xs) := by
  induction xs generalizing a with
  | nil => exact ha
  | cons x xs ih =>
    exact ih _ (nn_add ha (nn_sq (h x (by simp)))) (fun c hc => h c (by simp [hc]))

theorem difLoop_self (xs : List F64) (h : ∀ c ∈ xs, c.Finite) : difLoop 0 xs xs = 0 := by
  induction xs with
  | nil => rfl
  | cons x xs ih =>
    have hx : x - x = 0 := sub_self' (h x (by simp))
    have hz : (0 : F64) + 0 * 0 = 0 := by
      rw [zero_def, add_def, mul_def]; simp [mul, mulFin, add, addFin, value, signbit]
    simp only [difLoop, hx, hz]
    exact ih fun c hc => h c (by simp [hc])

theorem isFin_pow {e : ℤ} (h1 : -1074 ≤ e) (h2 : e ≤ 971) : IsFin ((2 : ℚ) ^ e) :=
  ⟨(two_zpow_pos _).ne', 1, e, by norm_num, h1, h2, by rw [Int.cast_one, _root_.one_mul]⟩

theorem lit_pow {e : ℤ} (h1 : -1074 ≤ e) (h2 : e ≤ 971) {q : ℚ} (hq : q = (2 : ℚ) ^ e) :
    HasVal (Dbl.lit q) ((2 : ℚ) ^ e) := by
  rw [hq, lit_def, roundTo_fin (isFin_pow h1 h2)]; exact hasVal_fin _

theorem HasVal.div {x y : F64} {p q : ℚ} (hx : HasVal x p) (hy : HasVal y q) (hq : q ≠ 0)
    (hr : Rep (p / q)) (hb : |p / q| < 2 ^ 1024) : HasVal (x / y) (p / q) := by
  obtain ⟨hx1, rfl⟩ := hx
  obtain ⟨hy1, rfl⟩ := hy
  rw [div_def]
  cases y with
  | nan => exact absurd hy1 id
  | inf _ => exact absurd hy1 id
  | zero _ => exact absurd rfl hq
  | fin w hw =>
    cases x with
    | nan => exact absurd hx1 id
    | inf _ => exact absurd hx1 id
    | zero s => exact ⟨trivial, by simp [F64.div, value]⟩
    | fin v hv =>
      simp only [F64.div, value] at hr hb ⊢
      have e := rnVal_exact hr
      have := roundTo_value (x := v / w) (by rw [e]; exact hb)
      exact ⟨this.1, by rw [this.2, e]⟩

theorem minDub_val : HasVal (Dbl.minDub F64) ((2 : ℚ) ^ (-1022 : ℤ)) := by
  apply lit_pow (by norm_num) (by norm_num)
  rw [zpow_neg, one_div]; rfl

theorem epsilon_val : HasVal (Dbl.epsilon F64) ((2 : ℚ) ^ (-52 : ℤ)) := by
  apply lit_pow (by norm_num) (by norm_num)
  rw [zpow_neg, one_div]; rfl

theorem two_zpow_lt {e : ℤ} (h : e < 1024) : |(2 : ℚ) ^ e| < 2 ^ 1024 := by
  have hp : |(2 : ℚ) ^ e| = (2 : ℚ) ^ e := abs_of_pos (two_zpow_pos _)
  rw [hp, ← zpow_natCast]
  exact zpow_lt_zpow_right₀ (by norm_num) (by push_cast; exact h)

/-- `nearlyEqualsRel`'s `tolToZero` is `2^-970`. -/
theorem tolToZero_val : HasVal (Dbl.minDub F64 * (1 / Dbl.epsilon F64)) ((2 : ℚ) ^ (-970 : ℤ)) := by
  have e1 : (1 : ℚ) / (2 : ℚ) ^ (-52 : ℤ) = (2 : ℚ) ^ (52 : ℤ) := by
    rw [zpow_neg, one_div, inv_inv]
  have h1 := hasVal_one.div epsilon_val (two_zpow_pos _).ne'
    (by rw [e1]; exact rep_pow _ (by norm_num)) (by rw [e1]; exact two_zpow_lt (by norm_num))
  rw [e1] at h1
  have e2 : (2 : ℚ) ^ (-1022 : ℤ) * (2 : ℚ) ^ (52 : ℤ) = (2 : ℚ) ^ (-970 : ℤ) := by
    rw [← zpow_add₀ (by norm_num)]; norm_num only
  have h2 := minDub_val.mul h1 (by rw [e2]; exact rep_pow _ (by norm_num))
    (by rw [e2]; exact two_zpow_lt (by norm_num))
  rwa [e2] at h2

theorem div_self' {v : ℚ} (hv : IsFin v) : (fin v hv) / (fin v hv) = 1 := by
  rw [div_def, one_def]; simp only [div, _root_.div_self hv.1]

end F64

/-- **C26.** IEEE: `nearlyEquals(x, x, tol)` for every valid double and every tolerance greater
than zero (also `+inf`). -/
theorem C26_double (x tol : F64) (hx : isValidDub x = true) (ht : Dbl.lt 0 tol = true) :
    nearlyEqualsDub x x tol = true := by
  have key : ∀ y : F64, y.Finite → isSmallAbsDiff y y tol = true := by
    intro y hy; unfold isSmallAbsDiff isSmallAbs
    rw [F64.sub_self' hy, F64.abs_zero', ht]
  unfold nearlyEqualsDub nearlyEqualsRel bothAreValid
  rw [hx]
  simp only [Bool.and_self, if_true]
  split_ifs with h
  · exact key x (F64.valid_finite hx)
  · rcases (C11_double x).1 hx with ⟨s, rfl⟩ | ⟨v, hv, rfl, -⟩
    · exfalso
      apply h
      rw [(F64.hasVal_zero s).abs.flt F64.tolToZero_val, abs_zero]
      exact decide_eq_true (F64.two_zpow_pos _)
    · rw [F64.div_self' hv]; exact key 1 F64.hasVal_one.1

/-- **C26.** IEEE: arrays of every length, including those whose squares overflow or
underflow. -/
theorem C26_array (xs : List F64) (tol : F64) (h0 : xs ≠ [])
    (hx : ∀ c ∈ xs, isValidDub c = true) (ht : Dbl.lt 0 tol = true) :
    nearlyEqualsArr xs xs tol = .ok true := by
  have hfin : ∀ c ∈ xs, c.Finite := fun c hc => F64.valid_finite (hx c hc)
  have hS := F64.nn_innerProduct 0 (Or.inr (Or.inl rfl)) xs
    (fun c hc => F64.finite_ne_nan (hfin c hc))
  obtain ⟨y, ys, rfl⟩ := List.exists_cons_of_ne_nil h0
  rw [nearlyEqualsArr_eq, List.all_eq_true.2 hx]
  congr 1
  simp only [Bool.true_and]
  split_ifs with h
  · rw [List.all_eq_true]
    intro b hb
    rw [List.zipWith_self, List.mem_map] at hb
    obtain ⟨c, hc, rfl⟩ := hb
    simp only [id, isSmallAbsDiff, isSmallAbs]
    rw [F64.sub_self' (hfin c hc), F64.abs_zero', ht]
  · rw [F64.difLoop_self _ hfin]
    have hz : (0 : F64) / innerProduct 0 (y :: ys) = 0 := by
      rw [F64.div_def, F64.zero_def]
      rw [F64.zero_def] at hS h
      rcases hS with e | e | ⟨v, hv, e, v0⟩
      · rw [e]; rfl
      · exfalso
        apply h
        rw [e, F64.sqrt_def]
        have := (F64.hasVal_zero false).flt F64.minDub_val
        rw [F64.sqrt, this]
        exact decide_eq_true (F64.two_zpow_pos _)
      · rw [e]; simp only [F64.div, F64.signbit, decide_eq_false (not_lt.2 v0.le)]; rfl
    rw [hz]
    unfold isSmallAbs
    exact ht

/-- **C26.** IEEE: every type. -/
theorem C26_reflexive (t : Ty) (x : t.D F64) (tol : F64)
    (hx : ∀ c ∈ comps t x, isValidDub c = true) (ht : Dbl.lt 0 tol = true) :
    nearlyEqualsTy t x x tol = .ok true := by
  have hA := fun xs h0 h => C26_array xs tol h0 h ht
  cases t <;>
    simp only [comps, List.mem_cons, List.not_mem_nil, or_false, forall_eq_or_imp, forall_eq] at hx
  · simp only [nearlyEqualsTy]; rw [C26_double x tol hx ht]
  all_goals
    simp only [nearlyEqualsTy, nearlyEquals, A1.toList, A3.toList]
    repeat rw [hA _ (by simp) (by simp [hx])]
  all_goals rfl

/-! ## C28 -/

/-- **C28.** IEEE `==` on doubles: true iff neither is NaN and they are the same datum or both
zeros. -/
theorem C28_double (x y : F64) :
    Dbl.feq x y = true ↔ x ≠ nan ∧ (x = y ∨ ∃ s t, x = zero s ∧ y = zero t) := by
  rw [F64.feq_def]
  cases x with
  | nan => simp [F64.feq]
  | inf s => cases y <;> simp [F64.feq]
  | zero s =>
    cases y with
    | fin w hw => have := hw.1.symm; simp [F64.feq, F64.value, this]
    | _ => simp [F64.feq, F64.value]
  | fin v hv =>
    cases y with
    | zero t => have := hv.1; simp [F64.feq, F64.value, this]
    | fin w hw => rw [F64.fin_feq_fin]; simp
    | _ => simp [F64.feq]

/-- **C28.** `operator==` is component-wise equality of doubles, for every type that has the
operator (all but `ComPlex` and `DirPlex`). -/
theorem C28_componentwise {α : Type} [Dbl α] (t : Ty) (ht : t ≠ .cplx ∧ t ≠ .dplx) (x y : t.D α) :
    geqTy t x y = some ((List.zipWith Dbl.feq (comps t x) (comps t y)).all id) := by
  cases t <;> simp_all [geqTy, geq, eqArr3, comps, Bool.and_assoc]

/-- `ComPlex` and `DirPlex` have no `operator==`. -/
theorem C28_missing {α : Type} [Dbl α] :
    (∀ x y : ComPlex α, geqTy .cplx x y = none) ∧ (∀ x y : DirPlex α, geqTy .dplx x y = none) :=
  ⟨fun _ _ => rfl, fun _ _ => rfl⟩

theorem F64.feq_symm (x y : F64) : Dbl.feq x y = Dbl.feq y x := by
  rw [Bool.eq_iff_iff, C28_double, C28_double]
  constructor
  · rintro ⟨h, rfl | ⟨s, t, rfl, rfl⟩⟩
    · exact ⟨h, Or.inl rfl⟩
    · exact ⟨by simp, Or.inr ⟨_, _, rfl, rfl⟩⟩
  · rintro ⟨h, rfl | ⟨s, t, rfl, rfl⟩⟩
    · exact ⟨h, Or.inl rfl⟩
    · exact ⟨by simp, Or.inr ⟨_, _, rfl, rfl⟩⟩

theorem F64.feq_trans {x y z : F64} (h1 : Dbl.feq x y = true) (h2 : Dbl.feq y z = true) :
    Dbl.feq x z = true := by
  rw [C28_double] at *
  obtain ⟨hx, rfl | ⟨s, t, rfl, rfl⟩⟩ := h1 <;> obtain ⟨hy, rfl | ⟨s', t', h, rfl⟩⟩ := h2
  · exact ⟨hx, Or.inl rfl⟩
  · exact ⟨hx, Or.inr ⟨_, _, h, rfl⟩⟩
  · exact ⟨hx, Or.inr ⟨_, _, rfl, rfl⟩⟩
  · exact ⟨hx, Or.inr ⟨_, _, rfl, rfl⟩⟩

/-- **C28.** `operator==` is symmetric. -/
theorem C28_symmetric (t : Ty) (x y : t.D F64) : geqTy t x y = geqTy t y x := by
  cases t <;> simp [geqTy, geq, eqArr3, F64.feq_symm]

/-- **C28.** `operator==` is transitive. -/
theorem C28_transitive (t : Ty) (x y z : t.D F64) (h1 : geqTy t x y = some true)
    (h2 : geqTy t y z = some true) : geqTy t x z = some true := by
  cases t <;> simp only [geqTy, geq, eqArr3, Option.some.injEq, Bool.and_eq_true, reduceCtorEq] at *
  · exact F64.feq_trans h1 h2
  · exact F64.feq_trans h1 h2
  · exact ⟨⟨F64.feq_trans h1.1.1 h2.1.1, F64.feq_trans h1.1.2 h2.1.2⟩, F64.feq_trans h1.2 h2.2⟩
  · exact ⟨⟨F64.feq_trans h1.1.1 h2.1.1, F64.feq_trans h1.1.2 h2.1.2⟩, F64.feq_trans h1.2 h2.2⟩
  · exact F64.feq_trans h1 h2
  · exact ⟨F64.feq_trans h1.1 h2.1, ⟨F64.feq_trans h1.2.1.1 h2.2.1.1,
      F64.feq_trans h1.2.1.2 h2.2.1.2⟩, F64.feq_trans h1.2.2 h2.2.2⟩
  · exact ⟨⟨⟨F64.feq_trans h1.1.1.1 h2.1.1.1, F64.feq_trans h1.1.1.2 h2.1.1.2⟩,
      F64.feq_trans h1.1.2 h2.1.2⟩, F64.feq_trans h1.2 h2.2⟩
  · exact ⟨⟨⟨F64.feq_trans h1.1.1.1 h2.1.1.1, ⟨F64.feq_trans h1.1.1.2.1.1 h2.1.1.2.1.1,
      F64.feq_trans h1.1.1.2.1.2 h2.1.1.2.1.2⟩, F64.feq_trans h1.1.1.2.2 h2.1.1.2.2⟩,
      ⟨F64.feq_trans h1.1.2.1.1 h2.1.2.1.1, F64.feq_trans h1.1.2.1.2 h2.1.2.1.2⟩,
      F64.feq_trans h1.1.2.2 h2.1.2.2⟩, F64.feq_trans h1.2 h2.2⟩

/-- **C28.** `x == x` holds exactly for the values without NaN components. -/
theorem C28_reflexive_iff (t : Ty) (ht : t ≠ .cplx ∧ t ≠ .dplx) (x : t.D F64) :
    geqTy t x x = some true ↔ nan ∉ comps t x := by
  rw [C28_componentwise t ht, List.zipWith_self]
  simp only [Option.some.injEq, List.all_eq_true, List.mem_map, forall_exists_index, and_imp,
    forall_apply_eq_imp_iff₂, id]
  constructor
  · intro h hm
    exact ((C28_double _ _).1 (h _ hm)).1 rfl
  · intro h c hc
    exact (C28_double _ _).2 ⟨fun e => h (e ▸ hc), Or.inl rfl⟩

/-- **C28 is violated** as documented ("values are bit-wise identical"): values with different
bits compare equal. -/
theorem C28_fails_bitwise : ∃ x y : Vector F64, x ≠ y ∧ geq x y = true := by
  refine ⟨⟨⟨zero false, zero false, zero false⟩⟩, ⟨⟨zero true, zero false, zero false⟩⟩, ?_, ?_⟩
  · simp
  · simp [geq, eqArr3, (C28_double _ _).2]

/-! ## Concrete cases -/

/-- `C26_reflexive` for a spinor with a negative zero and the default tolerance; a NaN component is
never accepted (`C25_valid`), nor is a tolerance of zero (`C25_tolerance`). -/
example : nearlyEqualsTy .spin (⟨⟨⟨1⟩⟩, ⟨⟨0, 1, zero true⟩⟩⟩ : Spinor F64) ⟨⟨⟨1⟩⟩, ⟨⟨0, 1, zero true⟩⟩⟩
      (Dbl.epsilon F64) = .ok true ∧
    nearlyEqualsTy .spin (⟨⟨⟨1⟩⟩, ⟨⟨0, 1, nan⟩⟩⟩ : Spinor F64) ⟨⟨⟨1⟩⟩, ⟨⟨0, 1, nan⟩⟩⟩
      (Dbl.epsilon F64) ≠ .ok true ∧
    nearlyEqualsTy .spin (⟨⟨⟨1⟩⟩, ⟨⟨0, 1, 0⟩⟩⟩ : Spinor F64) ⟨⟨⟨1⟩⟩, ⟨⟨0, 1, 0⟩⟩⟩ 0 ≠ .ok true := by
  refine ⟨C26_reflexive _ _ _ ?_ (by decide +kernel), fun h => ?_, fun h => ?_⟩
  · intro c hc
    simp only [comps, List.mem_cons, List.not_mem_nil, or_false] at hc
    rcases hc with rfl | rfl | rfl | rfl <;> decide +kernel
  · have := (C25_valid _ _ _ _ h).1 nan (by simp [comps])
    exact absurd this (by decide +kernel)
  · exact absurd (C25_tolerance _ _ _ _ h) (by decide +kernel)

/-- `C28_transitive` through values that differ in the sign of zero. -/
example : geqTy .vec (⟨⟨1, 0, zero true⟩⟩ : Vector F64) ⟨⟨1, zero true, 0⟩⟩ = some true ∧
    geqTy .vec (⟨⟨1, zero true, 0⟩⟩ : Vector F64) ⟨⟨1, zero true, zero true⟩⟩ = some true :=
  ⟨by decide +kernel, by decide +kernel⟩

end Engabra
