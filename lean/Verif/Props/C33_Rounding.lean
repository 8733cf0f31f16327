import Verif.Lemmas.Approx
import Verif.Lemmas.Tactic
import Verif.Model.Template
import Verif.Props.C04_C05_SumsDifferences
import Mathlib.Algebra.BigOperators.Fin

/-! # C33: rounding error of the products

For every one of the hundred typed products, every component of the computed IEEE result which
is finite differs from the exact product of the operands by at most
`((1 + u)^8 - 1) * S + 2^16 * 2^-1075`, where `u = 2^-53` and `S` is the sum of the absolute
values of the (at most eight) terms of that component.  The second summand accounts for
underflow; overflow is excluded by the component being finite. -/

namespace Engabra

open F64 (Finite Approx uro tinyErr)

/-- The exact (rational) values of the components; used for finite data. -/
def valTy (t : Ty) (x : t.D F64) : t.D ℚ := mapTy F64.value t x

/-- Component `k`, in the order scalar, e1, e2, e3, e23, e31, e12, e123. -/
def cf {β : Type} (x : MultiVector β) : Fin 8 → β :=
  ![x.theSca.theData.d0, x.theVec.theData.d0, x.theVec.theData.d1, x.theVec.theData.d2,
    x.theBiv.theData.d0, x.theBiv.theData.d1, x.theBiv.theData.d2, x.theTri.theData.d0]

/-- The set of generators of basis element `k`, as a bit mask. -/
def maskOf : Fin 8 → Nat := ![0, 1, 2, 4, 6, 5, 3, 7]

/-- Specification: sum of the absolute values of the terms of component `k` of the product: the
product of basis elements `i` and `j` is plus or minus basis element `k` iff the symmetric
difference of the generator sets is that of `k`. -/
def absMul (x y : Fin 8 → ℚ) (k : Fin 8) : ℚ :=
  ∑ i : Fin 8, ∑ j : Fin 8, if maskOf i ^^^ maskOf j = maskOf k then |x i| * |y j| else 0

theorem absMul_0 (x y : Fin 8 → ℚ) : absMul x y 0 = |x 0| * |y 0| + |x 1| * |y 1| + |x 2| * |y 2|
    + |x 3| * |y 3| + |x 4| * |y 4| + |x 5| * |y 5| + |x 6| * |y 6| + |x 7| * |y 7| := by
  simp [absMul, maskOf, Fin.sum_univ_eight]
theorem absMul_1 (x y : Fin 8 → ℚ) : absMul x y 1 = |x 0| * |y 1| + |x 1| * |y 0| + |x 2| * |y 6|
    + |x 3| * |y 5| + |x 4| * |y 7| + |x 5| * |y 3| + |x 6| * |y 2| + |x 7| * |y 4| := by
  simp [absMul, maskOf, Fin.sum_univ_eight]
theorem absMul_2 (x y : Fin 8 → ℚ) : absMul x y 2 = |x 0| * |y 2| + |x 1| * |y 6| + |x 2| * |y 0|
    + |x 3| * |y 4| + |x 4| * |y 3| + |x 5| * |y 7| + |x 6| * |y 1| + |x 7| * |y 5| := by
  simp [absMul, maskOf, Fin.sum_univ_eight]
theorem absMul_3 (x y : Fin 8 → ℚ) : absMul x y 3 = |x 0| * |y 3| + |x 1| * |y 5| + |x 2| * |y 4|
    + |x 3| * |y 0| + |x 4| * |y 2| + |x 5| * |y 1| + |x 6| * |y 7| + |x 7| * |y 6| := by
  simp [absMul, maskOf, Fin.sum_univ_eight]
theorem absMul_4 (x y : Fin 8 → ℚ) : absMul x y 4 = |x 0| * |y 4| + |x 1| * |y 7| + |x 2| * |y 3|
    + |x 3| * |y 2| + |x 4| * |y 0| + |x 5| * |y 6| + |x 6| * |y 5| + |x 7| * |y 1| := by
  simp [absMul, maskOf, Fin.sum_univ_eight]
theorem absMul_5 (x y : Fin 8 → ℚ) : absMul x y 5 = |x 0| * |y 5| + |x 1| * |y 3| + |x 2| * |y 7|
    + |x 3| * |y 1| + |x 4| * |y 6| + |x 5| * |y 0| + |x 6| * |y 4| + |x 7| * |y 2| := by
  simp [absMul, maskOf, Fin.sum_univ_eight]
theorem absMul_6 (x y : Fin 8 → ℚ) : absMul x y 6 = |x 0| * |y 6| + |x 1| * |y 2| + |x 2| * |y 1|
    + |x 3| * |y 7| + |x 4| * |y 5| + |x 5| * |y 4| + |x 6| * |y 0| + |x 7| * |y 3| := by
  simp [absMul, maskOf, Fin.sum_univ_eight]
theorem absMul_7 (x y : Fin 8 → ℚ) : absMul x y 7 = |x 0| * |y 7| + |x 1| * |y 4| + |x 2| * |y 5|
    + |x 3| * |y 6| + |x 4| * |y 1| + |x 5| * |y 2| + |x 6| * |y 3| + |x 7| * |y 0| := by
  simp [absMul, maskOf, Fin.sum_univ_eight]

/-- The bound for one typed product. -/
def RoundOk (s t : Ty) : Prop := ∀ (a : s.D F64) (b : t.D F64) (k : Fin 8),
  (cf (promote _ (mulTy s t a b)) k).Finite →
    |(cf (promote _ (mulTy s t a b)) k).value
        - cf (promote s (valTy s a) * promote t (valTy t b)) k|
      ≤ ((1 + uro) ^ 8 - 1) * absMul (cf (promote s (valTy s a))) (cf (promote t (valTy t b))) k
        + 4 ^ 8 * tinyErr

theorem cf_0 {β : Type} (x : MultiVector β) : cf x 0 = x.theSca.theData.d0 := rfl
theorem cf_1 {β : Type} (x : MultiVector β) : cf x 1 = x.theVec.theData.d0 := rfl
theorem cf_2 {β : Type} (x : MultiVector β) : cf x 2 = x.theVec.theData.d1 := rfl
theorem cf_3 {β : Type} (x : MultiVector β) : cf x 3 = x.theVec.theData.d2 := rfl
theorem cf_4 {β : Type} (x : MultiVector β) : cf x 4 = x.theBiv.theData.d0 := rfl
theorem cf_5 {β : Type} (x : MultiVector β) : cf x 5 = x.theBiv.theData.d1 := rfl
theorem cf_6 {β : Type} (x : MultiVector β) : cf x 6 = x.theBiv.theData.d2 := rfl
theorem cf_7 {β : Type} (x : MultiVector β) : cf x 7 = x.theTri.theData.d0 := rfl

theorem forall_fin8 {P : Fin 8 → Prop} (h0 : P 0) (h1 : P 1) (h2 : P 2) (h3 : P 3) (h4 : P 4)
    (h5 : P 5) (h6 : P 6) (h7 : P 7) (k : Fin 8) : P k := by
  fin_cases k <;> assumption

/-- Prove an `Approx` goal with unknown value, absolute sum and depth. -/
macro "approx" : tactic => `(tactic| repeat' first
  | with_reducible exact F64.Approx.zero
  | with_reducible apply F64.Approx.add
  | with_reducible apply F64.Approx.sub
  | with_reducible apply F64.Approx.neg
  | with_reducible apply F64.Approx.mul)

macro "abs_sum" : tactic => `(tactic| first
  | ring1
  | (simp only [abs_zero, F64.value_neg, abs_neg, MulZeroClass.zero_mul, MulZeroClass.mul_zero,
      zero_add, add_zero]; done)
  | (simp only [abs_zero, F64.value_neg, abs_neg, MulZeroClass.zero_mul, MulZeroClass.mul_zero,
      zero_add, add_zero]; ring1))

/-- Closes one component of one typed product. -/
macro "round_comp" : tactic => `(tactic| (
  simp only [cf_0, cf_1, cf_2, cf_3, cf_4, cf_5, cf_6, cf_7, engabra, valTy, mapTy, absMul_0,
    absMul_1, absMul_2, absMul_3, absMul_4, absMul_5, absMul_6, absMul_7]
  intro hc
  refine F64.Approx.use (by approx) (by decide) ?_ ?_ hc
  · first | ring1 | (simp only [F64.value_neg]; ring1)
  · abs_sum))

macro "round_ok" : tactic => `(tactic| (
  intro a b
  apply forall_fin8 <;> round_comp))

theorem round_dub (t : Ty) : RoundOk .dub t := by cases t <;> round_ok
theorem round_sca (t : Ty) : RoundOk .sca t := by cases t <;> round_ok
theorem round_vec (t : Ty) : RoundOk .vec t := by cases t <;> round_ok
theorem round_biv (t : Ty) : RoundOk .biv t := by cases t <;> round_ok
theorem round_tri (t : Ty) : RoundOk .tri t := by cases t <;> round_ok
theorem round_spin (t : Ty) : RoundOk .spin t := by cases t <;> round_ok
theorem round_imsp (t : Ty) : RoundOk .imsp t := by cases t <;> round_ok
theorem round_cplx (t : Ty) : RoundOk .cplx t := by cases t <;> round_ok
theorem round_dplx (t : Ty) : RoundOk .dplx t := by cases t <;> round_ok
theorem round_mv (t : Ty) : RoundOk .mv t := by cases t <;> round_ok

/-- **C33.**  Every finite component of every typed product (all hundred type pairs, all operands,
including operands with infinities, NaN or subnormal numbers elsewhere) is within the stated
distance of the exact product of the operands. -/
theorem C33_error (s t : Ty) (a : s.D F64) (b : t.D F64) (k : Fin 8)
    (hc : (cf (promote _ (mulTy s t a b)) k).Finite) :
    |(cf (promote _ (mulTy s t a b)) k).value
        - cf (promote s (valTy s a) * promote t (valTy t b)) k|
      ≤ ((1 + uro) ^ 8 - 1) * absMul (cf (promote s (valTy s a))) (cf (promote t (valTy t b))) k
        + 4 ^ 8 * tinyErr := by
  have h : RoundOk s t := by
    cases s
    · exact round_dub t
    · exact round_sca t
    · exact round_vec t
    · exact round_biv t
    · exact round_tri t
    · exact round_spin t
    · exact round_imsp t
    · exact round_cplx t
    · exact round_dplx t
    · exact round_mv t
  exact h a b k hc

/-! ## Overflow -/

/-- The absence of overflow for one typed product. -/
def FitsOk (s t : Ty) : Prop := ∀ (a : s.D F64) (b : t.D F64),
  (∀ i, (cf (promote s a) i).Finite) → (∀ j, (cf (promote t b) j).Finite) → ∀ k,
    absMul (cf (promote s (valTy s a))) (cf (promote t (valTy t b))) k ≤ F64.safe →
      (cf (promote _ (mulTy s t a b)) k).Finite

/-- Prove a `Fits` goal with unknown value, absolute sum and depth. -/
macro "fits" : tactic => `(tactic| repeat' first
  | with_reducible assumption
  | with_reducible exact F64.Fits.zero
  | with_reducible apply F64.Fits.add
  | with_reducible apply F64.Fits.sub
  | with_reducible apply F64.Fits.neg
  | with_reducible apply F64.Fits.mul
  | with_reducible apply F64.neg_finite_iff.2)

theorem all8 {P : Fin 8 → Prop} (h : ∀ k, P k) :
    P 0 ∧ P 1 ∧ P 2 ∧ P 3 ∧ P 4 ∧ P 5 ∧ P 6 ∧ P 7 := ⟨h 0, h 1, h 2, h 3, h 4, h 5, h 6, h 7⟩

macro "fits_ok" : tactic => `(tactic| (
  intro a b ha hb
  replace ha := all8 ha
  replace hb := all8 hb
  simp only [cf_0, cf_1, cf_2, cf_3, cf_4, cf_5, cf_6, cf_7, engabra] at ha hb
  obtain ⟨a0, a1, a2, a3, a4, a5, a6, a7⟩ := ha
  obtain ⟨b0, b1, b2, b3, b4, b5, b6, b7⟩ := hb
  apply forall_fin8
  all_goals
    simp only [cf_0, cf_1, cf_2, cf_3, cf_4, cf_5, cf_6, cf_7, engabra, valTy, mapTy, absMul_0,
      absMul_1, absMul_2, absMul_3, absMul_4, absMul_5, absMul_6, absMul_7]
    intro hs
    refine F64.Fits.use (by fits) (by decide) ?_ hs
    abs_sum))

theorem fits_dub (t : Ty) : FitsOk .dub t := by cases t <;> fits_ok
theorem fits_sca (t : Ty) : FitsOk .sca t := by cases t <;> fits_ok
theorem fits_vec (t : Ty) : FitsOk .vec t := by cases t <;> fits_ok
theorem fits_biv (t : Ty) : FitsOk .biv t := by cases t <;> fits_ok
theorem fits_tri (t : Ty) : FitsOk .tri t := by cases t <;> fits_ok
theorem fits_spin (t : Ty) : FitsOk .spin t := by cases t <;> fits_ok
theorem fits_imsp (t : Ty) : FitsOk .imsp t := by cases t <;> fits_ok
theorem fits_cplx (t : Ty) : FitsOk .cplx t := by cases t <;> fits_ok
theorem fits_dplx (t : Ty) : FitsOk .dplx t := by cases t <;> fits_ok
theorem fits_mv (t : Ty) : FitsOk .mv t := by cases t <;> fits_ok

/-- **C33.**  With finite operands, a component of a typed product does not overflow when the sum
of the absolute values of its exact terms is at most `2^1022`. -/
theorem C33_no_overflow (s t : Ty) (a : s.D F64) (b : t.D F64)
    (ha : ∀ i, (cf (promote s a) i).Finite) (hb : ∀ j, (cf (promote t b) j).Finite) (k : Fin 8)
    (hs : absMul (cf (promote s (valTy s a))) (cf (promote t (valTy t b))) k ≤ F64.safe) :
    (cf (promote _ (mulTy s t a b)) k).Finite := by
  have h : FitsOk s t := by
    cases s
    · exact fits_dub t
    · exact fits_sca t
    · exact fits_vec t
    · exact fits_biv t
    · exact fits_tri t
    · exact fits_spin t
    · exact fits_imsp t
    · exact fits_cplx t
    · exact fits_dplx t
    · exact fits_mv t
  exact h a b ha hb k hs

/-- **C33.**  The bound in plain numbers: nine units roundoff (`2^-53`) relative to the sum of the
absolute values of the terms, plus an absolute `2^-1059` for underflow; for all finite operands
whose terms sum up to at most `2^1022` in absolute value. -/
theorem C33_product (s t : Ty) (a : s.D F64) (b : t.D F64)
    (ha : ∀ i, (cf (promote s a) i).Finite) (hb : ∀ j, (cf (promote t b) j).Finite) (k : Fin 8)
    (hs : absMul (cf (promote s (valTy s a))) (cf (promote t (valTy t b))) k ≤ 2 ^ 1022) :
    (cf (promote _ (mulTy s t a b)) k).Finite ∧
    |(cf (promote _ (mulTy s t a b)) k).value
        - cf (promote s (valTy s a) * promote t (valTy t b)) k|
      ≤ 9 * 2 ^ (-53 : ℤ) * absMul (cf (promote s (valTy s a))) (cf (promote t (valTy t b))) k
        + 2 ^ (-1059 : ℤ) := by
  have hf := C33_no_overflow s t a b ha hb k hs
  refine ⟨hf, (C33_error s t a b k hf).trans (add_le_add ?_ ?_)⟩
  · refine mul_le_mul_of_nonneg_right ?_ ?_
    · unfold uro; norm_num
    · unfold absMul
      refine Finset.sum_nonneg fun i _ => Finset.sum_nonneg fun j _ => ?_
      split_ifs
      · exact mul_nonneg (abs_nonneg _) (abs_nonneg _)
      · exact le_rfl
  · unfold tinyErr
    rw [show (-1059 : ℤ) = 16 + -1075 from by norm_num only, zpow_add₀ (by norm_num)]
    refine le_of_eq (congrArg (· * (2 : ℚ) ^ (-1075 : ℤ)) ?_)
    norm_num

/-! ## Sums and differences: one correct rounding per component -/

/-- Nearest representable number (ties to even) of a rational. -/
abbrev nearest (q : ℚ) : ℚ := F64.rnVal q

/-- What `nearest` means: a dyadic number `m 2^e` with `|m| ≤ 2^53` and `e ≥ -1074` such that no
other number of this form is nearer. -/
theorem C33_nearest (q : ℚ) :
    (∃ m e : ℤ, |m| ≤ 2 ^ 53 ∧ -1074 ≤ e ∧ nearest q = m * (2 : ℚ) ^ e) ∧
    ∀ m e : ℤ, |m| ≤ 2 ^ 53 → -1074 ≤ e → |nearest q - q| ≤ |m * (2 : ℚ) ^ e - q| :=
  ⟨F64.rnVal_rep q, fun m e hm he => by
    have := F64.rnVal_nearest (K := ℚ) q (v := m * (2 : ℚ) ^ e) ⟨m, e, hm, he, rfl⟩
    rwa [Rat.cast_id, Rat.cast_id] at this⟩

theorem nearest_value {x : F64} : x.value = nearest x.value := (F64.rnVal_exact F64.value_rep).symm

theorem nearest_add {x y : F64} (h : (x + y).Finite) :
    (x + y).value = nearest (x.value + y.value) := F64.add_value h
theorem nearest_add' {x y : F64} (h : (x + y).Finite) :
    (x + y).value = nearest (y.value + x.value) := by rw [add_comm y.value]; exact F64.add_value h
theorem nearest_sub {x y : F64} (h : (x - y).Finite) :
    (x - y).value = nearest (x.value - y.value) := F64.sub_value h
theorem nearest_neg {x : F64} : (-x).value = nearest (-x.value) := by
  rw [← F64.value_neg]; exact nearest_value
theorem nearest_neg_sub {x y : F64} (h : (-(x - y)).Finite) :
    (-(x - y)).value = nearest (y.value - x.value) := by
  rw [F64.value_neg, F64.sub_value (F64.neg_finite_iff.1 h), ← F64.rnVal_neg, neg_sub]
theorem nearest_neg_neg {x : F64} : (- -x).value = nearest x.value := by
  rw [F64.value_neg, F64.value_neg, neg_neg]; exact nearest_value
theorem nearest_zero : nearest 0 = 0 := F64.rnVal_zero

macro "sum_ok" : tactic => `(tactic| (
  apply forall_fin8
  all_goals
    simp only [cf_0, cf_1, cf_2, cf_3, cf_4, cf_5, cf_6, cf_7, engabra, valTy, mapTy, zero_add,
      add_zero, sub_zero, zero_sub]
    intro hf
    first
    | with_reducible exact nearest_add hf
    | with_reducible exact nearest_add' hf
    | with_reducible exact nearest_sub hf
    | with_reducible exact nearest_value
    | with_reducible exact nearest_neg
    | with_reducible exact nearest_neg_sub hf
    | with_reducible exact nearest_neg_neg
    | exact nearest_zero.symm
    ))

/-- **C33.**  Every finite component of every typed sum is the exact sum of the components,
correctly rounded. -/
theorem C33_sum (s t r : Ty) (a : s.D F64) (b : t.D F64) (c : r.D F64)
    (h : addTy s t a b = some ⟨r, c⟩) : ∀ k, (cf (promote r c) k).Finite →
    (cf (promote r c) k).value
      = nearest (cf (promote s (valTy s a)) k + cf (promote t (valTy t b)) k) := by
  cases s <;> cases t <;> simp only [addTy, reduceCtorEq, Option.some.injEq] at h <;> cases h <;>
    sum_ok

/-- **C33.**  The same for differences, apart from the six overloads which subtract the wrong way
round (`C05_six_are_reversed`). -/
theorem C33_difference (s t r : Ty) (a : s.D F64) (b : t.D F64) (c : r.D F64)
    (hr : subReversed s t = false)
    (h : subTy s t a b = some ⟨r, c⟩) : ∀ k, (cf (promote r c) k).Finite →
    (cf (promote r c) k).value
      = nearest (cf (promote s (valTy s a)) k - cf (promote t (valTy t b)) k) := by
  cases s <;> cases t <;> first | exact absurd hr (by decide) | skip
  all_goals
    simp only [subTy, reduceCtorEq, Option.some.injEq] at h
  all_goals cases h
  all_goals sum_ok

/-! ## The hypotheses are met -/

/-- Operands with the inexact components `1/3`, `1/10`, ...: finite, far from overflow, and the
product is not exact. -/
noncomputable def third : F64 := F64.roundTo (1 / 3 : ℚ)

theorem third_finite : third.Finite ∧ third.value = nearest (1 / 3) := by
  refine F64.roundTo_value (F64.safe_lt ?_)
  have h1 : |(1 / 3 : ℚ)| = 1 / 3 := abs_of_pos (by norm_num)
  rw [h1]
  linarith [F64.one_le_safe]

example : ∃ (a : Ty.vec.D F64) (b : Ty.biv.D F64),
    (∀ i, (cf (promote .vec a) i).Finite) ∧ (∀ j, (cf (promote .biv b) j).Finite) ∧
    (∀ k, absMul (cf (promote .vec (valTy .vec a))) (cf (promote .biv (valTy .biv b))) k
      ≤ 2 ^ 1022) ∧
    absMul (cf (promote .vec (valTy .vec a))) (cf (promote .biv (valTy .biv b))) 7 ≠ 0 := by
  obtain ⟨hf, hv⟩ := third_finite
  have he : |third.value| ≤ 1 ∧ third.value ≠ 0 := by
    have h := F64.rnVal_err_rel (K := ℚ) (1 / 3)
    have h3 : |(1 / 3 : ℚ)| = 1 / 3 := abs_of_pos (by norm_num)
    have h4 : max ((2 : ℚ) ^ (-53 : ℤ) * |1 / 3|) ((2 : ℚ) ^ (-1075 : ℤ)) ≤ 1 / 8 := by
      refine max_le ?_ ?_
      · rw [h3]; norm_num
      · calc (2 : ℚ) ^ (-1075 : ℤ) ≤ 2 ^ (-3 : ℤ) :=
              zpow_le_zpow_right₀ (by norm_num) (by norm_num)
          _ = 1 / 8 := by norm_num
    rw [Rat.cast_id] at h
    have h2 := abs_le.1 (h.trans h4)
    rw [hv, abs_le]
    refine ⟨⟨by linarith [h2.1], by linarith [h2.2]⟩, fun h0 => ?_⟩
    unfold nearest at h0
    rw [h0] at h2
    linarith [h2.1]
  refine ⟨⟨⟨third, third, third⟩⟩, ⟨⟨third, third, third⟩⟩, ?_, ?_, ?_, ?_⟩
  · apply forall_fin8 <;> simp only [cf_0, cf_1, cf_2, cf_3, cf_4, cf_5, cf_6, cf_7, engabra] <;>
      first | exact hf | trivial
  · apply forall_fin8 <;> simp only [cf_0, cf_1, cf_2, cf_3, cf_4, cf_5, cf_6, cf_7, engabra] <;>
      first | exact hf | trivial
  · have hp : |third.value| * |third.value| ≤ 1 := mul_le_one₀ he.1 (abs_nonneg _) he.1
    have h4 : (4 : ℚ) ≤ 2 ^ 1022 := by
      calc (4 : ℚ) = 2 ^ 2 := by norm_num
        _ ≤ 2 ^ 1022 := pow_le_pow_right₀ (by norm_num) (by norm_num)
    have h0 := mul_nonneg (abs_nonneg third.value) (abs_nonneg third.value)
    refine fun k => le_trans ?_ h4
    revert k
    apply forall_fin8 <;>
      simp only [absMul_0, absMul_1, absMul_2, absMul_3, absMul_4, absMul_5,
        absMul_6, absMul_7, cf_0, cf_1, cf_2, cf_3, cf_4, cf_5, cf_6, cf_7, engabra, valTy, mapTy,
        abs_zero, MulZeroClass.zero_mul, MulZeroClass.mul_zero, zero_add, add_zero] <;>
      linarith
  · simp only [absMul_7, cf_0, cf_1, cf_2, cf_3, cf_4, cf_5, cf_6, cf_7, engabra, valTy, mapTy,
      abs_zero, MulZeroClass.zero_mul, MulZeroClass.mul_zero, zero_add, add_zero]
    have := mul_pos (abs_pos.2 he.2) (abs_pos.2 he.2)
    linarith

end Engabra
