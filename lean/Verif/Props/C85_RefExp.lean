import Verif.Model.RefExp
import Verif.Lemmas.SeriesLen
import Verif.Props.C27_Reject

/-! # C85: the repository's reference for `exp(MultiVector)`

`computeExp` of `test/test_g3func_exp.cpp` in exact arithmetic and in binary64. -/

namespace Engabra
open XR Spec

/-! ## Exact arithmetic -/

theorem exp_c0 : Real.exp (7072 / 10000) ≤ 20284 / 10000 := by
  refine (Real.exp_bound' (by norm_num) (by norm_num) (n := 8) (by norm_num)).trans ?_
  simp only [Finset.sum_range_succ, Finset.sum_range_zero, Nat.factorial]
  norm_num

theorem opLe_half {A : MultiVector ℝ} (h : length .mv A ≤ 1 / 2) : OpLe A (7072 / 10000) := by
  refine (opLe_length A).mono ?_
  have : √2 ≤ 14144 / 10000 := Real.sqrt_le_iff.2 ⟨by norm_num, by norm_num⟩
  nlinarith [Real.sqrt_nonneg 2, length_nonneg .mv A]

/-- What the partial sums add to `1 + A + A²/2`. -/
theorem psum_rest {A : MultiVector ℝ} (hA : OpLe A (7072 / 10000)) (k : ℕ) :
    ∃ R, psum A (k + 2) = 1 + A + (1 / 2 : ℝ) • (A * A) + R ∧ OpLe R (712 / 10000) := by
  refine ⟨∑ j ∈ Finset.range k, term A (3 + j), ?_, ?_⟩
  · rw [psum, show k + 2 + 1 = 3 + k by omega, Finset.sum_range_add]
    congr 1
    rw [Finset.sum_range_succ, Finset.sum_range_succ, Finset.sum_range_succ, Finset.sum_range_zero, term_zero,
      term_one, zero_add]
    congr 1
    unfold term
    rw [pow_two]; norm_num
  · refine (opLe_sum _ _ _ fun j => opLe_term (by norm_num) hA (3 + j)).mono ?_
    have h := Real.sum_le_exp_of_nonneg (x := 7072 / 10000) (by norm_num) (3 + k)
    rw [Finset.sum_range_add] at h
    simp only [Finset.sum_range_succ, Finset.sum_range_zero, Nat.factorial] at h
    have := exp_c0
    norm_num at h this ⊢
    linarith

/-- A partial sum shortens by no more than the factor `.29`. -/
theorem psum_lower {A : MultiVector ℝ} (hA : OpLe A (7072 / 10000)) (k : ℕ) (X : MultiVector ℝ) :
    29 / 100 * length .mv X ≤ length .mv (psum A (k + 1) * X) := by
  have hX := length_nonneg .mv X
  cases k with
  | zero =>
    rw [psum_one]
    have h1 := ((opLe_one.add hA.neg) ((1 + A) * X)).1
    have h2 := ((hA.mul (by norm_num) (by norm_num) hA) X).1
    have e : (1 + -A) * ((1 + A) * X) = X + -(A * A * X) := by noncomm_ring
    rw [e] at h1
    have h3 := le_length_add X (-(A * A * X))
    rw [length_mv_neg] at h3
    linarith
  | succ k =>
    obtain ⟨R, e, hR⟩ := psum_rest hA k
    rw [e]
    have hAA := hA.mul (by norm_num) (by norm_num) hA
    have hP : OpLe (1 + -A + (1 / 2 : ℝ) • (A * A)) (19573 / 10000) :=
      ((opLe_one.add hA.neg).add (hAA.smul (1 / 2))).mono (by norm_num)
    have h1 := (hP ((1 + A + (1 / 2 : ℝ) • (A * A) + R) * X)).1
    have h2 := (((hAA.mul (by norm_num) (by norm_num) hAA).smul (1 / 4)) X).1
    have h3 := ((hP.mul (by norm_num) (by norm_num) hR) X).1
    have e2 : (1 + -A + (1 / 2 : ℝ) • (A * A)) * ((1 + A + (1 / 2 : ℝ) • (A * A) + R) * X)
        = X + ((1 / 4 : ℝ) • (A * A * (A * A)) * X + (1 + -A + (1 / 2 : ℝ) • (A * A)) * R * X) := by
      have : (1 + -A + (1 / 2 : ℝ) • (A * A)) * (1 + A + (1 / 2 : ℝ) • (A * A))
          = 1 + (1 / 4 : ℝ) • (A * A * (A * A)) := by
        simp only [add_mul, mul_add, one_mul, mul_one, smul_mul_assoc, mul_smul_comm, neg_mul,
          mul_assoc]
        module
      rw [← mul_assoc, mul_add _ _ R, add_mul, this, add_mul, one_mul, add_assoc]
    rw [e2] at h1
    have h4 := le_length_add X ((1 / 4 : ℝ) • (A * A * (A * A)) * X + (1 + -A + (1 / 2 : ℝ) • (A * A)) * R * X)
    have h5 := length_mv_add ((1 / 4 : ℝ) • (A * A * (A * A)) * X) ((1 + -A + (1 / 2 : ℝ) • (A * A)) * R * X)
    rw [abs_of_pos (by norm_num)] at h2
    linarith

/-- One term bounds all that follow. -/
theorem psum_tail {A : MultiVector ℝ} (hA : OpLe A (7072 / 10000)) {k : ℕ} (hk : 2 ≤ k) (i : ℕ) :
    length .mv (psum A (k + i) - psum A k) + 3086 / 10000 * length .mv (term A (k + i))
      ≤ 3086 / 10000 * length .mv (term A k) := by
  induction i with
  | zero => rw [add_zero, sub_self, length_mv_zero, zero_add]
  | succ i ih =>
    have h1 : length .mv (term A (k + i + 1)) ≤ 2358 / 10000 * length .mv (term A (k + i)) := by
      rw [term_succ, length_mv_smul, abs_of_pos (by positivity)]
      have h2 := (hA (term A (k + i))).2
      have h3 : 1 / ((k + i + 1 : ℕ) : ℝ) ≤ 1 / 3 := by
        refine one_div_le_one_div_of_le (by norm_num) ?_
        have : 3 ≤ k + i + 1 := by omega
        exact_mod_cast this
      have h4 := mul_le_mul h3 h2 (length_nonneg _ _) (by norm_num)
      have := length_nonneg .mv (term A (k + i))
      linarith
    have h2 : length .mv (psum A (k + i + 1) - psum A k)
        ≤ length .mv (psum A (k + i) - psum A k) + length .mv (term A (k + i + 1)) := by
      rw [psum_succ, add_sub_right_comm]
      exact length_mv_add _ _
    rw [← add_assoc]
    have := length_nonneg .mv (term A (k + i))
    linarith

/-- The convergence test of the code at term `k`. -/
def Stops (A : MultiVector ℝ) (k : ℕ) : Prop :=
  length .mv (psum A (k - 1) * term A k) < 8 * (1 / 2 ^ 52) * length .mv (psum A k)

theorem stops_18 {A : MultiVector ℝ} (hA : OpLe A (7072 / 10000)) : Stops A 18 := by
  unfold Stops
  have h1 := (opLe_psum (by norm_num) hA 17 (term A 18)).1
  have h2 := (opLe_term (by norm_num) hA 18).length
  have h3 := psum_lower hA 17 1
  rw [mul_one, length_mv_one, mul_one] at h3
  have h4 := exp_c0
  have h5 := length_nonneg .mv (term A 18)
  have h6 : ((7072 : ℝ) / 10000) ^ 18 / (18).factorial ≤ 1 / 10 ^ 17 := by
    norm_num [Nat.factorial]
  have h7 := mul_le_mul h4 (h2.trans h6) h5 (by norm_num)
  calc _ ≤ _ := h1
    _ ≤ _ := h7
    _ < 8 * (1 / 2 ^ 52) * (29 / 100) := by norm_num
    _ ≤ _ := mul_le_mul_of_nonneg_left h3 (by positivity)

/-- A sum at which the test holds is within `18 ε` of the exponential. -/
theorem stops_error {A F : MultiVector ℝ} (hA : OpLe A (7072 / 10000)) (h : IsExp A F) {k : ℕ} (hk : 2 ≤ k)
    (hs : Stops A k) : length .mv (psum A k - F) ≤ 18 * (1 / 2 ^ 52) := by
  rw [length_mv_sub_comm]
  have h1 : 3086 / 10000 * length .mv (term A k) ≤ 18 * (1 / 2 ^ 52) := by
    obtain ⟨j, rfl⟩ : ∃ j, k = j + 2 := ⟨k - 2, by omega⟩
    have h2 := psum_lower hA j (term A (j + 2))
    have h3 := (opLe_psum (by norm_num) hA (j + 2)).length
    have h4 := exp_c0
    unfold Stops at hs
    rw [show j + 2 - 1 = j + 1 by omega] at hs
    have h5 := h2.trans_lt hs
    have h6 : 8 * (1 / 2 ^ 52) * length .mv (psum A (j + 2)) ≤ 8 * (1 / 2 ^ 52) * (20284 / 10000) :=
      mul_le_mul_of_nonneg_left (h3.trans h4) (by positivity)
    norm_num at h5 h6 ⊢
    linarith
  refine limit_le h (k := k) fun n hn => ?_
  obtain ⟨i, rfl⟩ : ∃ i, n = k + i := ⟨n - k, by omega⟩
  have := psum_tail hA hk i
  have := length_nonneg .mv (term A (k + i))
  linarith

theorem refTol_val : refTol XR = val (8 * (1 / 2 ^ 52)) := by
  unfold refTol
  rw [epsilon_def, lit_def, val_mul]
  norm_num

theorem half_val : (Dbl.lit (1 / 2) : XR) = val (1 / 2) := by rw [lit_def]; norm_num

theorem magnitude_lift_mv (A : MultiVector ℝ) : magnitude (lift .mv A) = val (length .mv A) := C13_magnitude .mv A

theorem val_smul_lift (r : ℝ) (A : MultiVector ℝ) : (val r : XR) * lift .mv A = lift .mv (r • A) := smul_lift .mv r A

theorem refSeries_lift {A : MultiVector ℝ} (hA : OpLe A (7072 / 10000)) (left k : ℕ) (hk : 1 ≤ k) (hk' : k ≤ 17)
    (hl : 18 ≤ k + left) : ∃ j, 2 ≤ j ∧ Stops A j ∧
      refSeries (lift .mv A) left k (lift .mv (term A k)) (lift .mv (psum A k)) = some (lift .mv (psum A j)) := by
  induction left generalizing k with
  | zero => omega
  | succ left ih =>
    have e1 : ((1 : XR) / Dbl.lit ((k + 1 : ℕ) : ℚ)) * (lift .mv (term A k) * lift .mv A) = lift .mv (term A (k + 1)) := by
      rw [lit_def, XR.one_def, mul_lift_mv, val_div _ _ (by positivity), val_smul_lift, term_succ]
      push_cast; rfl
    have hpos : 0 < length .mv (psum A (k + 1)) := by
      have := psum_lower hA k 1
      rw [mul_one, length_mv_one] at this
      linarith
    have e2 : Dbl.lt (magnitude (lift .mv (psum A k) * lift .mv (term A (k + 1)))
        / magnitude (lift .mv (psum A (k + 1)))) (refTol XR) = true ↔ Stops A (k + 1) := by
      rw [mul_lift_mv, magnitude_lift_mv, magnitude_lift_mv, val_div _ _ hpos.ne', refTol_val, lt_val,
        div_lt_iff₀ hpos, Stops, Nat.add_sub_cancel]
    have e3 : lift .mv (psum A k) + lift .mv (term A (k + 1)) = lift .mv (psum A (k + 1)) := by
      rw [add_lift_mv, ← psum_succ]
    unfold refSeries
    simp only [e1, e3]
    by_cases hs : Stops A (k + 1)
    · rw [if_pos (e2.2 hs)]
      exact ⟨k + 1, by omega, hs, rfl⟩
    · rw [if_neg (fun h => hs (e2.1 h))]
      have : k ≠ 17 := by
        rintro rfl
        exact hs (stops_18 hA)
      exact ih (k + 1) (by omega) (by omega) (by omega)

/-- A larger allowance changes nothing once the loop has ended. -/
theorem refHalve_mono {α : Type} [Dbl α] {fuel fuel' h : ℕ} {x : MultiVector α} {p : MultiVector α × ℕ}
    (hp : refHalve fuel x h = some p) (hf : fuel ≤ fuel') : refHalve fuel' x h = some p := by
  induction fuel generalizing x h fuel' with
  | zero => cases hp
  | succ f ih =>
    obtain ⟨f', rfl⟩ : ∃ f', fuel' = f' + 1 := ⟨fuel' - 1, by omega⟩
    unfold refHalve at hp ⊢
    split at hp
    · rename_i hc
      rw [if_pos hc]
      exact ih hp (by omega)
    · rename_i hc
      rw [if_neg hc]
      exact hp

theorem refHalve_lift (n : ℕ) (M : MultiVector ℝ) (hM : length .mv M ≤ 2 ^ n * (1 / 2)) (fuel h : ℕ)
    (hf : n < fuel) : ∃ j, refHalve fuel (lift .mv M) h = some (lift .mv ((1 / 2 ^ j : ℝ) • M), h + j) ∧
      length .mv ((1 / 2 ^ j : ℝ) • M) ≤ 1 / 2 ∧ (2 : ℝ) ^ j ≤ max 1 (4 * length .mv M) := by
  induction n generalizing M fuel h with
  | zero =>
    obtain ⟨f, rfl⟩ : ∃ f, fuel = f + 1 := ⟨fuel - 1, by omega⟩
    rw [pow_zero, one_mul] at hM
    refine ⟨0, ?_, by rw [pow_zero, div_one, one_smul]; exact hM, by rw [pow_zero]; exact le_max_left _ _⟩
    unfold refHalve
    rw [magnitude_lift_mv, half_val, if_neg (fun h' => absurd ((lt_val _ _).1 h') (not_lt.2 hM)), pow_zero, div_one,
      one_smul, add_zero]
  | succ n ih =>
    obtain ⟨f, rfl⟩ : ∃ f, fuel = f + 1 := ⟨fuel - 1, by omega⟩
    unfold refHalve
    rw [magnitude_lift_mv, half_val]
    by_cases hc : 1 / 2 < length .mv M
    · rw [if_pos ((lt_val _ _).2 hc), val_smul_lift]
      have hl : length .mv ((1 / 2 : ℝ) • M) = 1 / 2 * length .mv M := by
        rw [length_mv_smul, abs_of_pos (by norm_num)]
      obtain ⟨j, h1, h2, h3⟩ := ih ((1 / 2 : ℝ) • M) (by rw [hl]; rw [pow_succ] at hM; linarith) f (h + 1) (by omega)
      have e : ((1 : ℝ) / 2 ^ j) • ((1 / 2 : ℝ) • M) = (1 / 2 ^ (j + 1) : ℝ) • M := by
        rw [smul_smul, pow_succ]; congr 1; field_simp
      rw [e] at h1 h2
      refine ⟨j + 1, by rw [h1]; congr 2; omega, h2, ?_⟩
      rw [hl] at h3
      rw [pow_succ]
      refine le_max_of_le_right ?_
      rcases le_max_iff.1 h3 with h4 | h4 <;> linarith
    · rw [if_neg (fun h' => hc ((lt_val _ _).1 h'))]
      refine ⟨0, by rw [pow_zero, div_one, one_smul, add_zero], ?_, by rw [pow_zero]; exact le_max_left _ _⟩
      rw [pow_zero, div_one, one_smul]; exact not_lt.1 hc

theorem refSquare_lift (n : ℕ) {A E F : MultiVector ℝ} {b δ : ℝ} (hb : 0 ≤ b) (hE : OpLe E b) (hF : OpLe F b)
    (h : IsExp A F) (hd : length .mv (E - F) ≤ δ) :
    ∃ E' F' : MultiVector ℝ, refSquare n (lift .mv E) = lift .mv E' ∧ IsExp ((2 : ℝ) ^ n • A) F' ∧
      length .mv (E' - F') ≤ 2 ^ n * b ^ (2 ^ n - 1) * δ := by
  induction n generalizing A E F b δ with
  | zero => exact ⟨E, F, rfl, by rw [pow_zero, one_smul]; exact h, by simpa using hd⟩
  | succ n ih =>
    have hd2 : length .mv (E * E - F * F) ≤ 2 * b * δ := by
      have e : E * E - F * F = E * (E - F) + (E - F) * F := by noncomm_ring
      rw [e]
      have h1 := (hE (E - F)).1
      have h2 := (hF (E - F)).2
      have h3 := mul_le_mul_of_nonneg_left hd hb
      linarith [length_mv_add (E * (E - F)) ((E - F) * F)]
    obtain ⟨E', F', h1, h2, h3⟩ := ih (mul_nonneg hb hb) (hE.mul hb hb hE) (hF.mul hb hb hF) (isExp_double h) hd2
    refine ⟨E', F', by rw [← h1]; rfl, ?_, ?_⟩
    · rw [← two_smul ℝ A, smul_smul, ← pow_succ] at h2
      exact h2
    · refine h3.trans (le_of_eq ?_)
      have e : 2 ^ (n + 1) - 1 = 2 * (2 ^ n - 1) + 1 := by
        have := Nat.one_le_two_pow (n := n)
        omega
      rw [e, pow_succ b, pow_mul, pow_two]
      ring

theorem isExp_exists (A : MultiVector ℝ) : ∃ F, IsExp A F := by
  obtain ⟨z, hz⟩ := IsAlgClosed.exists_pow_nat_eq (disc A) (n := 2) (by norm_num)
  exact ⟨_, C47_series A z (by rw [← hz, pow_two])⟩

/-- **C85.**  In exact arithmetic the reference returns for every multivector whose first components are
valid, and what it returns is the exponential series to within
`18 · 2^-52 · max(1, 4 |M|) · e^(√2 |M|)`. -/
theorem C85_reference_accuracy (M : MultiVector ℝ) (h : ValidFirst M) :
    ∃ (n : ℕ) (E F : MultiVector ℝ), (∀ fuel, n ≤ fuel → refExp fuel (lift .mv M) = some (lift .mv E)) ∧ IsExp M F ∧
      length .mv (E - F) ≤ 18 * (1 / 2 ^ 52) * max 1 (4 * length .mv M) * Real.exp (√2 * length .mv M) := by
  obtain ⟨n, hn⟩ : ∃ n : ℕ, length .mv M ≤ 2 ^ n * (1 / 2) := by
    obtain ⟨n, hn⟩ := pow_unbounded_of_one_lt (2 * length .mv M) (one_lt_two)
    exact ⟨n, by linarith⟩
  obtain ⟨j, h1, h2, h3⟩ := refHalve_lift n M hn (n + 1) 0 (by omega)
  have hA := opLe_half h2
  set A : MultiVector ℝ := (1 / 2 ^ j : ℝ) • M with hAdef
  obtain ⟨k, hk, hs, hser⟩ := refSeries_lift hA 56 1 le_rfl (by norm_num) (by norm_num)
  rw [term_one, psum_one] at hser
  obtain ⟨F₀, hF₀⟩ := isExp_exists A
  have hc : 0 ≤ √2 * length .mv A := mul_nonneg (Real.sqrt_nonneg _) (length_nonneg _ _)
  obtain ⟨E, F, q1, q2, q3⟩ := refSquare_lift j (Real.exp_pos _).le (opLe_psum hc (opLe_length A) k)
    (opLe_exp hc (opLe_length A) hF₀) hF₀ (stops_error hA hF₀ hk hs)
  have e2 : (2 : ℝ) ^ j • A = M := by
    rw [hAdef, smul_smul, mul_one_div, div_self (by positivity), one_smul]
  refine ⟨n + 1, E, F, fun fuel hf => ?_, by rw [e2] at q2; exact q2, q3.trans ?_⟩
  · unfold refExp
    rw [if_pos ((isValid_mv_lift M).2 h), refHalve_mono h1 hf, Option.map_some, zero_add]
    unfold refFinish
    have e0 : (gzero + gone : MultiVector XR) + lift .mv A = lift .mv (1 + A) := by
      have : (gzero + gone : MultiVector XR) = lift .mv (0 + 1) := rfl
      rw [this, add_lift_mv, zero_add]
    simp only [e0, hser]
    rw [q1]
  · have hl : 2 ^ j * length .mv A = length .mv M := by
      rw [hAdef, length_mv_smul, abs_of_pos (by positivity), ← mul_assoc, mul_one_div, div_self (by positivity),
        one_mul]
    have h5 : Real.exp (√2 * length .mv A) ^ (2 ^ j - 1) ≤ Real.exp (√2 * length .mv M) := by
      rw [← Real.exp_nat_mul, ← hl, Real.exp_le_exp, Nat.cast_sub Nat.one_le_two_pow]
      push_cast
      nlinarith
    have h6 := mul_le_mul h3 h5 (by positivity) (by positivity)
    have h7 := mul_le_mul_of_nonneg_right h6 (by positivity : (0 : ℝ) ≤ 18 * (1 / 2 ^ 52))
    refine h7.trans (le_of_eq (by ring))

theorem refSeries_mono {α : Type} [Dbl α] {x t s r : MultiVector α} {left left' k : ℕ}
    (h : refSeries x left k t s = some r) (hl : left ≤ left') : refSeries x left' k t s = some r := by
  induction left generalizing t s k left' with
  | zero => cases h
  | succ n ih =>
    obtain ⟨n', rfl⟩ : ∃ n', left' = n' + 1 := ⟨left' - 1, by omega⟩
    unfold refSeries at h ⊢
    dsimp only at h ⊢
    split at h
    · rename_i hc
      rw [if_pos hc]; exact h
    · rename_i hc
      rw [if_neg hc]; exact ih h (by omega)

/-- **C85.**  After halving, the series loop always converges and makes at most 17 rounds: any larger limit
than 17 in place of 56 gives the same sum. -/
theorem C85_rounds (A : MultiVector ℝ) (h : length .mv A ≤ 1 / 2) : ∃ S : MultiVector ℝ, ∀ left, 17 ≤ left →
    refSeries (lift .mv A) left 1 (lift .mv A) (lift .mv (1 + A)) = some (lift .mv S) := by
  obtain ⟨j, -, -, e⟩ := refSeries_lift (opLe_half h) 17 1 le_rfl (by norm_num) (by norm_num)
  rw [term_one, psum_one] at e
  exact ⟨_, fun left hl => refSeries_mono e hl⟩

theorem cosh_lower (L : ℝ) : 1 + L ^ 2 / 4 ≤ Real.cosh L := by
  wlog h : 0 ≤ L with H
  · have := H (-L) (by linarith)
    rwa [Real.cosh_neg, neg_sq] at this
  rw [Real.cosh_eq]
  have h1 := Real.quadratic_le_exp_of_nonneg h
  have h2 := Real.add_one_le_exp (-L)
  linarith

theorem exp6 : Real.exp 6 ≤ 600 := by
  calc Real.exp 6 ≤ Real.exp (9 * (7072 / 10000)) := Real.exp_le_exp.2 (by norm_num)
    _ = Real.exp (7072 / 10000) ^ 9 := by rw [← Real.exp_nat_mul]; norm_num
    _ ≤ (20284 / 10000) ^ 9 := pow_le_pow_left₀ (Real.exp_pos _).le exp_c0 9
    _ ≤ 600 := by norm_num

theorem cosh_upper {L : ℝ} (h0 : 0 ≤ L) (h : L ≤ 4) : Real.cosh L ≤ 600 := by
  have h1 : Real.exp L ≤ Real.exp 6 := Real.exp_le_exp.2 (by linarith)
  have h2 : Real.exp (-L) ≤ Real.exp 6 := Real.exp_le_exp.2 (by linarith)
  rw [Real.cosh_eq]
  linarith [exp6]

theorem sca_le_length (A : MultiVector ℝ) : |A.theSca.theData.d0| ≤ length .mv A := by
  rw [length_eq]
  refine Real.abs_le_sqrt ?_
  simp only [magSqTy, engabra]
  nlinarith [sq_nonneg A.theVec.theData.d0, sq_nonneg A.theVec.theData.d1, sq_nonneg A.theVec.theData.d2,
    sq_nonneg A.theBiv.theData.d0, sq_nonneg A.theBiv.theData.d1, sq_nonneg A.theBiv.theData.d2,
    sq_nonneg A.theTri.theData.d0]

/-- Scalars that differ by much more than the tolerance are told apart. -/
theorem nearly_far {g e : ℝ} (he : |e| ≤ 601) (hd : 1 / 10 ^ 9 ≤ |g - e|) :
    nearlyEquals (⟨⟨val g⟩⟩ : Scalar XR) ⟨⟨val e⟩⟩ (refTol XR) = .ok false := by
  change nearlyEqualsArr [val g] [val e] (refTol XR) = _
  unfold nearlyEqualsArr
  by_cases v1 : isValidDub (val g) = true
  · by_cases v2 : isValidDub (val e) = true
    · simp only [isValidArr, isValidLoop, v1, v2, innerProduct, XR.zero_def, val_mul, val_add, zero_add, minDub_def]
      rw [sqrt_val _ (mul_self_nonneg _), Real.sqrt_mul_self_eq_abs]
      by_cases hm : |e| < 1 / 2 ^ 1022
      · rw [if_pos ((lt_val _ _).2 hm), smallLoop, nearlyEqualsAbs, bothAreValid, v1, v2, Bool.and_self, if_pos rfl,
          isSmallAbsDiff, isSmallAbs, val_sub, abs_val, refTol_val]
        · congr 1
          rw [← Bool.not_eq_true, lt_val, not_lt]
          exact le_trans (by norm_num) hd
        · intro _ _ _ _ h; cases h
      · have e0 : 0 < |e| := lt_of_lt_of_le (by positivity) (not_lt.1 hm)
        have e2 : 0 < e * e := by rw [← abs_mul_abs_self]; exact mul_pos e0 e0
        rw [if_neg (fun h => hm ((lt_val _ _).1 h))]
        simp only [difLoop, val_sub, val_mul, val_add, zero_add, val_div _ _ e2.ne']
        rw [sqrt_val _ (div_nonneg (mul_self_nonneg _) e2.le), isSmallAbs, abs_val, refTol_val]
        congr 1
        rw [← Bool.not_eq_true, lt_val, not_lt, Real.sqrt_div (mul_self_nonneg _), Real.sqrt_mul_self_eq_abs,
          Real.sqrt_mul_self_eq_abs, abs_of_nonneg (by positivity), le_div_iff₀ e0]
        refine le_trans ?_ hd
        calc (8 * (1 / 2 ^ 52) : ℝ) * |e| ≤ 8 * (1 / 2 ^ 52) * 601 := mul_le_mul_of_nonneg_left he (by norm_num)
          _ ≤ _ := by norm_num
    · rw [Bool.not_eq_true] at v2
      simp only [isValidArr, isValidLoop, v1, v2]
  · rw [Bool.not_eq_true] at v1
    simp only [isValidArr, isValidLoop, v1]

theorem check_far {M F : MultiVector ℝ} {g : ℝ} (h : ValidFirst M) (hF : IsExp M F) (hN : length .mv M ≤ 4)
    (hg : (expMvR M).theSca.theData.d0 = g) (hf : |F.theSca.theData.d0| ≤ 600)
    (hd : 2 / 10 ^ 9 ≤ |g - F.theSca.theData.d0|) :
    ∃ n, ∀ fuel, n ≤ fuel → refCheck fuel (lift .mv M) = some (.ok false) := by
  obtain ⟨n, E, F', h1, h2, h3⟩ := C85_reference_accuracy M h
  obtain rfl := isExp_unique' h2 hF
  refine ⟨n, fun fuel hfu => ?_⟩
  have hN0 := length_nonneg .mv M
  have hs : √2 ≤ 15 / 10 := Real.sqrt_le_iff.2 ⟨by norm_num, by norm_num⟩
  have h4 : Real.exp (√2 * length .mv M) ≤ 600 :=
    (Real.exp_le_exp.2 (by nlinarith [Real.sqrt_nonneg 2])).trans exp6
  have h5 : max 1 (4 * length .mv M) ≤ 16 := max_le (by norm_num) (by linarith)
  have h6 : |E.theSca.theData.d0 - F'.theSca.theData.d0| ≤ 1 / 10 ^ 10 := by
    refine (sca_le_length (E - F')).trans (h3.trans ?_)
    calc _ ≤ 18 * (1 / 2 ^ 52) * 16 * 600 :=
          mul_le_mul (mul_le_mul_of_nonneg_left h5 (by norm_num)) h4 (Real.exp_pos _).le (by norm_num)
      _ ≤ _ := by norm_num
  unfold refCheck
  rw [h1 fuel hfu, Option.map_some, expMv_lift M h]
  congr 1
  have h7 := abs_sub_abs_le_abs_sub E.theSca.theData.d0 F'.theSca.theData.d0
  have h9 := abs_sub_le g E.theSca.theData.d0 F'.theSca.theData.d0
  have key := nearly_far (g := g) (e := E.theSca.theData.d0) (by linarith) (by norm_num at *; linarith)
  rw [← hg] at key
  change (((nearlyEquals (⟨⟨val (expMvR M).theSca.theData.d0⟩⟩ : Scalar XR) ⟨⟨val E.theSca.theData.d0⟩⟩ (refTol XR)).and
    _).and _).and _ = _
  rw [key]
  rfl

theorem gap {L : ℝ} (h : 1 / 10000 ≤ |L|) : 2 / 10 ^ 9 ≤ Real.cosh L - Real.cos L := by
  have h1 := cosh_lower L
  have h2 := Real.cos_le_one L
  have h3 : (1 / 10000 : ℝ) ^ 2 ≤ L ^ 2 := by
    rw [← sq_abs L]
    exact pow_le_pow_left₀ (by norm_num) h 2
  norm_num at *
  linarith

/-- **C85.**  For every vector of length from `10^-4` to `4`, in particular for `e1`, `e2` and `e3`, the
library's `exp` fails the repository's own check, in exact arithmetic. -/
theorem C85_vectors_fail (v : Vector ℝ) (hv : Valid v.theData.d0) (h0 : 1 / 10000 ≤ length .vec v)
    (h1 : length .vec v ≤ 4) :
    ∃ n, ∀ fuel, n ≤ fuel → refCheck fuel (lift .mv (toMV v)) = some (.ok false) := by
  have hl : length .mv (toMV v) = length .vec v := length_promote .vec v
  have hF := C47_series (toMV v) (length .vec v : ℂ) (by
    rw [← Complex.ofReal_mul, length_eq, Real.mul_self_sqrt (C13_magSq_nonneg .vec v)]
    obtain ⟨⟨x, y, z⟩⟩ := v
    apply Complex.ext <;> simp only [disc, magSqTy, engabra, Complex.ofReal_re, Complex.ofReal_im] <;> ring)
  have hg : (expMvR (toMV v)).theSca.theData.d0 = Real.cos (length .vec v) := by
    have e := C21_vector_value v hv h0
    rw [expMv_lift _ ⟨Or.inl rfl, hv, Or.inl rfl, Or.inl rfl⟩] at e
    rw [lift_injective .mv e]
    simp only [engabra]; ring
  have hL : 0 ≤ length .vec v := length_nonneg _ _
  have hs : ∀ (g : ℂ), (cx (Complex.exp (st (toMV v))) * (cx (Complex.cosh (length .vec v : ℂ)) + cx g * vb (toMV v))).theSca.theData.d0
      = Real.cosh (length .vec v) := by
    intro g
    have : st (toMV v) = 0 := by apply Complex.ext <;> rfl
    rw [this, Complex.exp_zero, cx_one, one_mul, ← Complex.ofReal_cosh]
    simp only [cx, vb, engabra, Complex.ofReal_re]; ring
  have h2 := cosh_upper hL h1
  have h4 := gap (L := length .vec v) (by rwa [abs_of_nonneg hL])
  refine check_far ⟨Or.inl rfl, hv, Or.inl rfl, Or.inl rfl⟩ hF (by rw [hl]; exact h1) hg ?_ ?_
  · rw [hs, abs_of_pos (Real.cosh_pos _)]; exact h2
  · rw [hs, abs_sub_comm]; exact h4.trans (le_abs_self _)

/-- **C85.**  So does every trivector of magnitude from `10^-4` to `4`: `e123` and the documented example
`exp(pi * e123)` among them. -/
theorem C85_trivectors_fail (t : ℝ) (h0 : 1 / 10000 ≤ |t|) (h1 : |t| ≤ 4) (hv : Valid t) :
    ∃ n, ∀ fuel, n ≤ fuel → refCheck fuel (lift .mv (toMV (⟨⟨t⟩⟩ : TriVector ℝ))) = some (.ok false) := by
  have hl : length .mv (toMV (⟨⟨t⟩⟩ : TriVector ℝ)) = |t| := by
    rw [show length .mv (toMV (⟨⟨t⟩⟩ : TriVector ℝ)) = length .tri (⟨⟨t⟩⟩ : TriVector ℝ) from length_promote .tri _,
      length_eq, ← Real.sqrt_mul_self_eq_abs]
    rfl
  have hF := C47_series (toMV (⟨⟨t⟩⟩ : TriVector ℝ)) 0 (by
    apply Complex.ext <;> simp [disc, engabra])
  have hg : (expMvR (toMV (⟨⟨t⟩⟩ : TriVector ℝ))).theSca.theData.d0 = Real.cosh t := by
    unfold expMvR
    simp only [engabra]
    simp [Real.cosh_eq]
    ring
  have hs : ∀ (g : ℂ), (cx (Complex.exp (st (toMV (⟨⟨t⟩⟩ : TriVector ℝ)))) * (cx (Complex.cosh 0) + cx g * vb (toMV (⟨⟨t⟩⟩ : TriVector ℝ)))).theSca.theData.d0
      = Real.cos t := by
    intro g
    have : st (toMV (⟨⟨t⟩⟩ : TriVector ℝ)) = (t : ℂ) * Complex.I := by apply Complex.ext <;> simp [st, engabra]
    rw [this, Complex.exp_mul_I, ← Complex.ofReal_cos, ← Complex.ofReal_sin, Complex.cosh_zero, cx_one]
    simp [cx, vb, engabra]
    exact Complex.cos_ofReal_re t
  refine check_far ⟨Or.inl rfl, Or.inl rfl, Or.inl rfl, hv⟩ hF (by rw [hl]; exact h1) hg ?_ ?_
  · rw [hs]; exact (Real.abs_cos_le_one t).trans (by norm_num)
  · rw [hs]; exact (gap h0).trans (le_abs_self _)

/-- A unit vector and the documented trivector meet the hypotheses. -/
example : (Valid (1 : ℝ) ∧ 1 / 10000 ≤ length .vec (⟨⟨1, 0, 0⟩⟩ : Vector ℝ) ∧ length .vec (⟨⟨1, 0, 0⟩⟩ : Vector ℝ) ≤ 4) ∧
    (1 / 10000 ≤ |Real.pi| ∧ |Real.pi| ≤ 4 ∧ Valid Real.pi) ∧
    ValidFirst (toMV (⟨⟨1, 0, 0⟩⟩ : Vector ℝ)) ∧
    length .mv ((1 / 2 : ℝ) • toMV (⟨⟨1, 0, 0⟩⟩ : Vector ℝ)) ≤ 1 / 2 := by
  have e : length .vec (⟨⟨1, 0, 0⟩⟩ : Vector ℝ) = 1 := by
    rw [length_eq]; simp only [magSqTy, engabra]; norm_num
  have v1 : Valid (1 : ℝ) := valid_between (by norm_num) (by norm_num)
  have p3 := Real.pi_gt_three
  have p4 := Real.pi_le_four
  refine ⟨⟨v1, by rw [e]; norm_num, by rw [e]; norm_num⟩, ⟨?_, ?_, ?_⟩,
    ⟨Or.inl rfl, v1, Or.inl rfl, Or.inl rfl⟩, ?_⟩
  · rw [abs_of_pos (by linarith)]; linarith
  · rw [abs_of_pos (by linarith)]; exact p4
  · refine valid_between ?_ ?_ <;> linarith
  · rw [length_mv_smul, show length .mv (toMV (⟨⟨1, 0, 0⟩⟩ : Vector ℝ)) = _ from length_promote .vec _, e]; norm_num

end Engabra

namespace Engabra
open F64 (nan inf zero fin)

/-! ## Binary64 -/

theorem half_hasVal : F64.HasVal (Dbl.lit (1 / 2) : F64) (1 / 2) := by
  have h : F64.IsFin (1 / 2) := ⟨by norm_num, 1, -1, by norm_num, by norm_num, by norm_num, by norm_num⟩
  rw [F64.lit_def, F64.roundTo_fin h]
  exact F64.hasVal_fin h

/-- Finite and at most `b` in absolute value. -/
def Within (b : ℚ) (x : F64) : Prop := x.Finite ∧ |x.value| ≤ b

theorem rnVal_abs_le {x b : ℚ} (hb : F64.Rep b) (h : |x| ≤ b) : |F64.rnVal x| ≤ b := by
  rw [← F64.rnVal_abs]
  exact F64.rnVal_le_rep hb (by exact_mod_cast h)

theorem Within.mul {a b c : ℚ} {x y : F64} (hx : Within a x) (hy : Within b y) (hc : F64.Rep c) (hab : a * b ≤ c)
    (hl : c < 2 ^ 1024) : Within c (x * y) := by
  have h : |x.value * y.value| ≤ c := by
    rw [abs_mul]
    exact (mul_le_mul hx.2 hy.2 (abs_nonneg _) ((abs_nonneg _).trans hx.2)).trans hab
  have h1 := rnVal_abs_le hc h
  have h2 := F64.mul_spec hx.1 hy.1 (h1.trans_lt hl)
  exact ⟨h2.1, by rw [F64.mul_def, h2.2]; exact h1⟩

theorem Within.add {a b c : ℚ} {x y : F64} (hx : Within a x) (hy : Within b y) (hc : F64.Rep c) (hab : a + b ≤ c)
    (hl : c < 2 ^ 1024) : Within c (x + y) := by
  have h1 := rnVal_abs_le hc (((abs_add_le _ _).trans (add_le_add hx.2 hy.2)).trans hab)
  have h2 := F64.add_spec hx.1 hy.1 (h1.trans_lt hl)
  exact ⟨h2.1, by rw [F64.add_def, h2.2]; exact h1⟩

theorem within_zero {b : ℚ} (hb : 0 ≤ b) : Within b 0 := ⟨trivial, by
  rw [show (0 : F64).value = 0 from rfl, abs_zero]; exact hb⟩

/-- Every component of a multivector satisfies `P`. -/
def AllMv (P : F64 → Prop) (x : MultiVector F64) : Prop := ∀ c ∈ comps .mv x, P c

theorem allMv_iff {P : F64 → Prop} {x : MultiVector F64} : AllMv P x ↔ P x.theSca.theData.d0 ∧
    P x.theVec.theData.d0 ∧ P x.theVec.theData.d1 ∧ P x.theVec.theData.d2 ∧ P x.theBiv.theData.d0 ∧
    P x.theBiv.theData.d1 ∧ P x.theBiv.theData.d2 ∧ P x.theTri.theData.d0 := by
  simp only [AllMv, comps, List.mem_cons, List.not_mem_nil, or_false, forall_eq_or_imp, forall_eq]

theorem halve_within {n : ℤ} (hn : -1073 ≤ n) (hn' : n ≤ 1024) {x : MultiVector F64} (hx : AllMv (Within (2 ^ n)) x) :
    AllMv (Within (2 ^ (n - 1))) ((Dbl.lit (1 / 2) : F64) * x) := by
  have h : ∀ {y : F64}, Within (2 ^ n) y → Within (2 ^ (n - 1)) ((Dbl.lit (1 / 2) : F64) * y) := by
    intro y hy
    have hh : Within (1 / 2) (Dbl.lit (1 / 2) : F64) := ⟨half_hasVal.1, by rw [half_hasVal.2]; norm_num⟩
    refine hh.mul hy (F64.rep_pow _ (by omega)) ?_ ?_
    · rw [zpow_sub₀ (by norm_num), zpow_one]; linarith
    · calc (2 : ℚ) ^ (n - 1) < 2 ^ (1024 : ℤ) := zpow_lt_zpow_right₀ (by norm_num) (by omega)
        _ = 2 ^ 1024 := zpow_natCast 2 1024
  rw [allMv_iff] at hx ⊢
  exact ⟨h hx.1, h hx.2.1, h hx.2.2.1, h hx.2.2.2.1, h hx.2.2.2.2.1, h hx.2.2.2.2.2.1, h hx.2.2.2.2.2.2.1,
    h hx.2.2.2.2.2.2.2⟩

theorem lt_big8 {c : ℚ} (h : c ≤ 2 ^ 8) : c < 2 ^ 1024 :=
  h.trans_lt (pow_lt_pow_right₀ (by norm_num) (by norm_num))

/-- At most `k/64`. -/
def Cnt (k : ℕ) (y : F64) : Prop := Within ((k : ℚ) / 64) y

theorem rep_cnt (k : ℕ) (hk : k ≤ 100) : F64.Rep ((k : ℚ) / 64) := ⟨k, -6, by
    rw [abs_of_nonneg (by positivity)]
    exact (Int.ofNat_le.2 hk).trans (by norm_num), by norm_num, by
    rw [show ((2 : ℚ) ^ (-6 : ℤ)) = 1 / 64 by norm_num]; push_cast; ring⟩

theorem cnt_sq {y : F64} (hy : Within (2 ^ (-3 : ℤ)) y) : Cnt 1 (y * y) :=
  hy.mul hy (rep_cnt 1 (by norm_num)) (by norm_num) (lt_big8 (by norm_num))

theorem Cnt.add {y z : F64} {k l : ℕ} (hy : Cnt k y) (hz : Cnt l z) (h : k + l ≤ 100) : Cnt (k + l) (y + z) := by
  refine Within.add hy hz (rep_cnt _ h) (by push_cast; linarith) (lt_big8 ?_)
  have : ((k + l : ℕ) : ℚ) ≤ 100 := by exact_mod_cast h
  linarith

theorem cnt_vec3 {a b c : F64} (ha : Within (2 ^ (-3 : ℤ)) a) (hb : Within (2 ^ (-3 : ℤ)) b)
    (hc : Within (2 ^ (-3 : ℤ)) c) : Cnt 3 (((0 + a * a) + b * b) + c * c) := by
  have z0 : Cnt 0 0 := within_zero (by norm_num)
  have h1 : Cnt (0 + 1) (0 + a * a) := Cnt.add z0 (cnt_sq ha) (by norm_num)
  have h2 : Cnt (0 + 1 + 1) (0 + a * a + b * b) := Cnt.add h1 (cnt_sq hb) (by norm_num)
  have h3 : Cnt (0 + 1 + 1 + 1) (0 + a * a + b * b + c * c) := Cnt.add h2 (cnt_sq hc) (by norm_num)
  exact h3

theorem magSq_small {x : MultiVector F64} (hx : AllMv (Within (2 ^ (-3 : ℤ))) x) : Within (1 / 8) (magSq x) := by
  rw [allMv_iff] at hx
  obtain ⟨x0, x1, x2, x3, x4, x5, x6, x7⟩ := hx
  have h1 := Cnt.add (cnt_sq x0) (cnt_vec3 x1 x2 x3) (by norm_num)
  have h2 := Cnt.add h1 (cnt_vec3 x4 x5 x6) (by norm_num)
  have h : Cnt (1 + 3 + 3 + 1) (magSq x) := Cnt.add h2 (cnt_sq x7) (by norm_num)
  norm_num only at h
  have e : ((8 : ℕ) : ℚ) / 64 = 1 / 8 := by norm_num
  unfold Cnt at h
  rwa [e] at h

/-- With all components at most `1/8` the halving loop ends. -/
theorem magnitude_small {x : MultiVector F64} (hx : AllMv (Within (2 ^ (-3 : ℤ))) x) :
    Dbl.lt (Dbl.lit (1 / 2) : F64) (magnitude x) = false := by
  have hm := magSq_small hx
  have hr : F64.Rep (1 / 2) := ⟨1, -1, by norm_num, by norm_num, by norm_num⟩
  unfold magnitude
  generalize magSq x = m at hm
  rw [F64.sqrt_def]
  cases m with
  | nan => exact absurd hm.1 id
  | inf s => exact absurd hm.1 id
  | zero s =>
    have := half_hasVal.flt (F64.hasVal_zero s)
    exact this.trans (decide_eq_false (by norm_num))
  | fin v hv =>
    have hv2 : |v| ≤ 1 / 8 := hm.2
    by_cases h0 : v < 0
    · simp only [F64.sqrt, if_pos h0]
      rw [F64.lt_def]
      cases (Dbl.lit (1 / 2) : F64) <;> rfl
    · simp only [F64.sqrt, if_neg h0]
      have hs : √(v : ℝ) ≤ ((1 / 2 : ℚ) : ℝ) := by
        refine Real.sqrt_le_iff.2 ⟨by norm_num, ?_⟩
        have : (v : ℝ) ≤ ((1 / 8 : ℚ) : ℝ) := Rat.cast_le.2 ((le_abs_self v).trans hv2)
        refine this.trans ?_
        norm_num
      have h1 := F64.rnVal_le_rep hr hs
      have h2 := F64.rnVal_nonneg (Real.sqrt_nonneg (v : ℝ))
      have h3 : |F64.rnVal √(v : ℝ)| < 2 ^ 1024 := by
        rw [abs_of_nonneg h2]
        exact h1.trans_lt (lt_big8 (by norm_num))
      have h4 := F64.roundTo_value h3
      have := half_hasVal.flt (F64.HasVal.of h4.1)
      rw [this, h4.2]
      exact decide_eq_false (not_lt.2 h1)

theorem refHalve_f64 (k : ℕ) (hk : k ≤ 1027) {x : MultiVector F64} (hx : AllMv (Within (2 ^ (k - 3 : ℤ))) x) (h : ℕ) :
    ∃ p, refHalve (k + 1) x h = some p ∧ p.2 ≤ h + k := by
  induction k generalizing x h with
  | zero =>
    unfold refHalve
    rw [magnitude_small (by simpa using hx)]
    exact ⟨_, rfl, by simp⟩
  | succ k ih =>
    unfold refHalve
    split
    · obtain ⟨p, h1, h2⟩ := ih (by omega) (x := (Dbl.lit (1 / 2) : F64) * x) (by
        have := halve_within (by push_cast; omega) (by push_cast; omega) hx
        push_cast at this
        rwa [show ((k : ℤ) + 1 - 3 - 1) = k - 3 by ring] at this) (h + 1)
      exact ⟨p, h1, by omega⟩
    · exact ⟨_, rfl, by simp⟩

/-- **C85.**  In binary64 the reference returns for every argument whose components are all finite: the halving
loop makes at most 1027 rounds. -/
theorem C85_reference_returns (x : MultiVector F64) (hx : ∀ c ∈ comps .mv x, c.Finite) :
    ∃ r, ∀ fuel, 1028 ≤ fuel → refExp fuel x = some r := by
  by_cases hv : isValid x = true
  · obtain ⟨p, hp, -⟩ := refHalve_f64 1027 le_rfl (x := x) (fun c hc => ⟨hx c hc, by
      refine F64.value_lt.le.trans (le_of_eq ?_)
      rw [show ((1027 : ℕ) : ℤ) - 3 = ((1024 : ℕ) : ℤ) by norm_num, zpow_natCast]⟩) 0
    refine ⟨refFinish p.1 p.2, fun fuel hf => ?_⟩
    unfold refExp
    rw [if_pos hv, refHalve_mono hp hf]
    rfl
  · exact ⟨gnull Dbl.nan, fun fuel _ => by unfold refExp; rw [if_neg hv]⟩

theorem half_mul_inf (s : Bool) : (Dbl.lit (1 / 2) : F64) * inf s = inf s := by
  have h := half_hasVal
  generalize (Dbl.lit (1 / 2) : F64) = l at h
  obtain ⟨h1, h2⟩ := h
  cases l with
  | nan => exact absurd h1 id
  | inf _ => exact absurd h1 id
  | zero _ => exact absurd h2 (by rw [show (F64.zero _).value = 0 from rfl]; norm_num)
  | fin v hv =>
    have h3 : v = 1 / 2 := h2
    subst h3
    rw [F64.mul_def]
    simp only [F64.mul, F64.signbit]
    norm_num

theorem half_mul_not_nan {c : F64} (h : c ≠ nan) : (Dbl.lit (1 / 2) : F64) * c ≠ nan := by
  cases c with
  | nan => exact absurd rfl h
  | inf s => rw [half_mul_inf]; exact fun h => by cases h
  | zero s =>
    have h1 := half_hasVal.mul_zero (F64.hasVal_zero s)
    intro h2; rw [h2] at h1; exact h1.1
  | fin v hv =>
    have hh : Within (1 / 2) (Dbl.lit (1 / 2) : F64) := ⟨half_hasVal.1, by rw [half_hasVal.2]; norm_num⟩
    have hy : Within (2 ^ 1024) (fin v hv) := ⟨trivial, F64.value_lt.le⟩
    have := hh.mul hy (c := 2 ^ 1023) (by
      have := F64.rep_pow 1023 (by norm_num)
      rwa [show (2 : ℚ) ^ (1023 : ℤ) = 2 ^ 1023 from zpow_natCast 2 1023] at this)
      (by rw [show (1024 : ℕ) = 1023 + 1 from rfl, pow_succ]; generalize (2 : ℚ) ^ 1023 = z; linarith)
      (pow_lt_pow_right₀ (by norm_num) (by norm_num))
    intro h2; rw [h2] at this; exact this.1

/-- An infinite component and no NaN. -/
def Unbounded (x : MultiVector F64) : Prop := AllMv (· ≠ nan) x ∧ ∃ s, inf s ∈ comps .mv x

theorem Unbounded.half {x : MultiVector F64} (h : Unbounded x) : Unbounded ((Dbl.lit (1 / 2) : F64) * x) := by
  have e : comps .mv ((Dbl.lit (1 / 2) : F64) * x) = (comps .mv x).map fun c => (Dbl.lit (1 / 2) : F64) * c := rfl
  refine ⟨fun c hc => ?_, ?_⟩
  · rw [e, List.mem_map] at hc
    obtain ⟨d, hd, rfl⟩ := hc
    exact half_mul_not_nan (h.1 d hd)
  · obtain ⟨s, hs⟩ := h.2
    refine ⟨s, ?_⟩
    rw [e, List.mem_map]
    exact ⟨_, hs, half_mul_inf s⟩

theorem Unbounded.magSq {x : MultiVector F64} (h : Unbounded x) : magSq x = inf false := by
  obtain ⟨hn, s, hs⟩ := h
  rw [allMv_iff] at hn
  obtain ⟨n0, n1, n2, n3, n4, n5, n6, n7⟩ := hn
  have q0 := F64.nn_sq n0
  have q1 := F64.nn_sq n1
  have q2 := F64.nn_sq n2
  have q3 := F64.nn_sq n3
  have q4 := F64.nn_sq n4
  have q5 := F64.nn_sq n5
  have q6 := F64.nn_sq n6
  have q7 := F64.nn_sq n7
  have z : F64.NN 0 := Or.inr (Or.inl rfl)
  have e : Engabra.magSq x = ((x.theSca.theData.d0 * x.theSca.theData.d0
    + (((0 + x.theVec.theData.d0 * x.theVec.theData.d0) + x.theVec.theData.d1 * x.theVec.theData.d1) + x.theVec.theData.d2 * x.theVec.theData.d2))
    + (((0 + x.theBiv.theData.d0 * x.theBiv.theData.d0) + x.theBiv.theData.d1 * x.theBiv.theData.d1) + x.theBiv.theData.d2 * x.theBiv.theData.d2))
    + x.theTri.theData.d0 * x.theTri.theData.d0 := rfl
  rw [e]
  have ii : ∀ {c : F64}, inf s = c → c * c = inf false := fun {c} h => by rw [← h]; cases s <;> rfl
  have add : ∀ {a b : F64}, F64.NN a → F64.NN b → (a = inf false ∨ b = inf false) → a + b = inf false := by
    rintro a b ha hb (rfl | rfl)
    · exact F64.inf_add_nn hb
    · exact F64.nn_add_inf ha
  have v1 := F64.nn_add (F64.nn_add (F64.nn_add z q1) q2) q3
  have v2 := F64.nn_add (F64.nn_add (F64.nn_add z q4) q5) q6
  simp only [comps, List.mem_cons, List.not_mem_nil, or_false] at hs
  refine add (F64.nn_add (F64.nn_add q0 v1) v2) q7 ?_
  rcases hs with hs | hs | hs | hs | hs | hs | hs | hs
  · exact Or.inl (add (F64.nn_add q0 v1) v2 (Or.inl (add q0 v1 (Or.inl (ii hs)))))
  · exact Or.inl (add (F64.nn_add q0 v1) v2 (Or.inl (add q0 v1 (Or.inr (add (F64.nn_add (F64.nn_add z q1) q2) q3
      (Or.inl (add (F64.nn_add z q1) q2 (Or.inl (add z q1 (Or.inr (ii hs)))))))))))
  · exact Or.inl (add (F64.nn_add q0 v1) v2 (Or.inl (add q0 v1 (Or.inr (add (F64.nn_add (F64.nn_add z q1) q2) q3
      (Or.inl (add (F64.nn_add z q1) q2 (Or.inr (ii hs)))))))))
  · exact Or.inl (add (F64.nn_add q0 v1) v2 (Or.inl (add q0 v1 (Or.inr (add (F64.nn_add (F64.nn_add z q1) q2) q3
      (Or.inr (ii hs)))))))
  · exact Or.inl (add (F64.nn_add q0 v1) v2 (Or.inr (add (F64.nn_add (F64.nn_add z q4) q5) q6
      (Or.inl (add (F64.nn_add z q4) q5 (Or.inl (add z q4 (Or.inr (ii hs)))))))))
  · exact Or.inl (add (F64.nn_add q0 v1) v2 (Or.inr (add (F64.nn_add (F64.nn_add z q4) q5) q6
      (Or.inl (add (F64.nn_add z q4) q5 (Or.inr (ii hs)))))))
  · exact Or.inl (add (F64.nn_add q0 v1) v2 (Or.inr (add (F64.nn_add (F64.nn_add z q4) q5) q6 (Or.inr (ii hs)))))
  · exact Or.inr (ii hs)

/-- **C85.**  In binary64 the reference never returns when a component is infinite, none is NaN, and the argument
passes `isValid` (which looks at the first component of each grade only): the halving loop runs for ever. -/
theorem C85_reference_hangs (x : MultiVector F64) (hv : isValid x = true) (hn : ∀ c ∈ comps .mv x, c ≠ nan)
    (hi : ∃ s, inf s ∈ comps .mv x) (fuel : ℕ) : refExp fuel x = none := by
  have key : ∀ (fuel h : ℕ) (x : MultiVector F64), Unbounded x → refHalve fuel x h = none := by
    intro fuel
    induction fuel with
    | zero => intro h x _; rfl
    | succ f ih =>
      intro h x hx
      unfold refHalve
      have e : magnitude x = inf false := by unfold magnitude; rw [hx.magSq]; rfl
      have e2 : Dbl.lt (Dbl.lit (1 / 2) : F64) (inf false) = true := by
        have := half_hasVal.1
        rw [F64.lt_def]
        generalize (Dbl.lit (1 / 2) : F64) = l at this
        cases l with
        | nan => exact absurd this id
        | inf _ => exact absurd this id
        | zero _ => rfl
        | fin v hv => rfl
      rw [e, if_pos e2]
      exact ih _ _ hx.half
  unfold refExp
  rw [if_pos hv, key fuel 0 x ⟨hn, hi⟩]
  rfl

theorem magSq_nan {x : MultiVector F64} (h : nan ∈ comps .mv x) : magSq x = nan := by
  have e : magSq x = ((x.theSca.theData.d0 * x.theSca.theData.d0
    + (((0 + x.theVec.theData.d0 * x.theVec.theData.d0) + x.theVec.theData.d1 * x.theVec.theData.d1) + x.theVec.theData.d2 * x.theVec.theData.d2))
    + (((0 + x.theBiv.theData.d0 * x.theBiv.theData.d0) + x.theBiv.theData.d1 * x.theBiv.theData.d1) + x.theBiv.theData.d2 * x.theBiv.theData.d2))
    + x.theTri.theData.d0 * x.theTri.theData.d0 := rfl
  rw [e]
  simp only [comps, List.mem_cons, List.not_mem_nil, or_false] at h
  rcases h with hs | hs | hs | hs | hs | hs | hs | hs <;> rw [← hs] <;>
    simp only [F64.nan_mul, F64.nan_add, F64.add_nan]

theorem magnitude_nan {x : MultiVector F64} (h : nan ∈ comps .mv x) : magnitude x = nan := by
  unfold magnitude; rw [magSq_nan h]; rfl

theorem lt_nan (a : F64) : Dbl.lt a nan = false := by rw [F64.lt_def]; cases a <;> rfl

theorem add_nan_mem {x y : MultiVector F64} (h : nan ∈ comps .mv x) : nan ∈ comps .mv (x + y) ∧ nan ∈ comps .mv (y + x) := by
  simp only [comps, List.mem_cons, List.not_mem_nil, or_false, engabra] at h ⊢
  rcases h with hs | hs | hs | hs | hs | hs | hs | hs <;> rw [← hs] <;>
    simp only [F64.nan_add, F64.add_nan, true_or, or_true, and_self]

/-- **C85.**  With a NaN component the reference returns the null multivector. -/
theorem C85_reference_nan (x : MultiVector F64) (h : nan ∈ comps .mv x) (fuel : ℕ) (hf : 1 ≤ fuel) :
    refExp fuel x = some (gnull Dbl.nan) := by
  have key : ∀ (left k : ℕ) (t s : MultiVector F64), nan ∈ comps .mv s → refSeries x left k t s = none := by
    intro left
    induction left with
    | zero => intro k t s _; rfl
    | succ left ih =>
      intro k t s hs
      unfold refSeries
      have h1 := (add_nan_mem (y := ((1 : F64) / Dbl.lit ((k + 1 : ℕ) : ℚ)) * (t * x)) hs).1
      have e : ∀ a b : F64, Dbl.lt (a / nan) b = false := by
        intro a b
        rw [F64.lt_def, F64.div_def]
        cases a <;> cases b <;> rfl
      simp only [magnitude_nan h1, e]
      exact ih _ _ _ h1
  unfold refExp
  split
  · obtain ⟨f, rfl⟩ : ∃ f, fuel = f + 1 := ⟨fuel - 1, by omega⟩
    unfold refHalve
    rw [magnitude_nan h, lt_nan]
    simp only [Option.map_some, refFinish, Bool.false_eq_true, if_false]
    rw [key _ _ _ _ (add_nan_mem h).2]
  · rfl

/-- Arguments that pass `isValid`: with finite components, with an infinity, with a NaN. -/
example : (isValid (⟨⟨⟨0⟩⟩, ⟨⟨0, 1, 0⟩⟩, ⟨⟨0, 0, 0⟩⟩, ⟨⟨0⟩⟩⟩ : MultiVector F64) = true ∧
      ∀ c ∈ comps .mv (⟨⟨⟨0⟩⟩, ⟨⟨0, 1, 0⟩⟩, ⟨⟨0, 0, 0⟩⟩, ⟨⟨0⟩⟩⟩ : MultiVector F64), c.Finite) ∧
    (isValid (⟨⟨⟨0⟩⟩, ⟨⟨0, inf true, 0⟩⟩, ⟨⟨0, 0, 0⟩⟩, ⟨⟨0⟩⟩⟩ : MultiVector F64) = true ∧
      (∀ c ∈ comps .mv (⟨⟨⟨0⟩⟩, ⟨⟨0, inf true, 0⟩⟩, ⟨⟨0, 0, 0⟩⟩, ⟨⟨0⟩⟩⟩ : MultiVector F64), c ≠ nan) ∧
      ∃ s, inf s ∈ comps .mv (⟨⟨⟨0⟩⟩, ⟨⟨0, inf true, 0⟩⟩, ⟨⟨0, 0, 0⟩⟩, ⟨⟨0⟩⟩⟩ : MultiVector F64)) ∧
    (isValid (⟨⟨⟨0⟩⟩, ⟨⟨0, nan, 0⟩⟩, ⟨⟨0, 0, 0⟩⟩, ⟨⟨0⟩⟩⟩ : MultiVector F64) = true ∧
      nan ∈ comps .mv (⟨⟨⟨0⟩⟩, ⟨⟨0, nan, 0⟩⟩, ⟨⟨0, 0, 0⟩⟩, ⟨⟨0⟩⟩⟩ : MultiVector F64)) := by
  have hv : ∀ c : F64, isValid (⟨⟨⟨0⟩⟩, ⟨⟨0, c, 0⟩⟩, ⟨⟨0, 0, 0⟩⟩, ⟨⟨0⟩⟩⟩ : MultiVector F64) = true := fun c => by
    change (isValidDub (0 : F64) && isValidDub 0 && isValidDub 0 && isValidDub 0) = true
    rw [isValidDub_zero']; rfl
  have z : (0 : F64) ≠ nan := fun h => by cases h
  refine ⟨⟨hv _, ?_⟩, ⟨hv _, ?_, true, by simp [comps]⟩, hv _, by simp [comps]⟩
  · exact allMv_iff.2 ⟨trivial, trivial, F64.hasVal_one.1, trivial, trivial, trivial, trivial, trivial⟩
  · exact allMv_iff.2 ⟨z, z, (fun h => by cases h), z, z, z, z, z⟩

end Engabra
