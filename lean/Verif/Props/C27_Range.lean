import Verif.Lemmas.NearlyRange

/-! # C27: `nearlyEquals` in binary64 away from overflow and underflow

`C27_fails_overflow` and `C27_fails_underflow` show where the comparison goes wrong.  Here: for
valid components of magnitude at most `2^500` (`Mid`), a reference of norm at least `2^-440` and a
tolerance of at least `2^-60`, the comparison decides `distance < tolerance · norm` correctly
except in a band of `2n + 6` units roundoff (`C27_range_accepts`, `C27_range_rejects_partial`), for arrays
of up to 1000 elements and, grade by grade, for every library type. -/

namespace Engabra
open F64 (nan inf zero fin IsFin Finite HasVal)

/-- **C27**, binary64 arrays of up to 1000 elements, away from overflow and underflow: if the
distance is below the tolerance by a margin of `2n+6` units roundoff, `nearlyEquals` accepts. -/
theorem C27_range_accepts (xs ys : List F64) (tol : F64) (hlen : xs.length = ys.length)
    (hn : xs.length ≤ 1000) (hx : Mid xs) (hy : Mid ys) (ht : tol.Finite)
    (ht1 : (2 : ℚ) ^ (-60 : ℤ) ≤ tol.value) (ht2 : tol.value ≤ 2 ^ (500 : ℤ))
    (hbig : (2 : ℝ) ^ (-440 : ℤ) ≤ listNorm (vals ys))
    (h : listDist (vals xs) (vals ys)
      ≤ tol.value * (1 - (2 * xs.length + 6) * 2 ^ (-53 : ℤ)) * listNorm (vals ys)) :
    nearlyEqualsArr xs ys tol = .ok true := by
  obtain ⟨D, R, Dh, Rh, a, b, β, hD, hR, hD0, hR0, hb, hb0, hub, hb1, ha0, ha, hDe, hRe, hβ1, hβ2,
    hDh, hRh, hRlo, hDf, hRf, hdn, he⟩ := range_setup xs ys tol hlen hn hx hy ht1 hbig
  have hT0 : (0 : ℝ) < (tol.value : ℝ) := by
    exact_mod_cast (F64.two_zpow_pos (K := ℚ) _).trans_le ht1
  have hh : D ≤ tol.value * tol.value * ((1 - b) * (1 - b)) * R := by
    change _ ≤ _ * (1 - (2 * xs.length + 6) * uR) * _ at h
    rw [← hb] at h
    rw [hD, hR]
    calc _ ≤ (tol.value * (1 - b) * listNorm (vals ys)) * (tol.value * (1 - b) * listNorm (vals ys)) :=
          mul_le_mul h h (Real.sqrt_nonneg _) (mul_nonneg (mul_nonneg hT0.le (by linarith))
            (Real.sqrt_nonneg _))
      _ = _ := by ring
  obtain ⟨h1, h2⟩ := accept_arith uR_nonneg hb0 hub hb1 ha0 ha hDe hRe hR0 hT0 hβ1 hβ2 hh
  rw [hRh] at h1
  rw [hDh, hRh] at h2
  rw [he, quotient_accepts hDf hRf ht hdn (by exact_mod_cast h1) ht1 ht2 h2]

/-- **C27**, binary64 arrays: what `nearlyEquals` accepts is within the tolerance up to a margin
of `2n+6` units roundoff.  Partial: outside the range of the hypotheses the claim is false
(`C27_fails_overflow`, `C27_fails_underflow`, `C27_fails_tiny`). -/
theorem C27_range_rejects_partial (xs ys : List F64) (tol : F64) (hlen : xs.length = ys.length)
    (hn : xs.length ≤ 1000) (hx : Mid xs) (hy : Mid ys) (ht : tol.Finite)
    (ht1 : (2 : ℚ) ^ (-60 : ℤ) ≤ tol.value)
    (hbig : (2 : ℝ) ^ (-440 : ℤ) ≤ listNorm (vals ys))
    (h : tol.value * (1 + (2 * xs.length + 6) * 2 ^ (-53 : ℤ)) * listNorm (vals ys)
      < listDist (vals xs) (vals ys)) :
    nearlyEqualsArr xs ys tol = .ok false := by
  obtain ⟨D, R, Dh, Rh, a, b, β, hD, hR, hD0, hR0, hb, hb0, hub, hb1, ha0, ha, hDe, hRe, hβ1, hβ2,
    hDh, hRh, hRlo, hDf, hRf, hdn, he⟩ := range_setup xs ys tol hlen hn hx hy ht1 hbig
  have hT0 : (0 : ℝ) < (tol.value : ℝ) := by
    exact_mod_cast (F64.two_zpow_pos (K := ℚ) _).trans_le ht1
  rw [he]
  congr 1
  rw [← Bool.not_eq_true]
  intro hacc
  have hRq : 0 < (innerProduct 0 ys).value := by
    have := (F64.two_zpow_pos (K := ℝ) (-881)).trans_le hRlo
    rw [hRh] at this
    exact_mod_cast this
  have h1 := quotient_accepted hDf hdn ht hRq ht1 hacc
  rw [← hDh, ← hRh] at h1
  have h2 := accepted_arith uR_nonneg hb0 hub hb1 ha hD0 hDe hRe hR0 hT0 hβ1 hβ2 h1
  change _ * (1 + (2 * xs.length + 6) * uR) * _ < _ at h
  rw [← hb] at h
  have h3 : (0 : ℝ) ≤ tol.value * (1 + b) * listNorm (vals ys) :=
    mul_nonneg (mul_nonneg hT0.le (by linarith)) (Real.sqrt_nonneg _)
  have h4 := mul_self_lt_mul_self h3 h
  rw [← hD] at h4
  have h5 : (tol.value : ℝ) * (1 + b) * listNorm (vals ys) * (tol.value * (1 + b) * listNorm (vals ys))
      = tol.value * tol.value * ((1 + b) * (1 + b)) * R := by rw [hR]; ring
  linarith

/-- **C27**, binary64: against a zero reference every component is compared with the tolerance. -/
theorem C27_zero_reference (xs ys : List F64) (tol : F64) (hlen : xs.length = ys.length)
    (h0 : xs ≠ []) (hx : ∀ c ∈ xs, isValidDub c = true) (ht : tol.Finite)
    (hy : ∀ c ∈ ys, c = 0) :
    nearlyEqualsArr xs ys tol = .ok true ↔ ∀ c ∈ xs, |c.value| < tol.value := by
  cases xs with
  | nil => exact absurd rfl h0
  | cons x xs =>
    cases ys with
    | nil => simp at hlen
    | cons y ys =>
      rw [nearlyEqualsArr_eq, List.all_eq_true.2 hx, List.all_eq_true.2 fun c hc => by
        rw [hy c hc]; exact isValidDub_zero false, F64.innerProduct_underflow _ fun c hc => by
        rw [hy c hc]
        refine ⟨trivial, ?_⟩
        rw [show (0 : F64).value = 0 from rfl, abs_zero]
        exact (F64.two_zpow_pos _).le, if_pos (by
          rw [show (Dbl.sqrt (0 : F64) : F64) = zero false from rfl,
            (F64.hasVal_zero false).flt F64.minDub_val, decide_eq_true_iff]
          exact F64.two_zpow_pos _)]
      simp only [Bool.and_self, Bool.true_and, Run.ok.injEq]
      generalize x :: xs = as at *
      generalize y :: ys = bs at *
      clear h0
      induction as generalizing bs with
      | nil => simp
      | cons a as ih =>
        cases bs with
        | nil => simp at hlen
        | cons b bs =>
          have ha := F64.valid_finite (hx a (by simp))
          have e : isSmallAbsDiff a b tol = true ↔ |a.value| < tol.value := by
            rw [hy b (by simp)]
            unfold isSmallAbsDiff isSmallAbs
            have e1 : (a - 0).value = a.value ∧ (a - 0).Finite := by
              have h1 := F64.sub_spec' (y := (0 : F64)) ha trivial (by
                rw [show (0 : F64).value = 0 from rfl, sub_zero, F64.rnVal_exact F64.value_rep]
                exact F64.value_lt)
              refine ⟨?_, h1⟩
              rw [F64.sub_value h1, show (0 : F64).value = 0 from rfl, sub_zero,
                F64.rnVal_exact F64.value_rep]
            rw [F64.abs_lt_iff e1.2 ht, e1.1]
          rw [List.zipWith_cons_cons, List.all_cons, Bool.and_eq_true, id, e,
            ih (fun c hc => hx c (by simp [hc])) bs (fun c hc => hy c (by simp [hc]))
              (by simpa using hlen)]
          simp

/-! ## The library types -/

/-- Specification: the components of a value, grade by grade. -/
def gradeLists {α : Type} : (t : Ty) → t.D α → List (List α)
  | .dub, (x : α) => [[x]]
  | .sca, (x : Scalar α) => [[x.theData.d0]]
  | .vec, (x : Vector α) => [[x.theData.d0, x.theData.d1, x.theData.d2]]
  | .biv, (x : BiVector α) => [[x.theData.d0, x.theData.d1, x.theData.d2]]
  | .tri, (x : TriVector α) => [[x.theData.d0]]
  | .spin, (x : Spinor α) => [[x.theSca.theData.d0],
      [x.theBiv.theData.d0, x.theBiv.theData.d1, x.theBiv.theData.d2]]
  | .imsp, (x : ImSpin α) => [[x.theVec.theData.d0, x.theVec.theData.d1, x.theVec.theData.d2],
      [x.theTri.theData.d0]]
  | .cplx, (x : ComPlex α) => [[x.theSca.theData.d0], [x.theTri.theData.d0]]
  | .dplx, (x : DirPlex α) => [[x.theVec.theData.d0, x.theVec.theData.d1, x.theVec.theData.d2],
      [x.theBiv.theData.d0, x.theBiv.theData.d1, x.theBiv.theData.d2]]
  | .mv, (x : MultiVector α) => [[x.theSca.theData.d0],
      [x.theVec.theData.d0, x.theVec.theData.d1, x.theVec.theData.d2],
      [x.theBiv.theData.d0, x.theBiv.theData.d1, x.theBiv.theData.d2], [x.theTri.theData.d0]]

theorem gradeLists_comps {α : Type} (t : Ty) (x : t.D α) : (gradeLists t x).flatten = comps t x := by
  cases t <;> rfl

theorem Run.and_true_iff {a b : Run Bool} : a.and b = .ok true ↔ a = .ok true ∧ b = .ok true := by
  rcases a with _ | _ | _ <;> simp [Run.and]

/-- The comparison of two values of a library type is the comparison of their grades. -/
theorem nearly_grades {α : Type} [Dbl α] (t : Ty) (ht : t ≠ .dub) (x y : t.D α) (tol : α) :
    nearlyEqualsTy t x y tol = .ok true ↔
      ∀ p ∈ (gradeLists t x).zip (gradeLists t y), nearlyEqualsArr p.1 p.2 tol = .ok true := by
  cases t <;>
    simp [nearlyEqualsTy, nearlyEquals, gradeLists, Run.and_true_iff, A1.toList, A3.toList,
      and_assoc] at *

theorem grade_length {α : Type} (t : Ty) (x y : t.D α) :
    ∀ p ∈ (gradeLists t x).zip (gradeLists t y),
      p.1.length = p.2.length ∧ p.1.length ≤ 3 ∧ p.1 ≠ [] ∧ (∀ c ∈ p.1, c ∈ comps t x) ∧
        ∀ c ∈ p.2, c ∈ comps t y := by
  cases t <;> simp [gradeLists, comps]

/-- **C27**, all library types in binary64: with components of moderate size, `nearlyEquals`
accepts if grade by grade the distance is below the tolerance times the norm of the reference (by
a margin of `12 · 2^-53`), where for a grade that is zero in the reference every component has to
be below the tolerance. -/
theorem C27_type_accepts (t : Ty) (ht : t ≠ .dub) (x y : t.D F64) (tol : F64)
    (hx : Mid (comps t x)) (hy : Mid (comps t y)) (htf : tol.Finite)
    (ht1 : (2 : ℚ) ^ (-60 : ℤ) ≤ tol.value) (ht2 : tol.value ≤ 2 ^ (500 : ℤ))
    (h : ∀ p ∈ (gradeLists t x).zip (gradeLists t y),
      ((2 : ℝ) ^ (-440 : ℤ) ≤ listNorm (vals p.2) ∧
        listDist (vals p.1) (vals p.2)
          ≤ tol.value * (1 - 12 * 2 ^ (-53 : ℤ)) * listNorm (vals p.2)) ∨
      ((∀ c ∈ p.2, c = 0) ∧ ∀ c ∈ p.1, |c.value| < tol.value)) :
    nearlyEqualsTy t x y tol = .ok true := by
  rw [nearly_grades t ht]
  intro p hp
  obtain ⟨hl, hl3, hne, hcx, hcy⟩ := grade_length t x y p hp
  rcases h p hp with ⟨h1, h2⟩ | ⟨h1, h2⟩
  · refine C27_range_accepts p.1 p.2 tol hl (by omega) (fun c hc => hx c (hcx c hc))
      (fun c hc => hy c (hcy c hc)) htf ht1 ht2 h1 (h2.trans ?_)
    refine mul_le_mul_of_nonneg_right (mul_le_mul_of_nonneg_left ?_ ?_) (Real.sqrt_nonneg _)
    · have h3 : (p.1.length : ℝ) ≤ 3 := by exact_mod_cast hl3
      have := mul_le_mul_of_nonneg_right (by linarith : 2 * (p.1.length : ℝ) + 6 ≤ 12) uR_nonneg
      change 1 - 12 * uR ≤ 1 - (2 * p.1.length + 6) * uR
      linarith
    · exact_mod_cast (F64.two_zpow_pos (K := ℚ) _).le.trans ht1
  · exact (C27_zero_reference p.1 p.2 tol hl hne (fun c hc => (hx c (hcx c hc)).1) htf h1).2 h2

/-- **C27**, all library types in binary64: what `nearlyEquals` accepts is grade by grade within
the tolerance times the norm of the reference (up to a margin of `12 · 2^-53`), and where a grade
is zero in the reference every component is below the tolerance.  Partial as
`C27_range_rejects_partial`. -/
theorem C27_type_accepted_partial (t : Ty) (ht : t ≠ .dub) (x y : t.D F64) (tol : F64)
    (hx : Mid (comps t x)) (hy : Mid (comps t y)) (htf : tol.Finite)
    (ht1 : (2 : ℚ) ^ (-60 : ℤ) ≤ tol.value) (h : nearlyEqualsTy t x y tol = .ok true) :
    ∀ p ∈ (gradeLists t x).zip (gradeLists t y),
      ((2 : ℝ) ^ (-440 : ℤ) ≤ listNorm (vals p.2) → listDist (vals p.1) (vals p.2)
          ≤ tol.value * (1 + 12 * 2 ^ (-53 : ℤ)) * listNorm (vals p.2)) ∧
      ((∀ c ∈ p.2, c = 0) → ∀ c ∈ p.1, |c.value| < tol.value) := by
  rw [nearly_grades t ht] at h
  intro p hp
  obtain ⟨hl, hl3, hne, hcx, hcy⟩ := grade_length t x y p hp
  refine ⟨fun h1 => ?_, fun h1 =>
    (C27_zero_reference p.1 p.2 tol hl hne (fun c hc => (hx c (hcx c hc)).1) htf h1).1 (h p hp)⟩
  by_contra h2
  rw [not_le] at h2
  have h3 := C27_range_rejects_partial p.1 p.2 tol hl (by omega) (fun c hc => hx c (hcx c hc))
    (fun c hc => hy c (hcy c hc)) htf ht1 h1 (lt_of_le_of_lt ?_ h2)
  · rw [h p hp] at h3
    cases h3
  · refine mul_le_mul_of_nonneg_right (mul_le_mul_of_nonneg_left ?_ ?_) (Real.sqrt_nonneg _)
    · have h3 : (p.1.length : ℝ) ≤ 3 := by exact_mod_cast hl3
      have := mul_le_mul_of_nonneg_right (by linarith : 2 * (p.1.length : ℝ) + 6 ≤ 12) uR_nonneg
      change 1 + (2 * p.1.length + 6) * uR ≤ 1 + 12 * uR
      linarith
    · exact_mod_cast (F64.two_zpow_pos (K := ℚ) _).le.trans ht1

/-! ## Cases meeting the hypotheses -/

section Examples
open F64 (pow2)

theorem mid_pow2 {e : ℤ} (h1 : -1022 ≤ e) (h2 : e ≤ 500) :
    isValidDub (pow2 e) = true ∧ |(pow2 e).value| ≤ 2 ^ (500 : ℤ) := by
  refine ⟨F64.pow2_valid h1 (by omega), ?_⟩
  rw [(F64.pow2_val (by omega) (by omega)).2, abs_of_pos (F64.two_zpow_pos _)]
  exact zpow_le_zpow_right₀ (by norm_num) h2

theorem vals_pow2 (e f g : ℤ) (he : -1022 ≤ e ∧ e ≤ 500) (hf : -1022 ≤ f ∧ f ≤ 500)
    (hg : -1022 ≤ g ∧ g ≤ 500) :
    Mid [pow2 e, pow2 f, pow2 g] ∧ vals [pow2 e, pow2 f, pow2 g] = [2 ^ e, 2 ^ f, 2 ^ g] := by
  refine ⟨?_, ?_⟩
  · intro c hc
    simp only [List.mem_cons, List.not_mem_nil, or_false] at hc
    rcases hc with rfl | rfl | rfl
    · exact mid_pow2 he.1 he.2
    · exact mid_pow2 hf.1 hf.2
    · exact mid_pow2 hg.1 hg.2
  · unfold vals
    rw [List.map_cons, List.map_cons, List.map_cons, List.map_nil,
      (F64.pow2_val (by omega) (by omega)).2, (F64.pow2_val (by omega) (by omega)).2,
      (F64.pow2_val (by omega) (by omega)).2, cast_zpow, cast_zpow, cast_zpow]

theorem norm_ones : listNorm [(2 : ℝ) ^ (0 : ℤ), 2 ^ (0 : ℤ), 2 ^ (0 : ℤ)] = √3 := by
  unfold listNorm; norm_num
theorem dist_two : listDist [(2 : ℝ) ^ (1 : ℤ), 2 ^ (0 : ℤ), 2 ^ (0 : ℤ)]
    [(2 : ℝ) ^ (0 : ℤ), 2 ^ (0 : ℤ), 2 ^ (0 : ℤ)] = 1 := by
  unfold listDist listNorm; norm_num

/-- (2,1,1) is accepted against (1,1,1) with tolerance 1, and rejected with tolerance 1/4. -/
example : nearlyEqualsArr [pow2 1, pow2 0, pow2 0] [pow2 0, pow2 0, pow2 0] (pow2 0) = .ok true ∧
    nearlyEqualsArr [pow2 1, pow2 0, pow2 0] [pow2 0, pow2 0, pow2 0] (pow2 (-2)) = .ok false := by
  obtain ⟨hx, ex⟩ := vals_pow2 1 0 0 (by norm_num) (by norm_num) (by norm_num)
  obtain ⟨hy, ey⟩ := vals_pow2 0 0 0 (by norm_num) (by norm_num) (by norm_num)
  have h3 : (1 : ℝ) < √3 := Real.lt_sqrt_of_sq_lt (by norm_num)
  have h4 : √(3 : ℝ) < 2 := (Real.sqrt_lt' (by norm_num)).2 (by norm_num)
  have hm : (2 : ℝ) ^ (-440 : ℤ) ≤ √3 :=
    (zpow_le_zpow_right₀ (by norm_num) (by norm_num : (-440 : ℤ) ≤ 0)).trans (by simp)
  have v0 := F64.pow2_val (e := 0) (by norm_num) (by norm_num)
  have v2 := F64.pow2_val (e := -2) (by norm_num) (by norm_num)
  have h5 : (1 : ℝ) + 1 / 10 ≤ √3 := Real.le_sqrt_of_sq_le (by norm_num)
  constructor
  · refine C27_range_accepts _ _ _ rfl (by norm_num) hx hy v0.1 ?_ ?_ ?_ ?_
    · rw [v0.2]; exact zpow_le_zpow_right₀ (by norm_num) (by norm_num)
    · rw [v0.2]; exact zpow_le_zpow_right₀ (by norm_num) (by norm_num)
    · rw [ey, norm_ones]; exact hm
    · rw [ex, ey, dist_two, norm_ones, v0.2]
      norm_num
      linarith
  · refine C27_range_rejects_partial _ _ _ rfl (by norm_num) hx hy v2.1 ?_ ?_ ?_
    · rw [v2.2]; exact zpow_le_zpow_right₀ (by norm_num) (by norm_num)
    · rw [ey, norm_ones]; exact hm
    · rw [ex, ey, dist_two, norm_ones, v2.2]
      norm_num
      linarith

/-- The vector (2,1,1) against (1,1,1), both ways. -/
example : nearlyEqualsTy .vec (⟨⟨pow2 1, pow2 0, pow2 0⟩⟩ : Vector F64)
      (⟨⟨pow2 0, pow2 0, pow2 0⟩⟩ : Vector F64) (pow2 0) = .ok true := by
  obtain ⟨hx, ex⟩ := vals_pow2 1 0 0 (by norm_num) (by norm_num) (by norm_num)
  obtain ⟨hy, ey⟩ := vals_pow2 0 0 0 (by norm_num) (by norm_num) (by norm_num)
  have h3 : (1 : ℝ) < √3 := Real.lt_sqrt_of_sq_lt (by norm_num)
  have hm : (2 : ℝ) ^ (-440 : ℤ) ≤ √3 :=
    (zpow_le_zpow_right₀ (by norm_num) (by norm_num : (-440 : ℤ) ≤ 0)).trans (by simp)
  have v0 := F64.pow2_val (e := 0) (by norm_num) (by norm_num)
  have h5 : (1 : ℝ) + 1 / 10 ≤ √3 := Real.le_sqrt_of_sq_le (by norm_num)
  refine C27_type_accepts .vec (by decide) _ _ _ hx hy v0.1 ?_ ?_ fun p hp => ?_
  · rw [v0.2]; exact zpow_le_zpow_right₀ (by norm_num) (by norm_num)
  · rw [v0.2]; exact zpow_le_zpow_right₀ (by norm_num) (by norm_num)
  · simp only [gradeLists, List.zip_cons_cons, List.zip_nil_right, List.mem_singleton] at hp
    subst hp
    left
    rw [ex, ey, dist_two, norm_ones, v0.2]
    refine ⟨hm, ?_⟩
    norm_num
    linarith
end Examples

end Engabra
