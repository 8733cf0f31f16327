import Verif.Props.C80_Polar
import Verif.Props.C47_ExpMvMeaning

/-! # Partial sums of the exponential series in the library's algebra

Lengths of the terms, of the partial sums and of the remainder. -/

namespace Engabra
open XR Spec

/-- Multiplication by `A`, on either side, lengthens by at most `b`. -/
def OpLe (A : MultiVector ℝ) (b : ℝ) : Prop :=
  ∀ X : MultiVector ℝ, length .mv (A * X) ≤ b * length .mv X ∧ length .mv (X * A) ≤ b * length .mv X

theorem length_mv_smul (r : ℝ) (A : MultiVector ℝ) : length .mv (r • A) = |r| * length .mv A :=
  length_smul .mv r A

theorem length_mv_one : length .mv (1 : MultiVector ℝ) = 1 := by
  rw [length_eq]
  simp only [magSqTy, engabra]
  norm_num

theorem length_mv_zero : length .mv (0 : MultiVector ℝ) = 0 := by
  rw [length_eq]
  simp only [magSqTy, engabra]
  norm_num

theorem length_mv_neg (A : MultiVector ℝ) : length .mv (-A) = length .mv A := by
  have := length_mv_smul (-1) A
  rw [neg_one_smul] at this
  rw [this]; norm_num

theorem length_sub_tri (A B C : MultiVector ℝ) :
    length .mv (A - C) ≤ length .mv (A - B) + length .mv (B - C) := by
  have := length_mv_add (A - B) (B - C)
  rwa [sub_add_sub_cancel] at this

theorem length_sub_le (A B : MultiVector ℝ) : length .mv (A - B) ≤ length .mv A + length .mv B := by
  have := length_mv_add A (-B)
  rwa [length_mv_neg, ← sub_eq_add_neg] at this

theorem le_length_add (A B : MultiVector ℝ) : length .mv A - length .mv B ≤ length .mv (A + B) := by
  have := length_sub_le (A + B) B
  rw [add_sub_cancel_right] at this
  linarith

theorem opLe_one : OpLe 1 1 := fun X => by rw [one_mul, mul_one, one_mul]; exact ⟨le_rfl, le_rfl⟩

theorem opLe_length (A : MultiVector ℝ) : OpLe A (√2 * length .mv A) := fun X =>
  ⟨by rw [mul_assoc]; exact length_mul_le A X,
    by rw [mul_assoc, mul_comm (length .mv A)]; exact length_mul_le X A⟩

theorem OpLe.mono {A : MultiVector ℝ} {b c : ℝ} (h : OpLe A b) (hbc : b ≤ c) : OpLe A c := fun X =>
  ⟨(h X).1.trans (mul_le_mul_of_nonneg_right hbc (length_nonneg _ _)),
    (h X).2.trans (mul_le_mul_of_nonneg_right hbc (length_nonneg _ _))⟩

theorem OpLe.add {A B : MultiVector ℝ} {a b : ℝ} (hA : OpLe A a) (hB : OpLe B b) : OpLe (A + B) (a + b) := by
  intro X
  rw [add_mul, mul_add, add_mul]
  exact ⟨(length_mv_add _ _).trans (add_le_add (hA X).1 (hB X).1),
    (length_mv_add _ _).trans (add_le_add (hA X).2 (hB X).2)⟩

theorem OpLe.mul {A B : MultiVector ℝ} {a b : ℝ} (ha : 0 ≤ a) (hb : 0 ≤ b) (hA : OpLe A a) (hB : OpLe B b) :
    OpLe (A * B) (a * b) := by
  intro X
  constructor
  · rw [mul_assoc A B X, mul_assoc a b]
    exact (hA (B * X)).1.trans (mul_le_mul_of_nonneg_left (hB X).1 ha)
  · rw [← mul_assoc X A B, mul_comm a b, mul_assoc b a]
    have h1 := (hB (X * A)).2
    have h2 := mul_le_mul_of_nonneg_left (hA X).2 hb
    exact h1.trans h2

theorem OpLe.smul {A : MultiVector ℝ} {a : ℝ} (r : ℝ) (hA : OpLe A a) : OpLe (r • A) (|r| * a) := by
  intro X
  rw [smul_mul_assoc, mul_smul_comm, length_mv_smul, length_mv_smul, mul_assoc]
  exact ⟨mul_le_mul_of_nonneg_left (hA X).1 (abs_nonneg _), mul_le_mul_of_nonneg_left (hA X).2 (abs_nonneg _)⟩

theorem OpLe.neg {A : MultiVector ℝ} {a : ℝ} (hA : OpLe A a) : OpLe (-A) a := by
  intro X
  rw [neg_mul, mul_neg, length_mv_neg, length_mv_neg]
  exact hA X

theorem OpLe.pow {A : MultiVector ℝ} {a : ℝ} (ha : 0 ≤ a) (hA : OpLe A a) (n : ℕ) : OpLe (A ^ n) (a ^ n) := by
  induction n with
  | zero => rw [pow_zero, pow_zero]; exact opLe_one
  | succ n ih => rw [pow_succ, pow_succ]; exact ih.mul (pow_nonneg ha n) ha hA

theorem OpLe.length {A : MultiVector ℝ} {a : ℝ} (hA : OpLe A a) : length .mv A ≤ a := by
  have := (hA 1).1
  rwa [mul_one, length_mv_one, mul_one] at this

/-- The term `A^k / k!`. -/
noncomputable def term (A : MultiVector ℝ) (k : ℕ) : MultiVector ℝ := (1 / (k.factorial : ℝ)) • A ^ k

/-- The partial sum up to and including `A^k / k!`. -/
noncomputable def psum (A : MultiVector ℝ) (k : ℕ) : MultiVector ℝ := ∑ j ∈ Finset.range (k + 1), term A j

theorem psum_succ (A : MultiVector ℝ) (k : ℕ) : psum A (k + 1) = psum A k + term A (k + 1) :=
  Finset.sum_range_succ _ _

theorem term_succ (A : MultiVector ℝ) (k : ℕ) : term A (k + 1) = (1 / ((k + 1 : ℕ) : ℝ)) • (term A k * A) := by
  unfold term
  rw [smul_mul_assoc, ← pow_succ, smul_smul, Nat.factorial_succ, Nat.cast_mul]
  congr 1
  rw [div_mul_div_comm, one_mul]

theorem term_zero (A : MultiVector ℝ) : term A 0 = 1 := by
  unfold term; simp
theorem term_one (A : MultiVector ℝ) : term A 1 = A := by
  unfold term; simp
theorem psum_one (A : MultiVector ℝ) : psum A 1 = 1 + A := by
  unfold psum
  rw [Finset.sum_range_succ, Finset.sum_range_succ, Finset.sum_range_zero, term_zero, term_one, zero_add]

theorem opLe_term {A : MultiVector ℝ} {c : ℝ} (hc : 0 ≤ c) (hA : OpLe A c) (k : ℕ) :
    OpLe (term A k) (c ^ k / k.factorial) := by
  have := (hA.pow hc k).smul (1 / (k.factorial : ℝ))
  rw [abs_of_nonneg (by positivity)] at this
  rw [div_eq_mul_one_div, mul_comm]
  exact this

theorem opLe_sum {ι : Type} (s : Finset ι) (f : ι → MultiVector ℝ) (g : ι → ℝ) (h : ∀ i, OpLe (f i) (g i)) :
    OpLe (∑ i ∈ s, f i) (∑ i ∈ s, g i) := by
  classical
  induction s using Finset.induction_on with
  | empty =>
    intro X
    rw [Finset.sum_empty, Finset.sum_empty, zero_mul, mul_zero, zero_mul, length_mv_zero]
    exact ⟨le_rfl, le_rfl⟩
  | insert a s ha ih =>
    rw [Finset.sum_insert ha, Finset.sum_insert ha]
    exact (h a).add ih

/-- A partial sum lengthens by at most `e^c`. -/
theorem opLe_psum {A : MultiVector ℝ} {c : ℝ} (hc : 0 ≤ c) (hA : OpLe A c) (k : ℕ) :
    OpLe (psum A k) (Real.exp c) :=
  (opLe_sum _ _ _ (opLe_term hc hA)).mono (Real.sum_le_exp_of_nonneg hc _)

theorem sumMv_getD (s : Finset ℕ) (f : ℕ → MultiVector ℝ) (k : Fin 8) :
    (comps .mv (∑ i ∈ s, f i)).getD k 0 = ∑ i ∈ s, (comps .mv (f i)).getD k 0 := by
  classical
  induction s using Finset.induction_on with
  | empty => rw [Finset.sum_empty, Finset.sum_empty]; fin_cases k <;> rfl
  | insert a s ha ih => rw [Finset.sum_insert ha, Finset.sum_insert ha, getD_add, ih]

theorem length_le_abs (A : MultiVector ℝ) : length .mv A ≤ ∑ k : Fin 8, |(comps .mv A).getD k 0| := by
  rw [length]
  refine Real.sqrt_le_iff.2 ⟨Finset.sum_nonneg fun _ _ => abs_nonneg _, ?_⟩
  rw [Fin.sum_univ_eight]
  simp only [comps, List.map_cons, List.map_nil, List.sum_cons, List.sum_nil]
  simp only [List.getD_cons_zero, Fin.isValue, Fin.val_zero]
  change _ ≤ (|A.theSca.theData.d0| + |A.theVec.theData.d0| + |A.theVec.theData.d1| + |A.theVec.theData.d2|
    + |A.theBiv.theData.d0| + |A.theBiv.theData.d1| + |A.theBiv.theData.d2| + |A.theTri.theData.d0|) ^ 2
  rw [← sq_abs A.theSca.theData.d0, ← sq_abs A.theVec.theData.d0, ← sq_abs A.theVec.theData.d1,
    ← sq_abs A.theVec.theData.d2, ← sq_abs A.theBiv.theData.d0, ← sq_abs A.theBiv.theData.d1,
    ← sq_abs A.theBiv.theData.d2, ← sq_abs A.theTri.theData.d0]
  have p0 := abs_nonneg A.theSca.theData.d0
  have p1 := abs_nonneg A.theVec.theData.d0
  have p2 := abs_nonneg A.theVec.theData.d1
  have p3 := abs_nonneg A.theVec.theData.d2
  have p4 := abs_nonneg A.theBiv.theData.d0
  have p5 := abs_nonneg A.theBiv.theData.d1
  have p6 := abs_nonneg A.theBiv.theData.d2
  have p7 := abs_nonneg A.theTri.theData.d0
  have key : ∀ {s a t : ℝ}, 0 ≤ s → 0 ≤ a → t ≤ s ^ 2 → t + a ^ 2 ≤ (s + a) ^ 2 := by
    intro s a t hs ha ht
    have := mul_nonneg hs ha
    have e : (s + a) ^ 2 = s ^ 2 + a ^ 2 + 2 * (s * a) := by ring
    linarith
  have h1 := key p0 p1 le_rfl
  have h2 := key (by positivity) p2 h1
  have h3 := key (by positivity) p3 h2
  have h4 := key (by positivity) p4 h3
  have h5 := key (by positivity) p5 h4
  have h6 := key (by positivity) p6 h5
  have h7 := key (by positivity) p7 h6
  linarith

/-- The partial sums approach the exponential in length. -/
theorem psum_tendsto {A F : MultiVector ℝ} (h : IsExp A F) :
    Filter.Tendsto (fun n => length .mv (psum A n - F)) Filter.atTop (nhds 0) := by
  have hk : ∀ k : Fin 8, Filter.Tendsto (fun n => |(comps .mv (psum A n - F)).getD k 0|) Filter.atTop (nhds 0) := by
    intro k
    have h1 := (h k k.2).tendsto_sum_nat.comp (Filter.tendsto_add_atTop_nat 1)
    have h2 := ((h1.sub_const ((comps .mv F).getD k 0))).abs
    rw [sub_self, abs_zero] at h2
    refine h2.congr fun n => ?_
    congr 1
    have e : (comps .mv (psum A n - F)).getD k 0 = (comps .mv (psum A n)).getD k 0 - (comps .mv F).getD k 0 := by
      fin_cases k <;> rfl
    rw [e, psum, sumMv_getD]
    simp only [Function.comp]
    congr 1
    refine Finset.sum_congr rfl fun i _ => ?_
    rw [powMv_eq]
    have e : (comps .mv (term A i)).getD k 0 = 1 / (i.factorial : ℝ) * (comps .mv (A ^ i)).getD k 0 := by
      unfold term
      generalize A ^ i = B
      fin_cases k <;> rfl
    rw [e]; ring
  have hs : Filter.Tendsto (fun n => ∑ k : Fin 8, |(comps .mv (psum A n - F)).getD k 0|) Filter.atTop (nhds 0) := by
    have := tendsto_finsetSum (Finset.univ : Finset (Fin 8)) fun k _ => hk k
    simpa using this
  exact squeeze_zero (fun n => length_nonneg _ _) (fun n => length_le_abs _) hs

theorem isExp_unique' {A E F : MultiVector ℝ} (h : IsExp A E) (h' : IsExp A F) : E = F := by
  have u : ∀ k < 8, (comps .mv E).getD k 0 = (comps .mv F).getD k 0 := fun k hk => (h k hk).unique (h' k hk)
  ext
  · exact u 0 (by norm_num)
  · exact u 1 (by norm_num)
  · exact u 2 (by norm_num)
  · exact u 3 (by norm_num)
  · exact u 4 (by norm_num)
  · exact u 5 (by norm_num)
  · exact u 6 (by norm_num)
  · exact u 7 (by norm_num)

/-- A bound of all later differences bounds the distance to the limit. -/
theorem limit_le {A F G : MultiVector ℝ} (h : IsExp A F) {k : ℕ} {b : ℝ}
    (hb : ∀ n, k ≤ n → length .mv (psum A n - G) ≤ b) : length .mv (F - G) ≤ b := by
  have h1 : ∀ n, k ≤ n → length .mv (F - G) ≤ length .mv (psum A n - F) + b := fun n hn =>
    (length_sub_tri F (psum A n) G).trans (add_le_add (length_mv_sub_comm _ _).le (hb n hn))
  have h2 := (psum_tendsto h).add_const b
  rw [zero_add] at h2
  exact ge_of_tendsto h2 (Filter.eventually_atTop.2 ⟨k, h1⟩)

theorem opLe_exp {A F : MultiVector ℝ} {c : ℝ} (hc : 0 ≤ c) (hA : OpLe A c) (h : IsExp A F) :
    OpLe F (Real.exp c) := by
  intro X
  have ht := psum_tendsto h
  have h2 := (ht.mul_const (√2 * length .mv X)).add_const (Real.exp c * length .mv X)
  rw [zero_mul, zero_add] at h2
  constructor
  · refine ge_of_tendsto' h2 fun n => ?_
    have e : F * X = psum A n * X - (psum A n - F) * X := by rw [sub_mul]; abel
    rw [e]
    refine (length_sub_le _ _).trans ?_
    have h3 := (opLe_psum hc hA n X).1
    have h4 := length_mul_le (psum A n - F) X
    linarith
  · refine ge_of_tendsto' h2 fun n => ?_
    have e : X * F = X * psum A n - X * (psum A n - F) := by rw [mul_sub]; abel
    rw [e]
    refine (length_sub_le _ _).trans ?_
    have h3 := (opLe_psum hc hA n X).2
    have h4 := length_mul_le X (psum A n - F)
    linarith

/-- The square of an exponential is the exponential of the double. -/
theorem isExp_double {A F : MultiVector ℝ} (h : IsExp A F) : IsExp (A + A) (F * F) := by
  obtain ⟨z, hz⟩ : ∃ z : ℂ, z * z = disc A := by
    obtain ⟨z, hz⟩ := IsAlgClosed.exists_pow_nat_eq (disc A) (n := 2) (by norm_num)
    exact ⟨z, by rw [← hz, pow_two]⟩
  have hF := isExp_unique' h (C47_series A z hz)
  have hd : (2 * z) * (2 * z) = disc (A + A) := by
    have : disc (A + A) = 4 * disc A := by
      apply Complex.ext <;> simp only [disc, engabra, Complex.mul_re, Complex.mul_im, Complex.re_ofNat,
        Complex.im_ofNat] <;> ring
    rw [this, ← hz]; ring
  have h2 := C47_series (A + A) (2 * z) hd
  have hst : st (A + A) = st A + st A := by
    apply Complex.ext <;> simp only [st, engabra, Complex.add_re, Complex.add_im]
  have hvb : vb (A + A) = cx 2 * vb A := by
    ext <;> simp [vb, cx, engabra] <;> ring
  rw [hst, Complex.exp_add, hvb] at h2
  convert h2 using 1
  rw [hF]
  set g : ℂ := if z = 0 then 1 else Complex.sinh z / z with hg
  set g2 : ℂ := if 2 * z = 0 then 1 else Complex.sinh (2 * z) / (2 * z) with hg2
  have e1 : Complex.cosh (2 * z) = Complex.cosh z * Complex.cosh z + g * g * (z * z) := by
    rw [Complex.cosh_two_mul, hg]
    by_cases h0 : z = 0
    · rw [h0]; simp
    · rw [if_neg h0]; field_simp
  have e2 : g2 * 2 = 2 * (Complex.cosh z * g) := by
    rw [hg2, hg]
    by_cases h0 : z = 0
    · rw [h0]; simp
    · rw [if_neg h0, if_neg (mul_ne_zero two_ne_zero h0), Complex.sinh_two_mul]; field_simp
  have e3 : ∀ (w c g : ℂ) (V : MultiVector ℝ), V * V = cx (z * z) →
      cx w * (cx c + cx g * V) * (cx w * (cx c + cx g * V))
        = cx (w * w) * (cx (c * c + g * g * (z * z)) + cx (2 * (c * g)) * V) := by
    intro w c g V hV
    have e4 : (cx c + cx g * V) * (cx c + cx g * V) = cx (c * c + g * g * (z * z)) + cx (2 * (c * g)) * V := by
      have : cx g * V * (cx g * V) = cx (g * g * (z * z)) := by
        rw [mul_assoc, ← mul_assoc V, cx_comm, mul_assoc (cx g) V V, hV, ← cx_mul, ← cx_mul]; congr 1; ring
      rw [add_mul, mul_add, mul_add, this, ← cx_mul, mul_assoc (cx g) V, cx_comm c V, ← mul_assoc, ← mul_assoc,
        ← cx_mul, ← cx_mul, cx_add, two_mul, cx_add, add_mul, mul_comm g c]
      abel
    rw [mul_assoc, ← mul_assoc _ (cx w), cx_comm, mul_assoc, e4, ← mul_assoc, ← cx_mul]
  rw [e3 _ _ _ _ (by rw [vb_sq, hz]), e1, ← e2, cx_mul g2, mul_assoc (cx g2)]

end Engabra
