import Verif.Props.C27_Reject
import Verif.Props.C34_Direction

/-! # Rounding errors of the sums of squares and of the quotient in `nearlyEquals`

Helper lemmas for `C27_Range`. -/

namespace Engabra
open F64 (nan inf zero fin IsFin Finite HasVal)

namespace F64

theorem rep_sub_small {v w : ℚ} (hv : Rep v) (hw : Rep w) (h : |v - w| < (2 : ℚ) ^ (-1022 : ℤ)) :
    Rep (v - w) := by
  obtain ⟨m, e, -, he, rfl⟩ := hv
  obtain ⟨n, f, -, hf, rfl⟩ := hw
  have key : ∀ (m e : ℤ), -1074 ≤ e → ∃ k : ℤ, (m : ℚ) * (2 : ℚ) ^ e = k * (2 : ℚ) ^ (-1074 : ℤ) := by
    intro m e he
    refine ⟨m * 2 ^ (e + 1074).toNat, ?_⟩
    push_cast
    rw [mul_assoc, ← zpow_natCast, ← zpow_add₀ (by norm_num)]
    congr 2
    omega
  obtain ⟨j, hj⟩ := key m e he
  obtain ⟨k, hk⟩ := key n f hf
  rw [hj, hk, ← sub_mul] at h ⊢
  refine ⟨j - k, -1074, ?_, le_rfl, by push_cast; ring⟩
  rw [abs_mul, abs_of_pos (two_zpow_pos (K := ℚ) (-1074)),
    show (-1022 : ℤ) = 52 + -1074 by norm_num, zpow_add₀ (by norm_num)] at h
  have h2 := lt_of_mul_lt_mul_right h (two_zpow_pos (K := ℚ) (-1074)).le
  have h3 : |j - k| < 2 ^ 52 := by
    have h4 : ((|j - k| : ℤ) : ℚ) < ((4503599627370496 : ℤ) : ℚ) := by
      rw [Int.cast_abs, Int.cast_sub]
      refine h2.trans_le ?_
      norm_num
    exact (Int.cast_lt.1 h4).trans_le (by norm_num)
  exact h3.le.trans (by norm_num)

/-- The rounding error of a difference of two numbers is relative, also in the subnormal range. -/
theorem sub_rel {x y : F64} (h : (x - y).Finite) :
    |(x - y).value - (x.value - y.value)| ≤ 2 ^ (-53 : ℤ) * |x.value - y.value| := by
  rw [sub_value h]
  by_cases hb : |x.value - y.value| < (2 : ℚ) ^ (-1022 : ℤ)
  · rw [rnVal_exact (rep_sub_small value_rep value_rep hb), sub_self, abs_zero]
    exact mul_nonneg (two_zpow_pos _).le (abs_nonneg _)
  · exact_mod_cast rn_rel (K := ℚ) (not_lt.1 hb)

theorem sub_spec' {x y : F64} (hx : x.Finite) (hy : y.Finite)
    (h : |rnVal (x.value - y.value)| < 2 ^ 1024) : (x - y).Finite := by
  refine (add_spec (y := neg y) hx (neg_finite hy) ?_).1
  rw [neg_value, ← sub_eq_add_neg]
  exact h

theorem rep_pos_le {v : ℚ} (hv : Rep v) (h : 0 < v) : (2 : ℚ) ^ (-1074 : ℤ) ≤ v := by
  obtain ⟨m, e, -, he, rfl⟩ := hv
  have hm : (1 : ℤ) ≤ m := by
    have h1 : (0 : ℚ) < m := pos_of_mul_pos_left h (two_zpow_pos _).le
    exact Int.add_one_le_iff.2 (by exact_mod_cast h1)
  calc (2 : ℚ) ^ (-1074 : ℤ) ≤ 2 ^ e := zpow_le_zpow_right₀ (by norm_num) he
    _ = 1 * 2 ^ e := (one_mul _).symm
    _ ≤ m * 2 ^ e := mul_le_mul_of_nonneg_right (by exact_mod_cast hm) (two_zpow_pos _).le

/-- The square root of a finite non-negative double. -/
theorem sqrt_est {q : F64} (hq : q.Finite) (h0 : 0 ≤ q.value) :
    (Dbl.sqrt q).Finite ∧ 0 ≤ (Dbl.sqrt q).value ∧
      |((Dbl.sqrt q).value : ℝ) - √(q.value : ℝ)| ≤ uR * √(q.value : ℝ) := by
  rcases h0.eq_or_lt with h | h
  · have e : ∃ s, q = zero s := by
      cases q with
      | nan => exact absurd hq id
      | inf _ => exact absurd hq id
      | zero s => exact ⟨s, rfl⟩
      | fin v hv => exact absurd h.symm hv.1
    obtain ⟨s, rfl⟩ := e
    refine ⟨trivial, le_rfl, ?_⟩
    change |((0 : ℚ) : ℝ) - √((0 : ℚ) : ℝ)| ≤ uR * √((0 : ℚ) : ℝ)
    simp
  · have hr : (0 : ℝ) < (q.value : ℝ) := by exact_mod_cast h
    have hlo : (2 : ℝ) ^ (-1074 : ℤ) ≤ (q.value : ℝ) := by
      rw [← cast_zpow]; exact Rat.cast_le.2 (rep_pos_le value_rep h)
    have hup : (q.value : ℝ) ≤ (2 : ℝ) ^ (1024 : ℤ) := by
      rw [← cast_zpow]
      refine Rat.cast_le.2 ?_
      have := value_lt (x := q)
      rw [abs_of_pos h, ← zpow_natCast] at this
      exact this.le
    have hs1 : (2 : ℝ) ^ (-537 : ℤ) ≤ √(q.value : ℝ) := by
      apply Real.le_sqrt_of_sq_le
      rw [pow_two, ← zpow_add₀ (by norm_num)]
      exact (le_of_eq (by norm_num only)).trans hlo
    have hs2 : √(q.value : ℝ) ≤ (2 : ℝ) ^ (512 : ℤ) := by
      apply Real.sqrt_le_iff.2 ⟨(two_zpow_pos _).le, ?_⟩
      rw [pow_two, ← zpow_add₀ (by norm_num)]
      exact hup.trans (le_of_eq (by norm_num only))
    obtain ⟨h1, h2⟩ := sqrt_spec hq h (hs2.trans (by
      rw [← zpow_natCast]; exact zpow_le_zpow_right₀ (by norm_num) (by norm_num)))
    refine ⟨h1, h2 ▸ rnVal_nonneg (Real.sqrt_nonneg _), ?_⟩
    have h3 := rn_rel (K := ℝ) (x := √(q.value : ℝ)) (by
      rw [abs_of_nonneg (Real.sqrt_nonneg _)]
      exact (zpow_le_zpow_right₀ (by norm_num) (by norm_num)).trans hs1)
    rw [abs_of_nonneg (Real.sqrt_nonneg _), ← h2] at h3
    exact h3

end F64

theorem pow_est (m : ℕ) (hm : m ≤ 2000) : (1 + uR) ^ m ≤ 1 + 101 / 100 * m * uR := by
  induction m with
  | zero => simp
  | succ m ih =>
    have h1 := ih (by omega)
    have hu := uR_nonneg
    have hm' : (m : ℝ) ≤ 2000 := by exact_mod_cast (by omega : m ≤ 2000)
    have hus : uR ≤ 1 / 1000000000 := by unfold uR; norm_num
    rw [pow_succ]
    push_cast
    have h0 : 0 ≤ (m : ℝ) := Nat.cast_nonneg m
    generalize uR = u at *
    have h2 := mul_le_mul_of_nonneg_right h1 (by linarith : (0:ℝ) ≤ 1 + u)
    have h3 : (m : ℝ) * u ≤ 2000 * (1 / 1000000000) := mul_le_mul hm' hus hu (by norm_num)
    have h4 : (m : ℝ) * u * u ≤ 2000 * (1 / 1000000000) * u := mul_le_mul_of_nonneg_right h3 hu
    linarith

/-- What the accumulation loops compute, against exact terms `e`. -/
theorem innerProduct_est (cs : List F64) (es : List ℝ) (a : F64) (s : ℝ) (k : ℕ)
    (hc : List.Forall₂ (fun (c : F64) (e : ℝ) => c.Finite ∧ |(c.value : ℝ) - e| ≤ uR * |e| ∧
      |e| ≤ 2 ^ (501 : ℤ)) cs es)
    (hk : k + cs.length ≤ 1000) (ha : a.Finite) (hs0 : 0 ≤ s) (hsb : s ≤ k * 2 ^ (1002 : ℤ))
    (hs : |(a.value : ℝ) - s| ≤ ((1 + uR) ^ (k + 3) - 1) * s + 3 * k * 2 ^ (-1075 : ℤ)) :
    (innerProduct a cs).Finite ∧
    |((innerProduct a cs).value : ℝ) - (s + (es.map fun e => e * e).sum)|
      ≤ ((1 + uR) ^ (k + cs.length + 3) - 1) * (s + (es.map fun e => e * e).sum)
        + 3 * (k + cs.length) * 2 ^ (-1075 : ℤ) := by
  induction hc generalizing a s k with
  | nil =>
    refine ⟨ha, ?_⟩
    simpa [innerProduct] using hs
  | @cons c e cs es h hrest ih =>
    obtain ⟨hcf, hce, heb⟩ := h
    simp only [List.length_cons] at hk
    have hu0 := uR_nonneg
    have hus := uR_small
    have hkr : (k : ℝ) ≤ 1000 := by exact_mod_cast (by omega : k ≤ 1000)
    have hk0 : (0 : ℝ) ≤ k := Nat.cast_nonneg k
    -- size of the term
    have he2 : e * e ≤ 2 ^ (1002 : ℤ) := by
      rw [← abs_mul_abs_self, show (1002 : ℤ) = 501 + 501 by norm_num, zpow_add₀ (by norm_num)]
      exact mul_le_mul heb heb (abs_nonneg _) (F64.two_zpow_pos _).le
    have he0 : 0 ≤ e * e := mul_self_nonneg e
    -- the square of the rounded term
    have hca : |(c.value : ℝ)| ≤ (1 + uR) * |e| := by
      have := abs_sub_abs_le_abs_sub (c.value : ℝ) e
      linarith
    have hcc : (c.value : ℝ) * c.value ≤ (1 + uR) ^ 2 * (e * e) := by
      rw [← abs_mul_abs_self, ← abs_mul_abs_self e]
      calc _ ≤ ((1 + uR) * |e|) * ((1 + uR) * |e|) :=
            mul_le_mul hca hca (abs_nonneg _) (by positivity)
        _ = _ := by ring
    have hd2 : |(c.value : ℝ) * c.value - e * e| ≤ ((1 + uR) ^ 2 - 1) * (e * e) := by
      rw [show (c.value : ℝ) * c.value - e * e = (c.value - e) * (c.value + e) by ring, abs_mul]
      have h1 : |(c.value : ℝ) + e| ≤ (2 + uR) * |e| := (abs_add_le _ _).trans (by linarith)
      calc _ ≤ (uR * |e|) * ((2 + uR) * |e|) :=
            mul_le_mul hce h1 (abs_nonneg _) (mul_nonneg hu0 (abs_nonneg _))
        _ = ((1 + uR) ^ 2 - 1) * (|e| * |e|) := by ring
        _ = _ := by rw [abs_mul_abs_self]
    have hbig : ∀ z : ℝ, z ≤ 4096 * 2 ^ (1002 : ℤ) → z ≤ ((F64.safe : ℚ) : ℝ) := fun z hz =>
      hz.trans (by
        push_cast [F64.safe]
        rw [← zpow_natCast, show (4096 : ℝ) = 2 ^ (12 : ℤ) by norm_num,
          ← zpow_add₀ (by norm_num)]
        exact zpow_le_zpow_right₀ (by norm_num) (by norm_num))
    have hPpos : (1 : ℝ) ≤ (2 : ℝ) ^ (1002 : ℤ) := one_le_zpow₀ (by norm_num) (by norm_num)
    have hη0 : (0 : ℝ) ≤ 2 ^ (-1075 : ℤ) := (F64.two_zpow_pos _).le
    have hη1 : (2 : ℝ) ^ (-1075 : ℤ) ≤ 1 / 1000000 :=
      (zpow_le_zpow_right₀ (by norm_num) (by norm_num : (-1075 : ℤ) ≤ -20)).trans (by norm_num)
    have hcv : |c.value * c.value| ≤ 2 * F64.safe := by
      have h1 : ((c.value * c.value : ℚ) : ℝ) ≤ ((F64.safe : ℚ) : ℝ) := by
        push_cast
        refine hbig _ (hcc.trans ?_)
        have h3 : (1 + uR) ^ 2 ≤ (1 + 1 / 1000) ^ 2 :=
          pow_le_pow_left₀ (by linarith) (by linarith) 2
        have h4 := mul_le_mul h3 he2 he0 (by norm_num)
        refine h4.trans ?_
        clear h4 h3 hcc hd2 hs heb ih hbig
        generalize (2 : ℝ) ^ (1002 : ℤ) = P at *
        linarith
      have h2 := Rat.cast_le.1 h1
      rw [abs_mul_self]
      linarith [F64.one_le_safe]
    have hpf : (c * c).Finite ∧ (c * c).value = F64.rnVal (c.value * c.value) :=
      F64.mul_spec hcf hcf (F64.safe_lt hcv)
    have hp : |((c * c).value : ℝ) - e * e| ≤ ((1 + uR) ^ 3 - 1) * (e * e) + 2 ^ (-1075 : ℤ) := by
      have h6 := (Rat.cast_le (K := ℝ)).2 (F64.rn_err (c.value * c.value))
      rw [← hpf.2] at h6
      rw [Rat.cast_abs, Rat.cast_sub, Rat.cast_add, Rat.cast_mul, Rat.cast_mul, cast_zpow,
        cast_zpow, Rat.cast_abs, Rat.cast_mul, abs_mul_self] at h6
      have h7 := abs_sub_le ((c * c).value : ℝ) (c.value * c.value) (e * e)
      have h8 := mul_le_mul_of_nonneg_left hcc hu0
      have : ((1 + uR) ^ 3 - 1) * (e * e) = ((1 + uR) ^ 2 - 1) * (e * e)
        + uR * ((1 + uR) ^ 2 * (e * e)) := by ring
      rw [this]
      change _ ≤ uR * _ + _ at h6
      linarith
    -- the sum
    have hpe := pow_est (k + 3) (by omega)
    have hB1 : (1 + uR) ^ (k + 3) - 1 ≤ 1 / 100 := by
      have hus : uR ≤ 1 / 1000000000 := by unfold uR; norm_num
      push_cast at hpe
      nlinarith
    have hB3 : (1 + uR) ^ 3 ≤ (1 + uR) ^ (k + 3) :=
      pow_le_pow_right₀ (by linarith) (by omega)
    have hB0 : 0 ≤ (1 + uR) ^ (k + 3) - 1 := by
      have := one_le_pow₀ (by linarith : (1 : ℝ) ≤ 1 + uR) (n := k + 3)
      linarith
    generalize hBdef : (1 + uR) ^ (k + 3) - 1 = B at *
    have hp' : |((c * c).value : ℝ) - e * e| ≤ B * (e * e) + 2 ^ (-1075 : ℤ) := by
      refine hp.trans (add_le_add (mul_le_mul_of_nonneg_right ?_ he0) le_rfl)
      linarith
    have hsum : |((a.value : ℝ) + (c * c).value) - (s + e * e)|
        ≤ B * (s + e * e) + (3 * k + 1) * 2 ^ (-1075 : ℤ) := by
      rw [show ((a.value : ℝ) + (c * c).value) - (s + e * e)
        = (a.value - s) + ((c * c).value - e * e) by ring]
      refine (abs_add_le _ _).trans ?_
      linarith
    have hsumb : |((a.value : ℝ) + (c * c).value)| ≤ (1 + B) * (s + e * e)
        + (3 * k + 1) * 2 ^ (-1075 : ℤ) := by
      have := abs_sub_abs_le_abs_sub ((a.value : ℝ) + (c * c).value) (s + e * e)
      rw [abs_of_nonneg (by linarith : 0 ≤ s + e * e)] at this
      linarith
    have hse : s + e * e ≤ (k + 1) * 2 ^ (1002 : ℤ) := by linarith
    have hkη : (3 * (k : ℝ) + 1) * 2 ^ (-1075 : ℤ) ≤ 1 := by nlinarith
    have hav : |a.value + (c * c).value| ≤ 2 * F64.safe := by
      have h1 : ((|a.value + (c * c).value| : ℚ) : ℝ) ≤ ((F64.safe : ℚ) : ℝ) := by
        push_cast
        refine hbig _ (hsumb.trans ?_)
        have h2 : (1 + B) * (s + e * e) ≤ 2 * ((k + 1) * 2 ^ (1002 : ℤ)) :=
          mul_le_mul (by linarith) hse (by linarith) (by norm_num)
        have h3 : (k + 1) * (2 : ℝ) ^ (1002 : ℤ) ≤ 1001 * 2 ^ (1002 : ℤ) :=
          mul_le_mul_of_nonneg_right (by linarith) (F64.two_zpow_pos _).le
        refine (add_le_add h2 hkη).trans ?_
        clear h2 hsumb hsum hp' hp hs hpe hcc hd2 heb ih hbig
        generalize (2 : ℝ) ^ (1002 : ℤ) = P at *
        linarith
      have h2 := Rat.cast_le.1 h1
      linarith [F64.one_le_safe]
    have hsf : (a + c * c).Finite ∧ (a + c * c).value = F64.rnVal (a.value + (c * c).value) :=
      F64.add_spec ha hpf.1 (F64.safe_lt hav)
    have hnew : |((a + c * c).value : ℝ) - (s + e * e)|
        ≤ ((1 + uR) ^ (k + 1 + 3) - 1) * (s + e * e) + 3 * ((k + 1 : ℕ) : ℝ) * 2 ^ (-1075 : ℤ) := by
      have h6 := (Rat.cast_le (K := ℝ)).2 (F64.rn_err (a.value + (c * c).value))
      rw [← hsf.2] at h6
      rw [Rat.cast_abs, Rat.cast_sub, Rat.cast_add, Rat.cast_add, Rat.cast_mul, cast_zpow,
        cast_zpow, Rat.cast_abs, Rat.cast_add] at h6
      change _ ≤ uR * _ + _ at h6
      have h7 := abs_sub_le ((a + c * c).value : ℝ) (a.value + (c * c).value) (s + e * e)
      have h8 := mul_le_mul_of_nonneg_left hsumb hu0
      have e1 : (1 + uR) ^ (k + 1 + 3) = (1 + B) * (1 + uR) := by
        rw [← hBdef]; ring
      rw [e1]
      push_cast
      have hus' : uR * (3 * k + 1) ≤ 1 := by
        have hus : uR ≤ 1 / 1000000000 := by unfold uR; norm_num
        calc uR * (3 * k + 1) ≤ 1 / 1000000000 * (3 * 1000 + 1) :=
              mul_le_mul hus (by linarith) (by positivity) (by norm_num)
          _ ≤ 1 := by norm_num
      have h9 := mul_le_mul_of_nonneg_right hus' hη0
      generalize uR = u at *
      generalize (2 : ℝ) ^ (-1075 : ℤ) = η at *
      nlinarith
    have := ih (a + c * c) (s + e * e) (k + 1) (by omega) hsf.1 (by linarith) (by push_cast; exact hse) hnew
    simp only [innerProduct, List.map_cons, List.sum_cons, List.length_cons]
    refine ⟨this.1, ?_⟩
    have h2 := this.2
    rw [show k + 1 + cs.length + 3 = k + (cs.length + 1) + 3 by omega, add_assoc s] at h2
    push_cast at h2 ⊢
    rw [show (k : ℝ) + (cs.length + 1) = k + 1 + cs.length by ring]
    exact h2


theorem difLoop_eq {α : Type} [Dbl α] (a : α) (xs ys : List α) :
    difLoop a xs ys = innerProduct a (List.zipWith (· - ·) xs ys) := by
  induction xs generalizing a ys with
  | nil => rfl
  | cons x xs ih =>
    cases ys with
    | nil => rfl
    | cons y ys => exact ih _ ys

section
variable {D R Dh Rh T a b u β : ℝ}

theorem accept_arith (hu : 0 ≤ u) (hb0 : 0 < b) (hub : 8 * u ≤ b) (hb : b ≤ 1 / 1000)
    (ha0 : 0 ≤ a) (ha : a ≤ 505 / 1000 * b) (hD : |Dh - D| ≤ a * D + β) (hR : |Rh - R| ≤ a * R + β)
    (hR0 : 0 < R) (hT : 0 < T) (hβ1 : β ≤ 1 / 100 * u * R) (hβ2 : β ≤ 1 / 100 * u * (T * T * R))
    (h : D ≤ (T * T) * ((1 - b) * (1 - b)) * R) :
    0 < Rh ∧ Dh * (1 + 4 * u) < T * T * (1 - u) * Rh := by
  have h1 := (abs_le.1 hD).2
  have h2 := (abs_le.1 hR).1
  have hRh : (1 - 51 / 100 * b) * R ≤ Rh := by nlinarith
  have hRp : 0 < Rh := lt_of_lt_of_le (mul_pos (by linarith) hR0) hRh
  refine ⟨hRp, ?_⟩
  have hTR : 0 < T * T * R := by positivity
  have hDh : Dh ≤ (T * T * R) * ((1 + 505 / 1000 * b) * ((1 - b) * (1 - b)) + 1 / 800 * b) := by
    have h3 : (1 + a) * D ≤ (1 + 505 / 1000 * b) * ((T * T) * ((1 - b) * (1 - b)) * R) := by
      refine (mul_le_mul_of_nonneg_left h (by linarith)).trans
        (mul_le_mul_of_nonneg_right (by linarith) ?_)
      have : 0 ≤ (1 - b) * (1 - b) := mul_self_nonneg _
      positivity
    have h4 : 1 / 100 * u * (T * T * R) ≤ 1 / 800 * b * (T * T * R) :=
      mul_le_mul_of_nonneg_right (by linarith) hTR.le
    nlinarith
  have h5 : (1 + 505 / 1000 * b) * ((1 - b) * (1 - b)) + 1 / 800 * b ≤ 1 - 149 / 100 * b := by
    nlinarith [mul_pos hb0 hb0, mul_pos hb0 (mul_pos hb0 hb0)]
  have h6 : Dh ≤ (T * T * R) * (1 - 149 / 100 * b) :=
    hDh.trans (mul_le_mul_of_nonneg_left h5 hTR.le)
  calc Dh * (1 + 4 * u) ≤ (T * T * R) * (1 - 149 / 100 * b) * (1 + 4 * u) :=
        mul_le_mul_of_nonneg_right h6 (by linarith)
    _ ≤ (T * T * R) * (1 - 149 / 100 * b) * (1 + 1 / 2 * b) :=
        mul_le_mul_of_nonneg_left (by linarith) (mul_nonneg hTR.le (by linarith))
    _ < (T * T * R) * ((1 - 1 / 8 * b) * (1 - 51 / 100 * b)) := by
        rw [mul_assoc]
        refine mul_lt_mul_of_pos_left ?_ hTR
        nlinarith [mul_pos hb0 hb0]
    _ = (T * T) * (1 - 1 / 8 * b) * ((1 - 51 / 100 * b) * R) := by ring
    _ ≤ (T * T) * (1 - u) * ((1 - 51 / 100 * b) * R) := by
        refine mul_le_mul_of_nonneg_right (mul_le_mul_of_nonneg_left (by linarith)
          (mul_self_nonneg _)) (mul_nonneg (by linarith) hR0.le)
    _ ≤ T * T * (1 - u) * Rh :=
        mul_le_mul_of_nonneg_left hRh (mul_nonneg (mul_self_nonneg _) (by linarith))

theorem accepted_arith (hu : 0 ≤ u) (hb0 : 0 < b) (hub : 8 * u ≤ b) (hb : b ≤ 1 / 1000)
    (ha : a ≤ 505 / 1000 * b) (hD0 : 0 ≤ D) (hD : |Dh - D| ≤ a * D + β)
    (hR : |Rh - R| ≤ a * R + β) (hR0 : 0 < R) (hT : 0 < T) (hβ1 : β ≤ 1 / 100 * u * R)
    (hβ2 : β ≤ 1 / 100 * u * (T * T * R)) (h : Dh ≤ T * T * (1 + 4 * u) * Rh) :
    D ≤ (T * T) * ((1 + b) * (1 + b)) * R := by
  have h1 := (abs_le.1 hD).1
  have h2 := (abs_le.1 hR).2
  have hRh : Rh ≤ (1 + 51 / 100 * b) * R := by nlinarith
  have hTR : 0 < T * T * R := by positivity
  have h4 : 1 / 100 * u * (T * T * R) ≤ 1 / 800 * b * (T * T * R) :=
    mul_le_mul_of_nonneg_right (by linarith) hTR.le
  have h5 : Dh ≤ (T * T * R) * ((1 + 1 / 2 * b) * (1 + 51 / 100 * b)) := by
    refine h.trans ?_
    calc T * T * (1 + 4 * u) * Rh ≤ T * T * (1 + 4 * u) * ((1 + 51 / 100 * b) * R) :=
          mul_le_mul_of_nonneg_left hRh (mul_nonneg (mul_self_nonneg _) (by linarith))
      _ ≤ T * T * (1 + 1 / 2 * b) * ((1 + 51 / 100 * b) * R) :=
          mul_le_mul_of_nonneg_right (mul_le_mul_of_nonneg_left (by linarith) (mul_self_nonneg _))
            (mul_nonneg (by linarith) hR0.le)
      _ = _ := by ring
  have h6 : D * (1 - 505 / 1000 * b) ≤
      (T * T * R) * ((1 + 1 / 2 * b) * (1 + 51 / 100 * b) + 1 / 800 * b) := by
    have : a * D ≤ 505 / 1000 * b * D := mul_le_mul_of_nonneg_right ha hD0
    nlinarith
  have h7 : (1 + 1 / 2 * b) * (1 + 51 / 100 * b) + 1 / 800 * b
      ≤ (1 + b) * (1 + b) * (1 - 505 / 1000 * b) := by
    nlinarith [mul_pos hb0 hb0, mul_pos hb0 (mul_pos hb0 hb0)]
  have h8 := h6.trans (mul_le_mul_of_nonneg_left h7 hTR.le)
  have h9 : D * (1 - 505 / 1000 * b) ≤
      ((T * T) * ((1 + b) * (1 + b)) * R) * (1 - 505 / 1000 * b) := h8.trans_eq (by ring)
  exact le_of_mul_le_mul_right h9 (by linarith)
end

/-- The values of a list of doubles. -/
noncomputable def vals (xs : List F64) : List ℝ := xs.map fun c => (c.value : ℝ)

/-- Valid and of magnitude at most `2^500`. -/
def Mid (xs : List F64) : Prop := ∀ c ∈ xs, isValidDub c = true ∧ |c.value| ≤ 2 ^ (500 : ℤ)

theorem forall2_self (ys : List F64) (h : Mid ys) :
    List.Forall₂ (fun (c : F64) (e : ℝ) => c.Finite ∧ |(c.value : ℝ) - e| ≤ uR * |e| ∧
      |e| ≤ 2 ^ (501 : ℤ)) ys (vals ys) := by
  induction ys with
  | nil => exact .nil
  | cons y ys ih =>
    refine .cons ⟨F64.valid_finite (h y (by simp)).1, ?_, ?_⟩ (ih fun c hc => h c (by simp [hc]))
    · rw [sub_self, abs_zero]; exact mul_nonneg uR_nonneg (abs_nonneg _)
    · have h1 := (Rat.cast_le (K := ℝ)).2 (h y (by simp)).2
      rw [Rat.cast_abs, cast_zpow] at h1
      exact h1.trans (zpow_le_zpow_right₀ (by norm_num) (by norm_num))

theorem forall2_sub (xs ys : List F64) (hx : Mid xs) (hy : Mid ys) :
    List.Forall₂ (fun (c : F64) (e : ℝ) => c.Finite ∧ |(c.value : ℝ) - e| ≤ uR * |e| ∧
      |e| ≤ 2 ^ (501 : ℤ)) (List.zipWith (· - ·) xs ys)
        (List.zipWith (· - ·) (vals xs) (vals ys)) := by
  induction xs generalizing ys with
  | nil => exact .nil
  | cons x xs ih =>
    cases ys with
    | nil => exact .nil
    | cons y ys =>
      have hx1 := hx x (by simp)
      have hy1 := hy y (by simp)
      have hb : |x.value - y.value| ≤ 2 ^ (501 : ℤ) := by
        rw [show (501 : ℤ) = 1 + 500 from by norm_num only, zpow_add₀ (by norm_num), zpow_one]
        have h1 := hx1.2
        have h2 := hy1.2
        refine (abs_sub _ _).trans ?_
        generalize (2 : ℚ) ^ (500 : ℤ) = P at *
        linarith
      have hf : (x - y).Finite := (F64.sub_spec' (F64.valid_finite hx1.1) (F64.valid_finite hy1.1)
        (F64.safe_lt (hb.trans (by
          have h1 : (2 : ℚ) ^ (501 : ℤ) ≤ F64.safe := by
            unfold F64.safe
            rw [← zpow_natCast]; exact zpow_le_zpow_right₀ (by norm_num) (by norm_num)
          have h0 := F64.one_le_safe
          generalize (2 : ℚ) ^ (501 : ℤ) = P at *
          linarith))))
      refine .cons ⟨hf, ?_, ?_⟩
        (ih ys (fun c hc => hx c (by simp [hc])) fun c hc => hy c (by simp [hc]))
      · have h6 := (Rat.cast_le (K := ℝ)).2 (F64.sub_rel hf)
        rw [Rat.cast_abs, Rat.cast_sub, Rat.cast_mul, cast_zpow, Rat.cast_abs, Rat.cast_sub] at h6
        exact h6
      · have h6 := (Rat.cast_le (K := ℝ)).2 hb
        rw [Rat.cast_abs, cast_zpow, Rat.cast_sub] at h6
        exact h6

/-- The two sums of squares `nearlyEquals` computes. -/
theorem sqsum_est (cs : List F64) (es : List ℝ)
    (hc : List.Forall₂ (fun (c : F64) (e : ℝ) => c.Finite ∧ |(c.value : ℝ) - e| ≤ uR * |e| ∧
      |e| ≤ 2 ^ (501 : ℤ)) cs es) (n : ℕ) (hn : cs.length = n) (h : n ≤ 1000) :
    (innerProduct 0 cs).Finite ∧
    |((innerProduct 0 cs).value : ℝ) - (es.map fun e => e * e).sum|
      ≤ ((1 + uR) ^ (n + 3) - 1) * (es.map fun e => e * e).sum + 2 ^ (-1063 : ℤ) := by
  have h1 := innerProduct_est cs es 0 0 0 hc (by omega) trivial le_rfl (by simp)
    (by
      rw [show (0 : F64).value = 0 from rfl]; simp)
  refine ⟨h1.1, ?_⟩
  have h2 := h1.2
  rw [zero_add, hn] at h2
  rw [zero_add] at h2
  refine h2.trans (add_le_add le_rfl ?_)
  have hn' : (n : ℝ) ≤ 1000 := by exact_mod_cast h
  rw [show (-1063 : ℤ) = 12 + -1075 by norm_num, zpow_add₀ (by norm_num)]
  refine mul_le_mul_of_nonneg_right ?_ (F64.two_zpow_pos _).le
  push_cast
  norm_num
  linarith

theorem quotient_accepts {d r tol : F64} (hd : d.Finite) (hr : r.Finite) (ht : tol.Finite)
    (hd0 : 0 ≤ d.value) (hr0 : 0 < r.value) (ht1 : (2 : ℚ) ^ (-60 : ℤ) ≤ tol.value)
    (ht2 : tol.value ≤ 2 ^ (500 : ℤ))
    (h : (d.value : ℝ) * (1 + 4 * uR) < tol.value * tol.value * (1 - uR) * r.value) :
    isSmallAbs (Dbl.sqrt (d / r)) tol = true := by
  have hu0 := uR_nonneg
  have hus := uR_small
  have hT1 : (2 : ℝ) ^ (-60 : ℤ) ≤ (tol.value : ℝ) := by
    rw [← cast_zpow]; exact Rat.cast_le.2 ht1
  have hT0 : (0 : ℝ) < (tol.value : ℝ) := (F64.two_zpow_pos _).trans_le hT1
  have hr0' : (0 : ℝ) < (r.value : ℝ) := by exact_mod_cast hr0
  have hd0' : (0 : ℝ) ≤ (d.value : ℝ) := by exact_mod_cast hd0
  have hq0 : (0 : ℝ) ≤ d.value / r.value := div_nonneg hd0' hr0'.le
  have hq : (d.value / r.value : ℝ) * (1 + 4 * uR) < tol.value * tol.value * (1 - uR) := by
    rw [div_mul_eq_mul_div, div_lt_iff₀ hr0']; exact h
  have hqT : (d.value / r.value : ℝ) ≤ tol.value * tol.value := by
    have h1 : (d.value / r.value : ℝ) * 1 ≤ (d.value / r.value : ℝ) * (1 + 4 * uR) :=
      mul_le_mul_of_nonneg_left (by linarith) hq0
    have h2 : (tol.value * tol.value : ℝ) * (1 - uR) ≤ tol.value * tol.value * 1 :=
      mul_le_mul_of_nonneg_left (by linarith) (mul_self_nonneg _)
    linarith
  have hqq : |d.value / r.value| ≤ (2 : ℚ) ^ (1000 : ℤ) := by
    rw [abs_of_nonneg (div_nonneg hd0 hr0.le)]
    have h1 : d.value / r.value ≤ tol.value * tol.value := by exact_mod_cast hqT
    refine h1.trans ?_
    rw [show (1000 : ℤ) = 500 + 500 from by norm_num only, zpow_add₀ (by norm_num)]
    exact mul_le_mul ht2 ht2 ((F64.two_zpow_pos _).le.trans ht1) (F64.two_zpow_pos _).le
  obtain ⟨hf, hv⟩ := F64.div_spec hd hr hr0.ne' (F64.safe_lt (hqq.trans (by
    have h1 : (2 : ℚ) ^ (1000 : ℤ) ≤ F64.safe := by
      unfold F64.safe
      rw [← zpow_natCast]; exact zpow_le_zpow_right₀ (by norm_num) (by norm_num)
    have h0 := F64.one_le_safe
    generalize (2 : ℚ) ^ (1000 : ℤ) = P at *
    linarith)))
  have h6 := (Rat.cast_le (K := ℝ)).2 (F64.rn_err (d.value / r.value))
  have hvn : 0 ≤ (d / r).value := by rw [hv]; exact_mod_cast F64.rnVal_nonneg (div_nonneg hd0 hr0.le)
  rw [← hv, Rat.cast_abs, Rat.cast_sub, Rat.cast_add, Rat.cast_mul, cast_zpow,
    cast_zpow, Rat.cast_abs, Rat.cast_div, abs_of_nonneg hq0] at h6
  change _ ≤ uR * _ + _ at h6
  obtain ⟨hsf, hs0, hs⟩ := F64.sqrt_est hf hvn
  unfold isSmallAbs
  rw [F64.abs_lt_iff hsf ht, abs_of_nonneg hs0]
  have hη : 2 * (2 : ℝ) ^ (-1075 : ℤ) ≤ uR * (tol.value * tol.value) := by
    calc 2 * (2 : ℝ) ^ (-1075 : ℤ) = 2 ^ (-1074 : ℤ) := by
          rw [show (-1074 : ℤ) = 1 + -1075 from by norm_num only, zpow_add₀ (by norm_num), zpow_one]
      _ ≤ 2 ^ (-53 : ℤ) * (2 ^ (-60 : ℤ) * 2 ^ (-60 : ℤ)) := by
          rw [← zpow_add₀ (by norm_num), ← zpow_add₀ (by norm_num)]
          exact zpow_le_zpow_right₀ (by norm_num) (by norm_num)
      _ ≤ _ := mul_le_mul_of_nonneg_left
          (mul_le_mul hT1 hT1 (F64.two_zpow_pos _).le hT0.le) hu0
  have hvn' : (0 : ℝ) ≤ ((d / r).value : ℝ) := by exact_mod_cast hvn
  have hsq := Real.mul_self_sqrt hvn'
  have hsn := Real.sqrt_nonneg ((d / r).value : ℝ)
  have hs0' : (0 : ℝ) ≤ ((Dbl.sqrt (d / r)).value : ℝ) := by exact_mod_cast hs0
  have hη0 : (0 : ℝ) ≤ 2 ^ (-1075 : ℤ) := (F64.two_zpow_pos _).le
  suffices h9 : ((Dbl.sqrt (d / r)).value : ℝ) < tol.value by exact_mod_cast h9
  generalize ((Dbl.sqrt (d / r)).value : ℝ) = w at *
  generalize √((d / r).value : ℝ) = s at *
  generalize ((d / r).value : ℝ) = v at *
  generalize ((d.value : ℝ) / r.value) = q at *
  generalize (tol.value : ℝ) = T at *
  generalize (2 : ℝ) ^ (-1075 : ℤ) = η at *
  clear hT1 h
  generalize uR = u at *
  have hw : w ≤ s * (1 + u) := by have := (abs_le.1 hs).2; linarith
  have hvq : v ≤ q * (1 + u) + η := by have := (abs_le.1 h6).2; linarith
  refine lt_of_mul_self_lt_mul_self₀ hT0.le ?_
  calc w * w ≤ (s * (1 + u)) * (s * (1 + u)) := mul_le_mul hw hw hs0' (by positivity)
    _ = v * (1 + u) ^ 2 := by rw [← hsq]; ring
    _ ≤ (q * (1 + u) + η) * (1 + u) ^ 2 := mul_le_mul_of_nonneg_right hvq (by positivity)
    _ ≤ q * (1 + 4 * u) + 2 * η := by
        have h1 : (1 + u) ^ 2 ≤ 2 := by nlinarith
        have h2 : (1 + u) ^ 3 ≤ 1 + 4 * u := by nlinarith [mul_nonneg hu0 hu0]
        have h3 := mul_le_mul_of_nonneg_left h2 hq0
        have h4 := mul_le_mul_of_nonneg_left h1 hη0
        nlinarith
    _ < T * T := by nlinarith

theorem quotient_accepted {d r tol : F64} (hd : d.Finite) (hd0 : 0 ≤ d.value) (ht : tol.Finite)
    (hr0 : 0 < r.value) (ht1 : (2 : ℚ) ^ (-60 : ℤ) ≤ tol.value)
    (h : isSmallAbs (Dbl.sqrt (d / r)) tol = true) :
    (d.value : ℝ) ≤ tol.value * tol.value * (1 + 4 * uR) * r.value := by
  have hu0 := uR_nonneg
  have hus := uR_small
  have hT1 : (2 : ℝ) ^ (-60 : ℤ) ≤ (tol.value : ℝ) := by
    rw [← cast_zpow]; exact Rat.cast_le.2 ht1
  have hT0 : (0 : ℝ) < (tol.value : ℝ) := (F64.two_zpow_pos _).trans_le hT1
  have hr0' : (0 : ℝ) < (r.value : ℝ) := by exact_mod_cast hr0
  have hd0' : (0 : ℝ) ≤ (d.value : ℝ) := by exact_mod_cast hd0
  have hq0 : (0 : ℝ) ≤ d.value / r.value := div_nonneg hd0' hr0'.le
  have hsf := F64.lt_finite h ht
  have hf : (d / r).Finite := by
    cases hq : d / r with
    | nan => rw [hq] at hsf; exact absurd hsf id
    | inf s => rw [hq] at hsf; cases s <;> exact absurd hsf id
    | zero s => trivial
    | fin v hv => trivial
  have hv := F64.div_value hd hr0.ne' hf
  have hvn : 0 ≤ (d / r).value := by rw [hv]; exact_mod_cast F64.rnVal_nonneg (div_nonneg hd0 hr0.le)
  have h6 := (Rat.cast_le (K := ℝ)).2 (F64.rn_err (d.value / r.value))
  rw [← hv, Rat.cast_abs, Rat.cast_sub, Rat.cast_add, Rat.cast_mul, cast_zpow,
    cast_zpow, Rat.cast_abs, Rat.cast_div, abs_of_nonneg hq0] at h6
  change _ ≤ uR * _ + _ at h6
  obtain ⟨-, hs0, hs⟩ := F64.sqrt_est hf hvn
  unfold isSmallAbs at h
  rw [F64.abs_lt_iff hsf ht, abs_of_nonneg hs0] at h
  have h' : ((Dbl.sqrt (d / r)).value : ℝ) < tol.value := by exact_mod_cast h
  have hη : 2 * (2 : ℝ) ^ (-1075 : ℤ) ≤ 1 / 10 * uR * (tol.value * tol.value) := by
    calc 2 * (2 : ℝ) ^ (-1075 : ℤ) = 2 ^ (-1074 : ℤ) := by
          rw [show (-1074 : ℤ) = 1 + -1075 from by norm_num only, zpow_add₀ (by norm_num), zpow_one]
      _ ≤ 2 ^ (-4 : ℤ) * 2 ^ (-53 : ℤ) * (2 ^ (-60 : ℤ) * 2 ^ (-60 : ℤ)) := by
          rw [← zpow_add₀ (by norm_num), ← zpow_add₀ (by norm_num), ← zpow_add₀ (by norm_num)]
          exact zpow_le_zpow_right₀ (by norm_num) (by norm_num)
      _ ≤ 1 / 10 * uR * (2 ^ (-60 : ℤ) * 2 ^ (-60 : ℤ)) :=
          mul_le_mul_of_nonneg_right (mul_le_mul_of_nonneg_right (by norm_num) hu0)
            (mul_pos (F64.two_zpow_pos _) (F64.two_zpow_pos _)).le
      _ ≤ _ := mul_le_mul_of_nonneg_left
          (mul_le_mul hT1 hT1 (F64.two_zpow_pos _).le hT0.le) (by linarith)
  have hvn' : (0 : ℝ) ≤ ((d / r).value : ℝ) := by exact_mod_cast hvn
  have hsq := Real.mul_self_sqrt hvn'
  have hsn := Real.sqrt_nonneg ((d / r).value : ℝ)
  have hs0' : (0 : ℝ) ≤ ((Dbl.sqrt (d / r)).value : ℝ) := by exact_mod_cast hs0
  have hη0 : (0 : ℝ) ≤ 2 ^ (-1075 : ℤ) := (F64.two_zpow_pos _).le
  rw [← div_le_iff₀ hr0']
  generalize ((Dbl.sqrt (d / r)).value : ℝ) = w at *
  generalize √((d / r).value : ℝ) = s at *
  generalize ((d / r).value : ℝ) = v at *
  generalize ((d.value : ℝ) / r.value) = q at *
  generalize (tol.value : ℝ) = T at *
  generalize (2 : ℝ) ^ (-1075 : ℤ) = η at *
  clear hT1
  generalize uR = u at *
  have hw : s * (1 - u) ≤ w := by have := (abs_le.1 hs).1; linarith
  have hvq : q * (1 - u) ≤ v + η := by have := (abs_le.1 h6).1; linarith
  have h1 : v * (1 - u) ^ 2 ≤ T * T := by
    calc v * (1 - u) ^ 2 = (s * (1 - u)) * (s * (1 - u)) := by rw [← hsq]; ring
      _ ≤ T * T := mul_le_mul (hw.trans h'.le) (hw.trans h'.le)
          (mul_nonneg hsn (by linarith)) hT0.le
  have h2 : q * (1 - u) ^ 3 ≤ T * T + 2 * η := by
    calc q * (1 - u) ^ 3 = q * (1 - u) * (1 - u) ^ 2 := by ring
      _ ≤ (v + η) * (1 - u) ^ 2 := mul_le_mul_of_nonneg_right hvq (sq_nonneg _)
      _ = v * (1 - u) ^ 2 + η * (1 - u) ^ 2 := by ring
      _ ≤ T * T + 2 * η := by
          refine add_le_add h1 ?_
          have : (1 - u) ^ 2 ≤ 2 := by nlinarith
          nlinarith
  have h3 : q * (1 - u) ^ 3 ≤ T * T * (1 + 1 / 10 * u) := by linarith
  have h4 : 1 + 1 / 10 * u ≤ (1 + 4 * u) * (1 - u) ^ 3 := by
    have h5 : 1 - 3 * u ≤ (1 - u) ^ 3 := by nlinarith [mul_nonneg hu0 hu0]
    have h6 := mul_le_mul_of_nonneg_left h5 (by linarith : 0 ≤ 1 + 4 * u)
    nlinarith
  have h5 : 0 < (1 - u) ^ 3 := pow_pos (by linarith) 3
  refine le_of_mul_le_mul_right ?_ h5
  refine h3.trans ((mul_le_mul_of_nonneg_left h4 (mul_self_nonneg T)).trans_eq (by ring))

/-- Everything the two directions share. -/
theorem range_setup (xs ys : List F64) (tol : F64) (hlen : xs.length = ys.length)
    (hn : xs.length ≤ 1000) (hx : Mid xs) (hy : Mid ys)
    (ht1 : (2 : ℚ) ^ (-60 : ℤ) ≤ tol.value) (hbig : (2 : ℝ) ^ (-440 : ℤ) ≤ listNorm (vals ys)) :
    ∃ D R Dh Rh a b β : ℝ, D = listDist (vals xs) (vals ys) * listDist (vals xs) (vals ys) ∧
      R = listNorm (vals ys) * listNorm (vals ys) ∧ 0 ≤ D ∧ 0 < R ∧
      b = (2 * xs.length + 6) * uR ∧ 0 < b ∧ 8 * uR ≤ b ∧ b ≤ 1 / 1000 ∧ 0 ≤ a ∧
      a ≤ 505 / 1000 * b ∧ |Dh - D| ≤ a * D + β ∧ |Rh - R| ≤ a * R + β ∧
      β ≤ 1 / 100 * uR * R ∧ β ≤ 1 / 100 * uR * (tol.value * tol.value * R) ∧
      Dh = (difLoop 0 xs ys).value ∧ Rh = (innerProduct 0 ys).value ∧ (2 : ℝ) ^ (-881 : ℤ) ≤ Rh ∧
      (difLoop 0 xs ys).Finite ∧ (innerProduct 0 ys).Finite ∧ 0 ≤ (difLoop 0 xs ys).value ∧
      nearlyEqualsArr xs ys tol = .ok (isSmallAbs
        (Dbl.sqrt (difLoop 0 xs ys / innerProduct 0 ys)) tol) := by
  have hu0 := uR_nonneg
  have hup : 0 < uR := F64.two_zpow_pos _
  have hus : uR ≤ 1 / 10000000 := by unfold uR; norm_num
  have hN0 : 0 < listNorm (vals ys) := (F64.two_zpow_pos _).trans_le hbig
  -- the reference is not empty
  have hpos : 1 ≤ xs.length := by
    rcases ys with _ | ⟨y, ys⟩
    · simp [listNorm, vals] at hN0
    · rw [hlen]; simp
  have hn' : (xs.length : ℝ) ≤ 1000 := by exact_mod_cast hn
  have hp' : (1 : ℝ) ≤ xs.length := by exact_mod_cast hpos
  obtain ⟨hDf, hD⟩ := sqsum_est _ _ (forall2_sub xs ys hx hy) xs.length (by simp [← hlen]) hn
  obtain ⟨hRf, hR⟩ := sqsum_est _ _ (forall2_self ys hy) xs.length hlen.symm hn
  rw [← difLoop_eq] at hD hDf
  have eD : ((List.zipWith (· - ·) (vals xs) (vals ys)).map fun e => e * e).sum
      = listDist (vals xs) (vals ys) * listDist (vals xs) (vals ys) :=
    (Real.mul_self_sqrt (sum_sq_nonneg _)).symm
  have eR : ((vals ys).map fun e => e * e).sum = listNorm (vals ys) * listNorm (vals ys) :=
    (Real.mul_self_sqrt (sum_sq_nonneg _)).symm
  rw [eD] at hD
  rw [eR] at hR
  have hR1 : (2 : ℝ) ^ (-880 : ℤ) ≤ listNorm (vals ys) * listNorm (vals ys) := by
    rw [show (-880 : ℤ) = -440 + -440 from by norm_num only, zpow_add₀ (by norm_num)]
    exact mul_le_mul hbig hbig (F64.two_zpow_pos _).le hN0.le
  have hT1 : (2 : ℝ) ^ (-60 : ℤ) ≤ (tol.value : ℝ) := by
    rw [← cast_zpow]; exact Rat.cast_le.2 ht1
  have hT0 : (0 : ℝ) < (tol.value : ℝ) := (F64.two_zpow_pos _).trans_le hT1
  have hpe := pow_est (xs.length + 3) (by omega)
  have hp1 := one_le_pow₀ (by linarith : (1 : ℝ) ≤ 1 + uR) (n := xs.length + 3)
  have hβ1 : (2 : ℝ) ^ (-1063 : ℤ) ≤ 1 / 100 * uR * (listNorm (vals ys) * listNorm (vals ys)) := by
    calc (2 : ℝ) ^ (-1063 : ℤ) ≤ 2 ^ (-7 : ℤ) * 2 ^ (-53 : ℤ) * 2 ^ (-880 : ℤ) := by
          rw [← zpow_add₀ (by norm_num), ← zpow_add₀ (by norm_num)]
          exact zpow_le_zpow_right₀ (by norm_num) (by norm_num)
      _ ≤ 1 / 100 * uR * 2 ^ (-880 : ℤ) :=
          mul_le_mul_of_nonneg_right (mul_le_mul_of_nonneg_right (by norm_num) hu0)
            (F64.two_zpow_pos _).le
      _ ≤ _ := mul_le_mul_of_nonneg_left hR1 (by linarith)
  have hβ2 : (2 : ℝ) ^ (-1063 : ℤ)
      ≤ 1 / 100 * uR * (tol.value * tol.value * (listNorm (vals ys) * listNorm (vals ys))) := by
    calc (2 : ℝ) ^ (-1063 : ℤ)
        ≤ 2 ^ (-7 : ℤ) * 2 ^ (-53 : ℤ) * (2 ^ (-60 : ℤ) * 2 ^ (-60 : ℤ) * 2 ^ (-880 : ℤ)) := by
          rw [← zpow_add₀ (by norm_num), ← zpow_add₀ (by norm_num), ← zpow_add₀ (by norm_num),
            ← zpow_add₀ (by norm_num)]
          exact zpow_le_zpow_right₀ (by norm_num) (by norm_num)
      _ ≤ 1 / 100 * uR * (2 ^ (-60 : ℤ) * 2 ^ (-60 : ℤ) * 2 ^ (-880 : ℤ)) :=
          mul_le_mul_of_nonneg_right (mul_le_mul_of_nonneg_right (by norm_num) hu0)
            (mul_pos (mul_pos (F64.two_zpow_pos _) (F64.two_zpow_pos _)) (F64.two_zpow_pos _)).le
      _ ≤ _ := mul_le_mul_of_nonneg_left
          (mul_le_mul (mul_le_mul hT1 hT1 (F64.two_zpow_pos _).le hT0.le) hR1
            (F64.two_zpow_pos _).le (mul_self_nonneg _)) (by linarith)
  have ha : (1 + uR) ^ (xs.length + 3) - 1 ≤ 505 / 1000 * ((2 * xs.length + 6) * uR) := by
    push_cast at hpe
    linarith
  have hb : (2 * xs.length + 6) * uR ≤ 1 / 1000 := by
    calc (2 * (xs.length : ℝ) + 6) * uR ≤ (2 * 1000 + 6) * (1 / 10000000) :=
          mul_le_mul (by linarith) hus hu0 (by norm_num)
      _ ≤ 1 / 1000 := by norm_num
  have hb8 : 8 * uR ≤ (2 * xs.length + 6) * uR := mul_le_mul_of_nonneg_right (by linarith) hu0
  have hRlo : (2 : ℝ) ^ (-881 : ℤ) ≤ ((innerProduct 0 ys).value : ℝ) := by
    have h2 := (abs_le.1 hR).1
    have e : (2 : ℝ) ^ (-880 : ℤ) = 2 * (2 : ℝ) ^ (-881 : ℤ) := by
      rw [show (-880 : ℤ) = 1 + -881 from by norm_num only, zpow_add₀ (by norm_num), zpow_one]
    rw [e] at hR1
    have h3 : ((1 + uR) ^ (xs.length + 3) - 1) * (listNorm (vals ys) * listNorm (vals ys))
        ≤ 1 / 4 * (listNorm (vals ys) * listNorm (vals ys)) :=
      mul_le_mul_of_nonneg_right (by linarith) (mul_self_nonneg _)
    have h4 : 1 / 100 * uR * (listNorm (vals ys) * listNorm (vals ys))
        ≤ 1 / 4 * (listNorm (vals ys) * listNorm (vals ys)) :=
      mul_le_mul_of_nonneg_right (by linarith) (mul_self_nonneg _)
    generalize listNorm (vals ys) * listNorm (vals ys) = R at *
    generalize (2 : ℝ) ^ (-881 : ℤ) = p at *
    generalize (2 : ℝ) ^ (-1063 : ℤ) = β at *
    generalize ((1 + uR) ^ (xs.length + 3) - 1) * R = z at *
    generalize 1 / 100 * uR * R = z' at *
    linarith only [h2, h3, h4, hR1, hβ1]
  have hRq : 0 < (innerProduct 0 ys).value := by
    have := (F64.two_zpow_pos (K := ℝ) (-881)).trans_le hRlo
    exact_mod_cast this
  refine ⟨_, _, _, _, _, _, _, rfl, rfl, mul_self_nonneg _, mul_pos hN0 hN0, rfl, by linarith, hb8,
    hb, by linarith, ha, hD, hR, hβ1, hβ2, rfl, rfl, hRlo, hDf, hRf, ?_, ?_⟩
  · have hnn := F64.nn_innerProduct 0 (Or.inr (Or.inl rfl)) (List.zipWith (· - ·) xs ys) (by
      intro c hc
      have : ∀ (cs : List F64) (es : List ℝ), List.Forall₂ (fun (c : F64) (e : ℝ) => c.Finite ∧
          |(c.value : ℝ) - e| ≤ uR * |e| ∧ |e| ≤ 2 ^ (501 : ℤ)) cs es → ∀ c ∈ cs, c ≠ nan := by
        intro cs es h
        induction h with
        | nil => intro c hc; simp at hc
        | cons h _ ih =>
          intro c hc
          rcases List.mem_cons.1 hc with rfl | hc
          · exact F64.finite_ne_nan h.1
          · exact ih c hc
      exact this _ _ (forall2_sub xs ys hx hy) c hc)
    rw [← difLoop_eq] at hnn
    rcases hnn with h | h | ⟨v, hv, h, hv0⟩
    · rw [h]; exact le_rfl
    · rw [h]; exact le_rfl
    · rw [h]; exact hv0.le
  · obtain ⟨hsf, hs0, hs⟩ := F64.sqrt_est hRf hRq.le
    have hsq : (2 : ℝ) ^ (-441 : ℤ) ≤ √((innerProduct 0 ys).value : ℝ) := by
      apply Real.le_sqrt_of_sq_le
      rw [pow_two, ← zpow_add₀ (by norm_num)]
      exact (zpow_le_zpow_right₀ (by norm_num) (by norm_num)).trans hRlo
    have hge : (2 : ℝ) ^ (-1022 : ℤ) ≤ ((Dbl.sqrt (innerProduct 0 ys)).value : ℝ) := by
      have h1 := (abs_le.1 hs).1
      have h2 : uR * √((innerProduct 0 ys).value : ℝ) ≤ 1 / 2 * √((innerProduct 0 ys).value : ℝ) :=
        mul_le_mul_of_nonneg_right (by linarith) (Real.sqrt_nonneg _)
      have h3 : (2 : ℝ) ^ (-1022 : ℤ) ≤ 1 / 2 * 2 ^ (-441 : ℤ) := by
        rw [show (1 / 2 : ℝ) = 2 ^ (-1 : ℤ) by norm_num, ← zpow_add₀ (by norm_num)]
        exact zpow_le_zpow_right₀ (by norm_num) (by norm_num)
      refine h3.trans ?_
      generalize (2 : ℝ) ^ (-441 : ℤ) = p at *
      generalize uR * √((innerProduct 0 ys).value : ℝ) = z at *
      linarith only [h1, h2, hsq]
    have hge' : (2 : ℚ) ^ (-1022 : ℤ) ≤ (Dbl.sqrt (innerProduct 0 ys)).value := by
      rw [← cast_zpow] at hge; exact Rat.cast_le.1 hge
    cases xs with
    | nil => simp at hpos
    | cons x xs =>
      cases ys with
      | nil => simp at hlen
      | cons y ys =>
        rw [nearlyEqualsArr_eq, List.all_eq_true.2 fun c hc => (hx c hc).1,
          List.all_eq_true.2 fun c hc => (hy c hc).1, if_neg (by
            rw [(HasVal.of hsf).flt F64.minDub_val, decide_eq_true_iff]
            exact not_lt.2 hge')]
        rfl

end Engabra
