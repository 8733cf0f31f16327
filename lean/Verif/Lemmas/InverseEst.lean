import Verif.Props.C34_Direction
import Verif.Props.C17_C18_Inverse
import Verif.Props.C44_ExprRounding
import Verif.Props.C27_Range
import Verif.Props.C38_Constants
import Verif.Props.C39_C40_Symmetry

/-! # Rounding errors of `inverse` of a blade and of the products with it

Helper lemmas for `C48_Inverse`. -/

namespace Engabra
open F64

section
variable {S m r x d u η : ℝ}

/-- Error of `(1 / m) * x` against `x / S`. -/
theorem inv_est (hu0 : 0 ≤ u) (hu : u ≤ 1 / 1000) (hS : 0 < S)
    (hm : |m - S| ≤ 81 / 10 * u * S) (hr : |r - 1 / m| ≤ u * (1 / m))
    (hd : |d - r * x| ≤ u * |r * x| + η) :
    |d - x / S| ≤ 11 * u * |x / S| + η := by
  have hm2 := abs_le.1 hm
  have hmp : 0 < m := by nlinarith
  -- relative errors
  obtain ⟨a, ha, hm'⟩ : ∃ a, |a| ≤ 81 / 10 * u ∧ m = S * (1 + a) :=
    ⟨m / S - 1, by
      rw [show m / S - 1 = (m - S) / S by field_simp, abs_div, abs_of_pos hS, div_le_iff₀ hS]
      exact hm, by field_simp; ring⟩
  obtain ⟨b, hb, hr'⟩ : ∃ b, |b| ≤ u ∧ r = 1 / m * (1 + b) :=
    ⟨r * m - 1, by
      have : r * m - 1 = (r - 1 / m) * m := by field_simp
      rw [this, abs_mul, abs_of_pos hmp]
      calc _ ≤ u * (1 / m) * m := mul_le_mul_of_nonneg_right hr hmp.le
        _ = u := by field_simp, by field_simp; ring⟩
  have ha2 := abs_le.1 ha
  have hb2 := abs_le.1 hb
  have h1a : 0 < 1 + a := by nlinarith
  obtain ⟨q, hq⟩ : ∃ q, q = x / S := ⟨_, rfl⟩
  have hrx : r * x = q * ((1 + b) / (1 + a)) := by rw [hr', hm', hq]; field_simp
  rw [hrx] at hd
  rw [← hq]
  obtain ⟨g, hg⟩ : ∃ g, g = (1 + b) / (1 + a) - 1 := ⟨_, rfl⟩
  have hg1 : |g| ≤ 93 / 10 * u := by
    rw [hg, show (1 + b) / (1 + a) - 1 = (b - a) / (1 + a) by field_simp; ring, abs_div,
      abs_of_pos h1a, div_le_iff₀ h1a]
    have : |b - a| ≤ 91 / 10 * u := (abs_sub b a).trans (by linarith)
    nlinarith
  have hg2 := abs_le.1 hg1
  rw [show (1 + b) / (1 + a) = 1 + g by rw [hg]; ring] at hd
  have hA : |q * (1 + g)| ≤ |q| * (1 + 93 / 10 * u) := by
    rw [abs_mul]
    refine mul_le_mul_of_nonneg_left ?_ (abs_nonneg _)
    rw [abs_of_nonneg (by nlinarith)]
    linarith
  have e : d - q = (d - q * (1 + g)) + q * g := by ring
  rw [e]
  refine (abs_add_le _ _).trans ?_
  rw [abs_mul q g]
  have h1 := mul_le_mul_of_nonneg_left hA hu0
  have h2 := mul_le_mul_of_nonneg_left hg1 (abs_nonneg q)
  have h3 : u * (|q| * (u * (93 / 10))) ≤ 1 / 1000 * (|q| * (u * (93 / 10))) :=
    mul_le_mul_of_nonneg_right hu (by positivity)
  nlinarith [mul_nonneg (abs_nonneg q) hu0]
end

/-- The reciprocal of the squared magnitude. -/
theorem recipSq_est {t : Ty} {x : t.D F64} (h : Central t x) :
    (1 / magSqTy t x).Finite ∧ (0 : ℝ) < (magSqTy t x).value ∧
    |((1 / magSqTy t x).value : ℝ) - 1 / ((magSqTy t x).value : ℝ)|
      ≤ uR * (1 / ((magSqTy t x).value : ℝ)) := by
  obtain ⟨hS1, hS2⟩ := central_sqSum h
  have hS1 : (2 : ℝ) ^ (-1000 : ℤ) ≤ (sqSum t x : ℝ) := by
    rw [← cast_zpow]; exact Rat.cast_le.2 hS1
  have hS2 : (sqSum t x : ℝ) ≤ (2 : ℝ) ^ (1003 : ℤ) := by
    rw [← cast_zpow]; exact Rat.cast_le.2 hS2
  obtain ⟨hf, he⟩ := magSq_est h
  have hE : 0 < (sqSum t x : ℝ) := lt_of_lt_of_le (F64.two_zpow_pos _) hS1
  have he2 := abs_le.1 he
  have hk : 81 / 10 * uR * (sqSum t x : ℝ) ≤ 1 / 2 * (sqSum t x : ℝ) :=
    mul_le_mul_of_nonneg_right (by linarith [uR_small]) hE.le
  have hpos : 0 < ((magSqTy t x).value : ℝ) := by linarith
  have hlo : (2 : ℝ) ^ (-1001 : ℤ) ≤ ((magSqTy t x).value : ℝ) := by
    have e : (2 : ℝ) ^ (-1000 : ℤ) = 2 * (2 : ℝ) ^ (-1001 : ℤ) := by
      rw [show (-1000 : ℤ) = 1 + -1001 from by norm_num only, zpow_add₀ (by norm_num), zpow_one]
    rw [e] at hS1
    linarith
  have hup : ((magSqTy t x).value : ℝ) ≤ (2 : ℝ) ^ (1004 : ℤ) := by
    rw [show (1004 : ℤ) = 1 + 1003 from by norm_num only, zpow_add₀ (by norm_num), zpow_one]
    generalize (2 : ℝ) ^ (1003 : ℤ) = P at *
    linarith
  have hloq : (2 : ℚ) ^ (-1001 : ℤ) ≤ (magSqTy t x).value := by
    rw [← cast_zpow] at hlo; exact Rat.cast_le.1 hlo
  have hupq : (magSqTy t x).value ≤ (2 : ℚ) ^ (1004 : ℤ) := by
    rw [← cast_zpow] at hup; exact Rat.cast_le.1 hup
  have hq : 0 < (magSqTy t x).value := lt_of_lt_of_le (F64.two_zpow_pos _) hloq
  have hi1 : 1 / (magSqTy t x).value ≤ (2 : ℚ) ^ (1001 : ℤ) := by
    rw [div_le_iff₀ hq]
    calc (1 : ℚ) = (2 : ℚ) ^ (1001 : ℤ) * (2 : ℚ) ^ (-1001 : ℤ) := by
          rw [← zpow_add₀ (by norm_num)]; norm_num only
      _ ≤ _ := mul_le_mul_of_nonneg_left hloq (F64.two_zpow_pos _).le
  have hi2 : (2 : ℚ) ^ (-1004 : ℤ) ≤ 1 / (magSqTy t x).value := by
    rw [le_div_iff₀ hq]
    calc _ ≤ (2 : ℚ) ^ (-1004 : ℤ) * (2 : ℚ) ^ (1004 : ℤ) :=
          mul_le_mul_of_nonneg_left hupq (F64.two_zpow_pos _).le
      _ = 1 := by rw [← zpow_add₀ (by norm_num)]; norm_num only
  have hi0 : 0 < 1 / (magSqTy t x).value := lt_of_lt_of_le (F64.two_zpow_pos _) hi2
  have h1v : (1 : F64).value = 1 := F64.hasVal_one.2
  have hd := F64.div_spec F64.hasVal_one.1 hf hq.ne' (by
    rw [h1v]
    apply F64.safe_lt
    rw [abs_of_pos hi0]
    refine hi1.trans ?_
    have : (2 : ℚ) ^ (1001 : ℤ) ≤ F64.safe := by
      unfold F64.safe
      rw [← zpow_natCast]; exact zpow_le_zpow_right₀ (by norm_num) (by norm_num)
    have h0 := F64.one_le_safe
    generalize (2 : ℚ) ^ (1001 : ℤ) = P at *
    linarith)
  rw [h1v] at hd
  have hrel := F64.rn_rel (K := ℚ) (x := 1 / (magSqTy t x).value) (by
    rw [abs_of_pos hi0]
    exact (zpow_le_zpow_right₀ (by norm_num) (by norm_num)).trans hi2)
  rw [abs_of_pos hi0, Rat.cast_id, ← hd.2] at hrel
  refine ⟨hd.1, hpos, ?_⟩
  have h6 := (Rat.cast_le (K := ℝ)).2 hrel
  rw [Rat.cast_abs, Rat.cast_sub, Rat.cast_mul, cast_zpow, Rat.cast_div, Rat.cast_one] at h6
  exact h6

theorem comps_reverse (t : Ty) (x : t.D F64) (ht : t = .sca ∨ t = .vec ∨ t = .biv ∨ t = .tri) :
    comps t (reverseTy t x) = comps t x ∨ comps t (reverseTy t x) = (comps t x).map (- ·) := by
  rcases ht with rfl | rfl | rfl | rfl
  · exact Or.inl rfl
  · exact Or.inl rfl
  · exact Or.inr rfl
  · exact Or.inr rfl

/-- `inverse` of a blade in the central range is finite and each component is within
eleven units roundoff (plus underflow) of the component of the reverse divided by the exact
squared magnitude. -/
theorem inverse_est (t : Ty) (ht : t = .sca ∨ t = .vec ∨ t = .biv ∨ t = .tri) (x : t.D F64)
    (h : Central t x) : ∃ y : t.D F64, inverseTy t x = some y ∧
      ∃ f : F64 → F64, comps t y = (comps t (reverseTy t x)).map f ∧
        ∀ c ∈ comps t (reverseTy t x), (f c).Finite ∧
          |(f c).value - c.value / sqSum t x|
            ≤ 11 * 2 ^ (-53 : ℤ) * |c.value / sqSum t x| + 2 ^ (-1075 : ℤ) := by
  obtain ⟨hrf, hmp, hr⟩ := recipSq_est h
  obtain ⟨hf, he⟩ := magSq_est h
  refine ⟨smulTy t (1 / magSqTy t x) (reverseTy t x), ?_, (1 / magSqTy t x * ·), ?_, fun c hc => ?_⟩
  · rcases ht with rfl | rfl | rfl | rfl <;> rfl
  · rw [comps_smul]
  have hcx : c.Finite ∧ c.value * c.value ≤ sqSum t x := by
    rcases comps_reverse t x ht with e | e
    · rw [e] at hc
      exact ⟨(h.1 c hc).1, list_le_sum _ hc⟩
    · rw [e] at hc
      obtain ⟨d, hd, rfl⟩ := List.mem_map.1 hc
      refine ⟨F64.neg_finite (h.1 d hd).1, ?_⟩
      rw [F64.value_neg, neg_mul_neg]
      exact list_le_sum _ hd
  obtain ⟨hcf, hc2⟩ := hcx
  obtain ⟨hS1, -⟩ := central_sqSum h
  have hS : 0 < (sqSum t x : ℝ) := by
    exact_mod_cast lt_of_lt_of_le (F64.two_zpow_pos _) hS1
  generalize 1 / magSqTy t x = r at *
  -- the product does not overflow
  have hprod : |r.value * c.value| ≤ (2 : ℚ) ^ (503 : ℤ) := by
    have hS1' : (2 : ℝ) ^ (-1000 : ℤ) ≤ (sqSum t x : ℝ) := by
      rw [← cast_zpow]; exact Rat.cast_le.2 hS1
    have hc2' : (c.value : ℝ) * c.value ≤ (sqSum t x : ℝ) := by
      rw [← Rat.cast_mul]; exact Rat.cast_le.2 hc2
    have he2 := abs_le.1 he
    have hk : 81 / 10 * uR * (sqSum t x : ℝ) ≤ 1 / 2 * (sqSum t x : ℝ) :=
      mul_le_mul_of_nonneg_right (by linarith [uR_small]) hS.le
    generalize (sqSum t x : ℝ) = S at *
    generalize ((magSqTy t x).value : ℝ) = m at *
    have hmS : S / 2 ≤ m := by linarith
    have hr2 : |(r.value : ℝ)| ≤ 4 / S := by
      have h1 := abs_sub_abs_le_abs_sub (r.value : ℝ) (1 / m)
      rw [abs_of_pos (one_div_pos.2 hmp)] at h1
      have h2 : 1 / m ≤ 2 / S := by
        rw [div_le_div_iff₀ hmp hS]; linarith
      have h3 : uR * (1 / m) ≤ 1 * (1 / m) :=
        mul_le_mul_of_nonneg_right (uR_small.trans (by norm_num)) (one_div_pos.2 hmp).le
      have h4 : 4 / S = 2 / S + 2 / S := by ring
      linarith
    have hsq : ((r.value : ℝ) * c.value) * (r.value * c.value) ≤ 16 / S := by
      calc ((r.value : ℝ) * c.value) * (r.value * c.value)
          = (|(r.value : ℝ)| * |(r.value : ℝ)|) * (c.value * c.value) := by
            rw [abs_mul_abs_self]; ring
        _ ≤ (4 / S * (4 / S)) * S :=
            mul_le_mul (mul_le_mul hr2 hr2 (abs_nonneg _) (by positivity)) hc2'
              (mul_self_nonneg _) (by positivity)
        _ = 16 / S := by field_simp; norm_num
    have hfin : ((|r.value * c.value| : ℚ) : ℝ) ≤ ((((2 : ℚ) ^ (503 : ℤ)) : ℚ) : ℝ) := by
      rw [Rat.cast_abs, Rat.cast_mul, cast_zpow]
      refine abs_le_of_sq_le_sq' ?_ (F64.two_zpow_pos _).le |> abs_le.2
      rw [pow_two, pow_two]
      refine hsq.trans ?_
      rw [div_le_iff₀ hS]
      have e1 : (2 : ℝ) ^ (503 : ℤ) * 2 ^ (503 : ℤ) * 2 ^ (-1000 : ℤ) = 64 := by
        rw [← zpow_add₀ (by norm_num), ← zpow_add₀ (by norm_num)]; norm_num
      have h5 := mul_le_mul_of_nonneg_left hS1'
        (mul_pos (F64.two_zpow_pos (K := ℝ) 503) (F64.two_zpow_pos (K := ℝ) 503)).le
      rw [e1] at h5
      exact le_trans (by norm_num) h5
    exact Rat.cast_le.1 hfin
  have hsp := F64.mul_spec hrf hcf (F64.safe_lt (hprod.trans (by
    have h1 : (2 : ℚ) ^ (503 : ℤ) ≤ F64.safe := by
      unfold F64.safe
      rw [← zpow_natCast]; exact zpow_le_zpow_right₀ (by norm_num) (by norm_num)
    have h0 := F64.one_le_safe
    generalize (2 : ℚ) ^ (503 : ℤ) = P at *
    linarith)))
  refine ⟨hsp.1, ?_⟩
  suffices hreal : |((r * c).value : ℝ) - (c.value : ℝ) / (sqSum t x : ℝ)|
      ≤ 11 * uR * |(c.value : ℝ) / (sqSum t x : ℝ)| + (2 : ℝ) ^ (-1075 : ℤ) by
    refine (Rat.cast_le (K := ℝ)).1 ?_
    rw [Rat.cast_abs, Rat.cast_sub, Rat.cast_add, Rat.cast_mul, Rat.cast_mul, cast_zpow,
      cast_zpow, Rat.cast_abs, Rat.cast_div]
    exact_mod_cast hreal
  refine inv_est uR_nonneg uR_small hS he hr ?_
  have h6 := (Rat.cast_le (K := ℝ)).2 (F64.rn_err (r.value * c.value))
  rw [← hsp.2, Rat.cast_abs, Rat.cast_sub, Rat.cast_add, Rat.cast_mul, Rat.cast_mul, cast_zpow,
    cast_zpow, Rat.cast_abs, Rat.cast_mul] at h6
  exact h6


/-- Sign of the reverse of a blade. -/
def revSign : Ty → ℚ
  | .biv => -1
  | .tri => -1
  | _ => 1

theorem cf_promote_mem (t : Ty) (x : t.D F64) (ht : t = .sca ∨ t = .vec ∨ t = .biv ∨ t = .tri)
    (k : Fin 8) : cf (promote t x) k = 0 ∨ cf (promote t x) k ∈ comps t x := by
  revert k
  rcases ht with rfl | rfl | rfl | rfl <;>
    apply forall_fin8 <;> simp [promote, comps, cf_0, cf_1, cf_2, cf_3, cf_4, cf_5, cf_6, cf_7, engabra]

theorem inverse_cf (t : Ty) (ht : t = .sca ∨ t = .vec ∨ t = .biv ∨ t = .tri) (x : t.D F64)
    (h : Central t x) : ∃ y : t.D F64, inverseTy t x = some y ∧ ∀ k : Fin 8,
      (cf (promote t y) k).Finite ∧
      |cf (promote t (valTy t y)) k - revSign t * cf (promote t (valTy t x)) k / sqSum t x|
        ≤ 11 * 2 ^ (-53 : ℤ) * |cf (promote t (valTy t x)) k / sqSum t x| + 2 ^ (-1075 : ℤ) := by
  obtain ⟨y, hy, f, hf, hc⟩ := inverse_est t ht x h
  refine ⟨y, hy, ?_⟩
  have hz : ∀ s : ℚ, |(0 : ℚ) - s * 0 / sqSum t x|
      ≤ 11 * 2 ^ (-53 : ℤ) * |0 / sqSum t x| + 2 ^ (-1075 : ℤ) := by
    intro s
    rw [mul_zero, zero_div, sub_zero, abs_zero, mul_zero, zero_add]
    exact (F64.two_zpow_pos _).le
  rcases ht with rfl | rfl | rfl | rfl
  · simp only [comps, reverseTy, List.map_cons, List.map_nil, List.cons.injEq, and_true,
      List.mem_singleton, forall_eq] at hf hc
    rw [← hf] at hc
    apply forall_fin8 <;> first
      | exact ⟨trivial, hz 1⟩
      | (refine ⟨hc.1, ?_⟩; simp only [revSign, one_mul]; exact hc.2)
  · simp only [comps, reverseTy, List.map_cons, List.map_nil, List.cons.injEq, and_true,
      List.mem_cons, List.not_mem_nil, or_false, forall_eq_or_imp, forall_eq] at hf hc
    rw [← hf.1, ← hf.2.1, ← hf.2.2] at hc
    apply forall_fin8 <;> first
      | exact ⟨trivial, hz 1⟩
      | (refine ⟨hc.1.1, ?_⟩; simp only [revSign, one_mul]; exact hc.1.2)
      | (refine ⟨hc.2.1.1, ?_⟩; simp only [revSign, one_mul]; exact hc.2.1.2)
      | (refine ⟨hc.2.2.1, ?_⟩; simp only [revSign, one_mul]; exact hc.2.2.2)
  · simp only [comps, reverseTy, List.map_cons, List.map_nil, List.cons.injEq, and_true,
      List.mem_cons, List.not_mem_nil, or_false, forall_eq_or_imp, forall_eq] at hf hc
    rw [← hf.1, ← hf.2.1, ← hf.2.2,
      show (reverseBiv x).theData.d0.value = -x.theData.d0.value from F64.value_neg _,
      show (reverseBiv x).theData.d1.value = -x.theData.d1.value from F64.value_neg _,
      show (reverseBiv x).theData.d2.value = -x.theData.d2.value from F64.value_neg _] at hc
    have key : ∀ a b : ℚ, |a - -b / sqSum .biv x|
        ≤ 11 * 2 ^ (-53 : ℤ) * |-b / sqSum .biv x| + 2 ^ (-1075 : ℤ) →
        |a - revSign .biv * b / sqSum .biv x|
        ≤ 11 * 2 ^ (-53 : ℤ) * |b / sqSum .biv x| + 2 ^ (-1075 : ℤ) := by
      intro a b hab
      rw [neg_div, abs_neg] at hab
      rw [show revSign .biv * b = -b from neg_one_mul b, neg_div]
      exact hab
    apply forall_fin8 <;> first
      | exact ⟨trivial, hz (-1)⟩
      | exact ⟨hc.1.1, key _ _ hc.1.2⟩
      | exact ⟨hc.2.1.1, key _ _ hc.2.1.2⟩
      | exact ⟨hc.2.2.1, key _ _ hc.2.2.2⟩
  · simp only [comps, reverseTy, List.map_cons, List.map_nil, List.cons.injEq, and_true,
      List.mem_singleton, forall_eq] at hf hc
    rw [← hf, show (reverseTri x).theData.d0.value = -x.theData.d0.value from F64.value_neg _] at hc
    have key : ∀ a b : ℚ, |a - -b / sqSum .tri x|
        ≤ 11 * 2 ^ (-53 : ℤ) * |-b / sqSum .tri x| + 2 ^ (-1075 : ℤ) →
        |a - revSign .tri * b / sqSum .tri x|
        ≤ 11 * 2 ^ (-53 : ℤ) * |b / sqSum .tri x| + 2 ^ (-1075 : ℤ) := by
      intro a b hab
      rw [neg_div, abs_neg] at hab
      rw [show revSign .tri * b = -b from neg_one_mul b, neg_div]
      exact hab
    apply forall_fin8 <;> first
      | exact ⟨trivial, hz (-1)⟩
      | exact ⟨hc.1, key _ _ hc.2⟩

theorem sq_one (t : Ty) (ht : t = .sca ∨ t = .vec ∨ t = .biv ∨ t = .tri) (x : t.D F64) (S : ℚ)
    (hS : S ≠ 0) (e : S = sqSum t x) (Y : MultiVector ℚ)
    (hY : ∀ k, cf Y k = revSign t * cf (promote t (valTy t x)) k / S) (k : Fin 8) :
    cf (promote t (valTy t x) * Y) k = (if k = 0 then 1 else 0) ∧
    cf (Y * promote t (valTy t x)) k = (if k = 0 then 1 else 0) := by
  have hi : S⁻¹ * S = 1 := inv_mul_cancel₀ hS
  simp only [div_eq_mul_inv] at hY
  generalize S⁻¹ = i at *
  have y0 := hY 0; have y1 := hY 1; have y2 := hY 2; have y3 := hY 3
  have y4 := hY 4; have y5 := hY 5; have y6 := hY 6; have y7 := hY 7
  simp only [cf_0, cf_1, cf_2, cf_3, cf_4, cf_5, cf_6, cf_7] at y0 y1 y2 y3 y4 y5 y6 y7
  revert k
  rcases ht with rfl | rfl | rfl | rfl <;>
    simp only [promote, valTy, mapTy, engabra, revSign, sqSum, comps, List.map_cons, List.map_nil,
      List.sum_cons, List.sum_nil, add_zero, mul_zero, zero_mul] at * <;>
    apply forall_fin8 <;>
    simp only [cf_0, cf_1, cf_2, cf_3, cf_4, cf_5, cf_6, cf_7, engabra, y0, y1, y2, y3, y4, y5, y6,
      y7, reduceIte, Fin.isValue, one_ne_zero, Fin.reduceEq] <;>
    first
      | (constructor <;> ring1)
      | (constructor <;> linear_combination hi - i * e)

theorem absMul_self_le (X : Fin 8 → ℚ) (k : Fin 8) :
    absMul X X k ≤ ∑ i, X i * X i := by
  have h : ∀ a b : ℚ, |a| * |b| ≤ (a * a + b * b) / 2 := by
    intro a b
    have := two_mul_le_add_sq |a| |b|
    rw [sq_abs, sq_abs] at this
    linarith
  rw [Fin.sum_univ_eight]
  revert k
  apply forall_fin8 <;>
    simp only [absMul_0, absMul_1, absMul_2, absMul_3, absMul_4, absMul_5, absMul_6, absMul_7]
  · linarith [h (X 0) (X 0), h (X 1) (X 1), h (X 2) (X 2), h (X 3) (X 3), h (X 4) (X 4),
      h (X 5) (X 5), h (X 6) (X 6), h (X 7) (X 7)]
  · linarith [h (X 0) (X 1), h (X 1) (X 0), h (X 2) (X 6), h (X 6) (X 2), h (X 3) (X 5),
      h (X 5) (X 3), h (X 4) (X 7), h (X 7) (X 4)]
  · linarith [h (X 0) (X 2), h (X 2) (X 0), h (X 1) (X 6), h (X 6) (X 1), h (X 3) (X 4),
      h (X 4) (X 3), h (X 5) (X 7), h (X 7) (X 5)]
  · linarith [h (X 0) (X 3), h (X 3) (X 0), h (X 1) (X 5), h (X 5) (X 1), h (X 2) (X 4),
      h (X 4) (X 2), h (X 6) (X 7), h (X 7) (X 6)]
  · linarith [h (X 0) (X 4), h (X 4) (X 0), h (X 1) (X 7), h (X 7) (X 1), h (X 2) (X 3),
      h (X 3) (X 2), h (X 5) (X 6), h (X 6) (X 5)]
  · linarith [h (X 0) (X 5), h (X 5) (X 0), h (X 1) (X 3), h (X 3) (X 1), h (X 2) (X 7),
      h (X 7) (X 2), h (X 4) (X 6), h (X 6) (X 4)]
  · linarith [h (X 0) (X 6), h (X 6) (X 0), h (X 1) (X 2), h (X 2) (X 1), h (X 3) (X 7),
      h (X 7) (X 3), h (X 4) (X 5), h (X 5) (X 4)]
  · linarith [h (X 0) (X 7), h (X 7) (X 0), h (X 1) (X 4), h (X 4) (X 1), h (X 2) (X 5),
      h (X 5) (X 2), h (X 3) (X 6), h (X 6) (X 3)]

theorem absMul_comm' (X Y : Fin 8 → ℚ) (k : Fin 8) : absMul X Y k = absMul Y X k := by
  revert k
  apply forall_fin8 <;>
    simp only [absMul_0, absMul_1, absMul_2, absMul_3, absMul_4, absMul_5, absMul_6, absMul_7] <;>
    ring

theorem absMul_affine (X Y : Fin 8 → ℚ) (c d : ℚ) (hc : 0 ≤ c) (hd : 0 ≤ d) (k : Fin 8) :
    absMul X (fun i => c * |Y i| + d) k = c * absMul X Y k + d * ∑ i, |X i| := by
  have h : ∀ i, |c * |Y i| + d| = c * |Y i| + d := fun i => abs_of_nonneg (by positivity)
  rw [Fin.sum_univ_eight]
  revert k
  apply forall_fin8 <;>
    simp only [absMul_0, absMul_1, absMul_2, absMul_3, absMul_4, absMul_5, absMul_6, absMul_7, h] <;>
    ring

theorem sqSum_cf (t : Ty) (x : t.D F64) :
    sqSum t x = ∑ i, cf (promote t (valTy t x)) i * cf (promote t (valTy t x)) i := by
  rw [Fin.sum_univ_eight]
  cases t <;> simp only [cf_0, cf_1, cf_2, cf_3, cf_4, cf_5, cf_6, cf_7, promote, valTy, mapTy, engabra,
    sqSum, comps, List.map_cons, List.map_nil, List.sum_cons, List.sum_nil, add_zero, mul_zero] <;> ring

namespace F64

theorem valid_of_value {c : F64} (hf : c.Finite) (h : c.value = 0 ∨ (2 : ℚ) ^ (-1022 : ℤ) ≤ |c.value|) :
    isValidDub c = true := by
  rw [C11_double]
  cases c with
  | nan => exact absurd hf id
  | inf _ => exact absurd hf id
  | zero s => exact Or.inl ⟨s, rfl⟩
  | fin v hv =>
    refine Or.inr ⟨v, hv, rfl, ?_⟩
    rcases h with h | h
    · exact absurd h hv.1
    · rw [zpow_neg, zpow_ofNat] at h
      rw [one_div]; exact h

theorem le_rnVal_abs {x : ℚ} {e : ℤ} (he : -1074 ≤ e) (h : (2 : ℚ) ^ e ≤ |x|) :
    (2 : ℚ) ^ e ≤ |rnVal x| := by
  rw [← rnVal_abs]
  have := rnVal_mono h
  rwa [rnVal_exact (rep_pow e he)] at this

/-- A representable number of magnitude at least `2^e` is a multiple of `2^(e-53)`. -/
theorem rep_multiple {v : ℚ} (hv : Rep v) {e : ℤ} (h : v = 0 ∨ (2 : ℚ) ^ e ≤ |v|) :
    ∃ j : ℤ, v = j * (2 : ℚ) ^ (e - 53) := by
  rcases h with rfl | h
  · exact ⟨0, by simp⟩
  obtain ⟨m, f, hm, -, rfl⟩ := hv
  have hf : e - 53 ≤ f := by
    by_contra hlt
    rw [not_le] at hlt
    have h1 : |(m : ℚ) * 2 ^ f| < (2 : ℚ) ^ e := by
      rw [abs_mul, abs_of_pos (two_zpow_pos (K := ℚ) f)]
      have h2 : |(m : ℚ)| ≤ 2 ^ (53 : ℤ) := by exact_mod_cast hm
      calc |(m : ℚ)| * 2 ^ f ≤ 2 ^ (53 : ℤ) * 2 ^ f := mul_le_mul_of_nonneg_right h2 (two_zpow_pos _).le
        _ = 2 ^ (53 + f) := (zpow_add₀ (by norm_num) _ _).symm
        _ < 2 ^ e := zpow_lt_zpow_right₀ (by norm_num) (by omega)
    exact absurd h (not_le.2 h1)
  refine ⟨m * 2 ^ (f - (e - 53)).toNat, ?_⟩
  push_cast
  rw [mul_assoc, ← zpow_natCast, ← zpow_add₀ (by norm_num)]
  congr 2
  omega

theorem sub_multiple {v w : ℚ} (hv : Rep v) (hw : Rep w) {e : ℤ} (h1 : v = 0 ∨ (2 : ℚ) ^ e ≤ |v|)
    (h2 : w = 0 ∨ (2 : ℚ) ^ e ≤ |w|) : v - w = 0 ∨ (2 : ℚ) ^ (e - 53) ≤ |v - w| := by
  obtain ⟨j, hj⟩ := rep_multiple hv h1
  obtain ⟨k, hk⟩ := rep_multiple hw h2
  rw [hj, hk, ← sub_mul]
  by_cases hz : j - k = 0
  · left
    rw [← Int.cast_sub, hz]; simp
  · right
    rw [abs_mul, abs_of_pos (two_zpow_pos (K := ℚ) (e - 53))]
    have h3 : (1 : ℚ) ≤ |(j : ℚ) - k| := by
      rw [← Int.cast_sub, ← Int.cast_abs]
      exact_mod_cast Int.one_le_abs hz
    calc (2 : ℚ) ^ (e - 53) = 1 * 2 ^ (e - 53) := (one_mul _).symm
      _ ≤ _ := mul_le_mul_of_nonneg_right h3 (two_zpow_pos _).le

/-- The cross terms of a product are zero or normal, if the factors are not tiny. -/
theorem cross_valid {a b c d : F64} {e f : ℤ} (hef : -860 ≤ e + f)
    (ha : a.value = 0 ∨ (2 : ℚ) ^ e ≤ |a.value|) (hb : b.value = 0 ∨ (2 : ℚ) ^ f ≤ |b.value|)
    (hc : c.value = 0 ∨ (2 : ℚ) ^ e ≤ |c.value|) (hd : d.value = 0 ∨ (2 : ℚ) ^ f ≤ |d.value|)
    (hfin : (a * b - c * d).Finite) : isValidDub (a * b - c * d) = true := by
  have key : ∀ {a b : F64}, (a * b).Finite → (a.value = 0 ∨ (2 : ℚ) ^ e ≤ |a.value|) →
      (b.value = 0 ∨ (2 : ℚ) ^ f ≤ |b.value|) →
      (a * b).value = 0 ∨ (2 : ℚ) ^ (e + f) ≤ |(a * b).value| := by
    intro a b hf' ha hb
    rw [mul_value hf']
    rcases ha with ha | ha
    · left; rw [ha, zero_mul, rnVal_zero]
    rcases hb with hb | hb
    · left; rw [hb, mul_zero, rnVal_zero]
    right
    refine le_rnVal_abs (by omega) ?_
    rw [abs_mul, zpow_add₀ (by norm_num)]
    exact mul_le_mul ha hb (two_zpow_pos _).le (abs_nonneg _)
  obtain ⟨h1, h2⟩ := sub_finite hfin
  refine valid_of_value hfin ?_
  rw [sub_value hfin]
  rcases sub_multiple value_rep value_rep (key h1 ha hb) (key h2 hc hd) with h | h
  · left; rw [h, rnVal_zero]
  · right
    refine (zpow_le_zpow_right₀ (by norm_num) (by omega)).trans (le_rnVal_abs (by omega) h)
end F64

/-- A scalar close to one is accepted. -/
theorem accept_one {c tol : F64} (hf : c.Finite) (hc : |c.value - 1| ≤ 21 * 2 ^ (-53 : ℤ))
    (ht : tol.Finite) (ht1 : (2 : ℚ) ^ (-48 : ℤ) ≤ tol.value) (ht2 : tol.value ≤ 2 ^ (500 : ℤ)) :
    nearlyEqualsArr [c] [1] tol = .ok true := by
  have h1v : (1 : F64).value = 1 := F64.hasVal_one.2
  have h53 : 21 * (2 : ℚ) ^ (-53 : ℤ) ≤ 1 / 4 := by norm_num
  have hcb := abs_le.1 (hc.trans h53)
  have hP : (2 : ℚ) ≤ 2 ^ (500 : ℤ) := by
    calc (2 : ℚ) = 2 ^ (1 : ℤ) := (zpow_one _).symm
      _ ≤ _ := zpow_le_zpow_right₀ (by norm_num) (by norm_num)
  have hM : Mid [c] := by
    intro d hd
    rw [List.mem_singleton] at hd
    subst hd
    refine ⟨F64.valid_of_value hf (Or.inr ?_), ?_⟩
    · rw [abs_of_pos (by linarith)]
      calc (2 : ℚ) ^ (-1022 : ℤ) ≤ 2 ^ (-1 : ℤ) := zpow_le_zpow_right₀ (by norm_num) (by norm_num)
        _ ≤ 3 / 4 := by norm_num
        _ ≤ d.value := by linarith
    · rw [abs_of_pos (by linarith)]
      exact le_trans (by linarith) hP
  have hM1 : Mid [1] := by
    intro d hd
    rw [List.mem_singleton] at hd
    subst hd
    refine ⟨isValidDub_one, ?_⟩
    rw [h1v, abs_one]; exact le_trans (by norm_num) hP
  have hv1 : vals [(1 : F64)] = [1] := by
    unfold vals; rw [List.map_cons, List.map_nil, h1v, Rat.cast_one]
  have hn1 : listNorm [1] = 1 := by unfold listNorm; norm_num
  have hd1 : listDist (vals [c]) [1] = |(c.value : ℝ) - 1| := by
    unfold listDist listNorm vals
    simp only [List.map_cons, List.map_nil, List.zipWith_cons_cons, List.zipWith_nil_right,
      List.sum_cons, List.sum_nil, add_zero]
    exact Real.sqrt_mul_self_eq_abs _
  refine C27_range_accepts [c] [1] tol rfl (by norm_num) hM hM1 ht
    ((zpow_le_zpow_right₀ (by norm_num) (by norm_num)).trans ht1) ht2 ?_ ?_
  · rw [hv1, hn1]
    exact zpow_le_one_of_nonpos₀ (by norm_num) (by norm_num)
  · rw [hv1, hn1, hd1, mul_one]
    have h1 := (Rat.cast_le (K := ℝ)).2 hc
    have h2 := (Rat.cast_le (K := ℝ)).2 ht1
    push_cast at h1 h2 ⊢
    refine h1.trans ?_
    rw [List.length_singleton, Nat.cast_one]
    have h3 : (2 : ℝ) ^ (-48 : ℤ) * (1 - (2 * 1 + 6) * 2 ^ (-53 : ℤ))
        ≤ tol.value * (1 - (2 * 1 + 6) * 2 ^ (-53 : ℤ)) :=
      mul_le_mul_of_nonneg_right h2 (by norm_num)
    refine le_trans ?_ h3
    norm_num

theorem accept_zero {c0 c1 c2 tol : F64} (ht : tol.Finite)
    (h0 : isValidDub c0 = true) (h1 : isValidDub c1 = true) (h2 : isValidDub c2 = true)
    (b0 : |c0.value| < tol.value) (b1 : |c1.value| < tol.value) (b2 : |c2.value| < tol.value) :
    nearlyEqualsArr [c0, c1, c2] [0, 0, 0] tol = .ok true := by
  refine (C27_zero_reference [c0, c1, c2] [0, 0, 0] tol rfl (by simp) ?_ ht ?_).2 ?_
  · simp [h0, h1, h2]
  · simp
  · simp [b0, b1, b2]

theorem F64.small_lt {r : ℚ} (h : |r| ≤ 1024) : |r| < 2 ^ 1024 :=
  h.trans_lt (lt_of_lt_of_le (by norm_num : (1024 : ℚ) < 2 ^ 11)
    (pow_le_pow_right₀ (by norm_num) (by norm_num)))

theorem F64.HasVal.mulR {x y : F64} {p q r : ℚ} (hx : HasVal x p) (hy : HasVal y q)
    (hr : rnVal (p * q) = r) (hb : |r| ≤ 1024) : HasVal (x * y) r := by
  have := mul_spec hx.1 hy.1 (by rw [hx.2, hy.2, hr]; exact small_lt hb)
  exact ⟨this.1, by rw [mul_def, this.2, hx.2, hy.2, hr]⟩

theorem F64.HasVal.divR {x y : F64} {p q r : ℚ} (hx : HasVal x p) (hy : HasVal y q) (hq : q ≠ 0)
    (hr : rnVal (p / q) = r) (hb : |r| ≤ 1024) : HasVal (x / y) r := by
  have := div_spec hx.1 hy.1 (by rw [hy.2]; exact hq) (by rw [hx.2, hy.2, hr]; exact small_lt hb)
  exact ⟨this.1, by rw [this.2, hx.2, hy.2, hr]⟩

theorem F64.HasVal.subR {x y : F64} {p q r : ℚ} (hx : HasVal x p) (hy : HasVal y q)
    (hr : rnVal (p - q) = r) (hb : |r| ≤ 1024) : HasVal (x - y) r := by
  have := add_spec hx.1 hy.neg.1 (by rw [hx.2, hy.neg.2, ← sub_eq_add_neg, hr]; exact small_lt hb)
  exact ⟨this.1, by
    change (x.add (-y)).value = r
    rw [this.2, hx.2, hy.neg.2, ← sub_eq_add_neg, hr]⟩

end Engabra
