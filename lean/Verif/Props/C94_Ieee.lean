import Verif.Spec.Ieee
import Verif.Lemmas.F64Ops
import Verif.Model.Fused
import Verif.Props.C38_Constants

/-! # C94 — the doubles of the model are IEEE 754 binary64

The data are the 64-bit words (all words of a NaN taken as one), and `+ - * / sqrt`, the fused
multiply-add, negation, absolute value, comparison and `isnormal` are the operations of the standard. -/

namespace Engabra

open F64 Ieee

/-! ## Words -/

theorem fields (s : Bool) (E T : ℕ) (hE : E < 2048) (hT : T < 2 ^ 52) :
    ∃ w : BitVec 64, signOf w = s ∧ expOf w = E ∧ fracOf w = T := by
  refine ⟨BitVec.ofNat 64 ((if s then 2 ^ 63 else 0) + E * 2 ^ 52 + T), ?_⟩
  unfold signOf expOf fracOf
  rw [BitVec.toNat_ofNat]
  cases s
  · simp only [Bool.false_eq_true, if_false]
    refine ⟨?_, ?_, ?_⟩
    · rw [decide_eq_false_iff_not]; omega
    · omega
    · omega
  · simp only [if_true]
    refine ⟨?_, ?_, ?_⟩
    · rw [decide_eq_true_iff]; omega
    · omega
    · omega

theorem fields_unique {w w' : BitVec 64} (h1 : signOf w = signOf w') (h2 : expOf w = expOf w')
    (h3 : fracOf w = fracOf w') : w = w' := by
  apply BitVec.eq_of_toNat_eq
  unfold signOf expOf fracOf at *
  have a := w.isLt
  have b := w'.isLt
  rw [decide_eq_decide] at h1
  omega

theorem fracOf_lt (w : BitVec 64) : fracOf w < 2 ^ 52 := Nat.mod_lt _ (by norm_num)
theorem expOf_lt (w : BitVec 64) : expOf w < 2048 := Nat.mod_lt _ (by norm_num)

theorem unit_abs (w : BitVec 64) : |unit w| = 1 := by unfold unit; split_ifs <;> norm_num

theorem two_zpow_sub (E : ℤ) : (2 : ℚ) ^ (E - 1023) = 2 ^ 52 * 2 ^ (E - 1075) := by
  rw [show (E - 1023 : ℤ) = (52 : ℕ) + (E - 1075) from by push_cast; ring, zpow_add₀ (by norm_num),
    zpow_natCast]

theorem normal_form (s T : ℚ) (E : ℤ) :
    s * (1 + T / 2 ^ 52) * 2 ^ (E - 1023) = s * (2 ^ 52 + T) * 2 ^ (E - 1075) := by
  rw [two_zpow_sub]; ring

theorem subnormal_form (s T : ℚ) :
    s * (0 + T / 2 ^ 52) * 2 ^ (-1022 : ℤ) = s * T * 2 ^ (-1074 : ℤ) := by
  have := two_zpow_sub 1
  rw [show (1 - 1023 : ℤ) = -1022 from by norm_num, show (1 - 1075 : ℤ) = -1074 from by norm_num] at this
  rw [this]; ring

theorem finite_word (w : BitVec 64) (h : expOf w ≤ 2046) (h0 : ¬(expOf w = 0 ∧ fracOf w = 0)) :
    ∃ v, ∃ hv : IsFin v, Encodes w (.fin v hv) := by
  have hT := fracOf_lt w
  have hu : ∃ u : ℤ, unit w = u ∧ |u| = 1 := by
    unfold unit
    split_ifs
    exacts [⟨-1, by norm_num, by norm_num⟩, ⟨1, by norm_num, by norm_num⟩]
  obtain ⟨u, hu, hu1⟩ := hu
  have hu0 : u ≠ 0 := by rintro rfl; simp at hu1
  by_cases hE : expOf w = 0
  · have hT0 : fracOf w ≠ 0 := fun e => h0 ⟨hE, e⟩
    refine ⟨_, ⟨?_, u * fracOf w, -1074, ?_, by norm_num, by norm_num, ?_⟩, Or.inl ⟨hE, hT0, rfl⟩⟩
    · rw [subnormal_form, hu]
      exact mul_ne_zero (mul_ne_zero (by exact_mod_cast hu0) (by exact_mod_cast hT0)) (two_zpow_pos _).ne'
    · rw [abs_mul, hu1, one_mul, Nat.abs_cast]; omega
    · rw [subnormal_form, hu, Int.cast_mul, Int.cast_natCast]
  · refine ⟨_, ⟨?_, u * (2 ^ 52 + fracOf w : ℕ), (expOf w : ℤ) - 1075, ?_, by omega, by omega, ?_⟩,
      Or.inr ⟨by omega, h, rfl⟩⟩
    · rw [normal_form, hu]
      exact mul_ne_zero (mul_ne_zero (by exact_mod_cast hu0) (by positivity)) (two_zpow_pos _).ne'
    · rw [abs_mul, hu1, one_mul, Nat.abs_cast]; omega
    · rw [normal_form, hu]; push_cast; rfl

theorem unit_cases (w : BitVec 64) : (signOf w = true ∧ unit w = -1) ∨ (signOf w = false ∧ unit w = 1) := by
  unfold unit
  cases signOf w <;> simp

/-- Sign bit and value. -/
theorem enc_abs {w : BitVec 64} {v : ℚ} {hv : IsFin v} (h : Encodes w (.fin v hv)) :
    decide (v < 0) = signOf w ∧ ((expOf w = 0 ∧ fracOf w ≠ 0 ∧ |v| = fracOf w * 2 ^ (-1074 : ℤ)) ∨
      (1 ≤ expOf w ∧ expOf w ≤ 2046 ∧ |v| = (2 ^ 52 + fracOf w) * 2 ^ ((expOf w : ℤ) - 1075))) := by
  have sg : ∀ c : ℚ, 0 < c → decide (unit w * c < 0) = signOf w := by
    intro c hc
    rcases unit_cases w with ⟨a, b⟩ | ⟨a, b⟩ <;> rw [a, b]
    · rw [decide_eq_true_iff]; linarith
    · rw [decide_eq_false_iff_not]; linarith
  rcases h with ⟨h1, h2, h3⟩ | ⟨h1, h2, h3⟩
  · rw [subnormal_form] at h3
    have hp : (0 : ℚ) < fracOf w * 2 ^ (-1074 : ℤ) :=
      mul_pos (by exact_mod_cast Nat.pos_of_ne_zero h2) (two_zpow_pos _)
    rw [h3, mul_assoc]
    refine ⟨sg _ hp, Or.inl ⟨h1, h2, ?_⟩⟩
    rw [abs_mul, unit_abs, one_mul, abs_of_pos hp]
  · rw [normal_form] at h3
    have hp : (0 : ℚ) < (2 ^ 52 + fracOf w) * 2 ^ ((expOf w : ℤ) - 1075) :=
      mul_pos (by positivity) (two_zpow_pos _)
    rw [h3, mul_assoc]
    refine ⟨sg _ hp, Or.inr ⟨h1, h2, ?_⟩⟩
    rw [abs_mul, unit_abs, one_mul, abs_of_pos hp]

/-- A number `m 2^e` with 53 significant bits, or of the least exponent, has the word one expects; its
last bit is that of `m`. -/
theorem enc_of {v : ℚ} (hv : IsFin v) {m e : ℤ} (hm : |m| ≤ 2 ^ 53) (he : -1074 ≤ e)
    (hn : 2 ^ 52 ≤ |m| ∨ e = -1074) (h : v = m * (2 : ℚ) ^ e) :
    ∃ w, Encodes w (.fin v hv) ∧ (Even m → Even (fracOf w)) := by
  have hva : |v| = (|m| : ℤ) * (2 : ℚ) ^ e := by
    rw [h, abs_mul, abs_of_pos (two_zpow_pos (K := ℚ) e), Int.cast_abs]
  obtain ⟨n, hn'⟩ : ∃ n : ℕ, |m| = n := ⟨m.natAbs, Int.abs_eq_natAbs m⟩
  have hev : Even m ↔ Even n := by
    rw [← even_abs, hn', Int.even_coe_nat]
  rw [hn'] at hm hn hva
  have hvs : v = (if decide (v < 0) then -1 else 1) * |v| := by
    by_cases h0 : v < 0
    · simp [h0, abs_of_neg h0]
    · simp [h0, abs_of_nonneg (not_lt.1 h0)]
  have hlt := hv.lt
  have hexp : ∀ {k : ℕ} {f : ℤ}, 2 ^ 52 ≤ k → |v| = (k : ℚ) * 2 ^ f → f ≤ 971 := by
    intro k f hk hf
    by_contra hc
    have h1 : (2 : ℚ) ^ 1024 ≤ |v| := by
      rw [hf, two_pow_split (show 52 + 972 = 1024 by norm_num only)]
      refine mul_le_mul (by exact_mod_cast hk) (zpow_le_zpow_right₀ (by norm_num) (by push_cast; omega))
        (two_zpow_pos _).le (by positivity)
    exact absurd hlt (not_lt.2 h1)
  by_cases hbig : 2 ^ 52 ≤ n
  · rcases lt_or_eq_of_le (show n ≤ 2 ^ 53 by exact_mod_cast hm) with hl | hl
    · have hf := hexp hbig (by rw [hva]; push_cast; rfl)
      obtain ⟨w, w1, w2, w3⟩ := fields (decide (v < 0)) (e + 1075).toNat (n - 2 ^ 52) (by omega) (by omega)
      refine ⟨w, Or.inr ⟨by omega, by omega, ?_⟩, fun hm => ?_⟩
      · rw [normal_form, w2, w3, Int.toNat_of_nonneg (by omega), Nat.cast_sub hbig, unit, w1]
        refine hvs.trans ?_
        rw [hva, mul_assoc]
        congr 2
        · push_cast; ring
        · congr 1; ring
      · rw [w3, Nat.even_sub hbig]
        exact iff_of_true (hev.1 hm) (by decide)
    · have hva2 : |v| = ((2 ^ 52 : ℕ) : ℚ) * 2 ^ (e + 1) := by
        rw [hva, hl, zpow_add₀ (by norm_num), zpow_one]; push_cast; ring
      have hf := hexp le_rfl hva2
      obtain ⟨w, w1, w2, w3⟩ := fields (decide (v < 0)) (e + 1 + 1075).toNat 0 (by omega) (by norm_num)
      refine ⟨w, Or.inr ⟨by omega, by omega, ?_⟩, fun _ => by rw [w3]; exact Even.zero⟩
      rw [normal_form, w2, w3, Int.toNat_of_nonneg (by omega), unit, w1]
      refine hvs.trans ?_
      rw [hva2, mul_assoc]
      congr 2
      · push_cast; ring
      · congr 1; ring
  · have he' : e = -1074 := by
      rcases hn with h1 | h1
      · exact absurd (by exact_mod_cast h1) hbig
      · exact h1
    obtain ⟨w, w1, w2, w3⟩ := fields (decide (v < 0)) 0 n (by norm_num) (by omega)
    refine ⟨w, Or.inl ⟨w2, ?_, ?_⟩, fun hm => by rw [w3]; exact hev.1 hm⟩
    · rw [w3]; rintro rfl
      rw [Nat.cast_zero, Int.cast_zero, zero_mul, abs_eq_zero] at hva
      exact hv.1 hva
    · rw [subnormal_form, w3, unit, w1]
      refine hvs.trans ?_
      rw [hva, mul_assoc, he', Int.cast_natCast]

theorem enc_fin {v : ℚ} (hv : IsFin v) : ∃ w, Encodes w (.fin v hv) := by
  have h1 := rnVal_exact hv.rep
  obtain ⟨w, hw, -⟩ := enc_of hv (rhe_scaled_abs v) (ulpExp_ge v) (by
    rcases lt_or_eq_of_le (ulpExp_ge v) with h | h
    · exact Or.inl (rhe_scaled_ge v hv.1 h)
    · exact Or.inr h.symm) h1.symm
  exact ⟨w, hw⟩

/-- **C94.** Every word represents one datum. -/
theorem C94_datum_of_word (w : BitVec 64) : ∃! x : F64, Encodes w x := by
  by_cases h1 : expOf w ≤ 2046
  · by_cases h0 : expOf w = 0 ∧ fracOf w = 0
    · refine ⟨.zero (signOf w), ⟨h0.1, h0.2, rfl⟩, fun y hy => ?_⟩
      cases y with
      | nan => have := hy.1; omega
      | inf s => have := hy.1; omega
      | zero s => rw [hy.2.2]
      | fin v hv =>
        rcases hy with ⟨-, h2, -⟩ | ⟨h2, -, -⟩
        · exact absurd h0.2 h2
        · omega
    · obtain ⟨v, hv, h2⟩ := finite_word w h1 h0
      refine ⟨.fin v hv, h2, fun y hy => ?_⟩
      cases y with
      | nan => have := hy.1; omega
      | inf s => have := hy.1; omega
      | zero s => exact absurd ⟨hy.1, hy.2.1⟩ h0
      | fin u hu =>
        have : u = v := by
          rcases hy with ⟨a, -, b⟩ | ⟨a, -, b⟩ <;> rcases h2 with ⟨c, -, d⟩ | ⟨c, -, d⟩
          · rw [b, d]
          · omega
          · omega
          · rw [b, d]
        subst this
        rfl
  · have h2 : expOf w = 2047 := by have := expOf_lt w; omega
    by_cases h0 : fracOf w = 0
    · refine ⟨.inf (signOf w), ⟨h2, h0, rfl⟩, fun y hy => ?_⟩
      cases y with
      | nan => exact absurd h0 hy.2
      | inf s => rw [hy.2.2]
      | zero s => have := hy.1; omega
      | fin v hv => rcases hy with ⟨a, -, -⟩ | ⟨-, a, -⟩ <;> omega
    · refine ⟨.nan, ⟨h2, h0⟩, fun y hy => ?_⟩
      cases y with
      | nan => rfl
      | inf s => exact absurd hy.2.1 h0
      | zero s => have := hy.1; omega
      | fin v hv => rcases hy with ⟨a, -, -⟩ | ⟨-, a, -⟩ <;> omega

/-- **C94.** Every datum has a word. -/
theorem C94_word_of_datum (x : F64) : ∃ w, Encodes w x := by
  cases x with
  | nan => obtain ⟨w, -, a, b⟩ := fields false 2047 1 (by norm_num) (by norm_num)
           exact ⟨w, a, by omega⟩
  | inf s => obtain ⟨w, a, b, c⟩ := fields s 2047 0 (by norm_num) (by norm_num); exact ⟨w, b, c, a⟩
  | zero s => obtain ⟨w, a, b, c⟩ := fields s 0 0 (by norm_num) (by norm_num); exact ⟨w, b, c, a⟩
  | fin v hv => exact enc_fin hv

theorem mant_unique {a b : ℕ} {e f : ℤ} (ha : 2 ^ 52 ≤ a) (hb : b < 2 ^ 53)
    (h : (a : ℚ) * 2 ^ e = b * 2 ^ f) (hf : f < e) : False := by
  have h1 : (b : ℚ) * 2 ^ f < 2 ^ 53 * 2 ^ f :=
    mul_lt_mul_of_pos_right (by exact_mod_cast hb) (two_zpow_pos _)
  have h2 : (2 : ℚ) ^ 53 * 2 ^ f ≤ 2 ^ 52 * 2 ^ e := by
    rw [show (2 : ℚ) ^ 53 * 2 ^ f = 2 ^ 52 * (2 ^ f * 2) from by ring]
    refine mul_le_mul_of_nonneg_left ?_ (by positivity)
    rw [← zpow_add_one₀ (by norm_num)]
    exact zpow_le_zpow_right₀ (by norm_num) (by omega)
  have h3 : (2 : ℚ) ^ 52 * 2 ^ e ≤ a * 2 ^ e :=
    mul_le_mul_of_nonneg_right (by exact_mod_cast ha) (two_zpow_pos _).le
  rw [h] at h3
  exact absurd (h1.trans_le (h2.trans h3)) (lt_irrefl _)

/-- **C94.** Only the NaN has more than one word. -/
theorem C94_one_word {x : F64} (hx : x ≠ .nan) {w w' : BitVec 64} (h : Encodes w x) (h' : Encodes w' x) :
    w = w' := by
  cases x with
  | nan => exact absurd rfl hx
  | inf s => exact fields_unique (h.2.2.trans h'.2.2.symm) (h.1.trans h'.1.symm) (h.2.1.trans h'.2.1.symm)
  | zero s => exact fields_unique (h.2.2.trans h'.2.2.symm) (h.1.trans h'.1.symm) (h.2.1.trans h'.2.1.symm)
  | fin v hv =>
    obtain ⟨s1, a⟩ := enc_abs h
    obtain ⟨s2, b⟩ := enc_abs h'
    have f1 := fracOf_lt w
    have f2 := fracOf_lt w'
    have key : expOf w = expOf w' ∧ fracOf w = fracOf w' := by
      rcases a with ⟨a1, a2, a3⟩ | ⟨a1, a2, a3⟩ <;> rcases b with ⟨b1, b2, b3⟩ | ⟨b1, b2, b3⟩
      · rw [a3] at b3
        exact ⟨a1.trans b1.symm, by exact_mod_cast mul_right_cancel₀ (two_zpow_pos _).ne' b3⟩
      · exfalso
        rw [b3] at a3
        rcases lt_or_eq_of_le (show (-1074 : ℤ) ≤ (expOf w' : ℤ) - 1075 by omega) with c | c
        · exact mant_unique (a := 2 ^ 52 + fracOf w') (b := fracOf w) (by omega) (by omega)
            (by push_cast; exact a3) c
        · rw [← c] at a3
          have : 2 ^ 52 + fracOf w' = fracOf w := by
            exact_mod_cast mul_right_cancel₀ (two_zpow_pos _).ne' a3
          omega
      · exfalso
        rw [a3] at b3
        rcases lt_or_eq_of_le (show (-1074 : ℤ) ≤ (expOf w : ℤ) - 1075 by omega) with c | c
        · exact mant_unique (a := 2 ^ 52 + fracOf w) (b := fracOf w') (by omega) (by omega)
            (by push_cast; exact b3) c
        · rw [← c] at b3
          have : 2 ^ 52 + fracOf w = fracOf w' := by
            exact_mod_cast mul_right_cancel₀ (two_zpow_pos _).ne' b3
          omega
      · rw [a3] at b3
        rcases lt_trichotomy ((expOf w : ℤ) - 1075) ((expOf w' : ℤ) - 1075) with c | c | c
        · exact (mant_unique (a := 2 ^ 52 + fracOf w') (b := 2 ^ 52 + fracOf w) (by omega)
            (by omega) (by push_cast; exact b3.symm) c).elim
        · rw [c] at b3
          have : 2 ^ 52 + fracOf w = 2 ^ 52 + fracOf w' := by
            exact_mod_cast mul_right_cancel₀ (two_zpow_pos _).ne' b3
          omega
        · exact (mant_unique (a := 2 ^ 52 + fracOf w) (b := 2 ^ 52 + fracOf w') (by omega)
            (by omega) (by push_cast; exact b3) c).elim
    exact fields_unique (s1.symm.trans s2) key.1 key.2

/-- **C94.** `std::signbit` and negation act on bit 63 alone, `std::abs` clears it. -/
theorem C94_sign {x : F64} {w : BitVec 64} (h : Encodes w x) :
    (x ≠ .nan → x.signbit = signOf w) ∧
    (∀ w', signOf w' = !signOf w → expOf w' = expOf w → fracOf w' = fracOf w → Encodes w' (-x)) ∧
    (∀ w', signOf w' = false → expOf w' = expOf w → fracOf w' = fracOf w → Encodes w' (Dbl.abs x)) := by
  have neg : ∀ w', signOf w' = !signOf w → expOf w' = expOf w → fracOf w' = fracOf w →
      Encodes w' (-x) := by
    intro w' h1 h2 h3
    have hu : unit w' = -unit w := by
      unfold unit; rw [h1]; cases signOf w <;> simp
    cases x with
    | nan => exact ⟨h2.trans h.1, by rw [h3]; exact h.2⟩
    | inf s => exact ⟨h2.trans h.1, h3.trans h.2.1, by rw [h1, h.2.2]⟩
    | zero s => exact ⟨h2.trans h.1, h3.trans h.2.1, by rw [h1, h.2.2]⟩
    | fin v hv =>
      rcases h with ⟨a, b, c⟩ | ⟨a, b, c⟩
      · exact Or.inl ⟨h2.trans a, by rw [h3]; exact b, by rw [hu, h3, c]; ring⟩
      · exact Or.inr ⟨by rw [h2]; exact a, by rw [h2]; exact b, by rw [hu, h2, h3, c]; ring⟩
  have sgn : x ≠ .nan → x.signbit = signOf w := by
    intro hx
    cases x with
    | nan => exact absurd rfl hx
    | inf s => exact h.2.2.symm
    | zero s => exact h.2.2.symm
    | fin v hv => exact (enc_abs h).1
  refine ⟨sgn, neg, fun w' h1 h2 h3 => ?_⟩
  show Encodes w' (F64.abs x)
  by_cases hx : x = .nan
  · subst hx
    exact ⟨h2.trans h.1, by rw [h3]; exact h.2⟩
  · unfold F64.abs
    rw [sgn hx]
    cases hs : signOf w with
    | true => exact neg w' (by rw [h1, hs]; rfl) h2 h3
    | false =>
      rw [fields_unique (h1.trans hs.symm) h2 h3]
      exact h

/-- **C94.** `std::isnormal`: the exponent field is neither all zeros nor all ones. -/
theorem C94_isnormal {x : F64} {w : BitVec 64} (h : Encodes w x) :
    Dbl.isnormal x = true ↔ 1 ≤ expOf w ∧ expOf w ≤ 2046 := by
  show F64.isnormal x = true ↔ _
  cases x with
  | nan => simp only [F64.isnormal, Bool.false_eq_true, false_iff]; have := h.1; omega
  | inf s => simp only [F64.isnormal, Bool.false_eq_true, false_iff]; have := h.1; omega
  | zero s => simp only [F64.isnormal, Bool.false_eq_true, false_iff]; have := h.1; omega
  | fin v hv =>
    have f1 := fracOf_lt w
    have e : (1 : ℚ) / 2 ^ 1022 = 2 ^ 52 * 2 ^ (-1074 : ℤ) := by
      rw [one_div, ← zpow_natCast, ← zpow_neg, show ((1022 : ℕ) : ℤ) = 1022 from rfl,
        show (2 : ℚ) ^ 52 = 2 ^ (52 : ℤ) from rfl, ← zpow_add₀ (by norm_num)]
      norm_num only
    simp only [F64.isnormal, decide_eq_true_iff]
    rw [e]
    rcases (enc_abs h).2 with ⟨a, b, c⟩ | ⟨a, b, c⟩ <;> rw [c]
    · refine iff_of_false (not_le.2 ?_) (by omega)
      exact mul_lt_mul_of_pos_right (by exact_mod_cast f1) (two_zpow_pos _)
    · refine iff_of_true ?_ ⟨a, b⟩
      refine mul_le_mul ?_ (zpow_le_zpow_right₀ (by norm_num) (by omega)) (two_zpow_pos _).le (by positivity)
      exact le_add_of_nonneg_right (Nat.cast_nonneg _)

/-! ## Rounding -/

/-- A number as near as the rounded value, and different from it, is the other neighbour on the grid. -/
theorem tie {x : ℝ} (hx : x ≠ 0) {v : ℚ} (hv : Rep v) (hne : v ≠ rnVal x)
    (he : |(v : ℝ) - x| = |(rnVal x : ℝ) - x|) :
    ∃ n : ℤ, v = n * (2 : ℚ) ^ ulpExp x ∧ |x / 2 ^ ulpExp x - n| = 1 / 2 ∧
      Even (rhe (x / (2 : ℝ) ^ ulpExp x)) ∧ Odd n := by
  have hp := two_zpow_pos (K := ℝ) (ulpExp x)
  have hgrid : ∃ n : ℤ, v = n * (2 : ℚ) ^ ulpExp x := by
    obtain ⟨m, f, hm, hf, hvm⟩ := hv
    rcases le_or_gt (ulpExp x) f with hle | hlt
    · obtain ⟨k, hk⟩ := Int.eq_ofNat_of_zero_le (sub_nonneg.2 hle)
      refine ⟨m * 2 ^ k, ?_⟩
      have e2 : f = (k : ℤ) + ulpExp x := by omega
      rw [hvm, e2, zpow_add₀ (by norm_num), zpow_natCast]
      push_cast; ring
    · have hu := ulp_le_abs x hx (by omega)
      have hb : |v| ≤ (2 : ℚ) ^ (ulpExp x + 52) := by
        rw [hvm, abs_mul, abs_of_pos (two_zpow_pos (K := ℚ) f)]
        calc |(m : ℚ)| * (2 : ℚ) ^ f ≤ (2 : ℚ) ^ (53 : ℤ) * (2 : ℚ) ^ f := by
              apply mul_le_mul_of_nonneg_right _ (two_zpow_pos _).le
              rw [← Int.cast_abs]
              exact_mod_cast hm
          _ = (2 : ℚ) ^ (53 + f) := (zpow_add₀ (by norm_num) _ _).symm
          _ ≤ _ := zpow_le_zpow_right₀ (by norm_num) (by omega)
      have e52 : (2 : ℚ) ^ (ulpExp x + 52) = ((2 ^ 52 : ℤ) : ℚ) * (2 : ℚ) ^ ulpExp x := by
        rw [zpow_add₀ (by norm_num), mul_comm]; norm_num
      rcases lt_or_eq_of_le hb with hs | hs
      · exfalso
        have hs' : |(v : ℝ)| < (2 : ℝ) ^ (ulpExp x + 52) := by
          have := (Rat.cast_lt (K := ℝ)).2 hs
          rwa [Rat.cast_abs, Rat.cast_zpow, Rat.cast_ofNat] at this
        have e52' : (2 : ℝ) ^ (ulpExp x + 52) = ((2 ^ 52 : ℤ) : ℝ) * (2 : ℝ) ^ ulpExp x := by
          rw [zpow_add₀ (by norm_num), mul_comm]; norm_num
        rw [abs_lt] at hs'
        rcases le_total 0 x with h0 | h0
        · rw [abs_of_nonneg h0] at hu
          have h1 := rnVal_nearest_mul x (2 ^ 52)
          rw [← e52', ← he, abs_of_nonpos (by linarith : (2 : ℝ) ^ (ulpExp x + 52) - x ≤ 0),
            abs_of_nonpos (by linarith : (v : ℝ) - x ≤ 0)] at h1
          linarith
        · rw [abs_of_nonpos h0] at hu
          have h1 := rnVal_nearest_mul x (-2 ^ 52)
          have e53 : ((-2 ^ 52 : ℤ) : ℝ) * (2 : ℝ) ^ ulpExp x = -(2 : ℝ) ^ (ulpExp x + 52) := by
            rw [e52']; push_cast; ring
          rw [e53, ← he, abs_of_nonneg (by linarith : 0 ≤ -(2 : ℝ) ^ (ulpExp x + 52) - x),
            abs_of_nonneg (by linarith : 0 ≤ (v : ℝ) - x)] at h1
          linarith
      · rcases abs_choice v with hc | hc
        · exact ⟨2 ^ 52, by rw [← hc, hs, e52]⟩
        · refine ⟨-2 ^ 52, ?_⟩
          rw [Int.cast_neg, neg_mul, ← e52, ← hs, hc, neg_neg]
  obtain ⟨n, hn⟩ := hgrid
  have hm : rnVal x = (rhe (x / (2 : ℝ) ^ ulpExp x) : ℚ) * (2 : ℚ) ^ ulpExp x := rfl
  have hnm : n ≠ rhe (x / (2 : ℝ) ^ ulpExp x) := by
    rintro rfl
    exact hne (hn.trans hm.symm)
  have dist : ∀ k : ℤ, |((k * (2 : ℚ) ^ ulpExp x : ℚ) : ℝ) - x| = |x / 2 ^ ulpExp x - k| * 2 ^ ulpExp x := by
    intro k
    rw [Rat.cast_mul, Rat.cast_zpow, Rat.cast_ofNat, Rat.cast_intCast, abs_sub_comm]
    conv_rhs => rw [← abs_of_pos hp, ← abs_mul, abs_of_pos hp, sub_mul, div_mul_cancel₀ _ hp.ne']
  rw [hn, hm, dist, dist] at he
  have hd := mul_right_cancel₀ hp.ne' he
  generalize x / (2 : ℝ) ^ ulpExp x = t at *
  have h1 : (1 : ℝ) ≤ |(n : ℝ) - rhe t| := by
    have : 1 ≤ |n - rhe t| := Int.one_le_abs (sub_ne_zero.2 hnm)
    exact_mod_cast this
  have h2 : |(n : ℝ) - rhe t| ≤ |t - n| + |t - rhe t| := by
    rw [show (n : ℝ) - rhe t = (t - rhe t) - (t - n) from by ring]
    rw [add_comm]
    exact abs_sub _ _
  have h3 := rhe_err t
  have h4 : |t - n| = 1 / 2 := by linarith
  have h5 : Even (rhe t) := by
    rcases rhe_cases t with h | h
    · linarith
    · exact h.2
  refine ⟨n, hn, h4, h5, ?_⟩
  have h6 : |n - rhe t| ≤ 1 := by
    have : |(n : ℝ) - rhe t| ≤ 1 := by linarith
    exact_mod_cast this
  have h7 : n = rhe t + 1 ∨ n = rhe t - 1 := by
    rw [abs_le] at h6
    omega
  rcases h7 with h | h
  · rw [h]; exact h5.add_one
  · rw [h]; exact h5.sub_odd odd_one

theorem big_split : (2 : ℝ) ^ 1024 = 2 ^ 54 * 2 ^ 970 := by rw [← pow_add]

theorem rep_max : Rep (2 ^ 1024 - 2 ^ 971) := by
  refine ⟨2 ^ 53 - 1, 971, by norm_num, by norm_num, ?_⟩
  rw [show (2 : ℚ) ^ (971 : ℤ) = 2 ^ 971 from zpow_natCast _ _, show (1024 : ℕ) = 53 + 971 by norm_num only, pow_add]
  push_cast; ring

theorem rnVal_threshold : rnVal ((2 : ℝ) ^ 1024 - 2 ^ 970) = 2 ^ 1024 := by
  have h970 : (0 : ℝ) < 2 ^ 970 := by positivity
  have hpos : (0 : ℝ) < 2 ^ 1024 - 2 ^ 970 := by
    rw [big_split]; generalize (2 : ℝ) ^ 970 = b at *; linarith
  have hlog : Int.log 2 |(2 : ℝ) ^ 1024 - 2 ^ 970| = 1023 := by
    rw [abs_of_pos hpos]
    refine log_eq ?_ ?_
    · rw [show (2 : ℝ) ^ (1023 : ℤ) = 2 ^ 53 * 2 ^ 970 from by
        rw [← pow_add]; exact zpow_natCast _ _, big_split]
      generalize (2 : ℝ) ^ 970 = b at *; linarith
    · rw [show (2 : ℝ) ^ (1023 + 1 : ℤ) = 2 ^ 1024 from zpow_natCast _ 1024]
      exact sub_lt_self _ h970
  have hu : ulpExp ((2 : ℝ) ^ 1024 - 2 ^ 970) = 971 := by
    unfold ulpExp; rw [hlog]; norm_num
  have h971 : (2 : ℝ) ^ (971 : ℤ) = 2 * 2 ^ 970 := by
    rw [mul_comm, ← pow_succ]; exact zpow_natCast _ _
  have ht : ((2 : ℝ) ^ 1024 - 2 ^ 970) / 2 ^ (971 : ℤ) = 2 ^ 53 - 1 / 2 := by
    rw [h971, big_split]
    generalize (2 : ℝ) ^ 970 = b at *
    field_simp
  have hr : rhe (((2 : ℝ) ^ 1024 - 2 ^ 970) / 2 ^ (971 : ℤ)) = 2 ^ 53 := by
    rw [ht]
    refine rhe_eq (Or.inr ⟨?_, by decide⟩)
    rw [show (2 : ℝ) ^ 53 - 1 / 2 - ((2 ^ 53 : ℤ) : ℝ) = -(1 / 2) from by push_cast; ring, abs_neg]
    norm_num
  unfold rnVal
  rw [hu, hr, show (2 : ℚ) ^ (971 : ℤ) = 2 ^ 971 from zpow_natCast _ _, show (1024 : ℕ) = 53 + 971 by norm_num only,
    pow_add]
  push_cast; ring

theorem overflow_iff (x : ℝ) : |rnVal x| < 2 ^ 1024 ↔ |x| < 2 ^ 1024 - 2 ^ 970 := by
  rw [← rnVal_abs]
  have h0 := abs_nonneg x
  generalize |x| = y at *
  constructor
  · intro h
    by_contra hc
    have := rnVal_mono (not_lt.1 hc)
    rw [rnVal_threshold] at this
    exact absurd h (not_lt.2 this)
  · intro h
    by_contra hc
    rw [not_lt] at hc
    have h1 := rnVal_nearest y rep_max
    have hc' : (2 : ℝ) ^ 1024 ≤ rnVal y := by
      have := (Rat.cast_le (K := ℝ)).2 hc
      rwa [Rat.cast_pow, Rat.cast_ofNat] at this
    rw [Rat.cast_sub, Rat.cast_pow, Rat.cast_pow, Rat.cast_ofNat] at h1
    have h971 : (2 : ℝ) ^ 971 = 2 * 2 ^ 970 := by rw [mul_comm, ← pow_succ]
    have h970 : (0 : ℝ) < 2 ^ 970 := by positivity
    rw [h971] at h1
    clear h971 hc
    generalize (2 : ℝ) ^ 970 = b at *
    generalize (2 : ℝ) ^ 1024 = c at *
    rw [abs_of_nonneg (by linarith)] at h1
    rcases abs_cases (c - 2 * b - y) with ⟨e, _⟩ | ⟨e, _⟩ <;> rw [e] at h1 <;> linarith

theorem rounded_sign {x : ℝ} (hx : x ≠ 0) : (roundTo x).signbit = decide (x < 0) := by
  unfold roundTo
  rw [dif_neg hx]
  split_ifs with h0 h1
  · rfl
  · show decide (rnVal x < 0) = _
    rw [decide_eq_decide]
    rcases lt_or_gt_of_ne hx with h | h
    · exact iff_of_true (lt_of_le_of_ne (rnVal_nonpos h.le) h0) h
    · exact iff_of_false (not_lt.2 (rnVal_nonneg h.le)) (not_lt.2 h.le)
  · rfl

/-- **C94.** The rounding of the model is rounding to nearest, ties to even, of the standard. -/
theorem C94_rounding {x : ℝ} (hx : x ≠ 0) : RoundsTo x (roundTo x) := by
  rcases lt_or_ge |x| (2 ^ 1024 - 2 ^ 970) with h | h
  · have hr := (overflow_iff x).2 h
    obtain ⟨h1, h2⟩ := roundTo_value hr
    refine Or.inr ⟨h, h1, rounded_sign hx, fun z _ => ?_, fun z _ hne he => ?_⟩
    · rw [h2]; exact rnVal_nearest x value_rep
    · rw [h2] at hne he
      obtain ⟨n, -, -, h5, -⟩ := tie hx value_rep hne he
      by_cases h0 : rnVal x = 0
      · have : roundTo x = .zero (decide (x < 0)) := by unfold roundTo; rw [dif_neg hx, dif_pos h0]
        rw [this]
        obtain ⟨w, a, b, c⟩ := fields (decide (x < 0)) 0 0 (by norm_num) (by norm_num)
        exact ⟨w, ⟨b, c, a⟩, by rw [c]; exact Even.zero⟩
      · have hf := rnVal_isFin x hx h0 hr
        rw [roundTo_of_fin hx rfl hf]
        obtain ⟨w, hw, ht⟩ := enc_of hf (rhe_scaled_abs x) (ulpExp_ge x) (by
          rcases lt_or_eq_of_le (ulpExp_ge x) with h | h
          · exact Or.inl (rhe_scaled_ge x hx h)
          · exact Or.inr h.symm) rfl
        exact ⟨w, hw, ht h5⟩
  · refine Or.inl ⟨h, ?_⟩
    have hr := mt (overflow_iff x).1 (not_lt.2 h)
    have h0 : rnVal x ≠ 0 := by
      intro e
      rw [e, abs_zero] at hr
      exact hr (by positivity)
    unfold roundTo
    rw [dif_neg hx, dif_neg h0, dif_neg hr]

/-- The sum of the trailing significand and the value of a number on its grid. -/
theorem enc_odd {v : ℚ} {hv : IsFin v} {m e : ℤ} (hm : |m| < 2 ^ 53) (he : -1074 ≤ e)
    (hn : 2 ^ 52 ≤ |m| ∨ e = -1074) (h : v = m * (2 : ℚ) ^ e) {w : BitVec 64}
    (hw : Encodes w (.fin v hv)) : Even (fracOf w) ↔ Even m := by
  have hva : |v| = (|m| : ℤ) * (2 : ℚ) ^ e := by
    rw [h, abs_mul, abs_of_pos (two_zpow_pos (K := ℚ) e), Int.cast_abs]
  obtain ⟨n, hn'⟩ : ∃ n : ℕ, |m| = n := ⟨m.natAbs, Int.abs_eq_natAbs m⟩
  have hev : Even m ↔ Even n := by
    rw [← even_abs, hn', Int.even_coe_nat]
  rw [hn'] at hm hn hva
  rw [Int.cast_natCast] at hva
  rw [hev]
  have f1 := fracOf_lt w
  have hm' : n < 2 ^ 53 := by exact_mod_cast hm
  rcases (enc_abs hw).2 with ⟨a, b, c⟩ | ⟨a, b, c⟩
  · rw [hva] at c
    rcases lt_or_eq_of_le he with h1 | h1
    · have h2 : 2 ^ 52 ≤ n := by
        rcases hn with h3 | h3
        · exact_mod_cast h3
        · omega
      exact (mant_unique h2 (by omega) c h1).elim
    · rw [← h1] at c
      have : n = fracOf w := by exact_mod_cast mul_right_cancel₀ (two_zpow_pos _).ne' c
      rw [this]
  · rw [hva] at c
    have c' : (n : ℚ) * 2 ^ e = ((2 ^ 52 + fracOf w : ℕ) : ℚ) * 2 ^ ((expOf w : ℤ) - 1075) := by
      rw [c]; push_cast; rfl
    have key : n = 2 ^ 52 + fracOf w := by
      rcases lt_trichotomy e ((expOf w : ℤ) - 1075) with h1 | h1 | h1
      · exact (mant_unique (by omega) hm' c'.symm h1).elim
      · rw [h1] at c'
        exact_mod_cast mul_right_cancel₀ (two_zpow_pos _).ne' c'
      · have h2 : 2 ^ 52 ≤ n := by
          rcases hn with h3 | h3
          · exact_mod_cast h3
          · omega
        exact (mant_unique h2 (by omega) c' h1).elim
    rw [key, Nat.even_add]
    exact ⟨fun h => iff_of_true (by decide) h, fun h => h.1 (by decide)⟩

theorem fin_eq {x y : F64} (hx : x.Finite) (hy : y.Finite) (hs : x.signbit = y.signbit)
    (hv : x.value = y.value) : x = y := by
  cases x with
  | nan => exact hx.elim
  | inf s => exact hx.elim
  | zero s =>
    cases y with
    | nan => exact hy.elim
    | inf s => exact hy.elim
    | zero t => exact congrArg _ hs
    | fin v h => exact absurd hv.symm h.1
  | fin v h =>
    cases y with
    | nan => exact hy.elim
    | inf s => exact hy.elim
    | zero t => exact absurd hv h.1
    | fin u h' => cases hv; rfl

/-- **C94.** The specification of rounding has one solution. -/
theorem C94_rounding_unique {x : ℝ} (hx : x ≠ 0) {y : F64} (h : RoundsTo x y) : y = roundTo x := by
  have h' := C94_rounding hx
  rcases h with ⟨a, b⟩ | ⟨a1, a2, a3, a4, a5⟩
  · rcases h' with ⟨c, d⟩ | ⟨c, -⟩
    · rw [b, d]
    · exact absurd c (not_lt.2 a)
  · rcases h' with ⟨c, -⟩ | ⟨c1, c2, c3, c4, c5⟩
    · exact absurd a1 (not_lt.2 c)
    · refine fin_eq a2 c2 (a3.trans c3.symm) ?_
      by_contra hne
      have heq := le_antisymm (a4 _ c2) (c4 _ a2)
      obtain ⟨w, hw, hev⟩ := a5 _ c2 (Ne.symm hne) heq.symm
      have hr := (overflow_iff x).2 a1
      rw [(roundTo_value hr).2] at hne heq
      obtain ⟨n, h1, h2, -, h4⟩ := tie hx value_rep hne heq
      have hn0 : n ≠ 0 := by rintro rfl; simp at h4
      have hyv : y.value ≠ 0 := by
        rw [h1]; exact mul_ne_zero (by exact_mod_cast hn0) (two_zpow_pos _).ne'
      have hsc := scaled_abs x
      have hge : -1074 < ulpExp x → 2 ^ 52 ≤ |x / (2 : ℝ) ^ ulpExp x| := fun hu => by
        rw [abs_div, abs_of_pos (two_zpow_pos (K := ℝ) (ulpExp x)), le_div_iff₀ (two_zpow_pos _)]
        have := ulp_le_abs x hx hu
        rw [zpow_add₀ (by norm_num), mul_comm] at this
        exact_mod_cast this
      have u1 : |(n : ℝ)| ≤ |x / (2 : ℝ) ^ ulpExp x| + 1 / 2 := by
        rw [← h2, abs_sub_comm]
        have := abs_add_le (x / (2 : ℝ) ^ ulpExp x) (n - x / (2 : ℝ) ^ ulpExp x)
        rwa [add_sub_cancel] at this
      have u2 : |x / (2 : ℝ) ^ ulpExp x| ≤ |(n : ℝ)| + 1 / 2 := by
        rw [← h2]
        have := abs_add_le (n : ℝ) (x / (2 : ℝ) ^ ulpExp x - n)
        rwa [add_sub_cancel] at this
      have b1 : |n| < 2 ^ 53 := by
        have e1 : |(n : ℝ)| < 2 ^ 53 + 1 := by linarith
        have e2 : |n| < 2 ^ 53 + 1 := by exact_mod_cast e1
        have e3 : |n| ≠ 2 ^ 53 := by
          intro e
          have : Odd |n| := odd_abs.2 h4
          rw [e] at this
          exact absurd this (by decide)
        omega
      have b2 : 2 ^ 52 ≤ |n| ∨ ulpExp x = -1074 := by
        rcases lt_or_eq_of_le (ulpExp_ge x) with hu | hu
        · left
          have e1 : (2 : ℝ) ^ 52 - 1 < |(n : ℝ)| := by have := hge hu; linarith
          have e2 : (2 : ℤ) ^ 52 - 1 < |n| := by exact_mod_cast e1
          omega
        · exact Or.inr hu.symm
      cases y with
      | nan => exact hyv rfl
      | inf s => exact hyv rfl
      | zero s => exact hyv rfl
      | fin v hv =>
        have := (enc_odd b1 (ulpExp_ge x) b2 h1 hw).1 hev
        rw [← Int.not_even_iff_odd] at h4
        exact h4 this

/-! ## Operations -/

theorem rat_rounding {q : ℚ} (hq : q ≠ 0) : RoundsTo (q : ℝ) (roundTo q) := by
  rw [← roundTo_ratCast (K := ℝ) q hq]
  exact C94_rounding (by exact_mod_cast hq)

/-- **C94.** `x + y` -/
theorem C94_add (x y : F64) :
    (x = .nan ∨ y = .nan → x + y = .nan) ∧
    (∀ s t, x = .inf s → y = .inf t → x + y = if s = t then .inf s else .nan) ∧
    (∀ s, x = .inf s → y.Finite → x + y = .inf s) ∧
    (∀ t, x.Finite → y = .inf t → x + y = .inf t) ∧
    (x.Finite → y.Finite → x.value + y.value = 0 → x + y = .zero (x.signbit && y.signbit)) ∧
    (x.Finite → y.Finite → x.value + y.value ≠ 0 → RoundsTo (x.value + y.value : ℚ) (x + y)) := by
  refine ⟨?_, ?_, ?_, ?_, ?_, ?_⟩
  · rintro (rfl | rfl)
    · rfl
    · cases x <;> rfl
  · rintro s t rfl rfl; rfl
  · rintro s rfl hy
    cases y <;> first | exact hy.elim | rfl
  · rintro t hx rfl
    cases x <;> first | exact hx.elim | rfl
  · intro hx hy h
    have e : x + y = addFin x y := by
      cases x <;> cases y <;> first | exact hx.elim | exact hy.elim | rfl
    rw [e, addFin, if_pos h]
  · intro hx hy h
    have e : x + y = addFin x y := by
      cases x <;> cases y <;> first | exact hx.elim | exact hy.elim | rfl
    rw [e, addFin, if_neg h]
    exact rat_rounding h

/-- **C94.** `x - y` -/
theorem C94_sub (x y : F64) :
    (x = .nan ∨ y = .nan → x - y = .nan) ∧
    (∀ s t, x = .inf s → y = .inf t → x - y = if s = t then .nan else .inf s) ∧
    (∀ s, x = .inf s → y.Finite → x - y = .inf s) ∧
    (∀ t, x.Finite → y = .inf t → x - y = .inf !t) ∧
    (x.Finite → y.Finite → x.value = y.value → (y.value = 0 → x - y = .zero (x.signbit && !y.signbit)) ∧
      (y.value ≠ 0 → x - y = .zero false)) ∧
    (x.Finite → y.Finite → x.value ≠ y.value → RoundsTo (x.value - y.value : ℚ) (x - y)) := by
  have e : x - y = x + -y := rfl
  have hvn : (-y).value = -y.value := neg_value y
  have hfn : y.Finite → (-y).Finite := neg_finite
  obtain ⟨a1, a2, a3, a4, a5, a6⟩ := C94_add x (-y)
  refine ⟨?_, ?_, ?_, ?_, ?_, ?_⟩
  · rintro (rfl | rfl)
    · rfl
    · rw [e]; exact a1 (Or.inr rfl)
  · rintro s t rfl rfl
    cases s <;> cases t <;> rfl
  · rintro s rfl hy
    exact a3 s rfl (hfn hy)
  · rintro t hx rfl
    exact a4 (!t) hx rfl
  · intro hx hy h
    have h5 := a5 hx (hfn hy) (by rw [hvn, h, add_neg_cancel])
    constructor
    · intro h0
      rw [e, h5]
      cases y with
      | nan => exact hy.elim
      | inf s => exact hy.elim
      | zero s => rfl
      | fin v hv => exact absurd h0 hv.1
    · intro h0
      rw [e, h5]
      cases y with
      | nan => exact hy.elim
      | inf s => exact hy.elim
      | zero s => exact absurd rfl h0
      | fin v hv =>
        cases x with
        | nan => exact hx.elim
        | inf s => exact hx.elim
        | zero s => exact absurd h.symm h0
        | fin u hu =>
          have h' : u = v := h
          subst h'
          congr 1
          show (decide (u < 0) && decide (-u < 0)) = false
          rw [← Bool.decide_and, decide_eq_false_iff_not]
          rintro ⟨b1, b2⟩
          linarith
  · intro hx hy h
    have := a6 hx (hfn hy) (by rw [hvn, ← sub_eq_add_neg]; exact sub_ne_zero.2 h)
    rwa [hvn, ← sub_eq_add_neg] at this

/-- **C94.** `x * y` -/
theorem C94_mul (x y : F64) :
    (x = .nan ∨ y = .nan → x * y = .nan) ∧
    (∀ s, (x = .inf s ∧ y.Finite ∧ y.value = 0) ∨ (y = .inf s ∧ x.Finite ∧ x.value = 0) → x * y = .nan) ∧
    (∀ s, (x = .inf s ∧ y ≠ .nan ∧ (y.Finite → y.value ≠ 0)) ∨
      (y = .inf s ∧ x ≠ .nan ∧ (x.Finite → x.value ≠ 0)) → x * y = .inf (xor x.signbit y.signbit)) ∧
    (x.Finite → y.Finite → x.value * y.value = 0 → x * y = .zero (xor x.signbit y.signbit)) ∧
    (x.Finite → y.Finite → x.value * y.value ≠ 0 → RoundsTo (x.value * y.value : ℚ) (x * y)) := by
  refine ⟨?_, ?_, ?_, ?_, ?_⟩
  · rintro (rfl | rfl)
    · rfl
    · cases x <;> rfl
  · rintro s (⟨rfl, h, h0⟩ | ⟨rfl, h, h0⟩)
    · cases y <;> first | exact h.elim | rfl | exact absurd h0 (by rename_i hv; exact hv.1)
    · cases x <;> first | exact h.elim | rfl | exact absurd h0 (by rename_i hv; exact hv.1)
  · rintro s (⟨rfl, h, h0⟩ | ⟨rfl, h, h0⟩)
    · cases y <;> first | exact absurd rfl h | exact absurd rfl (h0 trivial) | rfl
    · cases x <;> first | exact absurd rfl h | exact absurd rfl (h0 trivial) | rfl
  · intro hx hy h
    have e : x * y = mulFin x y := by
      cases x <;> cases y <;> first | exact hx.elim | exact hy.elim | rfl
    rw [e, mulFin, if_pos h]
  · intro hx hy h
    have e : x * y = mulFin x y := by
      cases x <;> cases y <;> first | exact hx.elim | exact hy.elim | rfl
    rw [e, mulFin, if_neg h]
    exact rat_rounding h

/-- **C94.** `x / y` -/
theorem C94_div (x y : F64) :
    (x = .nan ∨ y = .nan → x / y = .nan) ∧
    (∀ s t, x = .inf s → y = .inf t → x / y = .nan) ∧
    (x.Finite → y.Finite → x.value = 0 → y.value = 0 → x / y = .nan) ∧
    (∀ s, x = .inf s → y.Finite → x / y = .inf (xor s y.signbit)) ∧
    (∀ t, x.Finite → y = .inf t → x / y = .zero (xor x.signbit t)) ∧
    (x.Finite → y.Finite → x.value ≠ 0 → y.value = 0 → x / y = .inf (xor x.signbit y.signbit)) ∧
    (x.Finite → y.Finite → x.value = 0 → y.value ≠ 0 → x / y = .zero (xor x.signbit y.signbit)) ∧
    (x.Finite → y.Finite → x.value ≠ 0 → y.value ≠ 0 → RoundsTo (x.value / y.value : ℚ) (x / y)) := by
  refine ⟨?_, ?_, ?_, ?_, ?_, ?_, ?_, ?_⟩
  · rintro (rfl | rfl)
    · rfl
    · cases x <;> rfl
  · rintro s t rfl rfl; rfl
  · intro hx hy h1 h2
    cases x with
    | nan => exact hx.elim
    | inf s => exact hx.elim
    | fin v hv => exact absurd h1 hv.1
    | zero s =>
      cases y with
      | nan => exact hy.elim
      | inf s => exact hy.elim
      | fin v hv => exact absurd h2 hv.1
      | zero s => rfl
  · rintro s rfl hy
    cases y <;> first | exact hy.elim | rfl
  · rintro t hx rfl
    cases x <;> first | exact hx.elim | rfl
  · intro hx hy h1 h2
    cases x with
    | nan => exact hx.elim
    | inf s => exact hx.elim
    | zero s => exact absurd rfl h1
    | fin v hv =>
      cases y with
      | nan => exact hy.elim
      | inf s => exact hy.elim
      | fin v hv => exact absurd h2 hv.1
      | zero s => rfl
  · intro hx hy h1 h2
    cases x with
    | nan => exact hx.elim
    | inf s => exact hx.elim
    | fin v hv => exact absurd h1 hv.1
    | zero s =>
      cases y with
      | nan => exact hy.elim
      | inf s => exact hy.elim
      | fin v hv => rfl
      | zero s => exact absurd rfl h2
  · intro hx hy h1 h2
    cases x with
    | nan => exact hx.elim
    | inf s => exact hx.elim
    | zero s => exact absurd rfl h1
    | fin v hv =>
      cases y with
      | nan => exact hy.elim
      | inf s => exact hy.elim
      | zero s => exact absurd rfl h2
      | fin u hu => exact rat_rounding (div_ne_zero hv.1 hu.1)

/-- **C94.** `std::sqrt(x)` -/
theorem C94_sqrt (x : F64) :
    (x = .nan → Dbl.sqrt x = .nan) ∧ (x = .inf true → Dbl.sqrt x = .nan) ∧
    (x = .inf false → Dbl.sqrt x = .inf false) ∧
    (x.Finite → x.value = 0 → Dbl.sqrt x = x) ∧
    (x.Finite → x.value < 0 → Dbl.sqrt x = .nan) ∧
    (x.Finite → 0 < x.value → RoundsTo (√(x.value : ℝ)) (Dbl.sqrt x)) := by
  refine ⟨?_, ?_, ?_, ?_, ?_, ?_⟩
  · rintro rfl; rfl
  · rintro rfl; rfl
  · rintro rfl; rfl
  · intro hx h
    cases x with
    | nan => exact hx.elim
    | inf s => exact hx.elim
    | zero s => rfl
    | fin v hv => exact absurd h hv.1
  · intro hx h
    cases x with
    | nan => exact hx.elim
    | inf s => exact hx.elim
    | zero s => exact absurd h (lt_irrefl _)
    | fin v hv =>
      show (if v < 0 then F64.nan else roundTo (√(v : ℝ))) = .nan
      exact if_pos h
  · intro hx h
    cases x with
    | nan => exact hx.elim
    | inf s => exact hx.elim
    | zero s => exact absurd h (lt_irrefl _)
    | fin v hv =>
      show RoundsTo _ (if v < 0 then F64.nan else roundTo (√(v : ℝ)))
      rw [if_neg (show ¬ v < 0 from not_lt.2 h.le)]
      exact C94_rounding (Real.sqrt_ne_zero'.2 (by exact_mod_cast h))

/-- **C94.** The fused multiply-add. -/
theorem C94_fma (x y z : F64) :
    (x = .nan ∨ y = .nan ∨ z = .nan → F64.fma x y z = .nan) ∧
    (∀ s, x.Finite → y.Finite → z = .inf s → F64.fma x y z = .inf s) ∧
    (¬(x.Finite ∧ y.Finite) → F64.fma x y z = x * y + z) ∧
    (x.Finite → y.Finite → z.Finite → x.value * y.value + z.value = 0 →
      F64.fma x y z = .zero (xor x.signbit y.signbit && z.signbit)) ∧
    (x.Finite → y.Finite → z.Finite → x.value * y.value + z.value ≠ 0 →
      RoundsTo (x.value * y.value + z.value : ℚ) (F64.fma x y z)) := by
  have fin : ∀ {x : F64}, x.Finite → x.isFin = true := by
    intro x h; cases x <;> first | exact h.elim | rfl
  have nfin : ∀ {x : F64}, ¬x.Finite → x.isFin = false := by
    intro x h; cases x <;> first | rfl | exact absurd trivial h
  have out : ¬(x.Finite ∧ y.Finite) → F64.fma x y z = x * y + z := by
    intro h
    unfold F64.fma
    rw [if_neg]
    · rfl
    · intro hc
      rw [Bool.and_eq_true] at hc
      refine h ⟨?_, ?_⟩
      · by_contra h1; rw [nfin h1] at hc; exact absurd hc.1 (by decide)
      · by_contra h1; rw [nfin h1] at hc; exact absurd hc.2 (by decide)
  refine ⟨?_, ?_, out, ?_, ?_⟩
  · rintro (rfl | rfl | rfl)
    · rw [out (fun h => h.1)]; rfl
    · rw [out (fun h => h.2), (C94_mul x .nan).1 (Or.inr rfl)]; rfl
    · by_cases h : x.Finite ∧ y.Finite
      · unfold F64.fma; rw [fin h.1, fin h.2]; rfl
      · rw [out h]; exact (C94_add _ .nan).1 (Or.inr rfl)
  · rintro s hx hy rfl
    unfold F64.fma; rw [fin hx, fin hy]; rfl
  · intro hx hy hz h
    unfold F64.fma
    rw [fin hx, fin hy, fin hz, Bool.and_true, if_pos rfl, if_pos rfl, if_pos h]
  · intro hx hy hz h
    unfold F64.fma
    rw [fin hx, fin hy, fin hz, Bool.and_true, if_pos rfl, if_pos rfl, if_neg h]
    exact rat_rounding h

/-- **C94.** A literal of the source is the double next to it. -/
theorem C94_literal (q : ℚ) : (q = 0 → (Dbl.lit q : F64) = .zero false) ∧
    (q ≠ 0 → RoundsTo (q : ℝ) (Dbl.lit q)) := by
  refine ⟨?_, rat_rounding⟩
  rintro rfl
  show roundTo (0 : ℚ) = _
  unfold roundTo
  rw [dif_pos rfl]

/-- **C94.** `x < y` and `x == y` are the order and equality of the extended real line (so `-0 == 0`),
and false if an operand is NaN. -/
theorem C94_compare (x y : F64) :
    (Dbl.lt x y = true ↔ x ≠ .nan ∧ y ≠ .nan ∧ place x < place y) ∧
    (Dbl.feq x y = true ↔ x ≠ .nan ∧ y ≠ .nan ∧ place x = place y) := by
  show (F64.lt x y = true ↔ _) ∧ (F64.feq x y = true ↔ _)
  have c1 : ∀ a b : ℚ, decide (a < b) = true ↔ (((a : ℝ) : EReal) < ((b : ℝ) : EReal)) := by
    intro a b; rw [decide_eq_true_iff, EReal.coe_lt_coe_iff, Rat.cast_lt]
  have c2 : ∀ a b : ℚ, decide (a = b) = true ↔ (((a : ℝ) : EReal) = ((b : ℝ) : EReal)) := by
    intro a b; rw [decide_eq_true_iff, EReal.coe_eq_coe_iff, Rat.cast_inj]
  rcases x with _ | (_ | _) | _ | ⟨v, hv⟩ <;> rcases y with _ | (_ | _) | _ | ⟨u, hu⟩ <;>
    simp [F64.lt, F64.feq, place, c1, c2, EReal.coe_lt_top, EReal.bot_lt_coe]

/-! ## Cases -/

/-- The word of `1.0`. -/
example : Encodes 0x3FF0000000000000#64 1 := by
  rw [one_eq]
  refine Or.inr ⟨by decide, by decide, ?_⟩
  have h1 : expOf 0x3FF0000000000000#64 = 1023 := by decide
  have h2 : fracOf 0x3FF0000000000000#64 = 0 := by decide
  have h3 : signOf 0x3FF0000000000000#64 = false := by decide
  rw [unit, h1, h2, h3]
  norm_num

/-- **C94.** The word of `g3::pi` (that of `M_PI`). -/
theorem C94_pi_word : Encodes 0x400921FB54442D18#64 (Dbl.pi F64) := by
  rw [pi_eq]
  refine Or.inr ⟨by decide, by decide, ?_⟩
  have h1 : expOf 0x400921FB54442D18#64 = 1024 := by decide
  have h2 : fracOf 0x400921FB54442D18#64 = 0x921FB54442D18 := by decide
  have h3 : signOf 0x400921FB54442D18#64 = false := by decide
  rw [unit, h1, h2, h3, piNum]
  norm_num

/-- Opposite infinities, `-0 == 0` and `-0` as a sum. -/
example : (F64.inf false + F64.inf true = .nan) ∧ Dbl.feq (F64.zero true) (F64.zero false) = true ∧
    F64.zero true + F64.zero true = .zero true ∧ F64.zero true + F64.zero false = .zero false :=
  ⟨rfl, by simp [C94_compare, place, F64.value],
    (C94_add (.zero true) (.zero true)).2.2.2.2.1 trivial trivial (add_zero 0),
    (C94_add (.zero true) (.zero false)).2.2.2.2.1 trivial trivial (add_zero 0)⟩

/-- A tie: `2^53 + 1` is half way between `2^53` and `2^53 + 2`; both are doubles, and the result has
the even significand. -/
example : ∃ y z : F64, RoundsTo (2 ^ 53 + 1) y ∧ y.Finite ∧ z.Finite ∧ y.value = 2 ^ 53 ∧
    z.value = 2 ^ 53 + 2 ∧ |(z.value : ℝ) - (2 ^ 53 + 1)| = |(y.value : ℝ) - (2 ^ 53 + 1)| := by
  have hv : rnVal ((2 : ℝ) ^ 53 + 1) = 2 ^ 53 := by
    have hu : ulpExp ((2 : ℝ) ^ 53 + 1) = 1 := by
      unfold ulpExp
      rw [abs_of_pos (by positivity), log_eq (n := 53) (by norm_num) (by norm_num)]
      norm_num
    unfold rnVal
    rw [hu, rhe_eq (n := 2 ^ 52) (Or.inr ⟨?_, by decide⟩)]
    · norm_num
    · rw [show ((2 : ℝ) ^ 53 + 1) / 2 ^ (1 : ℤ) - ((2 ^ 52 : ℤ) : ℝ) = 1 / 2 from by norm_num]
      norm_num
  have hz : IsFin (2 ^ 53 + 2) := ⟨by norm_num, 2 ^ 52 + 1, 1, by norm_num, by norm_num, by norm_num, by norm_num⟩
  have h0 : (2 : ℝ) ^ 53 + 1 ≠ 0 := by positivity
  obtain ⟨h1, h2⟩ := roundTo_value (x := (2 : ℝ) ^ 53 + 1) (by
    rw [hv, abs_of_pos (by positivity)]; exact pow_lt_pow_right₀ (by norm_num) (by norm_num))
  rw [hv] at h2
  refine ⟨_, .fin _ hz, C94_rounding h0, h1, trivial, h2, rfl, ?_⟩
  rw [h2]
  show |(((2 : ℚ) ^ 53 + 2 : ℚ) : ℝ) - _| = _
  push_cast
  norm_num


end Engabra
