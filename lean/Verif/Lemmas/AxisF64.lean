import Verif.Props.C34_Direction
import Verif.Props.C38_Constants

/-! Binary64 lemmas for objects with one dominant component. -/

namespace Engabra

open F64 (Finite HasVal)

/-- The square of a double, rounded, has that double as its rounded root. -/
theorem sqrt_sq_exact {v : ℚ} (hr : F64.Rep v) (hv : (2 : ℚ) ^ (-500 : ℤ) ≤ v) :
    F64.rnVal (√((F64.rnVal (v * v) : ℚ) : ℝ)) = v := by
  have hv0 : 0 < v := lt_of_lt_of_le (F64.two_zpow_pos _) hv
  obtain ⟨n, h1, h2⟩ : ∃ n : ℤ, (2 : ℚ) ^ n ≤ v ∧ v < 2 ^ (n + 1) :=
    ⟨Int.log 2 v, Int.zpow_log_le_self (by norm_num) hv0, Int.lt_zpow_succ_log_self (by norm_num) v⟩
  have hn : -500 ≤ n := by
    by_contra hc
    have : (2 : ℚ) ^ (n + 1) ≤ 2 ^ (-500 : ℤ) := zpow_le_zpow_right₀ (by norm_num) (by omega)
    linarith
  rcases h1.eq_or_lt with h1' | h1'
  · have e : v * v = (2 : ℚ) ^ (2 * n) := by rw [← h1', ← zpow_add₀ (by norm_num)]; congr 1; ring
    rw [e, F64.rnVal_exact (F64.rep_pow _ (by omega))]
    have e2 : √(((2 : ℚ) ^ (2 * n) : ℚ) : ℝ) = (((2 : ℚ) ^ n : ℚ) : ℝ) := by
      rw [cast_zpow, cast_zpow, two_mul, zpow_add₀ (by norm_num)]
      exact Real.sqrt_mul_self (F64.two_zpow_pos _).le
    rw [e2, F64.rnVal_ratCast', F64.rnVal_exact (F64.rep_pow _ (by omega)), h1']
  -- the significand
  obtain ⟨m, hm⟩ : ∃ m : ℤ, v = m * (2 : ℚ) ^ (n - 52) := by
    obtain ⟨m, e, hm, he, hv⟩ := hr
    have hle : n - 52 ≤ e := by
      by_contra hc
      have a1 : v ≤ 2 ^ (53 : ℤ) * (2 : ℚ) ^ e := by
        rw [hv]
        refine mul_le_mul_of_nonneg_right ?_ (F64.two_zpow_pos _).le
        have : (m : ℚ) ≤ (2 : ℚ) ^ 53 := by exact_mod_cast (le_abs_self m).trans hm
        exact_mod_cast this
      rw [← zpow_add₀ (by norm_num)] at a1
      have a2 : (2 : ℚ) ^ (53 + e) ≤ 2 ^ n := zpow_le_zpow_right₀ (by norm_num) (by omega)
      linarith
    refine ⟨m * 2 ^ (e - (n - 52)).toNat, ?_⟩
    rw [hv]
    push_cast
    rw [← zpow_natCast, Int.toNat_of_nonneg (by omega), mul_assoc, ← zpow_add₀ (by norm_num)]
    congr 2; ring
  have p52 := F64.two_zpow_pos (K := ℚ) (n - 52)
  have e52 : (2 : ℚ) ^ n = 2 ^ 52 * 2 ^ (n - 52) := by
    rw [← zpow_natCast, ← zpow_add₀ (by norm_num)]; congr 1; push_cast; ring
  have e53 : (2 : ℚ) ^ (n + 1) = 2 ^ 53 * 2 ^ (n - 52) := by
    rw [← zpow_natCast, ← zpow_add₀ (by norm_num)]; congr 1; push_cast; ring
  have hm1 : (2 ^ 52 + 1 : ℚ) ≤ m := by
    rw [hm, e52] at h1'
    have := lt_of_mul_lt_mul_right h1' p52.le
    have : (2 ^ 52 : ℤ) < m := by exact_mod_cast this
    exact_mod_cast this
  have hm2 : (m : ℚ) ≤ 2 ^ 53 - 1 := by
    rw [hm, e53] at h2
    have := lt_of_mul_lt_mul_right h2 p52.le
    have : m < (2 ^ 53 : ℤ) := by exact_mod_cast this
    have : m ≤ 2 ^ 53 - 1 := by omega
    exact_mod_cast this
  -- the root is within half a unit
  have hrel := F64.rn_rel (K := ℚ) (x := v * v) (by
    rw [abs_mul_self]
    calc (2 : ℚ) ^ (-1022 : ℤ) ≤ 2 ^ (-500 : ℤ) * 2 ^ (-500 : ℤ) := by
          rw [← zpow_add₀ (by norm_num)]; exact zpow_le_zpow_right₀ (by norm_num) (by norm_num)
      _ ≤ v * v := mul_le_mul hv hv (F64.two_zpow_pos _).le hv0.le)
  rw [abs_mul_self, Rat.cast_id] at hrel
  have hrelR : |((F64.rnVal (v * v) : ℚ) : ℝ) - (v : ℝ) * v| ≤ 2 ^ (-53 : ℤ) * ((v : ℝ) * v) := by
    have := (Rat.cast_le (K := ℝ)).2 hrel
    rw [Rat.cast_abs, Rat.cast_sub, Rat.cast_mul, Rat.cast_mul, cast_zpow, Rat.cast_mul] at this
    exact this
  generalize hq : ((F64.rnVal (v * v) : ℚ) : ℝ) = q at *
  have hvR : (0 : ℝ) < v := by exact_mod_cast hv0
  have hq0 : 0 ≤ q := by
    have a := (abs_le.1 hrelR).1
    have b : (2 : ℝ) ^ (-53 : ℤ) * ((v : ℝ) * v) ≤ 1 * ((v : ℝ) * v) :=
      mul_le_mul_of_nonneg_right (by norm_num) (by positivity)
    linarith
  have hs0 := Real.sqrt_nonneg q
  have hss := Real.mul_self_sqrt hq0
  generalize √q = s at *
  rw [← hss] at hrelR
  have P52 : (0 : ℝ) < 2 ^ (n - 52) := F64.two_zpow_pos _
  have hmR : (v : ℝ) = m * (2 : ℝ) ^ (n - 52) := by
    rw [hm, Rat.cast_mul, cast_zpow, Rat.cast_intCast]
  have hm1R : (2 ^ 52 + 1 : ℝ) ≤ m := by exact_mod_cast hm1
  have hm2R : (m : ℝ) ≤ 2 ^ 53 - 1 := by exact_mod_cast hm2
  -- in units of the last place
  obtain ⟨t, ht⟩ : ∃ t : ℝ, s = t * 2 ^ (n - 52) := ⟨s / 2 ^ (n - 52), by field_simp⟩
  have ht0 : 0 ≤ t := by
    rw [ht] at hs0
    exact nonneg_of_mul_nonneg_left hs0 P52
  have htm : |t * t - m * m| ≤ 2 ^ (-53 : ℤ) * ((m : ℝ) * m) := by
    rw [hmR, ht] at hrelR
    have e1 : t * 2 ^ (n - 52) * (t * 2 ^ (n - 52)) - m * 2 ^ (n - 52) * (m * 2 ^ (n - 52))
        = (t * t - m * m) * (2 ^ (n - 52) * 2 ^ (n - 52) : ℝ) := by ring
    have e2 : (2 : ℝ) ^ (-53 : ℤ) * (m * 2 ^ (n - 52) * (m * 2 ^ (n - 52)))
        = 2 ^ (-53 : ℤ) * ((m : ℝ) * m) * (2 ^ (n - 52) * 2 ^ (n - 52) : ℝ) := by ring
    rw [e1, e2, abs_mul, abs_of_pos (mul_pos P52 P52)] at hrelR
    exact le_of_mul_le_mul_right hrelR (mul_pos P52 P52)
  have hmp : (0 : ℝ) < m := by linarith
  have htm' : |t - m| < 1 / 2 := by
    obtain ⟨b1, b2⟩ := abs_le.1 htm
    have e : (2 : ℝ) ^ (-53 : ℤ) * (m * m) ≤ (1 - 2 ^ (-53 : ℤ)) * m := by
      rw [← mul_assoc]
      refine mul_le_mul_of_nonneg_right ?_ hmp.le
      calc (2 : ℝ) ^ (-53 : ℤ) * m ≤ 2 ^ (-53 : ℤ) * (2 ^ 53 - 1) :=
            mul_le_mul_of_nonneg_left hm2R (by positivity)
        _ = _ := by norm_num
    have e' : (1 - (2 : ℝ) ^ (-53 : ℤ)) * m = m - 2 ^ (-53 : ℤ) * m := by ring
    have e'' : (1 / 2 : ℝ) ≤ 2 ^ (-53 : ℤ) * m := by
      calc (1 / 2 : ℝ) = 2 ^ (-53 : ℤ) * 2 ^ 52 := by norm_num
        _ ≤ 2 ^ (-53 : ℤ) * m := mul_le_mul_of_nonneg_left (by linarith) (by positivity)
    generalize (2 : ℝ) ^ (-53 : ℤ) = x at *
    rw [abs_lt]
    constructor
    · by_contra hc
      have : t ≤ m - 1 / 2 := by linarith
      have : t * t ≤ (m - 1 / 2) * (m - 1 / 2) := mul_le_mul this this ht0 (by linarith)
      nlinarith
    · by_contra hc
      have : m + 1 / 2 ≤ t := by linarith
      have : (m + 1 / 2) * (m + 1 / 2) ≤ t * t := mul_le_mul this this (by linarith) ht0
      nlinarith
  have key := rnVal_of (x := s) (e := n - 52) (n := m) (by omega) ?_ ?_ ?_
  · rw [key, hm]
  · rw [sub_add_cancel, ht]
    have : (2 : ℝ) ^ n = 2 ^ 52 * 2 ^ (n - 52) := by
      rw [← zpow_natCast, ← zpow_add₀ (by norm_num)]; congr 1; push_cast; ring
    rw [this]
    refine mul_le_mul_of_nonneg_right ?_ P52.le
    linarith [(abs_lt.1 htm').1]
  · rw [ht]
    have : (2 : ℝ) ^ (n - 52 + 53) = 2 ^ 53 * 2 ^ (n - 52) := by
      rw [← zpow_natCast, ← zpow_add₀ (by norm_num)]; congr 1; push_cast; ring
    rw [this]
    refine mul_lt_mul_of_pos_right ?_ P52
    linarith [(abs_lt.1 htm').2]
  · rw [ht, mul_div_cancel_right₀ _ P52.ne']
    exact htm'

/-- Adding less than a quarter of a unit in the last place changes nothing. -/
theorem rn_absorb {q t : ℚ} {k : ℤ} (hr : F64.Rep q) (hk : -1022 ≤ k) (hq : (2 : ℚ) ^ k ≤ q)
    (ht0 : 0 ≤ t) (ht : t ≤ 7 * 2 ^ (k - 58)) : F64.rnVal (q + t) = q := by
  have hq0 : 0 < q := lt_of_lt_of_le (F64.two_zpow_pos _) hq
  obtain ⟨n, h1, h2⟩ : ∃ n : ℤ, (2 : ℚ) ^ n ≤ q ∧ q < 2 ^ (n + 1) :=
    ⟨Int.log 2 q, Int.zpow_log_le_self (by norm_num) hq0, Int.lt_zpow_succ_log_self (by norm_num) q⟩
  have hkn : k ≤ n := by
    by_contra hc
    have : (2 : ℚ) ^ (n + 1) ≤ 2 ^ k := zpow_le_zpow_right₀ (by norm_num) (by omega)
    linarith
  have p52 := F64.two_zpow_pos (K := ℚ) (n - 52)
  have e52 : (2 : ℚ) ^ n = 2 ^ 52 * 2 ^ (n - 52) := by
    rw [← zpow_natCast, ← zpow_add₀ (by norm_num)]; congr 1; push_cast; ring
  have e53 : (2 : ℚ) ^ (n + 1) = 2 ^ 53 * 2 ^ (n - 52) := by
    rw [← zpow_natCast, ← zpow_add₀ (by norm_num)]; congr 1; push_cast; ring
  obtain ⟨m, hm⟩ : ∃ m : ℤ, q = m * (2 : ℚ) ^ (n - 52) := by
    obtain ⟨m, e, hm, he, hv⟩ := hr
    by_cases hle : n - 52 ≤ e
    · refine ⟨m * 2 ^ (e - (n - 52)).toNat, ?_⟩
      rw [hv]
      push_cast
      rw [← zpow_natCast, Int.toNat_of_nonneg (by omega), mul_assoc, ← zpow_add₀ (by norm_num)]
      congr 2; ring
    · refine ⟨2 ^ 52, ?_⟩
      rw [Int.cast_pow, Int.cast_ofNat, ← e52]
      have a1 : q ≤ 2 ^ (53 : ℤ) * (2 : ℚ) ^ e := by
        rw [hv]
        refine mul_le_mul_of_nonneg_right ?_ (F64.two_zpow_pos _).le
        have : (m : ℚ) ≤ (2 : ℚ) ^ 53 := by exact_mod_cast (le_abs_self m).trans hm
        exact_mod_cast this
      rw [← zpow_add₀ (by norm_num)] at a1
      have a2 : (2 : ℚ) ^ (53 + e) ≤ 2 ^ n := zpow_le_zpow_right₀ (by norm_num) (by omega)
      linarith
  have hm2 : (m : ℚ) ≤ 2 ^ 53 - 1 := by
    rw [hm, e53] at h2
    have := lt_of_mul_lt_mul_right h2 p52.le
    have : m < (2 ^ 53 : ℤ) := by exact_mod_cast this
    have : m ≤ 2 ^ 53 - 1 := by omega
    exact_mod_cast this
  have ht' : t ≤ 1 / 4 * 2 ^ (n - 52) := by
    refine ht.trans ?_
    calc (7 : ℚ) * 2 ^ (k - 58) ≤ 7 * 2 ^ (n - 58) :=
          mul_le_mul_of_nonneg_left (zpow_le_zpow_right₀ (by norm_num) (by omega)) (by norm_num)
      _ = 7 / 64 * 2 ^ (n - 52) := by
          rw [show n - 52 = (n - 58) + 6 by ring, zpow_add₀ (by norm_num)]; ring
      _ ≤ _ := mul_le_mul_of_nonneg_right (by norm_num) p52.le
  have key := rnVal_of (x := q + t) (e := n - 52) (n := m) (by omega) ?_ ?_ ?_
  · rw [key, ← hm]
  · rw [sub_add_cancel]; linarith
  · rw [show n - 52 + 53 = n + 1 by ring, e53, hm]
    have : (m : ℚ) * 2 ^ (n - 52) ≤ (2 ^ 53 - 1) * 2 ^ (n - 52) :=
      mul_le_mul_of_nonneg_right hm2 p52.le
    linarith
  · have e : (q + t) / 2 ^ (n - 52) - m = t / 2 ^ (n - 52) := by
      rw [hm]; field_simp; ring
    rw [e, abs_of_nonneg (div_nonneg ht0 p52.le), div_lt_iff₀ p52]
    linarith

/-- A non-negative double of at most `j` units. -/
def Sm (k : ℤ) (j : ℕ) (z : F64) : Prop := z.Finite ∧ 0 ≤ z.value ∧ z.value ≤ j * (2 : ℚ) ^ (k - 58)

theorem Sm.add {k : ℤ} {i j : ℕ} {z w : F64} (hk : -1000 ≤ k) (hk' : k ≤ 1010) (hz : Sm k i z)
    (hw : Sm k j w) (h : i + j ≤ 8) : Sm k (i + j) (z + w) := by
  have hr : F64.Rep (((i + j : ℕ) : ℚ) * (2 : ℚ) ^ (k - 58)) := ⟨((i + j : ℕ) : ℤ), k - 58, by
    rw [abs_of_nonneg (by positivity)]
    exact le_trans (by exact_mod_cast h) (by norm_num : (8 : ℤ) ≤ 2 ^ 53), by omega, by push_cast; rfl⟩
  have h0 := add_nonneg hz.2.1 hw.2.1
  have hle : F64.rnVal (z.value + w.value) ≤ ((i + j : ℕ) : ℚ) * (2 : ℚ) ^ (k - 58) := by
    refine F64.rnVal_le_rep (K := ℚ) hr ?_
    rw [Rat.cast_id]
    push_cast
    rw [add_mul]
    exact add_le_add hz.2.2 hw.2.2
  have hge := F64.rnVal_nonneg h0
  have hb : |F64.rnVal (z.value + w.value)| < 2 ^ 1024 := by
    rw [abs_of_nonneg hge]
    refine lt_of_le_of_lt hle ?_
    calc ((i + j : ℕ) : ℚ) * (2 : ℚ) ^ (k - 58) ≤ 8 * 2 ^ (1010 : ℤ) :=
          mul_le_mul (by exact_mod_cast h) (zpow_le_zpow_right₀ (by norm_num) (by omega))
            (F64.two_zpow_pos _).le (by norm_num)
      _ = 2 ^ (1013 : ℤ) := by
          rw [show (8 : ℚ) = 2 ^ (3 : ℤ) by norm_num, ← zpow_add₀ (by norm_num)]; norm_num only
      _ < 2 ^ (1024 : ℤ) := zpow_lt_zpow_right₀ (by norm_num) (by norm_num)
      _ = _ := by rw [← zpow_natCast]; rfl
  obtain ⟨f1, f2⟩ := F64.add_spec hz.1 hw.1 hb
  refine ⟨f1, ?_, ?_⟩
  · rw [F64.add_def, f2]; exact hge
  · rw [F64.add_def, f2]; exact hle

theorem Sm.sq {c : F64} (hc : c.Finite) {n : ℤ} (hn : -500 ≤ n) (hn' : n ≤ 500)
    (h : |c.value| ≤ 2 ^ (n - 29)) : Sm (2 * n) 1 (c * c) := by
  have hm := mul_self_nonneg c.value
  have hle : F64.rnVal (c.value * c.value) ≤ (2 : ℚ) ^ (2 * n - 58) := by
    refine F64.rnVal_le_rep (K := ℚ) (F64.rep_pow _ (by omega)) ?_
    rw [Rat.cast_id, ← abs_mul_abs_self]
    refine (mul_le_mul h h (abs_nonneg _) (F64.two_zpow_pos _).le).trans (le_of_eq ?_)
    rw [← zpow_add₀ (by norm_num)]; congr 1; ring
  have hge := F64.rnVal_nonneg hm
  obtain ⟨f1, f2⟩ := F64.mul_spec hc hc (by
    rw [abs_of_nonneg hge]
    refine lt_of_le_of_lt hle ?_
    rw [← zpow_natCast]
    exact zpow_lt_zpow_right₀ (by norm_num) (by push_cast; omega))
  refine ⟨f1, ?_, ?_⟩
  · rw [F64.mul_def, f2]; exact hge
  · rw [F64.mul_def, f2, Nat.cast_one, one_mul]; exact hle

theorem big_add {k : ℤ} {j : ℕ} {q : ℚ} {z w : F64} (hk : -1000 ≤ k) (hq : (2 : ℚ) ^ k ≤ q)
    (hz : HasVal z q) (hw : Sm k j w) (h : j ≤ 7) : HasVal (z + w) q := by
  have e := rn_absorb hz.rep (by omega) hq hw.2.1 (hw.2.2.trans (mul_le_mul_of_nonneg_right
    (by exact_mod_cast h) (F64.two_zpow_pos _).le))
  have hb := hz.lt
  rw [← e, ← hz.2] at hb
  obtain ⟨f1, f2⟩ := F64.add_spec hz.1 hw.1 hb
  exact ⟨f1, by rw [F64.add_def, f2, hz.2, e]⟩

theorem add_big {k : ℤ} {j : ℕ} {q : ℚ} {z w : F64} (hk : -1000 ≤ k) (hq : (2 : ℚ) ^ k ≤ q)
    (hz : HasVal z q) (hw : Sm k j w) (h : j ≤ 7) : HasVal (w + z) q := by
  rw [F64.add_comm']; exact big_add hk hq hz hw h

theorem Sm.zero {k : ℤ} : Sm k 0 0 :=
  ⟨F64.hasVal_zero'.1, by rw [F64.hasVal_zero'.2], by rw [F64.hasVal_zero'.2, Nat.cast_zero, zero_mul]⟩

/-- A sum of small squares. -/
syntax "sm_sum" : tactic
/-- Search for the place of the dominant square in a sum. -/
syntax "dom_sum" : tactic
set_option hygiene false in
macro_rules | `(tactic| sm_sum) => `(tactic| first
  | with_reducible assumption
  | with_reducible exact B0
  | (with_reducible apply B3
     · sm_sum
     · sm_sum
     · decide))
set_option hygiene false in
macro_rules | `(tactic| dom_sum) => `(tactic| first
  | with_reducible assumption
  | (with_reducible apply B1
     rotate_left 1
     · sm_sum
     · decide
     dom_sum)
  | (with_reducible apply B2
     rotate_left 1
     · sm_sum
     · decide
     dom_sum))

/-- One component outweighs all the others: they are at most `2^-30` of it. -/
def Dominant (t : Ty) (x : t.D F64) (v : F64) : Prop :=
  (v.Finite ∧ (2 : ℚ) ^ (-500 : ℤ) ≤ |v.value| ∧ |v.value| ≤ 2 ^ (500 : ℤ)) ∧
  ∃ l₁ l₂, comps t x = l₁ ++ v :: l₂ ∧
    ∀ c ∈ l₁ ++ l₂, c.Finite ∧ |c.value| ≤ 2 ^ (-30 : ℤ) * |v.value|

theorem Dominant.central {t : Ty} {x : t.D F64} {v : F64} (h : Dominant t x v) : Central t x := by
  obtain ⟨⟨hf, h1, h2⟩, l₁, l₂, he, hc⟩ := h
  refine ⟨fun c hm => ?_, v, by rw [he]; simp, h1⟩
  rw [he, List.mem_append, List.mem_cons] at hm
  have key : c ∈ l₁ ++ l₂ → c.Finite ∧ |c.value| ≤ 2 ^ (500 : ℤ) := fun hm =>
    ⟨(hc c hm).1, (hc c hm).2.trans (le_trans (mul_le_of_le_one_left (abs_nonneg _) (by norm_num)) h2)⟩
  rcases hm with hm | rfl | hm
  · exact key (List.mem_append_left _ hm)
  · exact ⟨hf, h2⟩
  · exact key (List.mem_append_right _ hm)

/-- The squared magnitude is the square of the dominant component, rounded. -/
theorem magSq_dominant {t : Ty} {x : t.D F64} {v : F64} (h : Dominant t x v) :
    HasVal (magSqTy t x) (F64.rnVal (v.value * v.value)) := by
  obtain ⟨⟨hf, h1, h2⟩, l₁, l₂, he, hc⟩ := h
  have hv0 : 0 < |v.value| := lt_of_lt_of_le (F64.two_zpow_pos _) h1
  obtain ⟨n, a1, a2⟩ : ∃ n : ℤ, (2 : ℚ) ^ n ≤ |v.value| ∧ |v.value| < 2 ^ (n + 1) :=
    ⟨Int.log 2 |v.value|, Int.zpow_log_le_self (by norm_num) hv0,
      Int.lt_zpow_succ_log_self (by norm_num) _⟩
  have hn : -500 ≤ n := by
    by_contra hc
    exact absurd (a2.trans_le (zpow_le_zpow_right₀ (by norm_num) (by omega))) (not_lt.2 h1)
  have hn' : n ≤ 500 := by
    by_contra hc
    exact absurd ((zpow_lt_zpow_right₀ (by norm_num) (by omega)).trans_le a1) (not_lt.2 h2)
  have hk : -1000 ≤ 2 * n := by omega
  have hk' : 2 * n ≤ 1010 := by omega
  have hs : ∀ c ∈ l₁ ++ l₂, Sm (2 * n) 1 (c * c) := fun c hm => by
    refine Sm.sq (hc c hm).1 hn hn' ((hc c hm).2.trans ?_)
    refine (mul_le_mul_of_nonneg_left a2.le (F64.two_zpow_pos _).le).trans (le_of_eq ?_)
    rw [show n - 29 = -30 + (n + 1) by ring, zpow_add₀ (a := (2 : ℚ)) (by norm_num) (-30) (n + 1)]
  have e2 : (2 : ℚ) ^ (2 * n) = 2 ^ n * 2 ^ n := by rw [two_mul, zpow_add₀ (by norm_num)]
  have hq : (2 : ℚ) ^ (2 * n) ≤ F64.rnVal (v.value * v.value) := by
    refine F64.rep_le_rnVal (K := ℚ) (F64.rep_pow _ (by omega)) ?_
    rw [Rat.cast_id, e2, ← abs_mul_abs_self v.value]
    exact mul_le_mul a1 a1 (F64.two_zpow_pos _).le (abs_nonneg _)
  have hb : HasVal (v * v) (F64.rnVal (v.value * v.value)) := by
    have hle : F64.rnVal (v.value * v.value) ≤ (2 : ℚ) ^ (1000 : ℤ) := by
      refine F64.rnVal_le_rep (K := ℚ) (F64.rep_pow _ (by norm_num)) ?_
      rw [Rat.cast_id, ← abs_mul_abs_self]
      refine (mul_le_mul h2 h2 (abs_nonneg _) (F64.two_zpow_pos _).le).trans (le_of_eq ?_)
      rw [← zpow_add₀ (by norm_num)]; norm_num only
    have hge := F64.rnVal_nonneg (mul_self_nonneg v.value)
    refine F64.mul_spec hf hf ?_
    rw [abs_of_nonneg hge]
    refine lt_of_le_of_lt hle ?_
    rw [← zpow_natCast]
    exact zpow_lt_zpow_right₀ (by norm_num) (by norm_num)
  generalize F64.rnVal (v.value * v.value) = q at *
  clear h1 h2 hv0 a1 a2 e2 hf hc
  have B1 := fun {z w j} => big_add (z := z) (w := w) (j := j) hk hq
  have B2 := fun {z w j} => add_big (z := z) (w := w) (j := j) hk hq
  have B3 := fun {z w i j} => Sm.add (z := z) (w := w) (i := i) (j := j) hk hk'
  have B0 := @Sm.zero (2 * n)
  clear hk hk' hq
  cases t <;> simp only [comps] at he <;>
    rcases l₁ with _ | ⟨_, _ | ⟨_, _ | ⟨_, _ | ⟨_, _ | ⟨_, _ | ⟨_, _ | ⟨_, _ | ⟨_, _⟩⟩⟩⟩⟩⟩⟩⟩ <;>
    simp only [List.nil_append, List.cons_append, List.cons.injEq, reduceCtorEq, and_false,
      false_and, List.nil_eq, List.append_eq_nil_iff] at he <;>
    (try casesm* _ ∧ _) <;> subst_vars <;>
    simp only [List.nil_append, List.cons_append, List.forall_mem_cons, List.not_mem_nil,
      false_imp_iff, implies_true, and_true] at hs <;> (try casesm* _ ∧ _) <;>
    simp only [engabra] <;> dom_sum

end Engabra
