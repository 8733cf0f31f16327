import Verif.Props.C34_Everywhere

/-! # The computed sum of squares, for all finite components

Sums of doubles have a relative error only, since every double is a multiple of the smallest one;
each square adds at most half of the smallest double. -/

namespace Engabra.F64

open F64 (Finite HasVal)

theorem grid {v : ℚ} (h : Rep v) : ∃ M : ℤ, v = M * (2 : ℚ) ^ (-1074 : ℤ) := by
  obtain ⟨m, e, -, he, rfl⟩ := h
  obtain ⟨k, hk⟩ := Int.eq_ofNat_of_zero_le (show 0 ≤ e - -1074 by omega)
  refine ⟨m * 2 ^ k, ?_⟩
  rw [show e = (k : ℤ) + -1074 by omega, zpow_add₀ (by norm_num), zpow_natCast]
  push_cast
  ring

/-- The sum of two doubles is rounded with a relative error. -/
theorem add_rel {x y : ℚ} (hx : Rep x) (hy : Rep y) :
    |rnVal (x + y) - (x + y)| ≤ (2 : ℚ) ^ (-53 : ℤ) * |x + y| := by
  by_cases h : (2 : ℚ) ^ (-1022 : ℤ) ≤ |x + y|
  · have := rn_rel (K := ℚ) h
    rwa [Rat.cast_id] at this
  · push Not at h
    obtain ⟨M, hM⟩ := grid hx
    obtain ⟨N, hN⟩ := grid hy
    have e : x + y = ((M + N : ℤ) : ℚ) * (2 : ℚ) ^ (-1074 : ℤ) := by
      rw [hM, hN]; push_cast; ring
    have hp : (0 : ℚ) < (2 : ℚ) ^ (-1074 : ℤ) := two_zpow_pos _
    have hb : |M + N| < 2 ^ 53 := by
      rw [e, abs_mul, abs_of_pos hp, show (-1022 : ℤ) = 52 + -1074 by norm_num only,
        zpow_add₀ (by norm_num)] at h
      have h' := lt_of_mul_lt_mul_right h hp.le
      rw [← Int.cast_abs] at h'
      have : (|M + N| : ℤ) < 2 ^ 52 := by
        have e2 : ((2 : ℚ) ^ (52 : ℤ)) = ((2 ^ 52 : ℤ) : ℚ) := by norm_num
        rw [e2] at h'
        exact_mod_cast h'
      omega
    rw [rnVal_exact_lt hb le_rfl e, sub_self, abs_zero]
    exact mul_nonneg (two_zpow_pos _).le (abs_nonneg _)

/-- `a` is a computed sum of `k` squares whose exact sum is `S`, with at most `n` roundings on each. -/
def SqNear (a : F64) (S : ℚ) (n k : ℕ) : Prop :=
  0 ≤ S ∧
  ((a = inf false ∧ 2 ^ 1024 ≤ (1 + (2 : ℚ) ^ (-53 : ℤ)) ^ n * (S + k * (2 : ℚ) ^ (-1075 : ℤ))) ∨
   (a.Finite ∧ 0 ≤ a.value ∧
    a.value ≤ (1 + (2 : ℚ) ^ (-53 : ℤ)) ^ n * (S + k * (2 : ℚ) ^ (-1075 : ℤ)) ∧
    (1 - (2 : ℚ) ^ (-53 : ℤ)) ^ n * (S - k * (2 : ℚ) ^ (-1075 : ℤ)) ≤ a.value))

theorem uq_pos : (0 : ℚ) < (2 : ℚ) ^ (-53 : ℤ) := two_zpow_pos _
theorem uq_small : (2 : ℚ) ^ (-53 : ℤ) ≤ 1 / 1000 := by norm_num

theorem uq1 : (0 : ℚ) ≤ 1 - (2 : ℚ) ^ (-53 : ℤ) := by norm_num
theorem uq2 : (1 : ℚ) - (2 : ℚ) ^ (-53 : ℤ) ≤ 1 := by norm_num
theorem uq3 : (1 : ℚ) ≤ 1 + (2 : ℚ) ^ (-53 : ℤ) := by norm_num
theorem uq4 : (0 : ℚ) ≤ 1 + (2 : ℚ) ^ (-53 : ℤ) := by norm_num
theorem big_pos : ¬ (2 : ℚ) ^ 1024 ≤ 0 := not_le.2 (pow_pos two_pos _)

/-- More roundings. -/
theorem SqNear.mono {a : F64} {S : ℚ} {n m k : ℕ} (h : SqNear a S n k) (hnm : n ≤ m) : SqNear a S m k := by
  obtain ⟨hS, h⟩ := h
  have ht : (0 : ℚ) ≤ k * (2 : ℚ) ^ (-1075 : ℤ) := mul_nonneg (Nat.cast_nonneg k) (two_zpow_pos _).le
  have hu := uq_pos
  have hu2 := uq_small
  have hup : (1 + (2 : ℚ) ^ (-53 : ℤ)) ^ n ≤ (1 + (2 : ℚ) ^ (-53 : ℤ)) ^ m :=
    pow_le_pow_right₀ uq3 hnm
  have hdn : (1 - (2 : ℚ) ^ (-53 : ℤ)) ^ m ≤ (1 - (2 : ℚ) ^ (-53 : ℤ)) ^ n :=
    pow_le_pow_of_le_one uq1 uq2 hnm
  have hm0 : 0 ≤ (1 - (2 : ℚ) ^ (-53 : ℤ)) ^ m := pow_nonneg uq1 _
  refine ⟨hS, ?_⟩
  generalize (k : ℚ) * (2 : ℚ) ^ (-1075 : ℤ) = t at *
  have hup' := mul_le_mul_of_nonneg_right hup (add_nonneg hS ht)
  rcases h with ⟨h1, h2⟩ | ⟨h1, h2, h3, h4⟩
  · exact Or.inl ⟨h1, h2.trans hup'⟩
  · refine Or.inr ⟨h1, h2, h3.trans hup', ?_⟩
    rcases le_total 0 (S - t) with hs | hs
    · exact (mul_le_mul_of_nonneg_right hdn hs).trans h4
    · exact (mul_nonpos_of_nonneg_of_nonpos hm0 hs).trans h2

theorem SqNear.zero : SqNear 0 0 0 0 := by
  refine ⟨le_rfl, Or.inr ⟨hasVal_zero'.1, ?_, ?_, ?_⟩⟩ <;> rw [hasVal_zero'.2] <;> simp

/-- One rounding of a non-negative number. -/
theorem round_step {x : ℚ} (hx : 0 ≤ x) (b : F64)
    (hb : (|rnVal x| < 2 ^ 1024 → b.Finite ∧ b.value = rnVal x) ∧ (2 ^ 1024 ≤ |rnVal x| → b = inf false)) :
    (b = inf false ∧ 2 ^ 1024 ≤ rnVal x) ∨ (b.Finite ∧ 0 ≤ b.value ∧ b.value = rnVal x) := by
  have h0 := rnVal_nonneg hx
  rw [abs_of_nonneg h0] at hb
  rcases lt_or_ge (rnVal x) (2 ^ 1024) with h | h
  · have := hb.1 h
    exact Or.inr ⟨this.1, this.2 ▸ h0, this.2⟩
  · exact Or.inl ⟨hb.2 h, h⟩

theorem roundTo_inf {x : ℚ} (hx : 0 < x) (h : 2 ^ 1024 ≤ |rnVal x|) : roundTo x = inf false := by
  have hr : rnVal x ≠ 0 := by
    intro h0
    rw [h0, abs_zero] at h
    exact big_pos h
  unfold roundTo
  rw [dif_neg hx.ne', dif_neg hr, dif_neg (not_lt.2 h), decide_eq_false (not_lt.2 hx.le)]

theorem sq_round {c : F64} (hc : c.Finite) :
    (|rnVal (c.value * c.value)| < 2 ^ 1024 → (c * c).Finite ∧ (c * c).value = rnVal (c.value * c.value)) ∧
    (2 ^ 1024 ≤ |rnVal (c.value * c.value)| → c * c = inf false) := by
  refine ⟨fun h => mul_spec hc hc h, fun h => ?_⟩
  have h0 : c.value * c.value ≠ 0 := by
    intro h0
    rw [h0, rnVal_zero, abs_zero] at h
    exact big_pos h
  have key : c * c = mulFin c c := by
    rw [mul_def]
    cases c <;> first | rfl | exact absurd hc id
  rw [key, mulFin, if_neg h0]
  exact roundTo_inf (lt_of_le_of_ne (mul_self_nonneg _) (Ne.symm h0)) h

theorem add_round {x y : F64} (hx : x.Finite) (hy : y.Finite) (hx0 : 0 ≤ x.value) (hy0 : 0 ≤ y.value) :
    (|rnVal (x.value + y.value)| < 2 ^ 1024 → (x + y).Finite ∧ (x + y).value = rnVal (x.value + y.value)) ∧
    (2 ^ 1024 ≤ |rnVal (x.value + y.value)| → x + y = inf false) := by
  refine ⟨fun h => add_spec hx hy h, fun h => ?_⟩
  have h0 : x.value + y.value ≠ 0 := by
    intro h0
    rw [h0, rnVal_zero, abs_zero] at h
    exact big_pos h
  have key : x + y = addFin x y := by
    rw [add_def]
    cases x <;> cases y <;> first | rfl | exact absurd hx id | exact absurd hy id
  rw [key, addFin, if_neg h0]
  exact roundTo_inf (lt_of_le_of_ne (add_nonneg hx0 hy0) (Ne.symm h0)) h

/-- A square. -/
theorem SqNear.sq {c : F64} (hc : c.Finite) : SqNear (c * c) (c.value * c.value) 1 1 := by
  have hx : 0 ≤ c.value * c.value := mul_self_nonneg _
  refine ⟨hx, ?_⟩
  have hr := rnVal_err_rel (K := ℚ) (c.value * c.value)
  rw [Rat.cast_id, abs_of_nonneg hx] at hr
  have hs := round_step hx _ (sq_round hc)
  generalize c.value * c.value = x at *
  have hu := uq_pos
  have hu2 := uq_small
  have ht : (0 : ℚ) < (2 : ℚ) ^ (-1075 : ℤ) := two_zpow_pos _
  rw [pow_one, pow_one, Nat.cast_one, one_mul]
  generalize (2 : ℚ) ^ (-1075 : ℤ) = t at *
  generalize (2 : ℚ) ^ (-53 : ℤ) = u at *
  have hux := mul_nonneg hu.le hx
  have hut := mul_nonneg hu.le ht.le
  have hup : rnVal x ≤ (1 + u) * (x + t) := by
    rcases le_max_iff.1 hr with h | h <;> have := (abs_le.1 h).2 <;> linarith
  rcases hs with ⟨h1, h2⟩ | ⟨h1, h2, h3⟩
  · exact Or.inl ⟨h1, h2.trans hup⟩
  · refine Or.inr ⟨h1, h2, h3 ▸ hup, ?_⟩
    rcases le_total t x with hxt | hxt
    · rw [h3]
      have h5 := mul_le_mul_of_nonneg_left hxt hu.le
      have h6 := mul_le_mul_of_nonneg_right hu2 ht.le
      rcases le_max_iff.1 hr with h | h <;> have := (abs_le.1 h).1 <;> linarith
    · refine le_trans (mul_nonpos_of_nonneg_of_nonpos ?_ ?_) h2 <;> linarith

/-- A sum. -/
theorem SqNear.add {a b : F64} {S T : ℚ} {n m k l : ℕ} (ha : SqNear a S n k) (hb : SqNear b T m l) :
    SqNear (a + b) (S + T) (max n m + 1) (k + l) := by
  have ha' := ha.mono (le_max_left n m)
  have hb' := hb.mono (le_max_right n m)
  clear ha hb
  generalize max n m = N at *
  obtain ⟨hS, ha⟩ := ha'
  obtain ⟨hT, hb⟩ := hb'
  refine ⟨add_nonneg hS hT, ?_⟩
  have hu := uq_pos
  have hu2 := uq_small
  have hk : (0 : ℚ) ≤ k * (2 : ℚ) ^ (-1075 : ℤ) := mul_nonneg (Nat.cast_nonneg k) (two_zpow_pos _).le
  have hl : (0 : ℚ) ≤ l * (2 : ℚ) ^ (-1075 : ℤ) := mul_nonneg (Nat.cast_nonneg l) (two_zpow_pos _).le
  have e1 : S + T + ((k + l : ℕ) : ℚ) * (2 : ℚ) ^ (-1075 : ℤ)
      = (S + k * (2 : ℚ) ^ (-1075 : ℤ)) + (T + l * (2 : ℚ) ^ (-1075 : ℤ)) := by push_cast; ring
  have e2 : S + T - ((k + l : ℕ) : ℚ) * (2 : ℚ) ^ (-1075 : ℤ)
      = (S - k * (2 : ℚ) ^ (-1075 : ℤ)) + (T - l * (2 : ℚ) ^ (-1075 : ℤ)) := by push_cast; ring
  rw [e1, e2, pow_succ' (1 + _) N, pow_succ' (1 - _) N]
  have hA : 0 ≤ S + k * (2 : ℚ) ^ (-1075 : ℤ) := add_nonneg hS hk
  have hB : 0 ≤ T + l * (2 : ℚ) ^ (-1075 : ℤ) := add_nonneg hT hl
  have hP : 0 ≤ (1 + (2 : ℚ) ^ (-53 : ℤ)) ^ N := pow_nonneg uq4 _
  have hQ : 0 ≤ (1 - (2 : ℚ) ^ (-53 : ℤ)) ^ N := pow_nonneg uq1 _
  have hAP := mul_nonneg hP hA
  have hBP := mul_nonneg hP hB
  generalize S + k * (2 : ℚ) ^ (-1075 : ℤ) = A at *
  generalize T + l * (2 : ℚ) ^ (-1075 : ℤ) = B at *
  generalize S - k * (2 : ℚ) ^ (-1075 : ℤ) = A' at *
  generalize T - l * (2 : ℚ) ^ (-1075 : ℤ) = B' at *
  have step : ∀ p q : ℚ, p ≤ q → 0 ≤ q → p ≤ (1 + (2 : ℚ) ^ (-53 : ℤ)) * q := by
    intro p q h1 h2
    have := mul_nonneg hu.le h2
    linarith
  rw [mul_assoc, mul_assoc, mul_add ((1 + (2 : ℚ) ^ (-53 : ℤ)) ^ N), mul_add ((1 - (2 : ℚ) ^ (-53 : ℤ)) ^ N)]
  rcases ha with ⟨rfl, h2⟩ | ⟨f1, h2, h3, h4⟩
  · refine Or.inl ⟨?_, step _ _ (h2.trans (le_add_of_nonneg_right hBP)) (add_nonneg hAP hBP)⟩
    rw [add_def]
    rcases hb with ⟨rfl, -⟩ | ⟨f2, -⟩
    · rfl
    · cases b <;> first | rfl | exact absurd f2 id
  · rcases hb with ⟨rfl, h5⟩ | ⟨f2, h5, h6, h7⟩
    · refine Or.inl ⟨?_, step _ _ (h5.trans (le_add_of_nonneg_left hAP)) (add_nonneg hAP hBP)⟩
      rw [add_def]
      cases a <;> first | rfl | exact absurd f1 id
    · have hs := round_step (add_nonneg h2 h5) _ (add_round f1 f2 h2 h5)
      have hr := add_rel (value_rep (x := a)) (value_rep (x := b))
      rw [abs_of_nonneg (add_nonneg h2 h5)] at hr
      obtain ⟨r1, r2⟩ := abs_le.1 hr
      have hup : rnVal (a.value + b.value)
          ≤ (1 + (2 : ℚ) ^ (-53 : ℤ)) * ((1 + (2 : ℚ) ^ (-53 : ℤ)) ^ N * A + (1 + (2 : ℚ) ^ (-53 : ℤ)) ^ N * B) := by
        calc _ ≤ (1 + (2 : ℚ) ^ (-53 : ℤ)) * (a.value + b.value) := by
              generalize (2 : ℚ) ^ (-53 : ℤ) = u at r2 ⊢
              linarith only [r2]
          _ ≤ _ := mul_le_mul_of_nonneg_left (add_le_add h3 h6) uq4
      have hdn : (1 - (2 : ℚ) ^ (-53 : ℤ)) * ((1 - (2 : ℚ) ^ (-53 : ℤ)) ^ N * A' + (1 - (2 : ℚ) ^ (-53 : ℤ)) ^ N * B')
          ≤ rnVal (a.value + b.value) := by
        calc _ ≤ (1 - (2 : ℚ) ^ (-53 : ℤ)) * (a.value + b.value) :=
              mul_le_mul_of_nonneg_left (add_le_add h4 h7) uq1
          _ ≤ _ := by
              generalize (2 : ℚ) ^ (-53 : ℤ) = u at r1 ⊢
              linarith only [r1]
      rcases hs with ⟨g1, g2⟩ | ⟨g1, g2, g3⟩
      · exact Or.inl ⟨g1, g2.trans hup⟩
      · exact Or.inr ⟨g1, g2, g3 ▸ hup, g3 ▸ hdn⟩

theorem SqNear.cast {a : F64} {S T : ℚ} {n m k l : ℕ} (h : SqNear a S n k) (hn : n ≤ m) (hk : k ≤ l)
    (e : S = T) : SqNear a T m l := by
  subst e
  obtain ⟨hS, h⟩ := h.mono hn
  have hu := uq_pos
  have hu2 := uq_small
  have hP : 0 ≤ (1 + (2 : ℚ) ^ (-53 : ℤ)) ^ m := pow_nonneg uq4 _
  have hQ : 0 ≤ (1 - (2 : ℚ) ^ (-53 : ℤ)) ^ m := pow_nonneg uq1 _
  have hk' : (k : ℚ) * (2 : ℚ) ^ (-1075 : ℤ) ≤ l * (2 : ℚ) ^ (-1075 : ℤ) :=
    mul_le_mul_of_nonneg_right (by exact_mod_cast hk) (two_zpow_pos _).le
  have h1 := mul_le_mul_of_nonneg_left (add_le_add_right hk' S) hP
  have h2 := mul_le_mul_of_nonneg_left (sub_le_sub_left hk' S) hQ
  refine ⟨hS, ?_⟩
  rcases h with ⟨a1, a2⟩ | ⟨a1, a2, a3, a4⟩
  · exact Or.inl ⟨a1, a2.trans h1⟩
  · exact Or.inr ⟨a1, a2, a3.trans h1, h2.trans a4⟩

end F64

open F64 in
/-- The computed `magSq` of every finite object. -/
theorem magSq_near (t : Ty) (x : t.D F64) (hf : ∀ c ∈ comps t x, c.Finite) :
    F64.SqNear (magSqTy t x) (sqSum t x) 8 8 := by
  unfold sqSum
  cases t <;>
    simp only [comps, List.forall_mem_cons, List.not_mem_nil, false_imp_iff, implies_true,
      and_true] at hf <;> (try casesm* _ ∧ _) <;>
    simp only [engabra, comps, List.map_cons, List.map_nil, List.sum_cons, List.sum_nil]
  all_goals
    refine F64.SqNear.cast (by
      repeat' first
        | with_reducible exact F64.SqNear.zero
        | with_reducible apply F64.SqNear.add
        | with_reducible apply F64.SqNear.sq
        | with_reducible assumption) (by decide) (by decide) ?_
    ring

end Engabra
