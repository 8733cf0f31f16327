import Verif.Props.C34_Total

/-! # C34: which directions are null, and how long the others are -/

namespace Engabra

open F64 (Finite HasVal)

namespace F64

/-- `a` is infinite, or at least every element of `L`. -/
def Dom (L : List ℚ) (a : F64) : Prop :=
  a = inf false ∨ (a.Finite ∧ 0 ≤ a.value ∧ ∀ s ∈ L, s ≤ a.value)

theorem Dom.zero : Dom [] 0 := Or.inr ⟨hasVal_zero'.1, by rw [hasVal_zero'.2], by simp⟩

theorem Dom.sq {c : F64} (hc : c.Finite) : Dom [rnVal (c.value * c.value)] (c * c) := by
  rcases round_step (mul_self_nonneg _) _ (sq_round hc) with ⟨h1, -⟩ | ⟨h1, h2, h3⟩
  · exact Or.inl h1
  · exact Or.inr ⟨h1, h2, by simp [h3]⟩

theorem Dom.add {L M : List ℚ} {a b : F64} (ha : Dom L a) (hb : Dom M b) : Dom (L ++ M) (a + b) := by
  rcases ha with rfl | ⟨f1, h1, h2⟩
  · refine Or.inl ?_
    rw [add_def]
    rcases hb with rfl | ⟨f2, -⟩
    · rfl
    · cases b <;> first | rfl | exact absurd f2 id
  · rcases hb with rfl | ⟨f2, h3, h4⟩
    · refine Or.inl ?_
      rw [add_def]
      cases a <;> first | rfl | exact absurd f1 id
    · rcases round_step (add_nonneg h1 h3) _ (add_round f1 f2 h1 h3) with ⟨g1, -⟩ | ⟨g1, g2, g3⟩
      · exact Or.inl g1
      · refine Or.inr ⟨g1, g2, fun s hs => ?_⟩
        rw [g3]
        rcases List.mem_append.1 hs with h | h
        · exact (h2 s h).trans (rep_le_rnVal (K := ℚ) (value_rep (x := a)) (by rw [Rat.cast_id]; linarith))
        · exact (h4 s h).trans (rep_le_rnVal (K := ℚ) (value_rep (x := b)) (by rw [Rat.cast_id]; linarith))

theorem sq_underflow' {c : F64} (h : c.Finite) (hb : c.value * c.value ≤ (2 : ℚ) ^ (-1075 : ℤ)) :
    c * c = 0 := by
  cases c with
  | nan => exact absurd h id
  | inf _ => exact absurd h id
  | zero s => rw [mul_def, zero_def]; simp [mul, mulFin, value]
  | fin v hv =>
    have hp : 0 < v * v := mul_self_pos.2 hv.1
    rw [fin_mul_fin, roundTo_underflow hp.ne', decide_eq_false (not_lt.2 hp.le)]
    · rfl
    · rw [abs_of_pos hp]; exact hb

/-- A square above half of the smallest double does not vanish. -/
theorem rnVal_sq_pos {x : ℚ} (h : (2 : ℚ) ^ (-1075 : ℤ) < x) : (2 : ℚ) ^ (-1074 : ℤ) ≤ rnVal x := by
  have hr := rnVal_err_rel (K := ℚ) x
  have ht : (0 : ℚ) < (2 : ℚ) ^ (-1075 : ℤ) := two_zpow_pos _
  rw [Rat.cast_id, abs_of_pos (ht.trans h)] at hr
  have hpos : 0 < rnVal x := by
    have hu := uq_small
    generalize (2 : ℚ) ^ (-53 : ℤ) = u at *
    generalize (2 : ℚ) ^ (-1075 : ℤ) = τ at *
    rcases le_max_iff.1 hr with h1 | h1 <;> have h2 := (abs_le.1 h1).1
    · have := mul_le_mul_of_nonneg_right hu (ht.trans h).le
      linarith
    · linarith
  obtain ⟨M, hM⟩ := grid (rnVal_rep x)
  have hp : (0 : ℚ) < (2 : ℚ) ^ (-1074 : ℤ) := two_zpow_pos _
  rw [hM] at hpos ⊢
  have h0 : (0 : ℚ) < M := (mul_pos_iff_of_pos_right hp).1 hpos
  have h1 : (1 : ℚ) ≤ M := by exact_mod_cast Int.add_one_le_of_lt (by exact_mod_cast h0 : (0 : ℤ) < M)
  calc (2 : ℚ) ^ (-1074 : ℤ) = 1 * (2 : ℚ) ^ (-1074 : ℤ) := (one_mul _).symm
    _ ≤ _ := mul_le_mul_of_nonneg_right h1 hp.le

end F64

theorem magSq_dom (t : Ty) (x : t.D F64) (hf : ∀ c ∈ comps t x, c.Finite) :
    F64.Dom ((comps t x).map fun c => F64.rnVal (c.value * c.value)) (magSqTy t x) := by
  have key : ∃ L, F64.Dom L (magSqTy t x) ∧
      ∀ s ∈ (comps t x).map (fun c => F64.rnVal (c.value * c.value)), s ∈ L := by
    cases t <;>
      simp only [comps, List.forall_mem_cons, List.not_mem_nil, false_imp_iff, implies_true,
        and_true] at hf <;> (try casesm* _ ∧ _) <;>
      simp only [engabra, comps, List.map_cons, List.map_nil]
    all_goals
      refine ⟨_, by
        repeat' first
          | with_reducible exact F64.Dom.zero
          | with_reducible apply F64.Dom.add
          | with_reducible apply F64.Dom.sq
          | with_reducible assumption, ?_⟩
      exact fun _ h => h
  obtain ⟨L, hL, hs⟩ := key
  rcases hL with h | ⟨h1, h2, h3⟩
  · exact Or.inl h
  · exact Or.inr ⟨h1, h2, fun s h => h3 s (hs s h)⟩

theorem magSq_underflow' (t : Ty) (x : t.D F64)
    (h : ∀ c ∈ comps t x, c.Finite ∧ c.value * c.value ≤ (2 : ℚ) ^ (-1075 : ℤ)) : magSqTy t x = 0 := by
  have hs : ∀ c ∈ comps t x, c * c = 0 := fun c hc => F64.sq_underflow' (h c hc).1 (h c hc).2
  cases t <;> simp only [comps, List.forall_mem_cons, List.not_mem_nil, false_imp_iff,
    implies_true, and_true] at hs <;> simp only [engabra, hs, F64.zero_add_zero]

theorem comps_null (t : Ty) : ∃ l, comps t (gnullTy (Dbl.nan : F64) t) = .nan :: l := by
  cases t <;> exact ⟨_, rfl⟩

/-- A magnitude is either zero or at least `2^-538`; the components are not much longer. -/
theorem mag_cases (t : Ty) (x : t.D F64) (hf : ∀ c ∈ comps t x, c.Finite)
    (h : ∃ c ∈ comps t x, (2 : ℚ) ^ (-1075 : ℤ) < c.value * c.value) :
    magnitudeTy t x = .inf false ∨
    ((magnitudeTy t x).Finite ∧ (2 : ℚ) ^ (-538 : ℤ) ≤ (magnitudeTy t x).value ∧
      (magnitudeTy t x).value ≤ (2 : ℚ) ^ (513 : ℤ) ∧
      ∀ c ∈ comps t x, |(c.value : ℝ)| ≤ 123 / 100 * ((magnitudeTy t x).value : ℝ)) := by
  rcases magSq_dom t x hf with h1 | ⟨h1, h2, h3⟩
  · left
    unfold magnitudeTy
    rw [h1]; rfl
  · right
    obtain ⟨c0, hc0, hb0⟩ := h
    have ha : (2 : ℚ) ^ (-1074 : ℤ) ≤ (magSqTy t x).value :=
      (F64.rnVal_sq_pos hb0).trans (h3 _ (List.mem_map.2 ⟨c0, hc0, rfl⟩))
    obtain ⟨g1, g2⟩ := sqrt_total h1 h2
    change (magnitudeTy t x).Finite at g1
    change |((magnitudeTy t x).value : ℝ) - _| ≤ _ at g2
    have har : (2 : ℝ) ^ (-1074 : ℤ) ≤ ((magSqTy t x).value : ℝ) := by
      have h6 := (Rat.cast_le (K := ℝ)).2 ha
      rwa [cast_zpow] at h6
    have hlo : (2 : ℝ) ^ (-537 : ℤ) ≤ √((magSqTy t x).value : ℝ) := by
      refine Real.le_sqrt_of_sq_le ?_
      rw [pow_two, ← zpow_add₀ (by norm_num)]
      exact har
    have hup : √((magSqTy t x).value : ℝ) ≤ 2 ^ 512 := by
      refine Real.sqrt_le_iff.2 ⟨by positivity, ?_⟩
      rw [← pow_mul]
      have := (Rat.cast_le (K := ℝ)).2 (value_lt_max h1).le
      rwa [Rat.cast_pow, Rat.cast_ofNat] at this
    have hr0 := Real.sqrt_nonneg ((magSqTy t x).value : ℝ)
    have hb := abs_le.1 (g2.trans (mul_le_mul_of_nonneg_right uR_small hr0))
    have hrr : √((magSqTy t x).value : ℝ) * √((magSqTy t x).value : ℝ) = ((magSqTy t x).value : ℝ) :=
      Real.mul_self_sqrt (by exact_mod_cast h2)
    refine ⟨g1, ?_, ?_, fun c hc => ?_⟩
    · have e : (2 : ℝ) ^ (-537 : ℤ) = 2 * (2 : ℝ) ^ (-538 : ℤ) := by
        rw [show (-537 : ℤ) = 1 + -538 from by norm_num only, zpow_add₀ (by norm_num), zpow_one]
      rw [e] at hlo
      have : (2 : ℝ) ^ (-538 : ℤ) ≤ ((magnitudeTy t x).value : ℝ) := by
        have h5 := hb.1
        generalize (2 : ℝ) ^ (-538 : ℤ) = P at *
        generalize √((magSqTy t x).value : ℝ) = r at *
        linarith only [h5, hlo, hr0]
      rw [← cast_zpow] at this; exact Rat.cast_le.1 this
    · have e : (2 : ℝ) ^ (513 : ℤ) = 2 * 2 ^ 512 := by
        rw [show (513 : ℤ) = 1 + 512 from by norm_num only, zpow_add₀ (by norm_num), zpow_one,
          show (512 : ℤ) = ((512 : ℕ) : ℤ) from rfl, zpow_natCast]
      have : ((magnitudeTy t x).value : ℝ) ≤ (2 : ℝ) ^ (513 : ℤ) := by
        rw [e]
        have h5 := hb.2
        generalize (2 : ℝ) ^ 512 = P at *
        generalize √((magSqTy t x).value : ℝ) = r at *
        linarith only [h5, hup, hr0]
      rw [← cast_zpow] at this; exact Rat.cast_le.1 this
    · have h5 := h3 _ (List.mem_map.2 ⟨c, hc, rfl⟩)
      have hcc : (c.value : ℚ) * c.value ≤ 3 / 2 * (1 + 1 / 500) * (magSqTy t x).value := by
        have hr := F64.rnVal_err_rel (K := ℚ) (c.value * c.value)
        have hx : 0 ≤ c.value * c.value := mul_self_nonneg _
        rw [Rat.cast_id, abs_of_nonneg hx] at hr
        have ht : (2 : ℚ) ^ (-1074 : ℤ) = 2 * (2 : ℚ) ^ (-1075 : ℤ) := by
          rw [show (-1074 : ℤ) = 1 + -1075 from by norm_num only, zpow_add₀ (by norm_num), zpow_one]
        rw [ht] at ha
        have hu := F64.uq_small
        generalize (2 : ℚ) ^ (-53 : ℤ) = u at *
        generalize (2 : ℚ) ^ (-1075 : ℤ) = τ at *
        generalize c.value * c.value = y at *
        generalize F64.rnVal y = z at *
        generalize (magSqTy t x).value = w at *
        rcases le_max_iff.1 hr with h6 | h6 <;> have h7 := (abs_le.1 h6).1
        · have := mul_le_mul_of_nonneg_right hu hx
          linarith
        · linarith
      have hccr : (c.value : ℝ) * c.value ≤ 3 / 2 * (1 + 1 / 500) * ((magSqTy t x).value : ℝ) := by
        have h6 := (Rat.cast_le (K := ℝ)).2 hcc
        push_cast at h6
        exact h6
      have h6 : |(c.value : ℝ)| ≤ 1227 / 1000 * √((magSqTy t x).value : ℝ) := by
        refine abs_le_of_sq_le_sq ?_ (by positivity)
        rw [pow_two, pow_two]
        have h0 : (0 : ℝ) ≤ ((magSqTy t x).value : ℝ) := by exact_mod_cast h2
        calc _ ≤ _ := hccr
          _ ≤ 1227 / 1000 * (1227 / 1000) * (√((magSqTy t x).value : ℝ) * √((magSqTy t x).value : ℝ)) := by
            rw [hrr]; nlinarith
          _ = _ := by ring
      have h7 := hb.1
      generalize √((magSqTy t x).value : ℝ) = r at *
      linarith only [h6, h7, hr0]

/-- **C34.**  Direction of every finite object.  If every squared component is at most half of the
smallest double the magnitude is zero and the direction is null.  Otherwise the magnitude is not
zero, and every component of the direction is finite and at most `5/4`. -/
theorem C34_null_or_bounded (t : Ty) (x : t.D F64) (hf : ∀ c ∈ comps t x, c.Finite) :
    ((∀ c ∈ comps t x, c.value * c.value ≤ (2 : ℚ) ^ (-1075 : ℤ)) ∧
      magnitudeTy t x = 0 ∧ directionTy t x = gnullTy Dbl.nan t) ∨
    ((∃ c ∈ comps t x, (2 : ℚ) ^ (-1075 : ℤ) < c.value * c.value) ∧
      Dbl.lt 0 (magnitudeTy t x) = true ∧
      ∀ d ∈ comps t (directionTy t x), d.Finite ∧ |d.value| ≤ 5 / 4) := by
  by_cases hs : ∀ c ∈ comps t x, c.value * c.value ≤ (2 : ℚ) ^ (-1075 : ℤ)
  · left
    have hm : magnitudeTy t x = 0 := by
      unfold magnitudeTy
      rw [magSq_underflow' t x fun c hc => ⟨hf c hc, hs c hc⟩]; rfl
    refine ⟨hs, hm, ?_⟩
    unfold directionTy pairMagDirTy
    simp only [hm]
    rw [if_neg]
    rw [F64.denormMin_val.flt F64.hasVal_zero']
    rw [decide_eq_true_iff, not_lt]
    exact (F64.two_zpow_pos _).le
  · right
    push Not at hs
    refine ⟨hs, ?_⟩
    rcases mag_cases t x hf hs with hm | ⟨h1, h2, h3, h4⟩
    · refine ⟨by rw [hm]; rfl, ?_⟩
      have hlt : Dbl.lt (Dbl.denormMin F64) (.inf false) = true := by
        have h1 := F64.denormMin_val.1
        generalize Dbl.denormMin F64 = d at h1
        cases d <;> first | rfl | exact absurd h1 id
      unfold directionTy pairMagDirTy
      simp only [hm]
      rw [if_pos hlt, comps_smul]
      intro d hd
      obtain ⟨c, hc, rfl⟩ := List.mem_map.1 hd
      have h1 : (1 : F64) / .inf false = .zero (xor (1 : F64).signbit false) := by
        rw [F64.one_eq]; rfl
      rw [h1]
      obtain ⟨h2, h3⟩ := (F64.hasVal_zero (xor (1 : F64).signbit false)).zero_mul (HasVal.of (hf c hc))
      exact ⟨h2, by rw [h3, abs_zero]; norm_num⟩
    · have hpos : 0 < (magnitudeTy t x).value := lt_of_lt_of_le (F64.two_zpow_pos _) h2
      refine ⟨?_, ?_⟩
      · rw [F64.hasVal_zero'.flt (HasVal.of h1), decide_eq_true_iff]; exact hpos
      · obtain ⟨g1, g2⟩ := recip_near h1 h2 h3
        unfold directionTy pairMagDirTy
        simp only []
        rw [if_pos, comps_smul]
        · intro d hd
          obtain ⟨c, hc, rfl⟩ := List.mem_map.1 hd
          have hprod : |(1 / magnitudeTy t x).value * c.value| ≤ 5 / 4 := by
            have hr : |((1 / magnitudeTy t x).value : ℝ)| ≤ 1001 / 1000 * (1 / ((magnitudeTy t x).value : ℝ)) := by
              have hp : (0 : ℝ) < 1 / ((magnitudeTy t x).value : ℝ) := one_div_pos.2 (by exact_mod_cast hpos)
              have h5 := abs_le.1 (g2.trans (mul_le_mul_of_nonneg_right uR_small hp.le))
              rw [abs_le]
              constructor <;> linarith [h5.1, h5.2]
            have h5 : |((1 / magnitudeTy t x).value : ℝ) * c.value| ≤ 5 / 4 := by
              rw [abs_mul]
              have hp : (0 : ℝ) < ((magnitudeTy t x).value : ℝ) := by exact_mod_cast hpos
              calc _ ≤ 1001 / 1000 * (1 / ((magnitudeTy t x).value : ℝ)) * (123 / 100 * ((magnitudeTy t x).value : ℝ)) :=
                    mul_le_mul hr (h4 c hc) (abs_nonneg _) (by positivity)
                _ = 1001 / 1000 * (123 / 100) := by field_simp
                _ ≤ _ := by norm_num
            rw [← Rat.cast_mul, ← Rat.cast_abs] at h5
            refine (Rat.cast_le (K := ℝ)).1 (h5.trans_eq ?_)
            norm_num
          have h54 : F64.Rep (5 / 4) := ⟨5, -2, by norm_num, by norm_num, by norm_num⟩
          have hrn : |F64.rnVal ((1 / magnitudeTy t x).value * c.value)| ≤ 5 / 4 := by
            rw [← F64.rnVal_abs]
            exact F64.rnVal_le_rep (K := ℚ) h54 (by rw [Rat.cast_id]; exact hprod)
          have hsp := F64.mul_spec g1 (hf c hc) (lt_of_le_of_lt hrn (by
            calc (5 / 4 : ℚ) < 2 ^ 1 := by norm_num
              _ ≤ _ := pow_le_pow_right₀ (by norm_num) (by norm_num)))
          refine ⟨hsp.1, ?_⟩
          change |(F64.mul _ c).value| ≤ 5 / 4
          rw [hsp.2]; exact hrn
        · rw [F64.denormMin_val.flt (HasVal.of h1), decide_eq_true_iff]
          exact lt_of_lt_of_le (zpow_lt_zpow_right₀ (by norm_num) (by norm_num)) h2

/-- **C34.**  So the direction of a finite object is null exactly when all its squares underflow. -/
theorem C34_null_iff (t : Ty) (x : t.D F64) (hf : ∀ c ∈ comps t x, c.Finite) :
    directionTy t x = gnullTy Dbl.nan t ↔
      ∀ c ∈ comps t x, c.value * c.value ≤ (2 : ℚ) ^ (-1075 : ℤ) := by
  rcases C34_null_or_bounded t x hf with ⟨h1, -, h3⟩ | ⟨⟨c, hc, h1⟩, -, h3⟩
  · exact ⟨fun _ => h1, fun _ => h3⟩
  · refine ⟨fun e => ?_, fun h => absurd h1 (not_lt.2 (h c hc))⟩
    exfalso
    rw [e] at h3
    obtain ⟨l, hl⟩ := comps_null t
    rw [hl] at h3
    exact (h3 .nan (by simp)).1

/-! ## Concrete cases -/

theorem sqSum_pow2 (a b : ℤ) (ha : -1022 ≤ a) (ha' : a ≤ 900) (hb : -1022 ≤ b) (hb' : b ≤ 900) :
    (∀ c ∈ comps .vec ⟨⟨F64.pow2 a, F64.pow2 b, 0⟩⟩, c.Finite) ∧
    sqSum .vec ⟨⟨F64.pow2 a, F64.pow2 b, 0⟩⟩ = (2 : ℚ) ^ (a + a) + (2 : ℚ) ^ (b + b) := by
  have va : HasVal (F64.pow2 a) ((2 : ℚ) ^ a) := F64.pow2_val (by omega) (by omega)
  have vb : HasVal (F64.pow2 b) ((2 : ℚ) ^ b) := F64.pow2_val (by omega) (by omega)
  have h0 : (0 : F64).value = 0 := F64.hasVal_zero'.2
  refine ⟨?_, ?_⟩
  · simp only [comps, List.forall_mem_cons, List.not_mem_nil, false_imp_iff, implies_true, and_true]
    exact ⟨va.1, vb.1, F64.hasVal_zero'.1⟩
  · unfold sqSum
    simp only [comps, List.map_cons, List.map_nil, List.sum_cons, List.sum_nil, va.2, vb.2, h0]
    rw [zpow_add₀ (by norm_num), zpow_add₀ (by norm_num)]
    ring

/-- `(2^511, 2^511, 0)`, with a sum of squares of `2^1023`, meets the hypotheses of `C34_overflow`
(first part), `C34_magnitude_total`, `C34_direction_total` and `C34_unit_total`. -/
example : (∀ c ∈ comps .vec ⟨⟨F64.pow2 511, F64.pow2 511, 0⟩⟩, c.Finite) ∧
    (sqSum .vec ⟨⟨F64.pow2 511, F64.pow2 511, 0⟩⟩ : ℝ) ≤ (2 : ℝ) ^ 1024 * (1 - 9 * (2 : ℝ) ^ (-53 : ℤ)) ∧
    (2 : ℝ) ^ (-530 : ℤ) ≤ euclid .vec ⟨⟨F64.pow2 511, F64.pow2 511, 0⟩⟩ := by
  obtain ⟨h1, h2⟩ := sqSum_pow2 511 511 (by norm_num) (by norm_num) (by norm_num) (by norm_num)
  have h3 : sqSum .vec ⟨⟨F64.pow2 511, F64.pow2 511, 0⟩⟩ = (2 : ℚ) ^ 1023 := by
    rw [h2, show (511 + 511 : ℤ) = ((1022 : ℕ) : ℤ) from by norm_num only, zpow_natCast, ← two_mul,
      ← pow_succ']
  refine ⟨h1, ?_, ?_⟩
  · rw [h3, Rat.cast_pow, Rat.cast_ofNat]
    have hu := uR_small
    have e : (2 : ℝ) ^ 1024 = 2 * 2 ^ 1023 := pow_succ' 2 1023
    rw [e]
    have hp : (0 : ℝ) < 2 ^ 1023 := pow_pos two_pos _
    change (2 : ℝ) ^ 1023 ≤ 2 * 2 ^ 1023 * (1 - 9 * uR)
    generalize (2 : ℝ) ^ 1023 = P at *
    generalize uR = u at *
    linarith only [mul_le_mul_of_nonneg_left hu hp.le, hp]
  · unfold euclid
    rw [h3, Rat.cast_pow, Rat.cast_ofNat]
    refine Real.le_sqrt_of_sq_le ?_
    rw [pow_two, ← zpow_add₀ (by norm_num), ← zpow_natCast]
    exact zpow_le_zpow_right₀ (by norm_num) (by norm_num)

/-- Both alternatives of `C34_null_or_bounded` occur: `(2^-538, 2^-600, 0)` has the null direction
although it is not zero, `(2^-537, 2^-600, 0)` has not. -/
example : directionTy .vec ⟨⟨F64.pow2 (-538), F64.pow2 (-600), 0⟩⟩ = gnullTy Dbl.nan .vec ∧
    directionTy .vec ⟨⟨F64.pow2 (-537), F64.pow2 (-600), 0⟩⟩ ≠ gnullTy Dbl.nan .vec := by
  have h0 : (0 : F64).value = 0 := F64.hasVal_zero'.2
  have v1 : HasVal (F64.pow2 (-538)) ((2 : ℚ) ^ (-538 : ℤ)) := F64.pow2_val (by omega) (by omega)
  have v2 : HasVal (F64.pow2 (-600)) ((2 : ℚ) ^ (-600 : ℤ)) := F64.pow2_val (by omega) (by omega)
  have v3 : HasVal (F64.pow2 (-537)) ((2 : ℚ) ^ (-537 : ℤ)) := F64.pow2_val (by omega) (by omega)
  constructor
  · rw [C34_null_iff .vec _ (sqSum_pow2 (-538) (-600) (by norm_num) (by norm_num) (by norm_num) (by norm_num)).1]
    simp only [comps, List.forall_mem_cons, List.not_mem_nil, false_imp_iff, implies_true, and_true,
      v1.2, v2.2, h0]
    refine ⟨?_, ?_, ?_⟩
    · rw [← zpow_add₀ (by norm_num)]; exact zpow_le_zpow_right₀ (by norm_num) (by norm_num)
    · rw [← zpow_add₀ (by norm_num)]; exact zpow_le_zpow_right₀ (by norm_num) (by norm_num)
    · rw [mul_zero]; exact (F64.two_zpow_pos _).le
  · rw [Ne, C34_null_iff .vec _ (sqSum_pow2 (-537) (-600) (by norm_num) (by norm_num) (by norm_num) (by norm_num)).1]
    intro h
    have h1 := h (F64.pow2 (-537)) (by simp [comps])
    rw [v3.2, ← zpow_add₀ (by norm_num)] at h1
    exact absurd h1 (not_le.2 (zpow_lt_zpow_right₀ (by norm_num) (by norm_num)))

/-- `(2^512, 2^511, 0)` meets the hypothesis of the second part of `C34_overflow`. -/
example : (∀ c ∈ comps .vec ⟨⟨F64.pow2 512, F64.pow2 511, 0⟩⟩, c.Finite) ∧
    (2 : ℝ) ^ 1024 * (1 + 9 * (2 : ℝ) ^ (-53 : ℤ)) ≤ (sqSum .vec ⟨⟨F64.pow2 512, F64.pow2 511, 0⟩⟩ : ℝ) := by
  obtain ⟨h1, h2⟩ := sqSum_pow2 512 511 (by norm_num) (by norm_num) (by norm_num) (by norm_num)
  refine ⟨h1, ?_⟩
  rw [h2, show (512 + 512 : ℤ) = ((1024 : ℕ) : ℤ) from by norm_num only,
    show (511 + 511 : ℤ) = ((1022 : ℕ) : ℤ) from by norm_num only, zpow_natCast, zpow_natCast,
    Rat.cast_add, Rat.cast_pow, Rat.cast_pow, Rat.cast_ofNat]
  have hu := uR_small
  have e : (2 : ℝ) ^ 1024 = 4 * 2 ^ 1022 := by
    rw [show (1024 : ℕ) = 2 + 1022 from by norm_num only, pow_add]; norm_num only
  rw [e]
  have hp : (0 : ℝ) < 2 ^ 1022 := pow_pos two_pos _
  change 4 * (2 : ℝ) ^ 1022 * (1 + 9 * uR) ≤ _
  generalize (2 : ℝ) ^ 1022 = P at *
  generalize uR = u at *
  linarith only [mul_le_mul_of_nonneg_left hu hp.le, hp]

end Engabra
