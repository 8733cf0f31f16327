import Verif.Props.C46_ExpAccuracy
import Verif.Props.C34_Null
import Verif.Lemmas.InverseEst

/-! # C46: `exp(BiVector)` for every finite bivector

Accuracy for every finite bivector whose squared magnitude does not overflow, and exactly what
happens to the others. -/

namespace Engabra

open F64 (Finite HasVal)
open Spec

theorem zero_of_lt_grid {d : F64} (h : |d.value| < (2 : ℚ) ^ (-1074 : ℤ)) : d.value = 0 := by
  obtain ⟨M, hM⟩ := F64.grid (F64.value_rep (x := d))
  have h0 : (0 : ℚ) < (2 : ℚ) ^ (-1074 : ℤ) := F64.two_zpow_pos _
  rw [hM, abs_mul, abs_of_pos h0] at h
  have h1 : |(M : ℚ)| < 1 := by
    by_contra hc
    have := mul_le_mul_of_nonneg_right (not_lt.1 hc) h0.le
    rw [one_mul] at this
    exact absurd h (not_lt.2 this)
  have h2 : M = 0 := by
    rw [← Int.cast_abs] at h1
    exact Int.abs_lt_one_iff.1 (by exact_mod_cast h1)
  rw [hM, h2]; simp

/-- A component of the bivector part. -/
theorem biv_comp' {s d : F64} {σ n ε : ℝ} (hε0 : 0 ≤ ε) (hε : ε ≤ 1 / 100) (fs : s.Finite)
    (fd : d.Finite) (hs : |(s.value : ℝ) - σ| ≤ ε) (hσ : |σ| ≤ 1) (hn : |n| ≤ 1)
    (hd : |(d.value : ℝ) - n| ≤ 91 / 10 * uR) :
    (s * d).Finite ∧ |((s * d).value : ℝ)| ≤ 103 / 100 ∧
    |((s * d).value : ℝ) - σ * n| ≤ 13 / 10 * ε + 102 / 10 * uR := by
  have ht := tiny_le_uR
  have hu := uR_le
  have hu0 := uR_nonneg
  have hda : |(d.value : ℝ)| ≤ 1001 / 1000 := by
    have := abs_sub_abs_le_abs_sub (d.value : ℝ) n
    linarith
  have hsa : |(s.value : ℝ)| ≤ 101 / 100 := by
    have := abs_sub_abs_le_abs_sub (s.value : ℝ) σ
    linarith
  have hp : |(s.value : ℝ) * d.value| ≤ 102 / 100 := by
    rw [abs_mul]
    refine (mul_le_mul hsa hda (abs_nonneg _) (by norm_num)).trans (by norm_num)
  obtain ⟨f, he⟩ := mul_real fs fd (small_le_pow (hp.trans (by norm_num)))
  have hr : |((s * d).value : ℝ) - s.value * d.value| ≤ 103 / 100 * uR := by
    refine he.trans ?_
    have := mul_le_mul_of_nonneg_left hp hu0
    change uR * _ + _ ≤ _
    generalize (2 : ℝ) ^ (-1075 : ℤ) = t at *
    linarith
  have hdiff : |(s.value : ℝ) * d.value - σ * n| ≤ 101 / 100 * ε + 91 / 10 * uR := by
    rw [show (s.value : ℝ) * d.value - σ * n = (s.value - σ) * d.value + σ * (d.value - n) by ring]
    refine (abs_add_le _ _).trans ?_
    rw [abs_mul, abs_mul]
    have h1 := mul_le_mul hs hda (abs_nonneg _) hε0
    have h2 := mul_le_mul hσ hd (abs_nonneg _) zero_le_one
    linarith
  refine ⟨f, ?_, ?_⟩
  · have := abs_sub_abs_le_abs_sub ((s * d).value : ℝ) ((s.value : ℝ) * d.value)
    linarith
  · refine (abs_sub_le _ ((s.value : ℝ) * d.value) _).trans ?_
    linarith

/-- The same for an argument so small that only the sizes matter. -/
theorem biv_comp_tiny {s d : F64} {σ n ε : ℝ} (hε0 : 0 ≤ ε) (hε : ε ≤ 1 / 100) (fs : s.Finite)
    (fd : d.Finite) (hs : |(s.value : ℝ) - σ| ≤ ε) (hσ : |σ| ≤ 1 / 1000 * uR) (hn : |n| ≤ 1)
    (hd : |(d.value : ℝ)| ≤ 5 / 4) :
    (s * d).Finite ∧ |((s * d).value : ℝ)| ≤ 103 / 100 ∧
    |((s * d).value : ℝ) - σ * n| ≤ 13 / 10 * ε + 102 / 10 * uR := by
  have ht := tiny_le_uR
  have hu := uR_le
  have hu0 := uR_nonneg
  have hsa : |(s.value : ℝ)| ≤ ε + 1 / 1000 * uR := by
    have := abs_sub_abs_le_abs_sub (s.value : ℝ) σ
    linarith
  have hp0 : |(s.value : ℝ) * d.value| ≤ (ε + 1 / 1000 * uR) * (5 / 4) := by
    rw [abs_mul]
    exact mul_le_mul hsa hd (abs_nonneg _) (by positivity)
  have hp : |(s.value : ℝ) * d.value| ≤ 2 / 100 := hp0.trans (by linarith)
  obtain ⟨f, he⟩ := mul_real fs fd (small_le_pow (hp.trans (by norm_num)))
  have hr : |((s * d).value : ℝ) - s.value * d.value| ≤ uR := by
    refine he.trans ?_
    have := mul_le_mul_of_nonneg_left hp hu0
    change uR * _ + _ ≤ _
    generalize (2 : ℝ) ^ (-1075 : ℤ) = t at *
    generalize |(s.value : ℝ) * d.value| = P at *
    generalize uR = u at *
    linarith only [this, ht, hu0]
  have hσn : |σ * n| ≤ 1 / 1000 * uR := by
    rw [abs_mul]
    exact (mul_le_of_le_one_right (abs_nonneg _) hn).trans hσ
  refine ⟨f, ?_, ?_⟩
  · have := abs_sub_abs_le_abs_sub ((s * d).value : ℝ) ((s.value : ℝ) * d.value)
    generalize |(s.value : ℝ) * d.value| = P at *
    generalize |((s * d).value : ℝ) - s.value * d.value| = Q at *
    generalize uR = u at *
    linarith only [this, hr, hp, hu]
  · have h1 := abs_sub ((s * d).value : ℝ) (σ * n)
    have h2 := abs_sub_abs_le_abs_sub ((s * d).value : ℝ) ((s.value : ℝ) * d.value)
    generalize |(s.value : ℝ) * d.value| = P at *
    generalize |((s * d).value : ℝ) - s.value * d.value| = Q at *
    generalize |((s * d).value : ℝ) - σ * n| = R at *
    generalize uR = u at *
    linarith only [h1, h2, hr, hp0, hσn, hu0, hε0]

theorem unit_comp' {t : Ty} {B : t.D F64} {c : F64} (hc : c ∈ comps t B) :
    |(c.value : ℝ) / euclid t B| ≤ 1 := by
  have hE0 : 0 ≤ euclid t B := Real.sqrt_nonneg _
  rcases hE0.eq_or_lt with h0 | h0
  · rw [← h0, div_zero, abs_zero]; exact zero_le_one
  · rw [abs_div, abs_of_pos h0, div_le_one h0]
    apply Real.abs_le_sqrt
    have := (Rat.cast_le (K := ℝ)).2 (list_le_sum (comps t B) hc)
    rw [Rat.cast_mul, ← pow_two] at this
    exact this

theorem comp_le_euclid {t : Ty} {B : t.D F64} {c : F64} (hc : c ∈ comps t B) :
    |(c.value : ℝ)| ≤ euclid t B := by
  apply Real.abs_le_sqrt
  have := (Rat.cast_le (K := ℝ)).2 (list_le_sum (comps t B) hc)
  rw [Rat.cast_mul, ← pow_two] at this
  exact this

/-- Specification: the first component `b` of a bivector of length `E` is none of the values that
`exp` mistakes for an invalid argument: it is zero or normal, and so is its ratio to the length,
rounded. -/
def FirstPasses (b : ℚ) (E : ℝ) : Prop :=
  (b = 0 ∨ (2 : ℚ) ^ (-1022 : ℤ) ≤ |b|) ∧
  (|(b : ℝ)| ≤ (2 : ℝ) ^ (-1076 : ℤ) * E ∨ (2 : ℝ) ^ (-1021 : ℤ) * E ≤ |(b : ℝ)|)


theorem dir_parts (B : BiVector F64) {f : F64 → F64} (hf : comps .biv (directionTy .biv B) = (comps .biv B).map f) :
    (directionTy .biv B).theData.d0 = f B.theData.d0 ∧ (directionTy .biv B).theData.d1 = f B.theData.d1 ∧
      (directionTy .biv B).theData.d2 = f B.theData.d2 := by
  simpa [comps] using hf

theorem expBiv_valid [LibM F64] {B : BiVector F64} (v1 : isValid B = true)
    (v2 : isValid (directionTy .biv B) = true) :
    expBiv B = ⟨⟨⟨LibM.cos (magnitudeTy .biv B)⟩⟩, LibM.sin (magnitudeTy .biv B) * directionTy .biv B⟩ := by
  unfold expBiv
  rw [if_pos v1, pair_biv]
  simp only []
  rw [if_pos v2]

theorem expBiv_invalid [LibM F64] {B : BiVector F64} (v1 : isValid B = true)
    (v2 : isValid (directionTy .biv B) = false) : expBiv B = ⟨⟨⟨1⟩⟩, ⟨⟨0, 0, 0⟩⟩⟩ := by
  unfold expBiv
  rw [if_pos v1, pair_biv]
  simp only []
  rw [if_neg (by rw [v2]; decide)]
  rfl

/-- The result against `cos m`, `sin m * n` for the exact direction `n` and an angle `m` near the
exact one. -/
def CoreNear (ε : ℝ) (B : BiVector F64) (S : Spinor F64) : Prop :=
  ∃ m : ℝ, |m - euclid .biv B| ≤ 61 / 10 * uR * euclid .biv B + 1 / 1000 * uR ∧
    (euclid .biv B = 0 → m = 0) ∧
    List.Forall₂ (fun c y => c.Finite ∧ |(c.value : ℝ)| ≤ 103 / 100 ∧
          |(c.value : ℝ) - y| ≤ 13 / 10 * ε + 102 / 10 * uR)
        (comps .spin S)
        (Real.cos m :: (comps .biv (realTy .biv B)).map fun b => Real.sin m * (b / euclid .biv B))

theorem zpow500 : (2 : ℝ) ^ (-498 : ℤ) ≤ 1 / 1000 * uR := by
  unfold uR
  rw [show (-498 : ℤ) = -445 + -53 from by norm_num only, zpow_add₀ (by norm_num)]
  refine mul_le_mul_of_nonneg_right ?_ uR_nonneg
  calc (2 : ℝ) ^ (-445 : ℤ) ≤ (2 : ℝ) ^ (-10 : ℤ) :=
        zpow_le_zpow_right₀ (by norm_num) (by norm_num)
    _ ≤ _ := by norm_num

/-- Lengths of at least `2^-500`. -/
theorem core_large [LibM F64] {ε : ℝ} (hε0 : 0 ≤ ε) (hε : ε ≤ 1 / 100) (hlib : LibmOk ε)
    (B : BiVector F64) (hf : ∀ c ∈ comps .biv B, c.Finite)
    (hS : (sqSum .biv B : ℝ) ≤ (2 : ℝ) ^ 1024 * (1 - 9 * (2 : ℝ) ^ (-53 : ℤ)))
    (hE : (2 : ℝ) ^ (-500 : ℤ) ≤ euclid .biv B)
    (hc : FirstPasses B.theData.d0.value (euclid .biv B)) : CoreNear ε B (expBiv B) := by
  have hE' : (2 : ℝ) ^ (-530 : ℤ) ≤ euclid .biv B :=
    (zpow_le_zpow_right₀ (by norm_num) (by norm_num)).trans hE
  have hEp : 0 < euclid .biv B := lt_of_lt_of_le (F64.two_zpow_pos _) hE
  have hu0 := uR_nonneg
  have ht := tiny_le_uR
  have hu := uR_le
  have hq : ∀ k : ℤ, k ≤ -1065 → (2 : ℝ) ^ k / (euclid .biv B * euclid .biv B) ≤ 1 / 1000 * uR := by
    intro k hk
    rw [div_le_iff₀ (mul_pos hEp hEp)]
    have e : (2 : ℝ) ^ (-65 : ℤ) ≤ 1 / 1000 * uR := by unfold uR; norm_num
    calc (2 : ℝ) ^ k ≤ (2 : ℝ) ^ (-1065 : ℤ) := zpow_le_zpow_right₀ (by norm_num) hk
      _ = (2 : ℝ) ^ (-65 : ℤ) * ((2 : ℝ) ^ (-500 : ℤ) * (2 : ℝ) ^ (-500 : ℤ)) := by
            rw [← zpow_add₀ (by norm_num), ← zpow_add₀ (by norm_num)]; norm_num only
      _ ≤ _ := mul_le_mul e (mul_self_le_mul_self (F64.two_zpow_pos _).le hE)
            (mul_pos (F64.two_zpow_pos _) (F64.two_zpow_pos _)).le (by positivity)
  obtain ⟨f, hff, hd⟩ := C34_direction_total .biv B hf hS hE'
  obtain ⟨hmf, hm⟩ : (magnitudeTy .biv B).Finite ∧
      |((magnitudeTy .biv B).value : ℝ) - euclid .biv B| ≤ 61 / 10 * uR * euclid .biv B := by
    obtain ⟨-, -, h3, -, -⟩ := recip_total hf hS hE'
    refine ⟨(C34_overflow .biv B hf).1 hS, h3.trans ?_⟩
    refine mul_le_mul_of_nonneg_right ?_ hEp.le
    have := hq (-1070) (by norm_num)
    linarith only [this, hu0]
  have hn := fun c hc => unit_comp' (t := .biv) (B := B) (c := c) hc
  have hd' : ∀ c ∈ comps .biv B, (f c).Finite ∧
      |((f c).value : ℝ) - (c.value : ℝ) / euclid .biv B|
        ≤ 901 / 100 * uR * |(c.value : ℝ) / euclid .biv B| + 2 ^ (-1075 : ℤ) := by
    intro c hc
    refine ⟨(hd c hc).1, (hd c hc).2.trans ?_⟩
    refine add_le_add (mul_le_mul_of_nonneg_right ?_ (abs_nonneg _)) le_rfl
    have := hq (-1069) (by norm_num)
    change 9 * uR + _ ≤ _
    linarith only [this, hu0]
  have m0 : B.theData.d0 ∈ comps .biv B := by simp [comps]
  have v1 : isValid B = true := F64.valid_of_value (hf _ m0) hc.1
  obtain ⟨e0, e1, e2⟩ := dir_parts B hff
  have v2 : isValid (directionTy .biv B) = true := by
    change isValidDub (directionTy .biv B).theData.d0 = true
    rw [e0]
    obtain ⟨g1, g2⟩ := hd' _ m0
    refine F64.valid_of_value g1 ?_
    rcases hc.2 with h | h
    · left
      refine zero_of_lt_grid ?_
      have h1 : |(B.theData.d0.value : ℝ) / euclid .biv B| ≤ (2 : ℝ) ^ (-1076 : ℤ) := by
        rw [abs_div, abs_of_pos hEp, div_le_iff₀ hEp]; exact h
      have h2 := abs_sub_abs_le_abs_sub ((f B.theData.d0).value : ℝ) ((B.theData.d0.value : ℝ) / euclid .biv B)
      have h3 : |((f B.theData.d0).value : ℝ)| < (2 : ℝ) ^ (-1074 : ℤ) := by
        have e : (2 : ℝ) ^ (-1074 : ℤ) = 4 * (2 : ℝ) ^ (-1076 : ℤ) := by
          rw [show (-1074 : ℤ) = 2 + -1076 from by norm_num only, zpow_add₀ (by norm_num)]; norm_num
        have e' : (2 : ℝ) ^ (-1075 : ℤ) = 2 * (2 : ℝ) ^ (-1076 : ℤ) := by
          rw [show (-1075 : ℤ) = 1 + -1076 from by norm_num only, zpow_add₀ (by norm_num), zpow_one]
        have hp : (0 : ℝ) < (2 : ℝ) ^ (-1076 : ℤ) := F64.two_zpow_pos _
        rw [e'] at g2
        rw [e]
        have h4 : 901 / 100 * uR * |(B.theData.d0.value : ℝ) / euclid .biv B|
            ≤ 1 / 1000 * |(B.theData.d0.value : ℝ) / euclid .biv B| :=
          mul_le_mul_of_nonneg_right (by linarith only [hu]) (abs_nonneg _)
        generalize (2 : ℝ) ^ (-1076 : ℤ) = τ at *
        linarith only [h1, h2, g2, h4, hp]
      rw [← Rat.cast_abs, ← cast_zpow] at h3
      exact Rat.cast_lt.1 h3
    · right
      have h1 : (2 : ℝ) ^ (-1021 : ℤ) ≤ |(B.theData.d0.value : ℝ) / euclid .biv B| := by
        rw [abs_div, abs_of_pos hEp, le_div_iff₀ hEp]; exact h
      have h2 := abs_sub_abs_le_abs_sub ((B.theData.d0.value : ℝ) / euclid .biv B) ((f B.theData.d0).value : ℝ)
      rw [abs_sub_comm] at g2
      have h3 : (2 : ℝ) ^ (-1022 : ℤ) ≤ |((f B.theData.d0).value : ℝ)| := by
        have e : (2 : ℝ) ^ (-1021 : ℤ) = 2 * (2 : ℝ) ^ (-1022 : ℤ) := by
          rw [show (-1021 : ℤ) = 1 + -1022 from by norm_num only, zpow_add₀ (by norm_num), zpow_one]
        have e' : (2 : ℝ) ^ (-1075 : ℤ) ≤ 1 / 10 * (2 : ℝ) ^ (-1022 : ℤ) := by
          rw [show (-1075 : ℤ) = -53 + -1022 from by norm_num only, zpow_add₀ (by norm_num)]
          exact mul_le_mul_of_nonneg_right (by norm_num) (F64.two_zpow_pos _).le
        rw [e] at h1
        have h4 : 901 / 100 * uR * |(B.theData.d0.value : ℝ) / euclid .biv B|
            ≤ 1 / 1000 * |(B.theData.d0.value : ℝ) / euclid .biv B| :=
          mul_le_mul_of_nonneg_right (by linarith only [hu]) (abs_nonneg _)
        have hp : (0 : ℝ) < (2 : ℝ) ^ (-1022 : ℤ) := F64.two_zpow_pos _
        generalize (2 : ℝ) ^ (-1022 : ℤ) = τ at *
        generalize (2 : ℝ) ^ (-1075 : ℤ) = τ' at *
        linarith only [h1, h2, g2, h4, hp, e']
      rw [← Rat.cast_abs, ← cast_zpow] at h3
      exact Rat.cast_le.1 h3
  refine ⟨(magnitudeTy .biv B).value, ?_, fun h => absurd h hEp.ne', ?_⟩
  · linarith only [hm, hu0]
  rw [expBiv_valid v1 v2, comps_spin]
  obtain ⟨⟨s1, s2⟩, ⟨c1, c2⟩⟩ := hlib _ hmf
  have hs := Real.abs_sin_le_one ((magnitudeTy .biv B).value : ℝ)
  have hcos := Real.abs_cos_le_one ((magnitudeTy .biv B).value : ℝ)
  have hd2 : ∀ c ∈ comps .biv B, (f c).Finite ∧
      |((f c).value : ℝ) - (c.value : ℝ) / euclid .biv B| ≤ 91 / 10 * uR := by
    intro c hc
    refine ⟨(hd' c hc).1, (hd' c hc).2.trans ?_⟩
    have := mul_le_mul_of_nonneg_left (hn c hc) (show 0 ≤ 901 / 100 * uR by linarith only [hu0])
    generalize (2 : ℝ) ^ (-1075 : ℤ) = τ' at *
    linarith only [this, ht, hu0]
  simp only [comps, List.forall₂_cons, List.forall₂_nil_left_iff, and_true, List.mem_cons,
    List.not_mem_nil, or_false, forall_eq_or_imp, forall_eq, realTy, mapTy, List.map_cons,
    List.map_nil] at hd2 hn ⊢
  simp only [engabra, e0, e1, e2]
  refine ⟨⟨c1, ?_, ?_⟩, biv_comp' hε0 hε s1 hd2.1.1 s2 hs hn.1 hd2.1.2,
    biv_comp' hε0 hε s1 hd2.2.1.1 s2 hs hn.2.1 hd2.2.1.2,
    biv_comp' hε0 hε s1 hd2.2.2.1 s2 hs hn.2.2 hd2.2.2.2⟩
  · have := abs_sub_abs_le_abs_sub ((LibM.cos (magnitudeTy .biv B)).value : ℝ)
      (Real.cos (magnitudeTy .biv B).value)
    linarith only [this, hcos, c2, hε]
  · linarith only [c2, hu0, hε0]

/-- Lengths below `2^-500`, squares not all lost. -/
theorem core_small [LibM F64] {ε : ℝ} (hε0 : 0 ≤ ε) (hε : ε ≤ 1 / 100) (hlib : LibmOk ε)
    (B : BiVector F64) (hf : ∀ c ∈ comps .biv B, c.Finite)
    (hE : euclid .biv B < (2 : ℝ) ^ (-500 : ℤ))
    (hb : ∃ c ∈ comps .biv B, (2 : ℚ) ^ (-1075 : ℤ) < c.value * c.value)
    (hc : B.theData.d0.value = 0 ∨ (2 : ℚ) ^ (-1022 : ℤ) ≤ |B.theData.d0.value|) :
    CoreNear ε B (expBiv B) := by
  have hu0 := uR_nonneg
  have hu := uR_le
  have h5 := zpow500
  have ht := tiny_le_uR
  have hlo : (2 : ℝ) ^ (-538 : ℤ) ≤ euclid .biv B := by
    obtain ⟨c, hcm, h⟩ := hb
    refine le_trans ?_ (comp_le_euclid hcm)
    have h1 := (Rat.cast_le (K := ℝ)).2 h.le
    rw [Rat.cast_mul, cast_zpow] at h1
    refine (sq_le_sq₀ (F64.two_zpow_pos _).le (abs_nonneg _)).1 ?_
    rw [sq_abs, pow_two, pow_two, ← zpow_add₀ (by norm_num)]
    exact (zpow_le_zpow_right₀ (by norm_num) (by norm_num)).trans h1
  have hEp : 0 < euclid .biv B := lt_of_lt_of_le (F64.two_zpow_pos _) hlo
  obtain ⟨hmf, hm⟩ : (magnitudeTy .biv B).Finite ∧
      |((magnitudeTy .biv B).value : ℝ) - euclid .biv B| ≤ (2 : ℝ) ^ (-500 : ℤ) := by
    have hS : (sqSum .biv B : ℝ) ≤ 1 := by
      have hEE : euclid .biv B * euclid .biv B = (sqSum .biv B : ℝ) :=
        Real.mul_self_sqrt (Real.sqrt_pos.1 hEp).le
      rw [← hEE]
      have h1 : euclid .biv B ≤ 1 := hE.le.trans (zpow_le_one_of_nonpos₀ (by norm_num) (by norm_num))
      exact mul_le_one₀ h1 hEp.le h1
    rcases C34_magnitude_total .biv B hf hEp with h | ⟨h1, h2⟩
    · exfalso
      have h2 : (1 : ℝ) ≤ (2 : ℝ) ^ 1024 * (1 - 9 * uR) := by
        have := big_ge
        have h3 : (1 : ℝ) / 2 ≤ 1 - 9 * uR := by linarith only [hu]
        refine le_trans ?_ (mul_le_mul this h3 (by norm_num) (by positivity))
        norm_num
      exact absurd (lt_of_lt_of_le h.2 hS) (not_lt.2 h2)
    · refine ⟨h1, h2.trans ?_⟩
      change 6 * uR * _ + _ ≤ _
      have h3 : (2 : ℝ) ^ (-1070 : ℤ) / euclid .biv B ≤ (2 : ℝ) ^ (-532 : ℤ) := by
        rw [div_le_iff₀ hEp]
        calc (2 : ℝ) ^ (-1070 : ℤ) = (2 : ℝ) ^ (-532 : ℤ) * (2 : ℝ) ^ (-538 : ℤ) := by
              rw [← zpow_add₀ (by norm_num)]; norm_num only
          _ ≤ _ := mul_le_mul_of_nonneg_left hlo (F64.two_zpow_pos _).le
      have h4 : 6 * uR * euclid .biv B ≤ 1 / 10 * (2 : ℝ) ^ (-500 : ℤ) :=
        mul_le_mul (by linarith only [hu]) hE.le hEp.le (by norm_num)
      have h6 : (2 : ℝ) ^ (-532 : ℤ) ≤ 1 / 10 * (2 : ℝ) ^ (-500 : ℤ) := by
        rw [show (-532 : ℤ) = -32 + -500 from by norm_num only, zpow_add₀ (by norm_num)]
        exact mul_le_mul_of_nonneg_right (by norm_num) (F64.two_zpow_pos _).le
      have h7 : (0 : ℝ) < (2 : ℝ) ^ (-500 : ℤ) := F64.two_zpow_pos _
      generalize (2 : ℝ) ^ (-500 : ℤ) = P at *
      generalize (2 : ℝ) ^ (-532 : ℤ) = Q at *
      linarith only [h3, h4, h6, h7]
  have e98 : (2 : ℝ) ^ (-498 : ℤ) = 4 * (2 : ℝ) ^ (-500 : ℤ) := by
    rw [show (-498 : ℤ) = 2 + -500 from by norm_num only, zpow_add₀ (by norm_num)]; norm_num
  have hmb : |((magnitudeTy .biv B).value : ℝ)| ≤ 2 * (2 : ℝ) ^ (-500 : ℤ) := by
    have := abs_sub_abs_le_abs_sub ((magnitudeTy .biv B).value : ℝ) (euclid .biv B)
    rw [abs_of_pos hEp] at this
    generalize (2 : ℝ) ^ (-500 : ℤ) = P at *
    linarith only [this, hm, hE]
  have h98 : 2 * (2 : ℝ) ^ (-500 : ℤ) ≤ 1 / 1000 * uR := by
    refine le_trans ?_ h5
    rw [e98]
    have h7 : (0 : ℝ) < (2 : ℝ) ^ (-500 : ℤ) := F64.two_zpow_pos _
    generalize (2 : ℝ) ^ (-500 : ℤ) = P at *
    linarith only [h7]
  rcases C34_null_or_bounded .biv B hf with ⟨h, -, -⟩ | ⟨-, -, hdir⟩
  · obtain ⟨c, hcm, h'⟩ := hb
    exact absurd h' (not_lt.2 (h c hcm))
  have m0 : B.theData.d0 ∈ comps .biv B := by simp [comps]
  have v1 : isValid B = true := F64.valid_of_value (hf _ m0) hc
  have v2 : isValid (directionTy .biv B) = true := by
    change isValidDub (directionTy .biv B).theData.d0 = true
    rcases mag_cases .biv B hf hb with h | ⟨g1, g2, g3, g4⟩
    · rw [h] at hmf; exact absurd hmf id
    obtain ⟨r1, r2⟩ := recip_near g1 g2 g3
    have hdr : directionTy .biv B = smulTy .biv (1 / magnitudeTy .biv B) B := by
      unfold directionTy pairMagDirTy
      simp only []
      rw [if_pos]
      rw [F64.denormMin_val.flt (HasVal.of g1), decide_eq_true_iff]
      exact lt_of_lt_of_le (zpow_lt_zpow_right₀ (by norm_num) (by norm_num)) g2
    have hd0 : (directionTy .biv B).theData.d0 = 1 / magnitudeTy .biv B * B.theData.d0 := by
      have h1 := comps_smul .biv (1 / magnitudeTy .biv B) B
      rw [← hdr] at h1
      exact (dir_parts B h1).1
    rw [hd0]
    rcases hc with h0 | h0
    · obtain ⟨z1, z2⟩ := HasVal.mul_zero (HasVal.of r1) (y := B.theData.d0) ⟨hf _ m0, h0⟩
      exact F64.valid_of_value z1 (Or.inl z2)
    · have hmp : (0 : ℝ) < ((magnitudeTy .biv B).value : ℝ) := by
        have : (0 : ℚ) < (magnitudeTy .biv B).value := lt_of_lt_of_le (F64.two_zpow_pos _) g2
        exact_mod_cast this
      rw [abs_of_pos hmp] at hmb
      have hip : 0 < 1 / ((magnitudeTy .biv B).value : ℝ) := one_div_pos.2 hmp
      have hr := abs_le.1 (r2.trans (mul_le_mul_of_nonneg_right uR_small hip.le))
      have h4 := g4 _ m0
      have hbr : (2 : ℝ) ^ (-1022 : ℤ) ≤ |(B.theData.d0.value : ℝ)| := by
        rw [← Rat.cast_abs, ← cast_zpow]; exact Rat.cast_le.2 h0
      have hr0 : 0 < ((1 / magnitudeTy .biv B).value : ℝ) := by linarith only [hr.1, hip]
      have hup : |((1 / magnitudeTy .biv B).value : ℝ) * B.theData.d0.value| ≤ 2 := by
        rw [abs_mul, abs_of_pos hr0]
        calc _ ≤ 1001 / 1000 * (1 / ((magnitudeTy .biv B).value : ℝ)) * (123 / 100 * ((magnitudeTy .biv B).value : ℝ)) :=
              mul_le_mul (by linarith only [hr.2]) h4 (abs_nonneg _) (by positivity)
          _ = 1001 / 1000 * (123 / 100) := by field_simp
          _ ≤ _ := by norm_num
      have hlow : 4 * (2 : ℝ) ^ (-1022 : ℤ) ≤ |((1 / magnitudeTy .biv B).value : ℝ) * B.theData.d0.value| := by
        rw [abs_mul, abs_of_pos hr0]
        refine mul_le_mul ?_ hbr (F64.two_zpow_pos _).le hr0.le
        have h9 : 8 ≤ 1 / ((magnitudeTy .biv B).value : ℝ) := by
          rw [le_div_iff₀ hmp]
          have : 2 * (2 : ℝ) ^ (-500 : ℤ) ≤ 1 / 8 := h98.trans (by linarith only [hu])
          linarith only [this, hmb]
        linarith only [h9, hr.1]
      obtain ⟨p1, p2⟩ := mul_real r1 (hf _ m0) (small_le_pow hup)
      refine F64.valid_of_value p1 (Or.inr ?_)
      have h10 : (2 : ℝ) ^ (-1022 : ℤ) ≤ |((1 / magnitudeTy .biv B * B.theData.d0).value : ℝ)| := by
        have h11 := abs_sub_abs_le_abs_sub (((1 / magnitudeTy .biv B).value : ℝ) * B.theData.d0.value)
          ((1 / magnitudeTy .biv B * B.theData.d0).value : ℝ)
        rw [abs_sub_comm] at p2
        have h12 := mul_le_mul_of_nonneg_right uR_small
          (abs_nonneg (((1 / magnitudeTy .biv B).value : ℝ) * B.theData.d0.value))
        have h13 : (2 : ℝ) ^ (-1075 : ℤ) ≤ (2 : ℝ) ^ (-1022 : ℤ) :=
          zpow_le_zpow_right₀ (by norm_num) (by norm_num)
        change _ ≤ uR * _ + _ at p2
        have h14 : (0 : ℝ) < (2 : ℝ) ^ (-1022 : ℤ) := F64.two_zpow_pos _
        generalize |((1 / magnitudeTy .biv B).value : ℝ) * B.theData.d0.value| = X at *
        generalize uR * X = Y at *
        generalize (2 : ℝ) ^ (-1075 : ℤ) = τ at *
        generalize (2 : ℝ) ^ (-1022 : ℤ) = τ' at *
        linarith only [h11, p2, h12, h13, hlow, h14]
      rw [← Rat.cast_abs, ← cast_zpow] at h10
      exact Rat.cast_le.1 h10
  refine ⟨(magnitudeTy .biv B).value, ?_, fun h => absurd h hEp.ne', ?_⟩
  · have : 0 ≤ 61 / 10 * uR * euclid .biv B := by positivity
    generalize (2 : ℝ) ^ (-500 : ℤ) = P at *
    generalize 61 / 10 * uR * euclid .biv B = Q at *
    generalize uR = u at *
    have hP : 0 < P := hEp.trans hE
    linarith only [hm, h98, this, hP]
  rw [expBiv_valid v1 v2, comps_spin]
  obtain ⟨⟨s1, s2⟩, ⟨c1, c2⟩⟩ := hlib _ hmf
  have hs := (Real.abs_sin_le_abs (x := ((magnitudeTy .biv B).value : ℝ))).trans (hmb.trans h98)
  have hcos := Real.abs_cos_le_one ((magnitudeTy .biv B).value : ℝ)
  have hn := fun c hc => unit_comp' (t := .biv) (B := B) (c := c) hc
  have hdir' : ∀ d ∈ comps .biv (directionTy .biv B), d.Finite ∧ |(d.value : ℝ)| ≤ 5 / 4 := by
    intro d hd
    refine ⟨(hdir d hd).1, ?_⟩
    have := (Rat.cast_le (K := ℝ)).2 (hdir d hd).2
    rw [Rat.cast_abs] at this
    refine this.trans_eq ?_
    norm_num
  simp only [comps, List.forall₂_cons, List.forall₂_nil_left_iff, and_true, List.mem_cons,
    List.not_mem_nil, or_false, forall_eq_or_imp, forall_eq, realTy, mapTy, List.map_cons,
    List.map_nil] at hdir' hn ⊢
  simp only [engabra]
  refine ⟨⟨c1, ?_, ?_⟩, biv_comp_tiny hε0 hε s1 hdir'.1.1 s2 hs hn.1 hdir'.1.2,
    biv_comp_tiny hε0 hε s1 hdir'.2.1.1 s2 hs hn.2.1 hdir'.2.1.2,
    biv_comp_tiny hε0 hε s1 hdir'.2.2.1 s2 hs hn.2.2 hdir'.2.2.2⟩
  · have := abs_sub_abs_le_abs_sub ((LibM.cos (magnitudeTy .biv B)).value : ℝ)
      (Real.cos (magnitudeTy .biv B).value)
    linarith only [this, hcos, c2, hε]
  · linarith only [c2, hu0, hε0]

/-- All squares lost: the result is one. -/
theorem core_lost [LibM F64] {ε : ℝ} (hε0 : 0 ≤ ε)
    (B : BiVector F64) (hf : ∀ c ∈ comps .biv B, c.Finite)
    (hb : ∀ c ∈ comps .biv B, c.value * c.value ≤ (2 : ℚ) ^ (-1075 : ℤ))
    (hc : B.theData.d0.value = 0 ∨ (2 : ℚ) ^ (-1022 : ℤ) ≤ |B.theData.d0.value|) :
    expBiv B = ⟨⟨⟨1⟩⟩, ⟨⟨0, 0, 0⟩⟩⟩ ∧ CoreNear ε B (expBiv B) := by
  have hu0 := uR_nonneg
  have m0 : B.theData.d0 ∈ comps .biv B := by simp [comps]
  have v1 : isValid B = true := F64.valid_of_value (hf _ m0) hc
  have hv : expBiv B = ⟨⟨⟨1⟩⟩, ⟨⟨0, 0, 0⟩⟩⟩ := by
    refine expBiv_invalid v1 ?_
    rw [(C34_null_iff .biv B hf).2 hb]
    rfl
  refine ⟨hv, 0, ?_, fun _ => rfl, ?_⟩
  · rw [zero_sub, abs_neg, abs_of_nonneg (show 0 ≤ euclid .biv B from Real.sqrt_nonneg _)]
    have h1 : euclid .biv B ≤ 2 * (2 : ℝ) ^ (-537 : ℤ) := by
      refine euclid_biv_le (F64.two_zpow_pos _).le fun c hcm => ?_
      have h1 := (Rat.cast_le (K := ℝ)).2 (hb c hcm)
      rw [Rat.cast_mul, cast_zpow] at h1
      refine abs_le_of_sq_le_sq ?_ (F64.two_zpow_pos _).le
      rw [pow_two, pow_two, ← zpow_add₀ (by norm_num)]
      exact h1.trans (zpow_le_zpow_right₀ (by norm_num) (by norm_num))
    have h2 : 2 * (2 : ℝ) ^ (-537 : ℤ) ≤ (2 : ℝ) ^ (-498 : ℤ) := by
      rw [show (2 : ℝ) * 2 ^ (-537 : ℤ) = 2 ^ (-536 : ℤ) by
        rw [show (-536 : ℤ) = 1 + -537 by norm_num, zpow_add₀ two_ne_zero, zpow_one]]
      exact zpow_le_zpow_right₀ (by norm_num) (by norm_num)
    have h3 : 0 ≤ 61 / 10 * uR * euclid .biv B :=
      mul_nonneg (mul_nonneg (by norm_num) hu0) (Real.sqrt_nonneg _)
    have := (h1.trans h2).trans zpow500
    generalize 61 / 10 * uR * euclid .biv B = Q at *
    linarith only [this, h3]
  · rw [hv, comps_spin, Real.sin_zero, Real.cos_zero]
    have v1 : (((1 : F64).value : ℚ) : ℝ) = 1 := by rw [F64.hasVal_one.2, Rat.cast_one]
    have v0 : (((0 : F64).value : ℚ) : ℝ) = 0 := by rw [F64.hasVal_zero'.2, Rat.cast_zero]
    have f1 := F64.hasVal_one.1
    have f0 := F64.hasVal_zero'.1
    have hq : 0 ≤ 13 / 10 * ε + 102 / 10 * uR := by positivity
    simp only [comps, List.forall₂_cons, List.forall₂_nil_left_iff, and_true, realTy, mapTy,
      List.map_cons, List.map_nil, zero_mul, v0, v1, sub_self, abs_zero, abs_one, hq, f0, f1]
    norm_num

theorem core_total [LibM F64] {ε : ℝ} (hε0 : 0 ≤ ε) (hε : ε ≤ 1 / 100) (hlib : LibmOk ε)
    (B : BiVector F64) (hf : ∀ c ∈ comps .biv B, c.Finite)
    (hS : (sqSum .biv B : ℝ) ≤ (2 : ℝ) ^ 1024 * (1 - 9 * (2 : ℝ) ^ (-53 : ℤ)))
    (hc : FirstPasses B.theData.d0.value (euclid .biv B)) : CoreNear ε B (expBiv B) := by
  rcases le_or_gt ((2 : ℝ) ^ (-500 : ℤ)) (euclid .biv B) with hE | hE
  · exact core_large hε0 hε hlib B hf hS hE hc
  · by_cases hb : ∀ c ∈ comps .biv B, c.value * c.value ≤ (2 : ℚ) ^ (-1075 : ℤ)
    · exact (core_lost hε0 B hf hb hc.1).2
    · push Not at hb
      exact core_small hε0 hε hlib B hf hE hb hc.1

/-! ## Accuracy -/

/-- Against the exact exponential. -/
theorem expBiv_total [LibM F64] {ε : ℝ} (hε0 : 0 ≤ ε) (hε : ε ≤ 1 / 100) (hlib : LibmOk ε)
    (B : BiVector F64) (hf : ∀ c ∈ comps .biv B, c.Finite)
    (hS : (sqSum .biv B : ℝ) ≤ (2 : ℝ) ^ 1024 * (1 - 9 * (2 : ℝ) ^ (-53 : ℤ)))
    (hc : FirstPasses B.theData.d0.value (euclid .biv B)) :
      List.Forall₂ (fun c y => c.Finite ∧ |(c.value : ℝ)| ≤ 103 / 100 ∧
          |(c.value : ℝ) - y| ≤ 13 / 10 * ε + (11 + 7 * euclid .biv B) * uR)
        (comps .spin (expBiv B))
        (Real.cos (euclid .biv B) :: (comps .biv (realTy .biv B)).map fun b =>
          Real.sin (euclid .biv B) * (b / euclid .biv B)) := by
  obtain ⟨m, hm, -, hk⟩ := core_total hε0 hε hlib B hf hS hc
  have hn := fun c hc => unit_comp' (t := .biv) (B := B) (c := c) hc
  have hE : 0 ≤ euclid .biv B := Real.sqrt_nonneg _
  have hu0 := uR_nonneg
  have hEu : 0 ≤ euclid .biv B * uR := mul_nonneg hE hu0
  generalize euclid .biv B = E at *
  have hsin := (Real.abs_sin_sub_sin_le m E).trans hm
  have hcos := (Real.abs_cos_sub_cos_le m E).trans hm
  rw [comps_spin] at hk ⊢
  simp only [comps, List.forall₂_cons, List.forall₂_nil_left_iff, and_true, List.mem_cons,
    List.not_mem_nil, or_false, forall_eq_or_imp, forall_eq, realTy, mapTy, List.map_cons,
    List.map_nil] at hk hn ⊢
  have step : ∀ {x n : ℝ}, |n| ≤ 1 → |x - Real.sin m * n| ≤ 13 / 10 * ε + 102 / 10 * uR →
      |x - Real.sin E * n| ≤ 13 / 10 * ε + (11 + 7 * E) * uR := by
    intro x n h1 h2
    have h3 : |Real.sin m * n - Real.sin E * n| ≤ 61 / 10 * uR * E + 1 / 1000 * uR := by
      rw [← sub_mul, abs_mul]
      exact (mul_le_of_le_one_right (abs_nonneg _) h1).trans hsin
    have := abs_sub_le x (Real.sin m * n) (Real.sin E * n)
    generalize uR = u at *
    linarith only [this, h2, h3, hEu, hu0]
  obtain ⟨⟨a1, a2, a3⟩, ⟨b1, b2, b3⟩, ⟨c1, c2, c3⟩, d1, d2, d3⟩ := hk
  refine ⟨⟨a1, a2, ?_⟩, ⟨b1, b2, step hn.1 b3⟩, ⟨c1, c2, step hn.2.1 c3⟩, d1, d2, step hn.2.2 d3⟩
  have := abs_sub_le ((expBiv B).theSca.theData.d0.value : ℝ) (Real.cos m) (Real.cos E)
  generalize uR = u at *
  linarith only [this, a3, hcos, hEu, hu0]

/-- **C46.**  `exp(B)` for every finite bivector `B` whose squared length stays below the overflow
threshold (by nine units roundoff) and whose first component passes for valid: finite, and each
component within `1.3 ε + (11 + 7|B|) u` of the exponential series. -/
theorem C46_exp_total [LibM F64] (ε : ℝ) (hε0 : 0 ≤ ε) (hε : ε ≤ 1 / 100) (hlib : LibmOk ε)
    (B : BiVector F64) (hf : ∀ c ∈ comps .biv B, c.Finite)
    (hS : (sqSum .biv B : ℝ) ≤ (2 : ℝ) ^ 1024 * (1 - 9 * (2 : ℝ) ^ (-53 : ℤ)))
    (hc : FirstPasses B.theData.d0.value (euclid .biv B)) :
    ∃ Y : Spinor ℝ, IsExp (toMV (realTy .biv B : BiVector ℝ)) (toMV Y) ∧
      List.Forall₂ (fun c y => c.Finite ∧ |(c.value : ℝ) - y|
          ≤ 13 / 10 * ε + (11 + 7 * euclid .biv B) * 2 ^ (-53 : ℤ))
        (comps .spin (expBiv B)) (comps .spin Y) := by
  refine ⟨expR 0 (realTy .biv B), isExp_expR 0 (realTy .biv B), ?_⟩
  rw [exp_comps, Real.exp_zero]
  simp only [one_mul, List.map_id']
  exact (expBiv_total hε0 hε hlib B hf hS hc).imp fun c y h => ⟨h.1, h.2.2⟩

/-- **C46.**  `exp(s + B)` in the same range of bivectors. -/
theorem C46_exp_spinor_total [LibM F64] (ε : ℝ) (hε0 : 0 ≤ ε) (hε : ε ≤ 1 / 100) (hlib : LibmOk ε)
    (hexp : LibmExpOk ε) (S : Spinor F64) (hs : S.theSca.theData.d0.Finite)
    (hs1 : (2 : ℝ) ^ (-1000 : ℤ) ≤ Real.exp S.theSca.theData.d0.value)
    (hs2 : Real.exp S.theSca.theData.d0.value ≤ 2 ^ (1000 : ℤ))
    (hf : ∀ c ∈ comps .biv S.theBiv, c.Finite)
    (hS : (sqSum .biv S.theBiv : ℝ) ≤ (2 : ℝ) ^ 1024 * (1 - 9 * (2 : ℝ) ^ (-53 : ℤ)))
    (hc : FirstPasses S.theBiv.theData.d0.value (euclid .biv S.theBiv)) :
    ∃ Y : Spinor ℝ, IsExp (toMV (realTy .spin S : Spinor ℝ)) (toMV Y) ∧
      List.Forall₂ (fun c y => c.Finite ∧ |(c.value : ℝ) - y|
          ≤ Real.exp S.theSca.theData.d0.value
              * (24 / 10 * ε + (13 + 7 * euclid .biv S.theBiv) * 2 ^ (-53 : ℤ)) + 2 ^ (-1075 : ℤ))
        (comps .spin (expSpin S)) (comps .spin Y) := by
  obtain ⟨⟨⟨s⟩⟩, B⟩ := S
  simp only at *
  obtain ⟨e1, e2⟩ := hexp s hs hs1 hs2
  refine ⟨expR s.value (realTy .biv B), isExp_expR s.value (realTy .biv B), ?_⟩
  rw [exp_comps, show comps .spin (expSpin (⟨⟨⟨s⟩⟩, B⟩ : Spinor F64))
    = (comps .spin (expBiv B)).map (LibM.exp s * ·) from rfl, List.forall₂_map_left_iff,
    List.forall₂_map_right_iff]
  refine (expBiv_total hε0 hε hlib B hf hS hc).imp fun c y hcy => ?_
  obtain ⟨g1, g2⟩ := smul_comp hε0 hε e1 hcy.1 (Real.exp_pos _) hs2 e2 hcy.2.1 hcy.2.2
  refine ⟨g1, g2.trans (le_of_eq ?_)⟩
  change _ = Real.exp s.value * (24 / 10 * ε + (13 + 7 * euclid .biv B) * uR) + _
  ring

/-- **C46.**  `exp(B)` has length one up to `2.6 ε + 21 u` in all that range, however large `B` is. -/
theorem C46_unit_total [LibM F64] (ε : ℝ) (hε0 : 0 ≤ ε) (hε : ε ≤ 1 / 100) (hlib : LibmOk ε)
    (B : BiVector F64) (hf : ∀ c ∈ comps .biv B, c.Finite)
    (hS : (sqSum .biv B : ℝ) ≤ (2 : ℝ) ^ 1024 * (1 - 9 * (2 : ℝ) ^ (-53 : ℤ)))
    (hc : FirstPasses B.theData.d0.value (euclid .biv B)) :
    (∀ c ∈ comps .spin (expBiv B), c.Finite) ∧
    |√(((comps .spin (expBiv B)).map fun c => (c.value : ℝ) ^ 2).sum) - 1|
      ≤ 26 / 10 * ε + 21 * 2 ^ (-53 : ℤ) := by
  obtain ⟨m, -, hz, hk⟩ := core_total hε0 hε hlib B hf hS hc
  have hE0 : 0 ≤ euclid .biv B := Real.sqrt_nonneg _
  have hu0 := uR_nonneg
  rw [comps_spin] at hk ⊢
  simp only [comps, List.forall₂_cons, List.forall₂_nil_left_iff, and_true, List.mem_cons,
    List.not_mem_nil, or_false, forall_eq_or_imp, forall_eq, realTy, mapTy, List.map_cons,
    List.map_nil, List.sum_cons, List.sum_nil, add_zero] at hk ⊢
  obtain ⟨⟨a1, a2, a3⟩, ⟨b1, b2, b3⟩, ⟨c1, c2, c3⟩, d1, d2, d3⟩ := hk
  refine ⟨⟨a1, b1, c1, d1⟩, ?_⟩
  refine (reverse_triangle4 (by positivity) ?_ a3 b3 c3 d3).trans ?_
  · rw [Real.sqrt_eq_one]
    rcases hE0.eq_or_lt with h0 | hE
    · rw [hz h0.symm, Real.sin_zero, Real.cos_zero]; norm_num
    have hSp : 0 < (sqSum .biv B : ℝ) := Real.sqrt_pos.1 hE
    have hEE : euclid .biv B * euclid .biv B = (sqSum .biv B : ℝ) := Real.mul_self_sqrt hSp.le
    have e : ∀ x y z : ℝ, Real.cos m ^ 2 + ((Real.sin m * (x / euclid .biv B)) ^ 2
        + ((Real.sin m * (y / euclid .biv B)) ^ 2 + (Real.sin m * (z / euclid .biv B)) ^ 2))
        = Real.cos m ^ 2 + Real.sin m ^ 2 * ((x * x + (y * y + z * z))
          / (euclid .biv B * euclid .biv B)) := by intro x y z; field_simp
    rw [e, hEE]
    have e2 : ((sqSum .biv B : ℚ) : ℝ) = (B.theData.d0.value : ℝ) * B.theData.d0.value
        + ((B.theData.d1.value : ℝ) * B.theData.d1.value + (B.theData.d2.value : ℝ) * B.theData.d2.value) := by
      simp only [sqSum, comps, List.map_cons, List.map_nil, List.sum_cons, List.sum_nil]
      push_cast; ring
    rw [← e2, div_self hSp.ne', mul_one]
    exact Real.cos_sq_add_sin_sq m
  · change _ ≤ 26 / 10 * ε + 21 * uR
    generalize uR = u at *
    linarith only [hu0]

/-! ## The others -/

/-- **C46.**  When the squares of all components are below half the smallest double `exp(B)` is one,
exactly. -/
theorem C46_one [LibM F64] (B : BiVector F64) (hf : ∀ c ∈ comps .biv B, c.Finite)
    (hb : ∀ c ∈ comps .biv B, c.value * c.value ≤ (2 : ℚ) ^ (-1075 : ℤ))
    (hc : B.theData.d0.value = 0 ∨ (2 : ℚ) ^ (-1022 : ℤ) ≤ |B.theData.d0.value|) :
    comps .spin (expBiv B) = [1, 0, 0, 0] := by
  rw [(core_lost (le_refl (0 : ℝ)) B hf hb hc).1]; rfl

/-- **C46, C20.**  A first component that is normal but whose ratio to the length is subnormal turns
the exponential into one, exactly, whatever the length is. -/
theorem C46_fails_ratio [LibM F64] (B : BiVector F64) (hf : ∀ c ∈ comps .biv B, c.Finite)
    (hS : (sqSum .biv B : ℝ) ≤ (2 : ℝ) ^ 1024 * (1 - 9 * (2 : ℝ) ^ (-53 : ℤ)))
    (h0 : (2 : ℚ) ^ (-1022 : ℤ) ≤ |B.theData.d0.value|)
    (h1 : (2 : ℝ) ^ (-1074 : ℤ) * euclid .biv B ≤ |(B.theData.d0.value : ℝ)|)
    (h2 : |(B.theData.d0.value : ℝ)| ≤ (2 : ℝ) ^ (-1023 : ℤ) * euclid .biv B) :
    comps .spin (expBiv B) = [1, 0, 0, 0] := by
  have m0 : B.theData.d0 ∈ comps .biv B := by simp [comps]
  have hu := uR_le
  have hu0 := uR_nonneg
  have hbr : (2 : ℝ) ^ (-1022 : ℤ) ≤ |(B.theData.d0.value : ℝ)| := by
    rw [← Rat.cast_abs, ← cast_zpow]; exact Rat.cast_le.2 h0
  have hE : 1 ≤ euclid .biv B := by
    have h3 := hbr.trans h2
    have e : (2 : ℝ) ^ (-1022 : ℤ) = (2 : ℝ) ^ (-1023 : ℤ) * 2 := by
      rw [show (-1022 : ℤ) = -1023 + 1 from by norm_num only, zpow_add₀ (by norm_num), zpow_one]
    rw [e] at h3
    have := le_of_mul_le_mul_left h3 (F64.two_zpow_pos _)
    linarith only [this]
  have hE' : (2 : ℝ) ^ (-530 : ℤ) ≤ euclid .biv B :=
    (zpow_le_one_of_nonpos₀ (by norm_num) (by norm_num)).trans hE
  have hEp : 0 < euclid .biv B := lt_of_lt_of_le one_pos hE
  obtain ⟨f, hff, hd⟩ := C34_direction_total .biv B hf hS hE'
  obtain ⟨g1, g2⟩ := hd _ m0
  obtain ⟨e0, -, -⟩ := dir_parts B hff
  have v1 : isValid B = true := F64.valid_of_value (hf _ m0) (Or.inr h0)
  rw [expBiv_invalid v1]
  · rfl
  change isValidDub (directionTy .biv B).theData.d0 = false
  rw [e0]
  have hq : (2 : ℝ) ^ (-1069 : ℤ) / (euclid .biv B * euclid .biv B) ≤ 1 / 10000 := by
    rw [div_le_iff₀ (mul_pos hEp hEp)]
    have h3 : 1 ≤ euclid .biv B * euclid .biv B := one_le_mul_of_one_le_of_one_le hE hE
    calc (2 : ℝ) ^ (-1069 : ℤ) ≤ (2 : ℝ) ^ (-20 : ℤ) := zpow_le_zpow_right₀ (by norm_num) (by norm_num)
      _ ≤ 1 / 10000 := by norm_num
      _ ≤ _ := le_mul_of_one_le_right (by norm_num) h3
  have n1 : (2 : ℝ) ^ (-1074 : ℤ) ≤ |(B.theData.d0.value : ℝ) / euclid .biv B| := by
    rw [abs_div, abs_of_pos hEp, le_div_iff₀ hEp]; exact h1
  have n2 : |(B.theData.d0.value : ℝ) / euclid .biv B| ≤ (2 : ℝ) ^ (-1023 : ℤ) := by
    rw [abs_div, abs_of_pos hEp, div_le_iff₀ hEp]; exact h2
  have hrel : |((f B.theData.d0).value : ℝ) - (B.theData.d0.value : ℝ) / euclid .biv B|
      ≤ 1 / 1000 * |(B.theData.d0.value : ℝ) / euclid .biv B| + (2 : ℝ) ^ (-1075 : ℤ) := by
    refine g2.trans (add_le_add (mul_le_mul_of_nonneg_right ?_ (abs_nonneg _)) le_rfl)
    change 9 * uR + _ ≤ _
    linarith only [hu, hq]
  have t1 : (2 : ℝ) ^ (-1074 : ℤ) = 2 * (2 : ℝ) ^ (-1075 : ℤ) := by
    rw [show (-1074 : ℤ) = 1 + -1075 from by norm_num only, zpow_add₀ (by norm_num), zpow_one]
  have t2 : (2 : ℝ) ^ (-1022 : ℤ) = 2 * (2 : ℝ) ^ (-1023 : ℤ) := by
    rw [show (-1022 : ℤ) = 1 + -1023 from by norm_num only, zpow_add₀ (by norm_num), zpow_one]
  have t3 : (2 : ℝ) ^ (-1075 : ℤ) ≤ 1 / 10 * (2 : ℝ) ^ (-1023 : ℤ) := by
    rw [show (-1075 : ℤ) = -52 + -1023 from by norm_num only, zpow_add₀ (by norm_num)]
    exact mul_le_mul_of_nonneg_right (by norm_num) (F64.two_zpow_pos _).le
  have t0 : (0 : ℝ) < (2 : ℝ) ^ (-1075 : ℤ) := F64.two_zpow_pos _
  have k1 := abs_sub_abs_le_abs_sub ((f B.theData.d0).value : ℝ) ((B.theData.d0.value : ℝ) / euclid .biv B)
  have k2 := abs_sub_abs_le_abs_sub ((B.theData.d0.value : ℝ) / euclid .biv B) ((f B.theData.d0).value : ℝ)
  rw [abs_sub_comm] at k2
  refine invalid_of_subnormal ⟨g1, rfl⟩ ?_ ?_
  · intro hz
    rw [hz, Rat.cast_zero, abs_zero] at k2
    rw [hz, Rat.cast_zero] at hrel
    rw [t1] at n1
    generalize (2 : ℝ) ^ (-1075 : ℤ) = τ at *
    linarith only [k2, hrel, n1, t0]
  · have : |((f B.theData.d0).value : ℝ)| < (2 : ℝ) ^ (-1022 : ℤ) := by
      rw [t2]
      generalize (2 : ℝ) ^ (-1075 : ℤ) = τ at *
      generalize (2 : ℝ) ^ (-1023 : ℤ) = τ' at *
      linarith only [k1, hrel, n2, t3, t0]
    rw [← Rat.cast_abs, ← cast_zpow] at this
    exact Rat.cast_lt.1 this

/-- **C46.**  When the sum of squares exceeds `2^1024` by nine units roundoff the magnitude is
infinite, and with the C library's `sin(inf) = cos(inf) = NaN` every component of `exp(B)` is NaN. -/
theorem C46_overflow [LibM F64] (hs : LibM.sin (.inf false : F64) = .nan)
    (hcs : LibM.cos (.inf false : F64) = .nan) (B : BiVector F64)
    (hf : ∀ c ∈ comps .biv B, c.Finite)
    (h : (2 : ℝ) ^ 1024 * (1 + 9 * (2 : ℝ) ^ (-53 : ℤ)) ≤ (sqSum .biv B : ℝ))
    (hv : B.theData.d0.value = 0 ∨ (2 : ℚ) ^ (-1022 : ℤ) ≤ |B.theData.d0.value|) :
    comps .spin (expBiv B) = [.nan, .nan, .nan, .nan] := by
  have m0 : B.theData.d0 ∈ comps .biv B := by simp [comps]
  have hm := (C34_overflow .biv B hf).2 h
  have v1 : isValid B = true := F64.valid_of_value (hf _ m0) hv
  have hd : isValid (directionTy .biv B) = true := by
    change isValidDub (directionTy .biv B).theData.d0 = true
    have hlt : Dbl.lt (Dbl.denormMin F64) (.inf false) = true := by
      have h1 := F64.denormMin_val.1
      generalize Dbl.denormMin F64 = d at h1
      cases d <;> first | rfl | exact absurd h1 id
    have hdr : directionTy .biv B = smulTy .biv (1 / magnitudeTy .biv B) B := by
      unfold directionTy pairMagDirTy
      simp only [hm]
      rw [if_pos hlt]
    have hd0 := comps_smul .biv (1 / magnitudeTy .biv B) B
    rw [← hdr] at hd0
    rw [(dir_parts B hd0).1, hm]
    have h1 : (1 : F64) / .inf false = .zero (xor (1 : F64).signbit false) := by
      rw [F64.one_eq]; rfl
    rw [h1]
    obtain ⟨h2, h3⟩ := (F64.hasVal_zero (xor (1 : F64).signbit false)).zero_mul (HasVal.of (hf _ m0))
    exact F64.valid_of_value h2 (Or.inl h3)
  rw [expBiv_valid v1 hd, hm, hs, hcs]
  have hnan : ∀ x : F64, .nan * x = (.nan : F64) := fun x => by rw [F64.mul_def]; rfl
  simp only [comps, engabra, hnan]

/-! ## Concrete cases -/

theorem biv_pow2 (a b : ℤ) (ha : -1022 ≤ a) (ha' : a ≤ 900) (hb : -1022 ≤ b) (hb' : b ≤ 900) :
    (∀ c ∈ comps .biv ⟨⟨F64.pow2 a, F64.pow2 b, 0⟩⟩, c.Finite) ∧
    (sqSum .biv ⟨⟨F64.pow2 a, F64.pow2 b, 0⟩⟩ : ℝ) = (2 : ℝ) ^ (a + a) + (2 : ℝ) ^ (b + b) ∧
    (F64.pow2 a).value = (2 : ℚ) ^ a := by
  have va : HasVal (F64.pow2 a) ((2 : ℚ) ^ a) := F64.pow2_val (by omega) (by omega)
  have vb : HasVal (F64.pow2 b) ((2 : ℚ) ^ b) := F64.pow2_val (by omega) (by omega)
  have h0 : (0 : F64).value = 0 := F64.hasVal_zero'.2
  refine ⟨?_, ?_, va.2⟩
  · simp only [comps, List.forall_mem_cons, List.not_mem_nil, false_imp_iff, implies_true, and_true]
    exact ⟨va.1, vb.1, F64.hasVal_zero'.1⟩
  · unfold sqSum
    simp only [comps, List.map_cons, List.map_nil, List.sum_cons, List.sum_nil, va.2, vb.2, h0]
    push_cast
    rw [zpow_add₀ (by norm_num), zpow_add₀ (by norm_num)]
    ring

/-- Comparing the length of `(2^a, 2^b, 0)` with powers of two. -/
theorem biv_pow2_len {a b : ℤ} (ha : -1022 ≤ a) (ha' : a ≤ 900) (hb : -1022 ≤ b) (hb' : b ≤ 900)
    (hab : a ≤ b) : (2 : ℝ) ^ b ≤ euclid .biv ⟨⟨F64.pow2 a, F64.pow2 b, 0⟩⟩ ∧
    euclid .biv ⟨⟨F64.pow2 a, F64.pow2 b, 0⟩⟩ ≤ 2 * (2 : ℝ) ^ b := by
  obtain ⟨-, h, -⟩ := biv_pow2 a b ha ha' hb hb'
  have h1 : (2 : ℝ) ^ (a + a) ≤ (2 : ℝ) ^ (b + b) := zpow_le_zpow_right₀ (by norm_num) (by omega)
  have h2 : (0 : ℝ) < (2 : ℝ) ^ (a + a) := F64.two_zpow_pos _
  have h3 : (2 : ℝ) ^ (b + b) = (2 : ℝ) ^ b * (2 : ℝ) ^ b := zpow_add₀ (by norm_num) _ _
  unfold euclid
  rw [h]
  refine ⟨Real.le_sqrt_of_sq_le ?_, Real.sqrt_le_iff.2 ⟨by positivity, ?_⟩⟩
  · rw [pow_two, ← h3]; linarith only [h2]
  · rw [mul_pow, pow_two ((2 : ℝ) ^ b), ← h3]; linarith only [h1, h2]

/-- `exp` of `(2^500, 2^511, 0)`, beyond the range of `C46_exp`. -/
example : letI := refLibM
    let B : BiVector F64 := ⟨⟨F64.pow2 500, F64.pow2 511, 0⟩⟩
    (∀ c ∈ comps .spin (expBiv B), c.Finite) ∧
    |√(((comps .spin (expBiv B)).map fun c => (c.value : ℝ) ^ 2).sum) - 1|
      ≤ 26 / 10 * 2 ^ (-53 : ℤ) + 21 * 2 ^ (-53 : ℤ) := by
  let _ := refLibM
  intro B
  obtain ⟨h1, h2, h3⟩ := biv_pow2 500 511 (by norm_num) (by norm_num) (by norm_num) (by norm_num)
  obtain ⟨h4, h5⟩ := biv_pow2_len (a := 500) (b := 511) (by norm_num) (by norm_num) (by norm_num)
    (by norm_num) (by norm_num)
  refine C46_unit_total (2 ^ (-53 : ℤ)) (by positivity) (by norm_num) refLibM_ok.1 B h1 ?_ ⟨?_, ?_⟩
  · rw [h2]
    have e1 : (2 : ℝ) ^ (500 + 500 : ℤ) ≤ 2 ^ 1022 := by
      rw [← zpow_natCast]; exact zpow_le_zpow_right₀ (by norm_num) (by norm_num)
    have e2 : (2 : ℝ) ^ (511 + 511 : ℤ) ≤ 2 ^ 1022 := by
      rw [← zpow_natCast]; exact zpow_le_zpow_right₀ (by norm_num) (by norm_num)
    have e : (2 : ℝ) ^ 1024 = 4 * 2 ^ 1022 := by rw [show 1024 = 2 + 1022 by norm_num only, pow_add]; norm_num
    have hu := uR_small
    have hp : (0 : ℝ) < 2 ^ 1022 := pow_pos two_pos _
    rw [e]
    change _ ≤ 4 * 2 ^ 1022 * (1 - 9 * uR)
    have := mul_le_mul_of_nonneg_left hu hp.le
    generalize (2 : ℝ) ^ 1022 = P at *
    generalize uR = u at *
    linarith only [this, hp, e1, e2]
  · right
    change _ ≤ |(F64.pow2 500).value|
    rw [h3, abs_of_pos (F64.two_zpow_pos _)]
    exact zpow_le_zpow_right₀ (by norm_num) (by norm_num)
  · right
    change _ ≤ |((F64.pow2 500).value : ℝ)|
    rw [h3, cast_zpow, abs_of_pos (F64.two_zpow_pos _)]
    refine (mul_le_mul_of_nonneg_left h5 (F64.two_zpow_pos _).le).trans ?_
    rw [show (2 : ℝ) * 2 ^ (511 : ℤ) = 2 ^ (512 : ℤ) by
      rw [show (512 : ℤ) = 1 + 511 by norm_num, zpow_add₀ two_ne_zero, zpow_one],
      ← zpow_add₀ (by norm_num)]
    exact zpow_le_zpow_right₀ (by norm_num) (by norm_num)

/-- `exp` of `(2^-1022, 4, 0)` is one although the true value has the scalar part `cos 4 < 0`. -/
example [LibM F64] : comps .spin (expBiv (⟨⟨F64.pow2 (-1022), F64.pow2 2, 0⟩⟩ : BiVector F64)) = [1, 0, 0, 0] := by
  obtain ⟨h1, h2, h3⟩ := biv_pow2 (-1022) 2 (by norm_num) (by norm_num) (by norm_num) (by norm_num)
  obtain ⟨h4, h5⟩ := biv_pow2_len (a := -1022) (b := 2) (by norm_num) (by norm_num) (by norm_num)
    (by norm_num) (by norm_num)
  refine C46_fails_ratio _ h1 ?_ ?_ ?_ ?_
  · rw [h2]
    have e1 : (2 : ℝ) ^ (-1022 + -1022 : ℤ) ≤ 1 := zpow_le_one_of_nonpos₀ (by norm_num) (by norm_num)
    have e2 : (2 : ℝ) ^ (2 + 2 : ℤ) = 16 := by norm_num
    rw [e2]
    have h7 : (1 : ℝ) / 2 ≤ 1 - 9 * uR := by linarith only [uR_small]
    refine le_trans ?_ (mul_le_mul big_ge h7 (by norm_num) (by positivity))
    refine le_trans (add_le_add e1 le_rfl) ?_
    norm_num
  · change _ ≤ |(F64.pow2 (-1022)).value|
    rw [h3, abs_of_pos (F64.two_zpow_pos _)]
  · change _ ≤ |((F64.pow2 (-1022)).value : ℝ)|
    rw [h3, cast_zpow, abs_of_pos (F64.two_zpow_pos _)]
    refine (mul_le_mul_of_nonneg_left h5 (F64.two_zpow_pos _).le).trans ?_
    rw [show (2 : ℝ) * 2 ^ (2 : ℤ) = 2 ^ (3 : ℤ) by norm_num, ← zpow_add₀ (by norm_num)]
    exact zpow_le_zpow_right₀ (by norm_num) (by norm_num)
  · change |((F64.pow2 (-1022)).value : ℝ)| ≤ _
    rw [h3, cast_zpow, abs_of_pos (F64.two_zpow_pos _)]
    refine le_trans ?_ (mul_le_mul_of_nonneg_left h4 (F64.two_zpow_pos _).le)
    rw [← zpow_add₀ (by norm_num)]
    exact zpow_le_zpow_right₀ (by norm_num) (by norm_num)

/-- `(2^-600, 2^-538, 0)` is not zero, but its exponential is exactly one. -/
example [LibM F64] : comps .spin (expBiv (⟨⟨F64.pow2 (-600), F64.pow2 (-538), 0⟩⟩ : BiVector F64)) = [1, 0, 0, 0] := by
  obtain ⟨h1, -, h3⟩ := biv_pow2 (-600) (-538) (by norm_num) (by norm_num) (by norm_num) (by norm_num)
  have v2 : HasVal (F64.pow2 (-538)) ((2 : ℚ) ^ (-538 : ℤ)) := F64.pow2_val (by omega) (by omega)
  refine C46_one _ h1 ?_ (Or.inr ?_)
  · simp only [comps, List.forall_mem_cons, List.not_mem_nil, false_imp_iff, implies_true, and_true,
      h3, v2.2, F64.hasVal_zero'.2]
    refine ⟨?_, ?_, ?_⟩
    · rw [← zpow_add₀ (by norm_num)]; exact zpow_le_zpow_right₀ (by norm_num) (by norm_num)
    · rw [← zpow_add₀ (by norm_num)]; exact zpow_le_zpow_right₀ (by norm_num) (by norm_num)
    · rw [mul_zero]; exact (F64.two_zpow_pos _).le
  · change _ ≤ |(F64.pow2 (-600)).value|
    rw [h3, abs_of_pos (F64.two_zpow_pos _)]
    exact zpow_le_zpow_right₀ (by norm_num) (by norm_num)

/-- `(2^500, 2^513, 0)` meets the hypotheses of `C46_overflow`. -/
example : letI := refLibM
    comps .spin (expBiv (⟨⟨F64.pow2 500, F64.pow2 513, 0⟩⟩ : BiVector F64)) = [.nan, .nan, .nan, .nan] := by
  let _ := refLibM
  obtain ⟨h1, h2, h3⟩ := biv_pow2 500 513 (by norm_num) (by norm_num) (by norm_num) (by norm_num)
  refine C46_overflow rfl rfl _ h1 ?_ (Or.inr ?_)
  · rw [h2]
    have e2 : (2 : ℝ) ^ 1024 * 2 ≤ (2 : ℝ) ^ (513 + 513 : ℤ) := by
      rw [← pow_succ, ← zpow_natCast]; exact zpow_le_zpow_right₀ (by norm_num) (by norm_num)
    have h7 : 1 + 9 * uR ≤ 2 := by
      have := uR_small
      generalize uR = u at *
      linarith only [this]
    have h8 : (0 : ℝ) < (2 : ℝ) ^ (500 + 500 : ℤ) := F64.two_zpow_pos _
    refine ((mul_le_mul_of_nonneg_left h7 (pow_pos two_pos _).le).trans e2).trans ?_
    linarith only [h8]
  · change _ ≤ |(F64.pow2 500).value|
    rw [h3, abs_of_pos (F64.two_zpow_pos _)]
    exact zpow_le_zpow_right₀ (by norm_num) (by norm_num)

end Engabra
