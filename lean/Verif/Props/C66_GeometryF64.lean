import Verif.Props.C66_CoreF64
import Verif.Props.C65_SolveMv

/-! # C66 in binary64: mirror images and projections -/

namespace Engabra

open F64 (Finite HasVal)

/-- **C66.** In binary64: `-a*v*inverse(a)` is finite, its vector part is within `67 u ‖v‖` of the
mirror image of `v` in the plane orthogonal to `a`, and its trivector part is below `67 u ‖v‖`. -/
theorem C66_mirror_binary64 (a v : Vector F64) (h : Central .vec a) (hv : MidVec v) :
    let q : ImSpin F64 := -(a * v * inverseBlade a : ImSpin F64)
    (∀ c ∈ comps .imsp q, c.Finite) ∧
    ‖ptVal q.theVec - (Submodule.span ℝ {ptVal a})ᗮ.reflection (ptVal v)‖
      ≤ 67 * 2 ^ (-53 : ℤ) * ‖ptVal v‖ ∧
    |(q.theTri.theData.d0.value : ℝ)| ≤ 67 * 2 ^ (-53 : ℤ) * ‖ptVal v‖ := by
  intro q
  obtain ⟨y, hy, fq, hq⟩ := C66_turn_binary64 .vec .vec (by simp) a h v hv.1
    (by rw [len_vec]; exact hv.2.1) (by rw [len_vec]; exact hv.2.2)
  obtain rfl : inverseBlade a = y := Option.some.inj hy
  have hw := (hq (toMV (⟨turnQ (valA a.theData) (valA v.theData)⟩ : Vector ℚ))
    (turnQ_vec _ _ (valA_vec a h))).2
  have hr := read_imsp (a * v * inverseBlade a : ImSpin F64) _ hw
  rw [len_vec, ptA_turn, ptA_valA, ptA_valA] at hr
  exact ⟨finite_neg (finite_imsp fq), neg_read (Submodule.reflection_orthogonal_apply _ _) hr⟩

/-- **C66.** The same for `-B*v*inverse(B)` and the plane of `B`. -/
theorem C66_mirror_plane_binary64 (B : BiVector F64) (v : Vector F64) (h : Central .biv B)
    (hv : MidVec v) :
    let q : ImSpin F64 := -(B * v * inverseBlade B : ImSpin F64)
    (∀ c ∈ comps .imsp q, c.Finite) ∧
    ‖ptVal q.theVec - (Submodule.span ℝ {normalVal B})ᗮ.reflection (ptVal v)‖
      ≤ 67 * 2 ^ (-53 : ℤ) * ‖ptVal v‖ ∧
    |(q.theTri.theData.d0.value : ℝ)| ≤ 67 * 2 ^ (-53 : ℤ) * ‖ptVal v‖ := by
  intro q
  obtain ⟨y, hy, fq, hq⟩ := C66_turn_binary64 .biv .vec (by simp) B h v hv.1
    (by rw [len_vec]; exact hv.2.1) (by rw [len_vec]; exact hv.2.2)
  obtain rfl : inverseBlade B = y := Option.some.inj hy
  have hw := (hq (toMV (⟨turnQ (valA B.theData) (valA v.theData)⟩ : Vector ℚ))
    (turnQ_biv _ _ (valA_biv B h))).2
  have hr := read_imsp (B * v * inverseBlade B : ImSpin F64) _ hw
  rw [len_vec, ptA_turn, ptA_valA, ptA_valB] at hr
  exact ⟨finite_neg (finite_imsp fq), neg_read (Submodule.reflection_orthogonal_apply _ _) hr⟩

/-- **C66.** In binary64: the scalar part of `v*a` times `inverse(a)` is finite and within
`67 u ‖v‖` of the projection of `v` onto the line of `a`. -/
theorem C66_project_line_binary64 (a v : Vector F64) (h : Central .vec a) (hv : MidVec v) :
    let q : Vector F64 := (v * a : Spinor F64).theSca * inverseBlade a
    (∀ c ∈ comps .vec q, c.Finite) ∧
    ‖ptVal q - (Submodule.span ℝ {ptVal a}).starProjection (ptVal v)‖
      ≤ 67 * 2 ^ (-53 : ℤ) * ‖ptVal v‖ := by
  intro q
  obtain ⟨y, hy, fq, hq⟩ := grade_core .vec .sca (by simp) a h v hv.1 hv.2.1 hv.2.2
    part0 part0_len part0_sub (v * a : Spinor F64).theSca fin_sca (grade_sca _)
  obtain rfl : inverseBlade a = y := Option.some.inj hy
  have hw := hq (toMV (⟨lineQ (valA a.theData) (valA v.theData)⟩ : Vector ℚ))
    (lineQ_vec _ _ (valA_vec a h))
  have hr := read_vec q _ hw
  rw [ptA_line, ptA_valA, ptA_valA] at hr
  exact ⟨finite_vec fq, hr⟩

/-- **C66.** In binary64: the bivector part of `v*a` times `inverse(a)` is finite, its vector part
is within `67 u ‖v‖` of the projection of `v` onto the plane orthogonal to `a`, and its trivector
part is below `67 u ‖v‖`. -/
theorem C66_reject_line_binary64 (a v : Vector F64) (h : Central .vec a) (hv : MidVec v) :
    let q : ImSpin F64 := (v * a : Spinor F64).theBiv * inverseBlade a
    (∀ c ∈ comps .imsp q, c.Finite) ∧
    ‖ptVal q.theVec - (Submodule.span ℝ {ptVal a})ᗮ.starProjection (ptVal v)‖
      ≤ 67 * 2 ^ (-53 : ℤ) * ‖ptVal v‖ ∧
    |(q.theTri.theData.d0.value : ℝ)| ≤ 67 * 2 ^ (-53 : ℤ) * ‖ptVal v‖ := by
  intro q
  obtain ⟨y, hy, fq, hq⟩ := grade_core .vec .biv (by simp) a h v hv.1 hv.2.1 hv.2.2
    part2 part2_len part2_sub (v * a : Spinor F64).theBiv fin_biv (grade_biv _)
  obtain rfl : inverseBlade a = y := Option.some.inj hy
  have hw := hq (toMV (⟨restQ (valA a.theData) (valA v.theData)⟩ : Vector ℚ))
    (restQ_vec _ _ (valA_vec a h))
  have hr := read_imsp q _ hw
  rw [ptA_rest, ptA_valA, ptA_valA] at hr
  exact ⟨finite_imsp fq, hr⟩

/-- **C66.** In binary64: the vector part of `v*B` times `inverse(B)` is finite, its vector part is
within `67 u ‖v‖` of the projection of `v` onto the plane of `B`, and its trivector part is below
`67 u ‖v‖`. -/
theorem C66_project_plane_binary64 (B : BiVector F64) (v : Vector F64) (h : Central .biv B)
    (hv : MidVec v) :
    let q : ImSpin F64 := (v * B : ImSpin F64).theVec * inverseBlade B
    (∀ c ∈ comps .imsp q, c.Finite) ∧
    ‖ptVal q.theVec - (Submodule.span ℝ {normalVal B})ᗮ.starProjection (ptVal v)‖
      ≤ 67 * 2 ^ (-53 : ℤ) * ‖ptVal v‖ ∧
    |(q.theTri.theData.d0.value : ℝ)| ≤ 67 * 2 ^ (-53 : ℤ) * ‖ptVal v‖ := by
  intro q
  obtain ⟨y, hy, fq, hq⟩ := grade_core .biv .vec (by simp) B h v hv.1 hv.2.1 hv.2.2
    part1 part1_len part1_sub (v * B : ImSpin F64).theVec fin_vec (grade_vec _)
  obtain rfl : inverseBlade B = y := Option.some.inj hy
  have hw := hq (toMV (⟨restQ (valA B.theData) (valA v.theData)⟩ : Vector ℚ))
    (restQ_biv _ _ (valA_biv B h))
  have hr := read_imsp q _ hw
  rw [ptA_rest, ptA_valA, ptA_valB] at hr
  exact ⟨finite_imsp fq, hr⟩

/-- **C66.** In binary64: the trivector part of `v*B` times `inverse(B)` is finite and within
`67 u ‖v‖` of the component of `v` along the normal of the plane of `B`. -/
theorem C66_reject_plane_binary64 (B : BiVector F64) (v : Vector F64) (h : Central .biv B)
    (hv : MidVec v) :
    let q : Vector F64 := (v * B : ImSpin F64).theTri * inverseBlade B
    (∀ c ∈ comps .vec q, c.Finite) ∧
    ‖ptVal q - (Submodule.span ℝ {normalVal B}).starProjection (ptVal v)‖
      ≤ 67 * 2 ^ (-53 : ℤ) * ‖ptVal v‖ := by
  intro q
  obtain ⟨y, hy, fq, hq⟩ := grade_core .biv .tri (by simp) B h v hv.1 hv.2.1 hv.2.2
    part3 part3_len part3_sub (v * B : ImSpin F64).theTri fin_tri (grade_tri _)
  obtain rfl : inverseBlade B = y := Option.some.inj hy
  have hw := hq (toMV (⟨lineQ (valA B.theData) (valA v.theData)⟩ : Vector ℚ))
    (lineQ_biv _ _ (valA_biv B h))
  have hr := read_vec q _ hw
  rw [ptA_line, ptA_valA, ptA_valB] at hr
  exact ⟨finite_vec fq, hr⟩

/-- The vector `3 e1 - 4 e3` meets the conditions on both arguments. -/
example : Central .vec exCoef ∧ MidVec exCoef := by
  have h0 := small_lit 0 (by norm_num)
  have h3 := small_lit 3 (by norm_num)
  have h4 := small_lit (-4) (by norm_num)
  have hl : ‖ptVal exCoef‖ = 5 := by
    rw [← Real.sqrt_sq (norm_nonneg _), normSq_E3]
    simp only [ptVal, exCoef, h0.2, h3.2, h4.2]
    rw [show (5 : ℝ) = √25 by rw [show (25 : ℝ) = 5 ^ 2 by norm_num, Real.sqrt_sq (by norm_num)]]
    refine congrArg Real.sqrt ?_
    simp
    norm_num
  have big : (4 : ℚ) ≤ 2 ^ (500 : ℤ) := by
    have e : (2 : ℚ) ^ (2 : ℤ) = 4 := by norm_num
    have := zpow_le_zpow_right₀ (one_le_two : (1 : ℚ) ≤ 2) (by norm_num : (2 : ℤ) ≤ 500)
    rwa [e] at this
  have low : (2 : ℚ) ^ (-500 : ℤ) ≤ 1 := by
    have := zpow_le_zpow_right₀ (one_le_two : (1 : ℚ) ≤ 2) (by norm_num : (-500 : ℤ) ≤ 0)
    rwa [zpow_zero] at this
  have hf : ∀ c ∈ comps .vec exCoef, c.Finite ∧ |c.value| ≤ 4 := by
    intro c hc
    simp only [comps, exCoef, List.mem_cons, List.not_mem_nil, or_false] at hc
    rcases hc with rfl | rfl | rfl
    · exact ⟨h3.1, by rw [h3.2]; norm_num⟩
    · exact ⟨h0.1, by rw [h0.2]; norm_num⟩
    · exact ⟨h4.1, by rw [h4.2]; norm_num⟩
  refine ⟨⟨fun c hc => ⟨(hf c hc).1, (hf c hc).2.trans big⟩, Dbl.lit (3 : ℤ), by simp [comps, exCoef], ?_⟩,
    fun c hc => (hf c hc).1, ?_, ?_⟩
  · rw [h3.2]
    exact low.trans (by norm_num)
  · rw [hl]
    have := zpow_le_zpow_right₀ (one_le_two : (1 : ℝ) ≤ 2) (by norm_num : (-400 : ℤ) ≤ 0)
    rw [zpow_zero] at this
    exact this.trans (by norm_num)
  · rw [hl]
    have e : (2 : ℝ) ^ (3 : ℤ) = 8 := by norm_num
    have := zpow_le_zpow_right₀ (one_le_two : (1 : ℝ) ≤ 2) (by norm_num : (3 : ℤ) ≤ 400)
    rw [e] at this
    exact le_trans (by norm_num) this

end Engabra
