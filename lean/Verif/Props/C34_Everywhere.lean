import Verif.Props.C57_Witness

/-! # C34: magnitude and direction outside the central range

`magnitude` for every finite value whose exact sum of squares is at most `2^1022`, `direction` for
those of length at least `2^-520`, with and without contraction to fused operations (C57). -/

namespace Engabra

open F64 (Finite HasVal)

theorem sqSum_comps (t : Ty) (x : t.D F64) :
    ∑ k, ((cf (promote t x) k).value) ^ 2 = sqSum t x := by
  have h0 : (0 : F64).value = 0 := F64.hasVal_zero'.2
  unfold sqSum
  rw [Fin.sum_univ_eight]
  cases t <;> simp only [cf_0, cf_1, cf_2, cf_3, cf_4, cf_5, cf_6, cf_7, engabra, comps, h0,
    List.map_cons, List.map_nil, List.sum_cons, List.sum_nil] <;> ring

theorem sqSum_nonneg (t : Ty) (x : t.D F64) : 0 ≤ sqSum t x := by
  rw [← sqSum_comps]; exact Finset.sum_nonneg fun k _ => sq_nonneg _

/-- Without contraction. -/
theorem magSq_mayBe (t : Ty) (x : t.D F64) : MagSqMayBe t x (magSqTy t x) := by
  have h := congrFun (symEnv_map (fun _ => (⟨t, x⟩ : Sigma fun t : Ty => t.D F64)) fun y => y) 0
  have h' : mapTy (T.ev (varEnv fun _ => ⟨t, x⟩)) t (sv t 0) = x := by
    rw [mapS_id] at h
    exact eq_of_heq (Sigma.mk.inj_iff.1 h).2
  have := contracted_ev (varEnv fun _ => (⟨t, x⟩ : Sigma fun t : Ty => t.D F64)) (magSqTy t (sv t 0))
  rwa [← magSq_map, h'] at this

/-- Square roots of numbers near each other. -/
theorem root_near {u m E h : ℝ} (hu0 : 0 ≤ u) (hu : u ≤ 1 / 1000) (hm : 0 ≤ m) (hE : 0 ≤ E)
    (hh : 0 ≤ h) (hd : |m * m - E * E| ≤ 9 * u * (E * E) + h * h) : |m - E| ≤ 5 * u * E + h := by
  obtain ⟨h1, h2⟩ := abs_le.1 hd
  rw [abs_le]
  constructor
  · by_contra hc
    push Not at hc
    have hX : m < (1 - 5 * u) * E - h := by linarith
    have hY : 0 < (1 - 5 * u) * E - h := lt_of_le_of_lt hm hX
    have h3 : m * m ≤ ((1 - 5 * u) * E - h) * ((1 - 5 * u) * E - h) :=
      mul_le_mul hX.le hX.le hm hY.le
    have h4 : 0 ≤ h * ((1 - 5 * u) * E - h) := mul_nonneg hh hY.le
    have h5 : 25 * (u * u) ≤ u := by nlinarith
    have h6 := mul_le_mul_of_nonneg_right h5 (mul_nonneg hE hE)
    have h7 : m * m < ((1 - 5 * u) * E - h) * ((1 - 5 * u) * E - h) :=
      mul_self_lt_mul_self hm hX
    nlinarith
  · by_contra hc
    push Not at hc
    have hX : (1 + 5 * u) * E + h < m := by linarith
    have h3 : ((1 + 5 * u) * E + h) * ((1 + 5 * u) * E + h) < m * m :=
      mul_self_lt_mul_self (by positivity) hX
    have h4 : 0 ≤ h * ((1 + 5 * u) * E) := by positivity
    have h5 : 0 ≤ u * u * (E * E) := by positivity
    have h6 : 0 ≤ u * (E * E) := by positivity
    nlinarith

theorem half_root : ∃ h : ℝ, 0 ≤ h ∧ h * h = (2 : ℝ) ^ (-1059 : ℤ) ∧
    h ≤ 72 / 100 * (2 : ℝ) ^ (-529 : ℤ) := by
  refine ⟨√((2 : ℝ) ^ (-1059 : ℤ)), Real.sqrt_nonneg _, Real.mul_self_sqrt (F64.two_zpow_pos _).le, ?_⟩
  have hp : (0 : ℝ) < (2 : ℝ) ^ (-529 : ℤ) := F64.two_zpow_pos _
  refine Real.sqrt_le_iff.2 ⟨by positivity, ?_⟩
  rw [show (-1059 : ℤ) = -1 + (-529 + -529) from by norm_num only, zpow_add₀ (by norm_num),
    zpow_add₀ (by norm_num)]
  generalize (2 : ℝ) ^ (-529 : ℤ) = P at *
  have : 0 ≤ P * P := by positivity
  norm_num
  nlinarith

/-- A number near the sum of squares has a square root near the length. -/
theorem sqrt_near {d : F64} {S : ℚ} (hf : d.Finite) (h0 : 0 ≤ d.value) (hS : 0 ≤ S) (hS2 : S ≤ 2 ^ 1022)
    (hd : |d.value - S| ≤ 9 * 2 ^ (-53 : ℤ) * S + 2 ^ (-1059 : ℤ)) :
    (Dbl.sqrt d).Finite ∧
    |((Dbl.sqrt d).value : ℝ) - √(S : ℝ)| ≤ 7 * (2 : ℝ) ^ (-53 : ℤ) * √(S : ℝ) + (2 : ℝ) ^ (-529 : ℤ) := by
  have hSr : (0 : ℝ) ≤ (S : ℝ) := by exact_mod_cast hS
  have hdr : (0 : ℝ) ≤ (d.value : ℝ) := by exact_mod_cast h0
  have hd' : |(d.value : ℝ) - S| ≤ 9 * (2 : ℝ) ^ (-53 : ℤ) * S + (2 : ℝ) ^ (-1059 : ℤ) := by
    have h6 := (Rat.cast_le (K := ℝ)).2 hd
    rw [Rat.cast_abs, Rat.cast_sub, Rat.cast_add, Rat.cast_mul, Rat.cast_mul, cast_zpow, cast_zpow] at h6
    exact_mod_cast h6
  obtain ⟨h, hh, hhh, hhs⟩ := half_root
  have eE : √(S : ℝ) * √(S : ℝ) = S := Real.mul_self_sqrt hSr
  have em : √(d.value : ℝ) * √(d.value : ℝ) = d.value := Real.mul_self_sqrt hdr
  have nE := Real.sqrt_nonneg (S : ℝ)
  have nm := Real.sqrt_nonneg (d.value : ℝ)
  have hn := root_near (u := uR) uR_nonneg uR_small nm nE hh (by rw [eE, em, hhh]; exact hd')
  have hE : √(S : ℝ) ≤ 2 ^ 511 := by
    refine Real.sqrt_le_iff.2 ⟨by positivity, ?_⟩
    rw [← pow_mul]
    exact_mod_cast hS2
  have hp : (0 : ℝ) < (2 : ℝ) ^ (-529 : ℤ) := F64.two_zpow_pos _
  have hp1 : (2 : ℝ) ^ (-529 : ℤ) ≤ 1 := by
    rw [show (1 : ℝ) = (2 : ℝ) ^ (0 : ℤ) from (zpow_zero _).symm]
    exact zpow_le_zpow_right₀ (by norm_num) (by norm_num)
  rcases h0.eq_or_lt with hz | hpos
  · have hr : (Dbl.sqrt d).Finite ∧ (Dbl.sqrt d).value = 0 := by
      rw [F64.sqrt_def]
      cases d with
      | nan => exact absurd hf id
      | inf _ => exact absurd hf id
      | zero s => exact ⟨trivial, rfl⟩
      | fin v hv => exact absurd hz.symm hv.1
    refine ⟨hr.1, ?_⟩
    rw [← hz, Rat.cast_zero, Real.sqrt_zero] at hn
    rw [hr.2, Rat.cast_zero]
    have := mul_nonneg uR_nonneg nE
    change _ ≤ 7 * uR * √(S : ℝ) + _
    generalize (2 : ℝ) ^ (-529 : ℤ) = P at *
    linarith
  · have hmp : 0 < √(d.value : ℝ) := Real.sqrt_pos.2 (by exact_mod_cast hpos)
    have hub : √(d.value : ℝ) ≤ 101 / 100 * √(S : ℝ) + (2 : ℝ) ^ (-529 : ℤ) := by
      have h1 := (abs_le.1 hn).2
      have h2 := mul_le_mul_of_nonneg_right uR_small nE
      generalize (2 : ℝ) ^ (-529 : ℤ) = P at *
      generalize uR = u at *
      linarith only [h1, h2, hhs, hp, nE]
    have hbig : √(d.value : ℝ) ≤ 2 ^ 1022 := by
      have h3 : (2 : ℝ) ^ 513 ≤ 2 ^ 1022 := pow_le_pow_right₀ (by norm_num) (by norm_num)
      have h4 : (2 : ℝ) ^ 513 = 4 * 2 ^ 511 := by
        rw [show (513 : ℕ) = 2 + 511 from rfl, pow_add]; norm_num only
      have h5 : (1 : ℝ) ≤ 2 ^ 511 := one_le_pow₀ (by norm_num)
      rw [h4] at h3
      refine le_trans ?_ h3
      generalize (2 : ℝ) ^ 511 = P at *
      generalize (2 : ℝ) ^ (-529 : ℤ) = P' at *
      linarith only [hub, hE, hp1, h5]
    obtain ⟨hmf, hmv⟩ := F64.sqrt_spec hf hpos hbig
    refine ⟨hmf, ?_⟩
    have hdmin : (2 : ℝ) ^ (-1074 : ℤ) ≤ (d.value : ℝ) := by
      have : (2 : ℚ) ^ (-1074 : ℤ) ≤ d.value := by
        cases d with
        | nan => exact absurd hf id
        | inf _ => exact absurd hf id
        | zero s => exact absurd hpos (lt_irrefl _)
        | fin v hv => have := hv.ge; rwa [abs_of_pos (show (0 : ℚ) < v from hpos)] at this
      have h6 := (Rat.cast_le (K := ℝ)).2 this
      rwa [cast_zpow] at h6
    have hlo : (2 : ℝ) ^ (-537 : ℤ) ≤ √(d.value : ℝ) := by
      refine Real.le_sqrt_of_sq_le ?_
      rw [pow_two, ← zpow_add₀ (by norm_num)]
      exact hdmin
    have hr := F64.rn_rel (x := √(d.value : ℝ)) (by
      rw [abs_of_pos hmp]
      exact (zpow_le_zpow_right₀ (by norm_num) (by norm_num)).trans hlo)
    rw [abs_of_pos hmp, ← hmv] at hr
    have h3 := abs_sub_le ((Dbl.sqrt d).value : ℝ) (√(d.value : ℝ)) (√(S : ℝ))
    have h4 := mul_le_mul_of_nonneg_left hub uR_nonneg
    have h5 := mul_le_mul_of_nonneg_right uR_small hp.le
    have h7 := mul_nonneg uR_nonneg nE
    change _ ≤ 7 * uR * √(S : ℝ) + _
    change _ ≤ uR * √(d.value : ℝ) at hr
    generalize (2 : ℝ) ^ (-529 : ℤ) = P at *
    generalize uR = u at *
    linarith only [h3, hr, hn, h4, h5, h7, hhs, hp]

/-- **C34, magnitude.**  For every finite value of every type whose exact sum of squares is at most
`2^1022`, however `magSq` is contracted: the square root is finite and within seven units roundoff
(plus `2^-529`) of the length. -/
theorem C34_magnitude_contracted (t : Ty) (x : t.D F64) (hf : ∀ c ∈ comps t x, c.Finite)
    (hS : sqSum t x ≤ 2 ^ 1022) (d : F64) (h : MagSqMayBe t x d) :
    (Dbl.sqrt d).Finite ∧
    |((Dbl.sqrt d).value : ℝ) - euclid t x|
      ≤ 7 * (2 : ℝ) ^ (-53 : ℤ) * euclid t x + (2 : ℝ) ^ (-529 : ℤ) := by
  have h1 := C57_magSq t x hf (by rw [sqSum_comps]; exact hS) d h
  rw [sqSum_comps] at h1
  rcases C57_magSq_nonneg t x (fun hn => F64.finite_ne_nan (hf _ hn) rfl) d h with rfl | h2
  · exact absurd h1.1 id
  · exact sqrt_near h1.1 h2.2 (sqSum_nonneg t x) hS h1.2

/-- **C34, magnitude**, as computed without contraction. -/
theorem C34_magnitude_wide (t : Ty) (x : t.D F64) (hf : ∀ c ∈ comps t x, c.Finite)
    (hS : sqSum t x ≤ 2 ^ 1022) :
    (magnitudeTy t x).Finite ∧
    |((magnitudeTy t x).value : ℝ) - euclid t x|
      ≤ 7 * (2 : ℝ) ^ (-53 : ℤ) * euclid t x + (2 : ℝ) ^ (-529 : ℤ) :=
  C34_magnitude_contracted t x hf hS _ (magSq_mayBe t x)

/-! ## direction -/

/-- Scaling by the rounded reciprocal of a number near `E`. -/
theorem dir_near {u δ E m r y d η : ℝ} (hu0 : 0 ≤ u) (hu : u ≤ 1 / 1000) (hδ0 : 0 ≤ δ)
    (hδ : δ ≤ 1 / 300) (hE : 0 < E) (hm : |m - E| ≤ δ * E) (hr : |r - 1 / m| ≤ u * (1 / m))
    (hd : |d - r * y| ≤ u * |r * y| + η) :
    |d - y / E| ≤ (21 / 20 * δ + 21 / 10 * u) * |y / E| + η := by
  obtain ⟨hm1, hm2⟩ := abs_le.1 hm
  have hδE := mul_le_mul_of_nonneg_right hδ hE.le
  have hmp : 0 < m := by linarith
  have h1 : |r * m - 1| ≤ u := by
    have e : r * m - 1 = (r - 1 / m) * m := by field_simp
    rw [e, abs_mul, abs_of_pos hmp]
    calc _ ≤ u * (1 / m) * m := mul_le_mul_of_nonneg_right hr hmp.le
      _ = u := by field_simp
  obtain ⟨h1a, h1b⟩ := abs_le.1 h1
  have hr0 : 0 ≤ r := by
    by_contra hc
    push Not at hc
    nlinarith
  -- r E is near 1
  have h2 : |r * E - 1| ≤ 101 / 100 * (δ + u) := by
    have hrE : r * E * (1 - δ) ≤ 1 + u := by nlinarith
    have hrE2 : 1 - u ≤ r * E * (1 + δ) := by nlinarith
    have hrEn : 0 ≤ r * E := mul_nonneg hr0 hE.le
    have hb : r * E ≤ 1005 / 1000 := by nlinarith
    rw [abs_le]
    constructor
    · nlinarith
    · nlinarith
  have h3 : |r * E| ≤ 102 / 100 := by
    have := abs_le.1 h2
    rw [abs_le]; constructor <;> nlinarith
  have e1 : r * y - y / E = (r * E - 1) * (y / E) := by field_simp
  have e2 : r * y = r * E * (y / E) := by field_simp
  have h4 := abs_sub_le d (r * y) (y / E)
  rw [e1, abs_mul] at h4
  rw [e2, abs_mul] at hd
  rw [← e2] at hd
  have hy := abs_nonneg (y / E)
  have h5 := mul_le_mul_of_nonneg_right h2 hy
  have h6 := mul_le_mul_of_nonneg_right h3 hy
  have h7 := mul_le_mul_of_nonneg_left h6 hu0
  have h8 := mul_nonneg hδ0 hy
  have h9 := mul_nonneg hu0 hy
  generalize |y / E| = Y at *
  linarith only [h4, hd, h5, h7, h8, h9]

/-- Magnitude and its reciprocal for lengths of at least `2^-520`. -/
theorem recip_wide {t : Ty} {x : t.D F64} (hf : ∀ c ∈ comps t x, c.Finite)
    (hS : sqSum t x ≤ 2 ^ 1022) (hE : (2 : ℝ) ^ (-520 : ℤ) ≤ euclid t x) :
    directionTy t x = smulTy t (1 / magnitudeTy t x) x ∧ (1 / magnitudeTy t x).Finite ∧
    |((magnitudeTy t x).value : ℝ) - euclid t x|
      ≤ (7 * uR + (2 : ℝ) ^ (-529 : ℤ) / euclid t x) * euclid t x ∧
    7 * uR + (2 : ℝ) ^ (-529 : ℤ) / euclid t x ≤ 1 / 300 ∧
    |((1 / magnitudeTy t x).value : ℝ) - 1 / ((magnitudeTy t x).value : ℝ)|
      ≤ uR * (1 / ((magnitudeTy t x).value : ℝ)) := by
  have hEp : 0 < euclid t x := lt_of_lt_of_le (F64.two_zpow_pos _) hE
  obtain ⟨hmf, hm⟩ := C34_magnitude_wide t x hf hS
  have hEu : euclid t x ≤ 2 ^ 511 := by
    refine Real.sqrt_le_iff.2 ⟨by positivity, ?_⟩
    rw [← pow_mul]
    exact_mod_cast hS
  have hδ : 7 * uR + (2 : ℝ) ^ (-529 : ℤ) / euclid t x ≤ 1 / 300 := by
    have h1 : (2 : ℝ) ^ (-529 : ℤ) / euclid t x ≤ (2 : ℝ) ^ (-9 : ℤ) := by
      rw [div_le_iff₀ hEp]
      calc (2 : ℝ) ^ (-529 : ℤ) = (2 : ℝ) ^ (-9 : ℤ) * (2 : ℝ) ^ (-520 : ℤ) := by
            rw [← zpow_add₀ (by norm_num)]; norm_num only
        _ ≤ _ := mul_le_mul_of_nonneg_left hE (F64.two_zpow_pos _).le
    have h2 : uR ≤ 1 / 10000 := by unfold uR; norm_num
    have h3 : (2 : ℝ) ^ (-9 : ℤ) = 1 / 512 := by norm_num
    rw [h3] at h1
    generalize uR = u at *
    generalize (2 : ℝ) ^ (-529 : ℤ) / euclid t x = q at *
    linarith only [h1, h2]
  have hm' : |((magnitudeTy t x).value : ℝ) - euclid t x|
      ≤ (7 * uR + (2 : ℝ) ^ (-529 : ℤ) / euclid t x) * euclid t x := by
    rw [add_mul, div_mul_cancel₀ _ hEp.ne']
    exact hm
  have hb := abs_le.1 (hm'.trans (mul_le_mul_of_nonneg_right hδ hEp.le))
  have hlo : (2 : ℝ) ^ (-521 : ℤ) ≤ ((magnitudeTy t x).value : ℝ) := by
    have e : (2 : ℝ) ^ (-520 : ℤ) = 2 * (2 : ℝ) ^ (-521 : ℤ) := by
      rw [show (-520 : ℤ) = 1 + -521 from by norm_num only, zpow_add₀ (by norm_num), zpow_one]
    rw [e] at hE
    have h1 := hb.1
    generalize (2 : ℝ) ^ (-521 : ℤ) = P at *
    generalize euclid t x = E at *
    linarith only [h1, hE, hEp]
  have hup : ((magnitudeTy t x).value : ℝ) ≤ (2 : ℝ) ^ (512 : ℤ) := by
    have e : (2 : ℝ) ^ (512 : ℤ) = 2 * 2 ^ 511 := by
      rw [show (512 : ℤ) = 1 + 511 from by norm_num only, zpow_add₀ (by norm_num), zpow_one,
        show (511 : ℤ) = ((511 : ℕ) : ℤ) from rfl, zpow_natCast]
    rw [e]
    have h1 := hb.2
    generalize (2 : ℝ) ^ 511 = P at *
    generalize euclid t x = E at *
    linarith only [h1, hEu, hEp]
  have hloq : (2 : ℚ) ^ (-521 : ℤ) ≤ (magnitudeTy t x).value := by
    rw [← cast_zpow] at hlo; exact Rat.cast_le.1 hlo
  have hupq : (magnitudeTy t x).value ≤ (2 : ℚ) ^ (512 : ℤ) := by
    rw [← cast_zpow] at hup; exact Rat.cast_le.1 hup
  have hq : 0 < (magnitudeTy t x).value := lt_of_lt_of_le (F64.two_zpow_pos _) hloq
  have hi1 : 1 / (magnitudeTy t x).value ≤ (2 : ℚ) ^ (521 : ℤ) := by
    rw [div_le_iff₀ hq]
    calc (1 : ℚ) = (2 : ℚ) ^ (521 : ℤ) * (2 : ℚ) ^ (-521 : ℤ) := by
          rw [← zpow_add₀ (by norm_num)]; norm_num only
      _ ≤ _ := mul_le_mul_of_nonneg_left hloq (F64.two_zpow_pos _).le
  have hi2 : (2 : ℚ) ^ (-512 : ℤ) ≤ 1 / (magnitudeTy t x).value := by
    rw [le_div_iff₀ hq]
    calc _ ≤ (2 : ℚ) ^ (-512 : ℤ) * (2 : ℚ) ^ (512 : ℤ) :=
          mul_le_mul_of_nonneg_left hupq (F64.two_zpow_pos _).le
      _ = 1 := by rw [← zpow_add₀ (by norm_num)]; norm_num only
  have hi0 : 0 < 1 / (magnitudeTy t x).value := lt_of_lt_of_le (F64.two_zpow_pos _) hi2
  have h1v : (1 : F64).value = 1 := F64.hasVal_one.2
  have hd := F64.div_spec F64.hasVal_one.1 hmf hq.ne' (by
    rw [h1v]
    apply F64.safe_lt
    rw [abs_of_pos hi0]
    refine hi1.trans ?_
    have : (2 : ℚ) ^ (521 : ℤ) ≤ F64.safe := by
      unfold F64.safe
      rw [← zpow_natCast]; exact zpow_le_zpow_right₀ (by norm_num) (by norm_num)
    have h0 := F64.one_le_safe
    generalize (2 : ℚ) ^ (521 : ℤ) = P at *
    linarith only [this, h0])
  rw [h1v] at hd
  have hrel := F64.rn_rel (K := ℚ) (x := 1 / (magnitudeTy t x).value) (by
    rw [abs_of_pos hi0]
    exact (zpow_le_zpow_right₀ (by norm_num) (by norm_num)).trans hi2)
  rw [abs_of_pos hi0, Rat.cast_id, ← hd.2] at hrel
  refine ⟨?_, hd.1, hm', hδ, ?_⟩
  · unfold directionTy pairMagDirTy
    simp only []
    rw [if_pos]
    rw [F64.denormMin_val.flt (HasVal.of hmf), decide_eq_true_iff]
    exact lt_of_lt_of_le (zpow_lt_zpow_right₀ (by norm_num) (by norm_num)) hloq
  · have h6 := (Rat.cast_le (K := ℝ)).2 hrel
    rw [Rat.cast_abs, Rat.cast_sub, Rat.cast_mul, cast_zpow, Rat.cast_div, Rat.cast_one] at h6
    exact h6

/-- **C34, direction.**  For every finite value of every type whose exact sum of squares is at most
`2^1022` and whose length is at least `2^-520`, the components of the direction are those of the
argument, in the same order, each one mapped to a finite number within ten units roundoff, plus
`2^-528` in units of the length, of the exact quotient.  Partial: the claim for all valid non-zero
objects is false (`C34_fails_underflow`, `C34_fails_overflow`); not covered are lengths between
`2^-538` and `2^-520` and sums of squares between `2^1022` and `2^1024`. -/
theorem C34_direction_partial (t : Ty) (x : t.D F64) (hf : ∀ c ∈ comps t x, c.Finite)
    (hS : sqSum t x ≤ 2 ^ 1022) (hE : (2 : ℝ) ^ (-520 : ℤ) ≤ euclid t x) :
    ∃ f : F64 → F64, comps t (directionTy t x) = (comps t x).map f ∧
      ∀ c ∈ comps t x, (f c).Finite ∧
        |((f c).value : ℝ) - (c.value : ℝ) / euclid t x|
          ≤ (10 * (2 : ℝ) ^ (-53 : ℤ) + (2 : ℝ) ^ (-528 : ℤ) / euclid t x)
              * |(c.value : ℝ) / euclid t x| + (2 : ℝ) ^ (-1075 : ℤ) := by
  have hEp : 0 < euclid t x := lt_of_lt_of_le (F64.two_zpow_pos _) hE
  obtain ⟨hdir, hrf, hm, hδ, hr⟩ := recip_wide hf hS hE
  refine ⟨(1 / magnitudeTy t x * ·), ?_, fun c hc => ?_⟩
  · rw [hdir, comps_smul]
  have hcE : |(c.value : ℝ) / euclid t x| ≤ 1 := by
    rw [abs_div, abs_of_pos hEp, div_le_one hEp]
    apply Real.abs_le_sqrt
    have := (Rat.cast_le (K := ℝ)).2 (list_le_sum (comps t x) hc)
    rw [Rat.cast_mul, ← pow_two] at this
    exact this
  have hδ0 : 0 ≤ 7 * uR + (2 : ℝ) ^ (-529 : ℤ) / euclid t x :=
    add_nonneg (mul_nonneg (by norm_num) uR_nonneg) (div_nonneg (F64.two_zpow_pos _).le hEp.le)
  generalize 1 / magnitudeTy t x = r at *
  have h0 := dir_near (y := (c.value : ℝ)) (d := (r.value : ℝ) * c.value) (η := 0) uR_nonneg uR_small
    hδ0 hδ hEp hm hr (by
      rw [sub_self, abs_zero, add_zero]
      exact mul_nonneg uR_nonneg (abs_nonneg _))
  have hprod : |r.value * c.value| ≤ 2 := by
    have h1 : |(r.value : ℝ) * c.value| ≤ 2 := by
      have h2 := abs_sub_abs_le_abs_sub ((r.value : ℝ) * c.value) (c.value / euclid t x)
      have h3 : (21 / 20 * (7 * uR + (2 : ℝ) ^ (-529 : ℤ) / euclid t x) + 21 / 10 * uR)
          * |(c.value : ℝ) / euclid t x| ≤ 1 * 1 := by
        refine mul_le_mul ?_ hcE (abs_nonneg _) zero_le_one
        have := uR_small
        generalize 7 * uR + (2 : ℝ) ^ (-529 : ℤ) / euclid t x = δ at *
        generalize uR = u at *
        linarith only [hδ, this]
      linarith only [h0, h2, h3, hcE]
    exact_mod_cast h1
  have hsp := F64.mul_spec hrf (hf c hc) (F64.safe_lt (hprod.trans (by
    have h0 := F64.one_le_safe
    have h1 : (1 : ℚ) ≤ F64.safe := h0
    have h2 : (2 : ℚ) ≤ F64.safe := by
      unfold F64.safe
      calc (2 : ℚ) = 2 ^ 1 := (pow_one _).symm
        _ ≤ _ := pow_le_pow_right₀ (by norm_num) (by norm_num)
    linarith only [h1, h2])))
  refine ⟨hsp.1, ?_⟩
  have h6 := (Rat.cast_le (K := ℝ)).2 (F64.rn_err (r.value * c.value))
  rw [← hsp.2, Rat.cast_abs, Rat.cast_sub, Rat.cast_add, Rat.cast_mul, Rat.cast_mul, cast_zpow,
    cast_zpow, Rat.cast_abs, Rat.cast_mul] at h6
  have h7 := dir_near uR_nonneg uR_small hδ0 hδ hEp hm hr h6
  refine h7.trans (add_le_add_left (mul_le_mul_of_nonneg_right ?_ (abs_nonneg _)) _)
  have h8 : (2 : ℝ) ^ (-528 : ℤ) / euclid t x = 2 * ((2 : ℝ) ^ (-529 : ℤ) / euclid t x) := by
    rw [show (-528 : ℤ) = 1 + -529 from by norm_num only, zpow_add₀ (by norm_num), zpow_one, mul_div_assoc]
  have h9 : 0 ≤ (2 : ℝ) ^ (-529 : ℤ) / euclid t x := div_nonneg (F64.two_zpow_pos _).le hEp.le
  have h10 := uR_nonneg
  rw [h8]
  change _ ≤ 10 * uR + _
  generalize (2 : ℝ) ^ (-529 : ℤ) / euclid t x = q at *
  generalize uR = u at *
  linarith only [h9, h10]

theorem sq_near {κ η d y : ℝ} (hκ0 : 0 ≤ κ) (hκ : κ ≤ 1 / 100) (hη0 : 0 ≤ η) (hη : η ≤ 1 / 100)
    (hy : |y| ≤ 1) (h : |d - y| ≤ κ * |y| + η) :
    |d * d - y * y| ≤ 201 / 100 * κ * (y * y) + 3 * η := by
  have e : d * d - y * y = (d - y) * (d - y + 2 * y) := by ring
  have h1 : |d - y + 2 * y| ≤ (κ * |y| + η) + 2 * |y| := by
    refine (abs_add_le _ _).trans (add_le_add h ?_)
    rw [abs_mul, abs_two]
  rw [e, abs_mul]
  have hy0 := abs_nonneg y
  have h2 := mul_le_mul h h1 (abs_nonneg _) (by positivity)
  refine h2.trans ?_
  rw [← abs_mul_abs_self y]
  generalize |y| = Y at *
  have h3 : κ * (κ * (Y * Y)) ≤ 1 / 100 * (κ * (Y * Y)) :=
    mul_le_mul_of_nonneg_right hκ (by positivity)
  have h4 : η * (κ * Y) ≤ η * (1 / 100 * 1) :=
    mul_le_mul_of_nonneg_left (mul_le_mul hκ hy hy0 (by norm_num)) hη0
  have h5 : η * Y ≤ η * 1 := mul_le_mul_of_nonneg_left hy hη0
  have h6 : η * η ≤ η * (1 / 100) := mul_le_mul_of_nonneg_left hη hη0
  nlinarith only [h3, h4, h5, h6]

/-- **C34, direction.**  It has unit length up to rounding and the underflow of the squares.
Partial as `C34_direction_partial`. -/
theorem C34_unit_partial (t : Ty) (x : t.D F64) (hf : ∀ c ∈ comps t x, c.Finite)
    (hS : sqSum t x ≤ 2 ^ 1022) (hE : (2 : ℝ) ^ (-520 : ℤ) ≤ euclid t x) :
    |((sqSum t (directionTy t x) : ℚ) : ℝ) - 1|
      ≤ 21 * (2 : ℝ) ^ (-53 : ℤ) + (2 : ℝ) ^ (-526 : ℤ) / euclid t x := by
  obtain ⟨f, hff, hd⟩ := C34_direction_partial t x hf hS hE
  have hEp : 0 < euclid t x := lt_of_lt_of_le (F64.two_zpow_pos _) hE
  have hS0 : 0 < (sqSum t x : ℝ) := Real.sqrt_pos.1 hEp
  have hEE : euclid t x * euclid t x = (sqSum t x : ℝ) := Real.mul_self_sqrt hS0.le
  have hη : (2 : ℝ) ^ (-1075 : ℤ) ≤ 1 / 100 * uR := by
    unfold uR
    rw [show (-1075 : ℤ) = -1022 + -53 from by norm_num only, zpow_add₀ (by norm_num)]
    refine mul_le_mul_of_nonneg_right ?_ uR_nonneg
    calc (2 : ℝ) ^ (-1022 : ℤ) ≤ (2 : ℝ) ^ (-7 : ℤ) :=
          zpow_le_zpow_right₀ (by norm_num) (by norm_num)
      _ ≤ _ := by norm_num
  have hη0 : 0 ≤ (2 : ℝ) ^ (-1075 : ℤ) := (F64.two_zpow_pos _).le
  have hq0 : 0 ≤ (2 : ℝ) ^ (-528 : ℤ) / euclid t x := div_nonneg (F64.two_zpow_pos _).le hEp.le
  have hq : (2 : ℝ) ^ (-528 : ℤ) / euclid t x ≤ 1 / 256 := by
    rw [div_le_iff₀ hEp]
    calc (2 : ℝ) ^ (-528 : ℤ) = (2 : ℝ) ^ (-8 : ℤ) * (2 : ℝ) ^ (-520 : ℤ) := by
          rw [← zpow_add₀ (by norm_num)]; norm_num only
      _ ≤ _ := by
          refine mul_le_mul (by norm_num) hE (F64.two_zpow_pos _).le (by norm_num)
  have hu2 : uR ≤ 1 / 10000 := by unfold uR; norm_num
  have h526 : (2 : ℝ) ^ (-526 : ℤ) / euclid t x = 4 * ((2 : ℝ) ^ (-528 : ℤ) / euclid t x) := by
    rw [show (-526 : ℤ) = 2 + -528 from by norm_num only, zpow_add₀ (by norm_num), mul_div_assoc]
    norm_num only
  have hu0 := uR_nonneg
  change ∀ c ∈ comps t x, (f c).Finite ∧ _ ≤ (10 * uR + _) * _ + _ at hd
  change _ ≤ 21 * uR + _
  rw [h526]
  have key := sum_est (comps t x) f (euclid t x)
    (201 / 100 * (10 * uR + (2 : ℝ) ^ (-528 : ℤ) / euclid t x)) (3 * (2 : ℝ) ^ (-1075 : ℤ))
    (fun c hc => by
      refine sq_near ?_ ?_ hη0 ?_ ?_ (hd c hc).2
      · generalize (2 : ℝ) ^ (-528 : ℤ) / euclid t x = q at *
        generalize uR = u at *
        linarith only [hu0, hq0]
      · generalize (2 : ℝ) ^ (-528 : ℤ) / euclid t x = q at *
        generalize uR = u at *
        linarith only [hu2, hq]
      · generalize (2 : ℝ) ^ (-1075 : ℤ) = P at *
        generalize uR = u at *
        linarith only [hη, hu2]
      · rw [abs_div, abs_of_pos hEp, div_le_one hEp]
        apply Real.abs_le_sqrt
        have := (Rat.cast_le (K := ℝ)).2 (list_le_sum (comps t x) hc)
        rw [Rat.cast_mul, ← pow_two] at this
        exact this)
  rw [← hff] at key
  change |((sqSum t (directionTy t x) : ℚ) : ℝ) - (sqSum t x : ℝ) / _| ≤ _ * ((sqSum t x : ℝ) / _)
    + _ at key
  rw [hEE, div_self hS0.ne', mul_one] at key
  refine key.trans ?_
  have hn : ((comps t x).length : ℝ) ≤ 8 := by exact_mod_cast comps_length t x
  have h2 : ((comps t x).length : ℝ) * (3 * (2 : ℝ) ^ (-1075 : ℤ)) ≤ 8 * (3 * (2 : ℝ) ^ (-1075 : ℤ)) :=
    mul_le_mul_of_nonneg_right hn (by positivity)
  generalize (2 : ℝ) ^ (-528 : ℤ) / euclid t x = q at *
  generalize (2 : ℝ) ^ (-1075 : ℤ) = P at *
  generalize uR = u at *
  linarith only [h2, hη, hq0, hu0]

/-- Non-vacuity: a vector beyond the central range, another one below it. -/
example : ((∀ c ∈ comps .vec ⟨⟨F64.pow2 510, F64.pow2 500, 0⟩⟩, c.Finite) ∧
      sqSum .vec ⟨⟨F64.pow2 510, F64.pow2 500, 0⟩⟩ ≤ 2 ^ 1022 ∧
      (2 : ℝ) ^ (-520 : ℤ) ≤ euclid .vec ⟨⟨F64.pow2 510, F64.pow2 500, 0⟩⟩) ∧
    ((∀ c ∈ comps .vec ⟨⟨F64.pow2 (-519), F64.pow2 (-519), 0⟩⟩, c.Finite) ∧
      sqSum .vec ⟨⟨F64.pow2 (-519), F64.pow2 (-519), 0⟩⟩ ≤ 2 ^ 1022 ∧
      (2 : ℝ) ^ (-520 : ℤ) ≤ euclid .vec ⟨⟨F64.pow2 (-519), F64.pow2 (-519), 0⟩⟩) := by
  have hv : ∀ e : ℤ, -1000 ≤ e → e ≤ 900 → HasVal (F64.pow2 e) ((2 : ℚ) ^ e) := fun e h1 h2 =>
    F64.pow2_val (by omega) (by omega)
  have key : ∀ a b : ℤ, -519 ≤ a → a ≤ 510 → -1000 ≤ b → b ≤ 510 →
      (∀ c ∈ comps .vec ⟨⟨F64.pow2 a, F64.pow2 b, 0⟩⟩, c.Finite) ∧
      sqSum .vec ⟨⟨F64.pow2 a, F64.pow2 b, 0⟩⟩ ≤ 2 ^ 1022 ∧
      (2 : ℝ) ^ (-520 : ℤ) ≤ euclid .vec ⟨⟨F64.pow2 a, F64.pow2 b, 0⟩⟩ := by
    intro a b ha1 ha2 hb1 hb2
    have va := hv a (by omega) (by omega)
    have vb := hv b (by omega) (by omega)
    have hs : sqSum .vec ⟨⟨F64.pow2 a, F64.pow2 b, 0⟩⟩ = (2 : ℚ) ^ (a + a) + (2 : ℚ) ^ (b + b) := by
      have h0 : (0 : F64).value = 0 := F64.hasVal_zero'.2
      unfold sqSum
      simp only [comps, List.map_cons, List.map_nil, List.sum_cons, List.sum_nil, va.2, vb.2, h0]
      rw [zpow_add₀ (by norm_num), zpow_add₀ (by norm_num)]
      ring
    refine ⟨?_, ?_, ?_⟩
    · simp only [comps, List.forall_mem_cons, List.not_mem_nil, false_imp_iff, implies_true, and_true]
      exact ⟨va.1, vb.1, F64.hasVal_zero'.1⟩
    · rw [hs]
      have h1 : (2 : ℚ) ^ (a + a) ≤ (2 : ℚ) ^ (1021 : ℤ) := zpow_le_zpow_right₀ (by norm_num) (by omega)
      have h2 : (2 : ℚ) ^ (b + b) ≤ (2 : ℚ) ^ (1021 : ℤ) := zpow_le_zpow_right₀ (by norm_num) (by omega)
      have h3 : (2 : ℚ) ^ 1022 = 2 * (2 : ℚ) ^ (1021 : ℤ) := by
        rw [← zpow_natCast, show ((1022 : ℕ) : ℤ) = 1 + 1021 from rfl, zpow_add₀ (by norm_num), zpow_one]
      rw [h3]
      generalize (2 : ℚ) ^ (1021 : ℤ) = P at *
      linarith only [h1, h2]
    · unfold euclid
      refine Real.le_sqrt_of_sq_le ?_
      have h1 : (2 : ℚ) ^ (-1040 : ℤ) ≤ sqSum .vec ⟨⟨F64.pow2 a, F64.pow2 b, 0⟩⟩ := by
        rw [hs]
        have h1 : (2 : ℚ) ^ (-1040 : ℤ) ≤ (2 : ℚ) ^ (a + a) := zpow_le_zpow_right₀ (by norm_num) (by omega)
        exact h1.trans (le_add_of_nonneg_right (F64.two_zpow_pos _).le)
      rw [pow_two, ← zpow_add₀ (by norm_num)]
      have h6 := (Rat.cast_le (K := ℝ)).2 h1
      rwa [cast_zpow] at h6
  exact ⟨key 510 500 (by norm_num) (by norm_num) (by norm_num) (by norm_num),
    key (-519) (-519) (by norm_num) (by norm_num) (by norm_num) (by norm_num)⟩

end Engabra
