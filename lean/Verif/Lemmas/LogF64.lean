import Verif.Lemmas.LogEst
import Verif.Lemmas.InverseEst

/-! `logG2` in binary64: evaluation, branches and estimates. -/

namespace Engabra

open F64 (Finite HasVal)
open Spec

/-- Specification: `std::log` has relative error at most `ε` (plus half the least subnormal) at
every finite positive argument, and `std::atan2(y, x)` likewise for finite `y > 0` and `x`. -/
def LibmLogOk [LibM F64] (ε : ℝ) : Prop :=
  (∀ x : F64, x.Finite → 0 < x.value → (LibM.log x).Finite ∧
    |((LibM.log x).value : ℝ) - Real.log x.value| ≤ ε * |Real.log x.value| + 2 ^ (-1075 : ℤ)) ∧
  (∀ y x : F64, y.Finite → x.Finite → 0 < y.value → (LibM.atan2 y x).Finite ∧
    |((LibM.atan2 y x).value : ℝ) - Complex.arg ⟨x.value, y.value⟩|
      ≤ ε * Complex.arg ⟨x.value, y.value⟩ + 2 ^ (-1075 : ℤ))

theorem euclid_biv (B : BiVector F64) : euclid .biv B
    = √((B.theData.d0.value : ℝ) ^ 2 + (B.theData.d1.value : ℝ) ^ 2 + (B.theData.d2.value : ℝ) ^ 2) := by
  unfold euclid sqSum
  congr 1
  simp only [comps, List.map_cons, List.map_nil, List.sum_cons, List.sum_nil]
  push_cast; ring

theorem euclid_spin_sq (S : Spinor F64) : euclid .spin S ^ 2
    = (S.theSca.theData.d0.value : ℝ) ^ 2 + euclid .biv S.theBiv ^ 2 := by
  rw [← length_realTy, ← length_realTy, spin_length_sq]
  rfl

/-- `1 - epsilon` -/
theorem almost_val : HasVal (1 - Dbl.epsilon F64) (1 - 2 ^ (-52 : ℤ)) := by
  refine F64.HasVal.subR F64.hasVal_one F64.epsilon_val (F64.rnVal_exact ?_) ?_
  · refine ⟨2 ^ 53 - 2, -53, by norm_num, by norm_num, ?_⟩
    norm_num
  · norm_num

theorem logG2_eval [LibM F64] (S : Spinor F64) (D : BiVector F64) (h : Central .spin S)
    (hv : isValid S = true) (hm : (2 : ℝ) ^ (-51 : ℤ) ≤ euclid .spin S) :
    logG2 S D =
      if (1 - (2 : ℚ) ^ (-52 : ℤ)) < (directionTy .spin S).theSca.theData.d0.value then
        ⟨⟨⟨LibM.log (magnitudeTy .spin S)⟩⟩, gzero⟩
      else if (directionTy .spin S).theSca.theData.d0.value < -(1 - (2 : ℚ) ^ (-52 : ℤ)) then
        ⟨⟨⟨LibM.log (magnitudeTy .spin S)⟩⟩, Dbl.pi F64 * direction D⟩
      else ⟨⟨⟨LibM.log (magnitudeTy .spin S)⟩⟩,
        LibM.atan2 (magnitudeTy .biv (directionTy .spin S).theBiv)
            (directionTy .spin S).theSca.theData.d0
          * directionTy .biv (directionTy .spin S).theBiv⟩ := by
  obtain ⟨hmf, hme⟩ := C34_magnitude .spin S h
  obtain ⟨hdir, -, hmp, -, -⟩ := recip_est h
  obtain ⟨f, hf, hd⟩ := C34_direction .spin S h
  have hE : 0 < euclid .spin S := lt_of_lt_of_le (F64.two_zpow_pos _) hm
  have hlt : (2 : ℚ) ^ (-52 : ℤ) < (magnitudeTy .spin S).value := by
    have h1 := (abs_le.1 hme).1
    have h2 : 52 / 10 * (2 : ℝ) ^ (-53 : ℤ) * euclid .spin S ≤ 1 / 4 * euclid .spin S :=
      mul_le_mul_of_nonneg_right (by norm_num) hE.le
    have h3 : (2 : ℝ) ^ (-52 : ℤ) < ((magnitudeTy .spin S).value : ℝ) := by
      have e : (2 : ℝ) ^ (-51 : ℤ) = 2 * 2 ^ (-52 : ℤ) := by norm_num
      have p := F64.two_zpow_pos (K := ℝ) (-52)
      rw [e] at hm
      linarith
    rw [← cast_zpow] at h3
    exact Rat.cast_lt.1 h3
  have hcf : (directionTy .spin S).theSca.theData.d0.Finite := by
    have := (hd S.theSca.theData.d0 (by simp [comps])).1
    have e : (directionTy .spin S).theSca.theData.d0 = f S.theSca.theData.d0 := by
      simpa [comps] using congrArg List.head? hf
    rwa [e]
  have e1 : magnitude S = magnitudeTy .spin S := rfl
  have e2 : (1 / magnitudeTy .spin S) * S = directionTy .spin S := hdir.symm
  have e3 : ∀ B : BiVector F64, pairMagDirFrom B = (magnitudeTy .biv B, directionTy .biv B) := fun B =>
    (pairMagDirTy_eq.2.2.1 B).symm.trans
        (Prod.ext (by unfold pairMagDirTy; simp only []; split <;> rfl) rfl)
  unfold logG2
  rw [if_pos hv]
  simp only [e1, e2, e3]
  have g1 : HasVal (directionTy .spin S).theSca.theData.d0
      (directionTy .spin S).theSca.theData.d0.value := ⟨hcf, rfl⟩
  have g2 : HasVal (magnitudeTy .spin S) (magnitudeTy .spin S).value := ⟨hmf, rfl⟩
  rw [F64.epsilon_val.flt g2, almost_val.flt g1, g1.flt almost_val.neg]
  simp only [decide_eq_true_eq, hlt, if_true]

theorem tiny_scale {V : ℝ} (hV : (2 : ℝ) ^ (-400 : ℤ) ≤ V) :
    (2 : ℝ) ^ (-1075 : ℤ) ≤ 2 ^ (-675 : ℤ) * V ∧ (2 : ℝ) ^ (-675 : ℤ) ≤ 1 / 1000 * uR := by
  constructor
  · rw [show (-1075 : ℤ) = -675 + -400 from by norm_num only, zpow_add₀ (by norm_num)]
    exact mul_le_mul_of_nonneg_left hV (F64.two_zpow_pos _).le
  · unfold uR
    rw [show (-675 : ℤ) = -622 + -53 from by norm_num only, zpow_add₀ (by norm_num)]
    refine mul_le_mul_of_nonneg_right ?_ uR_nonneg
    calc (2 : ℝ) ^ (-622 : ℤ) ≤ (2 : ℝ) ^ (-10 : ℤ) :=
          zpow_le_zpow_right₀ (by norm_num) (by norm_num)
      _ ≤ _ := by norm_num

theorem value_zero_of_tiny {d : F64} (h : |(d.value : ℝ)| ≤ 2 ^ (-1075 : ℤ)) : d.value = 0 := by
  have h' : |d.value| ≤ (2 : ℚ) ^ (-1075 : ℤ) := by
    rw [← cast_zpow, ← Rat.cast_abs] at h; exact Rat.cast_le.1 h
  cases d with
  | nan => rfl
  | inf _ => rfl
  | zero _ => rfl
  | fin v hv =>
    have h1 := hv.ge
    exact absurd (h1.trans h') (not_le.2 (zpow_lt_zpow_right₀ (by norm_num) (by norm_num)))

/-- What `logG2` computes on the way, for a spinor whose bivector part is not tiny relative to it:
the cosine, the length of the bivector part of the direction, and its direction. -/
theorem log_parts (S : Spinor F64) (h : Central .spin S)
    (hV : (2 : ℝ) ^ (-400 : ℤ) ≤ euclid .biv S.theBiv / euclid .spin S) :
    (directionTy .spin S).theSca.theData.d0.Finite ∧
    |((directionTy .spin S).theSca.theData.d0.value : ℝ) - S.theSca.theData.d0.value / euclid .spin S|
      ≤ 8 * uR * |S.theSca.theData.d0.value / euclid .spin S| + 2 ^ (-1075 : ℤ) ∧
    (magnitudeTy .biv (directionTy .spin S).theBiv).Finite ∧
    |((magnitudeTy .biv (directionTy .spin S).theBiv).value : ℝ)
        - euclid .biv S.theBiv / euclid .spin S|
      ≤ 27 / 2 * uR * (euclid .biv S.theBiv / euclid .spin S) ∧
    List.Forall₂ (fun g c => (g.Finite ∧ |(g.value : ℝ) - c.value / euclid .biv S.theBiv|
          ≤ 25 * uR * |c.value / euclid .biv S.theBiv| + 2 ^ (-672 : ℤ)) ∧ (c.value = 0 → g.value = 0))
      (comps .biv (directionTy .biv (directionTy .spin S).theBiv)) (comps .biv S.theBiv) := by
  obtain ⟨f, hf, hd⟩ := C34_direction .spin S h
  obtain ⟨hl, -, -⟩ := central_real h
  have hE : 0 < euclid .spin S := lt_of_lt_of_le (F64.two_zpow_pos _) hl
  have hn := fun c hc => unit_comp h (c := c) hc
  obtain ⟨⟨⟨w⟩⟩, ⟨⟨b0, b1, b2⟩⟩⟩ := S
  have eb := euclid_biv (⟨⟨b0, b1, b2⟩⟩ : BiVector F64)
  simp only at *
  generalize directionTy .spin (⟨⟨⟨w⟩⟩, ⟨⟨b0, b1, b2⟩⟩⟩ : Spinor F64) = d at *
  obtain ⟨⟨⟨c⟩⟩, ⟨⟨p0, p1, p2⟩⟩⟩ := d
  simp only [comps, List.map_cons, List.map_nil, List.cons.injEq, and_true] at hf
  obtain ⟨rfl, rfl, rfl, rfl⟩ := hf
  have hw := hd w (by simp [comps])
  have h0 := hd b0 (by simp [comps])
  have h1 := hd b1 (by simp [comps])
  have h2 := hd b2 (by simp [comps])
  have n0 := hn b0 (by simp [comps])
  have n1 := hn b1 (by simp [comps])
  have n2 := hn b2 (by simp [comps])
  have ep := euclid_biv (⟨⟨f b0, f b1, f b2⟩⟩ : BiVector F64)
  generalize f w = c at *
  generalize f b0 = p0 at *
  generalize f b1 = p1 at *
  generalize f b2 = p2 at *
  clear hd hn hl
  set E := euclid .spin (⟨⟨⟨w⟩⟩, ⟨⟨b0, b1, b2⟩⟩⟩ : Spinor F64)
  set b := euclid .biv (⟨⟨b0, b1, b2⟩⟩ : BiVector F64)
  set V := b / E with hVd
  simp only at ep eb ⊢
  refine ⟨hw.1, hw.2, ?_⟩
  obtain ⟨ht1, ht2⟩ := tiny_scale hV
  have hu0 := uR_nonneg
  have hu := uR_le
  have hV0 : 0 < V := lt_of_lt_of_le (F64.two_zpow_pos _) hV
  have hη0 : (0 : ℝ) ≤ 2 ^ (-1075 : ℤ) := (F64.two_zpow_pos _).le
  have hκ0 : (0 : ℝ) ≤ 2 ^ (-675 : ℤ) := (F64.two_zpow_pos _).le
  have eV : √((b0.value / E : ℝ) ^ 2 + (b1.value / E : ℝ) ^ 2 + (b2.value / E : ℝ) ^ 2) = V := by
    rw [hVd, eb, div_pow, div_pow, div_pow, ← add_div, ← add_div, Real.sqrt_div (by positivity),
      Real.sqrt_sq hE.le]
  have hp := norm3_est (c := 8 * uR) (by linarith) hη0 h0.2 h1.2 h2.2
  rw [← ep, eV] at hp
  have hκ : (2 : ℝ) ^ (-672 : ℤ) = 8 * 2 ^ (-675 : ℤ) := by
    rw [show (-672 : ℤ) = 3 + -675 from by norm_num only, zpow_add₀ (by norm_num)]; norm_num
  have huV : uR * V ≤ 1 / 1000000 * V := mul_le_mul_of_nonneg_right hu hV0.le
  have huV0 : 0 ≤ uR * V := mul_nonneg hu0 hV0.le
  have hkV : (2 : ℝ) ^ (-675 : ℤ) * V ≤ 1 / 1000 * uR * V := mul_le_mul_of_nonneg_right ht2 hV0.le
  have hp1 := abs_le.1 hp
  have hη3 : (2 : ℝ) ^ (-1075 : ℤ) ≤ 1 / 1000 * uR := tiny_le_uR
  have hcen : Central .biv (⟨⟨p0, p1, p2⟩⟩ : BiVector F64) := by
    have small : ∀ {p c : F64}, |(c.value : ℝ) / E| ≤ 1 → p.Finite ∧
        |(p.value : ℝ) - c.value / E| ≤ 8 * uR * |(c.value : ℝ) / E| + 2 ^ (-1075 : ℤ) →
        p.Finite ∧ |p.value| ≤ (2 : ℚ) ^ (500 : ℤ) := by
      intro p c hc hpc
      refine ⟨hpc.1, ?_⟩
      have g1 := abs_sub_abs_le_abs_sub (p.value : ℝ) (c.value / E)
      have g2 := mul_le_mul_of_nonneg_left hc (by linarith : 0 ≤ 8 * uR)
      have g3 : |(p.value : ℝ)| ≤ 2 := by
        have := hpc.2
        linarith
      have g4 : |p.value| ≤ 2 := by
        have : ((|p.value| : ℚ) : ℝ) ≤ ((2 : ℚ) : ℝ) := by rw [Rat.cast_abs, Rat.cast_ofNat]; exact g3
        exact Rat.cast_le.1 this
      refine g4.trans ?_
      calc (2 : ℚ) = 2 ^ (1 : ℤ) := (zpow_one _).symm
        _ ≤ _ := zpow_le_zpow_right₀ (by norm_num) (by norm_num)
    have s0 := small n0 h0
    have s1 := small n1 h1
    have s2 := small n2 h2
    refine ⟨by simp only [comps, List.mem_cons, List.not_mem_nil, or_false, forall_eq_or_imp,
      forall_eq]; exact ⟨s0, s1, s2⟩, ?_⟩
    by_contra hcon
    push Not at hcon
    have hle := euclid_biv_le (B := (⟨⟨p0, p1, p2⟩⟩ : BiVector F64)) (F64.two_zpow_pos (K := ℝ) (-500)).le
      (fun q hq => by
        have := (Rat.cast_lt (K := ℝ)).2 (hcon q hq)
        rw [Rat.cast_abs, cast_zpow] at this
        exact this.le)
    have e4 : (2 : ℝ) ^ (-400 : ℤ) = 2 ^ (100 : ℤ) * 2 ^ (-500 : ℤ) := by
      rw [← zpow_add₀ (by norm_num)]; norm_num only
    have h100 : (10 : ℝ) ≤ 2 ^ (100 : ℤ) := by
      calc (10 : ℝ) ≤ 2 ^ (4 : ℤ) := by norm_num
        _ ≤ _ := zpow_le_zpow_right₀ (by norm_num) (by norm_num)
    have hpos := F64.two_zpow_pos (K := ℝ) (-500)
    have h10 := mul_le_mul_of_nonneg_right h100 hpos.le
    rw [e4] at hV
    have hp2 := hp1.1
    clear hp1 hp h0 h1 h2 hw
    generalize (2 : ℝ) ^ (-500 : ℤ) = x500 at *
    generalize (2 : ℝ) ^ (100 : ℤ) * x500 = x400 at *
    generalize (2 : ℝ) ^ (-675 : ℤ) * V = x675V at *
    generalize (2 : ℝ) ^ (-1075 : ℤ) = x1075 at *
    generalize uR = u at *
    linarith only [hV, h10, hle, hp2, ht1, hkV, huV, huV0, hpos, hV0]
  obtain ⟨hMf, hM⟩ := C34_magnitude .biv _ hcen
  obtain ⟨g, hg, hgd⟩ := C34_direction .biv _ hcen
  set p := euclid .biv (⟨⟨p0, p1, p2⟩⟩ : BiVector F64)
  refine ⟨hMf, ?_, ?_⟩
  · have hup : uR * p ≤ 101 / 100 * (uR * V) := by
      have hpV : p ≤ 101 / 100 * V := by
        have hp2 := hp1.2
        generalize (2 : ℝ) ^ (-675 : ℤ) * V = x675V at *
        generalize (2 : ℝ) ^ (-1075 : ℤ) = x1075 at *
        generalize uR = u at *
        linarith only [hp2, ht1, hkV, huV, huV0, hV0]
      have := mul_le_mul_of_nonneg_left hpV hu0
      linarith only [this]
    have htri := abs_sub_le ((magnitudeTy .biv (⟨⟨p0, p1, p2⟩⟩ : BiVector F64)).value : ℝ) p V
    change |_| ≤ 52 / 10 * uR * p at hM
    generalize (2 : ℝ) ^ (-675 : ℤ) * V = x675V at *
    generalize (2 : ℝ) ^ (-1075 : ℤ) = x1075 at *
    generalize uR = u at *
    linarith only [htri, hM, hp, hup, ht1, hkV, huV0]
  · rw [hg]
    have comp : ∀ {q c : F64}, |(c.value : ℝ) / E| ≤ 1 →
        |(q.value : ℝ) - c.value / E| ≤ 8 * uR * |(c.value : ℝ) / E| + 2 ^ (-1075 : ℤ) →
        (g q).Finite ∧ |((g q).value : ℝ) - q.value / p| ≤ 8 * uR * |(q.value : ℝ) / p| + 2 ^ (-1075 : ℤ) →
        |(c.value : ℝ) / b| ≤ 1 →
        ((g q).Finite ∧ |((g q).value : ℝ) - c.value / b| ≤ 25 * uR * |c.value / b| + 2 ^ (-672 : ℤ)) ∧
        (c.value = 0 → (g q).value = 0) := by
      intro q c hc hq hgq hn1
      refine ⟨⟨hgq.1, ?_⟩, fun h0 => ?_⟩
      swap
      · rw [h0, Rat.cast_zero, zero_div, sub_zero, abs_zero, mul_zero, zero_add] at hq
        have hq0 := value_zero_of_tiny hq
        have hg2 := hgq.2
        rw [hq0, Rat.cast_zero, zero_div, sub_zero, abs_zero, mul_zero, zero_add] at hg2
        exact value_zero_of_tiny hg2
      have hu1 := unit_est hV0 (by linarith : 0 ≤ 8 * uR) (by linarith) hη0 (by linarith) hq hp
      have e5 : (c.value / E : ℝ) / V = c.value / b := by
        rw [hVd]; field_simp
      rw [e5] at hu1
      have hη5 : 11 / 10 * (2 : ℝ) ^ (-1075 : ℤ) / V ≤ 11 / 10 * 2 ^ (-675 : ℤ) := by
        rw [div_le_iff₀ hV0]; linarith
      set n := |(c.value : ℝ) / b| with hnd
      have hn0 : 0 ≤ n := abs_nonneg _
      have hη6 := mul_le_mul hη5 (by linarith : 1 + 2 * n ≤ 3) (by positivity) (by positivity)
      have hqp := abs_sub_abs_le_abs_sub ((q.value : ℝ) / p) (c.value / b)
      have hun : uR * n ≤ 1 / 1000000 * n := mul_le_mul_of_nonneg_right hu hn0
      have hun0 : 0 ≤ uR * n := mul_nonneg hu0 hn0
      have hqn : |(q.value : ℝ) / p| ≤ 101 / 100 * n + 33 / 10 * 2 ^ (-675 : ℤ) := by
        rw [← hnd] at hqp
        linarith
      have hq8 := mul_le_mul_of_nonneg_left hqn hu0
      have htri := abs_sub_le ((g q).value : ℝ) (q.value / p) (c.value / b)
      have huk : uR * 2 ^ (-675 : ℤ) ≤ 1 / 1000000 * 2 ^ (-675 : ℤ) := mul_le_mul_of_nonneg_right hu hκ0
      have hηκ : (2 : ℝ) ^ (-1075 : ℤ) ≤ 2 ^ (-675 : ℤ) := zpow_le_zpow_right₀ (by norm_num) (by norm_num)
      rw [hκ]
      have := hgq.2
      linarith
    have hbpos : 0 < b := by
      have := mul_pos hV0 hE
      rwa [hVd, div_mul_cancel₀ _ hE.ne'] at this
    have hnb : ∀ {x : F64}, (x.value : ℝ) ^ 2 ≤ (b0.value : ℝ) ^ 2 + (b1.value : ℝ) ^ 2 + (b2.value : ℝ) ^ 2 →
        |(x.value : ℝ) / b| ≤ 1 := by
      intro x hx
      rw [abs_div, abs_of_pos hbpos, div_le_one hbpos, eb]
      exact Real.abs_le_sqrt hx
    have q0 := comp n0 h0.2 (hgd p0 (by simp [comps])) (hnb (by linarith only [sq_nonneg (b1.value : ℝ), sq_nonneg (b2.value : ℝ)]))
    have q1 := comp n1 h1.2 (hgd p1 (by simp [comps])) (hnb (by linarith only [sq_nonneg (b0.value : ℝ), sq_nonneg (b2.value : ℝ)]))
    have q2 := comp n2 h2.2 (hgd p2 (by simp [comps])) (hnb (by linarith only [sq_nonneg (b0.value : ℝ), sq_nonneg (b1.value : ℝ)]))
    exact .cons q0 (.cons q1 (.cons q2 .nil))

/-- A rounded product of perturbed factors. -/
theorem prod_est {α θ g n r A B u η κ : ℝ} (hA0 : 0 ≤ A) (hA : A ≤ 1 / 50) (hB0 : 0 ≤ B)
    (hB : B ≤ 1 / 1000) (hu0 : 0 ≤ u) (hu : u ≤ 1 / 1000) (hη0 : 0 ≤ η) (hηκ : η ≤ κ)
    (hκ : κ ≤ 1 / 1000) (hθ0 : 0 ≤ θ) (hθ : θ ≤ 4) (hn : |n| ≤ 1)
    (hα : |α - θ| ≤ A * θ + η) (hg : |g - n| ≤ B * |n| + κ)
    (hr : |r - α * g| ≤ u * |α * g| + η) :
    |α * g| ≤ 5 ∧ |r - θ * n| ≤ (101 / 100 * A + 11 / 10 * B + 11 / 10 * u) * |θ * n| + 8 * κ := by
  have hκ0 : 0 ≤ κ := hη0.trans hηκ
  have hn0 : 0 ≤ |n| := abs_nonneg n
  have hgB : |g| ≤ |n| * (1 + B) + κ := by
    have := abs_sub_abs_le_abs_sub g n
    linarith
  have e : α * g - θ * n = (α - θ) * g + θ * (g - n) := by ring
  have hAθ : 0 ≤ A * θ := by positivity
  set t := |θ * n| with ht
  have et : t = θ * |n| := by rw [ht, abs_mul, abs_of_nonneg hθ0]
  have ht0 : 0 ≤ t := abs_nonneg _
  have h1 : |α * g - θ * n| ≤ (A * θ + η) * (|n| * (1 + B) + κ) + θ * (B * |n| + κ) := by
    rw [e]
    refine (abs_add_le _ _).trans ?_
    rw [abs_mul, abs_mul, abs_of_nonneg hθ0]
    have a1 := mul_le_mul hα hgB (abs_nonneg _) (by positivity)
    have a2 := mul_le_mul_of_nonneg_left hg hθ0
    linarith
  have e2 : (A * θ + η) * (|n| * (1 + B) + κ) + θ * (B * |n| + κ)
      = t * (A * (1 + B) + B) + A * θ * κ + η * |n| * (1 + B) + η * κ + θ * κ := by rw [et]; ring
  rw [e2] at h1
  have b1 : A * (1 + B) ≤ 1001 / 1000 * A := by
    have := mul_le_mul_of_nonneg_left hB hA0
    linarith
  have b2 := mul_le_mul_of_nonneg_left b1 ht0
  have b3 : A * θ * κ ≤ 8 / 100 * κ := by
    have : A * θ ≤ 1 / 50 * 4 := mul_le_mul hA hθ hθ0 (by norm_num)
    have := mul_le_mul_of_nonneg_right this hκ0
    linarith
  have b4 : η * |n| * (1 + B) ≤ 1001 / 1000 * κ := by
    have c1 : η * |n| ≤ κ * 1 := mul_le_mul hηκ hn hn0 hκ0
    have c2 := mul_le_mul c1 (by linarith : 1 + B ≤ 1001 / 1000) (by linarith) (by linarith)
    linarith
  have b5 : η * κ ≤ 1 / 1000 * κ := mul_le_mul_of_nonneg_right (hηκ.trans hκ) hκ0
  have b6 : θ * κ ≤ 4 * κ := mul_le_mul_of_nonneg_right hθ hκ0
  have h2 : |α * g - θ * n| ≤ t * (1001 / 1000 * A + B) + 51 / 10 * κ + 1 / 10 * κ := by
    have : t * (A * (1 + B) + B) ≤ t * (1001 / 1000 * A + B) :=
      mul_le_mul_of_nonneg_left (by linarith) ht0
    linarith
  have hAB : t * (1001 / 1000 * A + B) ≤ 22 / 1000 * t := by
    have : 1001 / 1000 * A + B ≤ 22 / 1000 := by linarith
    have := mul_le_mul_of_nonneg_left this ht0
    linarith
  have h3 : |α * g| ≤ 1022 / 1000 * t + 52 / 10 * κ := by
    have := abs_sub_abs_le_abs_sub (α * g) (θ * n)
    rw [← ht] at this
    linarith
  have ht4 : t ≤ 4 := by
    rw [et]
    have := mul_le_mul hθ hn hn0 (by norm_num)
    linarith
  refine ⟨by linarith, ?_⟩
  have h4 := mul_le_mul_of_nonneg_left h3 hu0
  have h5 : u * κ ≤ 1 / 1000 * κ := mul_le_mul_of_nonneg_right hu hκ0
  have h6 := abs_sub_le r (α * g) (θ * n)
  have h7 : 0 ≤ u * t := by positivity
  have h8 : 0 ≤ t * A := by positivity
  have h9 : 0 ≤ t * B := by positivity
  linarith

/-- The exact angle. -/
noncomputable def angleF (S : Spinor F64) : ℝ :=
  Complex.arg ⟨S.theSca.theData.d0.value / euclid .spin S, euclid .biv S.theBiv / euclid .spin S⟩

theorem angleF_eq (S : Spinor F64) : angleF S = angleOf (realTy .spin S) := by
  unfold angleF angleOf
  rw [length_realTy]
  change _ = Complex.arg ⟨_, length .biv (realTy .biv S.theBiv) / _⟩
  rw [length_realTy]
  rfl

theorem circle (S : Spinor F64) (hE : 0 < euclid .spin S) :
    (S.theSca.theData.d0.value / euclid .spin S : ℝ) ^ 2
      + (euclid .biv S.theBiv / euclid .spin S) ^ 2 = 1 := by
  rw [div_pow, div_pow, ← add_div, ← euclid_spin_sq]
  exact div_self (pow_pos hE 2).ne'

/-- The bivector part of the general branch. -/
theorem log_biv [LibM F64] {ε : ℝ} (hε0 : 0 ≤ ε) (hε : ε ≤ 1 / 100) (hlib : LibmLogOk ε)
    (S : Spinor F64) (h : Central .spin S)
    (hV : (2 : ℝ) ^ (-400 : ℤ) ≤ euclid .biv S.theBiv / euclid .spin S) :
    (2 : ℝ) ^ (-400 : ℤ) ≤ angleF S ∧ angleF S < Real.pi ∧
    List.Forall₂ (fun g c => (g.Finite ∧
        |(g.value : ℝ) - angleF S * (c.value / euclid .biv S.theBiv)|
          ≤ (11 / 10 * ε + 64 * uR) * |angleF S * (c.value / euclid .biv S.theBiv)| + 2 ^ (-669 : ℤ)) ∧
        (c.value = 0 → g.value = 0))
      (comps .biv (LibM.atan2 (magnitudeTy .biv (directionTy .spin S).theBiv)
            (directionTy .spin S).theSca.theData.d0
          * directionTy .biv (directionTy .spin S).theBiv : BiVector F64)) (comps .biv S.theBiv) := by
  obtain ⟨hCf, hC, hMf, hM, hg⟩ := log_parts S h hV
  obtain ⟨hl, -, -⟩ := central_real h
  have hE : 0 < euclid .spin S := lt_of_lt_of_le (F64.two_zpow_pos _) hl
  have hcir := circle S hE
  have hb : 0 < euclid .biv S.theBiv := by
    have := mul_pos (lt_of_lt_of_le (F64.two_zpow_pos _) hV) hE
    rwa [div_mul_cancel₀ _ hE.ne'] at this
  obtain ⟨ht1, ht2⟩ := tiny_scale hV
  have hu0 := uR_nonneg
  have hu := uR_le
  have hη0 : (0 : ℝ) ≤ 2 ^ (-1075 : ℤ) := (F64.two_zpow_pos _).le
  have hη3 : (2 : ℝ) ^ (-1075 : ℤ) ≤ 1 / 1000 * uR := tiny_le_uR
  have hpi := Real.pi_lt_four
  have hκ : (2 : ℝ) ^ (-669 : ℤ) = 8 * 2 ^ (-672 : ℤ) := by
    rw [show (-669 : ℤ) = 3 + -672 from by norm_num only, zpow_add₀ (by norm_num)]; norm_num
  have hκη : (2 : ℝ) ^ (-1075 : ℤ) ≤ 2 ^ (-672 : ℤ) := zpow_le_zpow_right₀ (by norm_num) (by norm_num)
  have hκ1 : (2 : ℝ) ^ (-672 : ℤ) ≤ 1 / 1000 := by
    calc (2 : ℝ) ^ (-672 : ℤ) ≤ (2 : ℝ) ^ (-10 : ℤ) :=
          zpow_le_zpow_right₀ (by norm_num) (by norm_num)
      _ ≤ _ := by norm_num
  have hnb : ∀ c ∈ comps .biv S.theBiv, |(c.value : ℝ) / euclid .biv S.theBiv| ≤ 1 := by
    intro c hc
    rw [abs_div, abs_of_pos hb, div_le_one hb]
    apply Real.abs_le_sqrt
    have := (Rat.cast_le (K := ℝ)).2 (list_le_sum (comps .biv S.theBiv) hc)
    rw [Rat.cast_mul, ← pow_two] at this
    exact this
  generalize magnitudeTy .biv (directionTy .spin S).theBiv = M at *
  generalize (directionTy .spin S).theSca.theData.d0 = C at *
  have hV0 : 0 < euclid .biv S.theBiv / euclid .spin S := lt_of_lt_of_le (F64.two_zpow_pos _) hV
  have hθ : angleF S = Complex.arg ⟨S.theSca.theData.d0.value / euclid .spin S,
    euclid .biv S.theBiv / euclid .spin S⟩ := rfl
  generalize euclid .biv S.theBiv / euclid .spin S = V at *
  generalize (S.theSca.theData.d0.value : ℝ) / euclid .spin S = W at *
  obtain ⟨ha1, ha2, ha3⟩ := angle_est hcir hV0 (by linarith : 0 ≤ 27 / 2 * uR) (by linarith)
    (by linarith : 0 ≤ 8 * uR) (by linarith) hη0 (by linarith) hC hM
  rw [← hθ] at ha1 ha2 ha3
  have hMp : (0 : ℝ) < M.value := by
    have h1 := (abs_le.1 hM).1
    have h2 := mul_le_mul_of_nonneg_right hu hV0.le
    linarith
  obtain ⟨hαf, hα⟩ := hlib.2 M C hMf hCf (Rat.cast_pos.1 hMp)
  generalize angleF S = θ at *
  generalize LibM.atan2 M C = α at *
  generalize Complex.arg ⟨(C.value : ℝ), (M.value : ℝ)⟩ = θ' at *
  have hθ0 : 0 ≤ θ := hV0.le.trans ha2
  have ha4 : |θ' - θ| ≤ 345 / 10 * uR * θ := by
    refine ha1.trans ?_
    have h1 : 8 / 5 * (27 / 2 * uR + 8 * uR + (2 : ℝ) ^ (-1075 : ℤ)) ≤ 345 / 10 * uR := by
      generalize (2 : ℝ) ^ (-1075 : ℤ) = x at *
      generalize uR = u at *
      linarith
    exact mul_le_mul h1 ha2 hV0.le (by linarith)
  have hα2 : |(α.value : ℝ) - θ| ≤ (1001 / 1000 * ε + 345 / 10 * uR) * θ + 2 ^ (-1075 : ℤ) := by
    have h1 := abs_sub_le (α.value : ℝ) θ' θ
    have h2 := (abs_le.1 ha4).2
    have h3 : 345 / 10 * uR * θ ≤ 1 / 1000 * θ := mul_le_mul_of_nonneg_right (by linarith) hθ0
    have h4 : ε * θ' ≤ ε * (1001 / 1000 * θ) := mul_le_mul_of_nonneg_left (by linarith) hε0
    generalize (2 : ℝ) ^ (-1075 : ℤ) = x at *
    generalize uR = u at *
    linarith
  refine ⟨hV.trans ha2, ha3, ?_⟩
  have step : ∀ {g c : F64}, c ∈ comps .biv S.theBiv →
      (g.Finite ∧ |(g.value : ℝ) - c.value / euclid .biv S.theBiv|
        ≤ 25 * uR * |c.value / euclid .biv S.theBiv| + 2 ^ (-672 : ℤ)) ∧ (c.value = 0 → g.value = 0) →
      ((α * g).Finite ∧ |((α * g).value : ℝ) - θ * (c.value / euclid .biv S.theBiv)|
        ≤ (11 / 10 * ε + 64 * uR) * |θ * (c.value / euclid .biv S.theBiv)| + 2 ^ (-669 : ℤ)) ∧
      (c.value = 0 → (α * g).value = 0) := by
    rintro g c hc ⟨hgc, hz⟩
    have hn := hnb c hc
    generalize (c.value : ℝ) / euclid .biv S.theBiv = n at *
    have P := fun r => prod_est (r := r) (by positivity : 0 ≤ 1001 / 1000 * ε + 345 / 10 * uR) (by linarith)
      (by linarith : 0 ≤ 25 * uR) (by linarith) hu0 (by linarith) hη0 hκη hκ1 hθ0 (by linarith) hn hα2 hgc.2
    have hbd : |(α.value : ℝ) * g.value| ≤ 5 :=
      (P (α.value * g.value) (by rw [sub_self, abs_zero]; positivity)).1
    obtain ⟨f1, f2⟩ := mul_real hαf hgc.1 (hbd.trans (by
      calc (5 : ℝ) ≤ 2 ^ 3 := by norm_num
        _ ≤ 2 ^ 1022 := pow_le_pow_right₀ (by norm_num) (by norm_num)))
    refine ⟨⟨f1, (P _ f2).2.trans ?_⟩, fun h0 => ?_⟩
    swap
    · rw [hz h0, Rat.cast_zero, mul_zero, sub_zero, abs_zero, mul_zero, zero_add] at f2
      exact value_zero_of_tiny f2
    rw [hκ]
    refine add_le_add ?_ le_rfl
    refine mul_le_mul_of_nonneg_right ?_ (abs_nonneg _)
    generalize uR = u at *
    linarith
  generalize directionTy .biv (directionTy .spin S).theBiv = G at *
  obtain ⟨⟨g0, g1, g2⟩⟩ := G
  obtain ⟨⟨⟨w⟩⟩, ⟨⟨b0, b1, b2⟩⟩⟩ := S
  have hg' := hg
  simp only [comps, List.forall₂_cons, List.forall₂_nil_left_iff, and_true] at hg'
  exact .cons (step (by simp [comps]) hg'.1) (.cons (step (by simp [comps]) hg'.2.1)
    (.cons (step (by simp [comps]) hg'.2.2) .nil))

/-- The scalar part in every branch. -/
theorem log_sca [LibM F64] {ε : ℝ} (hε0 : 0 ≤ ε) (hε : ε ≤ 1 / 100) (hlib : LibmLogOk ε)
    (S : Spinor F64) (h : Central .spin S) :
    (LibM.log (magnitudeTy .spin S)).Finite ∧
    |((LibM.log (magnitudeTy .spin S)).value : ℝ) - Real.log (euclid .spin S)|
      ≤ ε * |Real.log (euclid .spin S)| + 6 * uR := by
  obtain ⟨hmf, hme⟩ := C34_magnitude .spin S h
  obtain ⟨-, -, hmp, -, -⟩ := recip_est h
  obtain ⟨hl, -, -⟩ := central_real h
  have hE : 0 < euclid .spin S := lt_of_lt_of_le (F64.two_zpow_pos _) hl
  obtain ⟨f, hlog⟩ := hlib.1 _ hmf (Rat.cast_pos.1 hmp)
  refine ⟨f, ?_⟩
  have hu0 := uR_nonneg
  have hd := log_est hE hu0 uR_le hme
  have hη3 : (2 : ℝ) ^ (-1075 : ℤ) ≤ 1 / 1000 * uR := tiny_le_uR
  generalize Real.log (euclid .spin S) = l at *
  generalize Real.log ((magnitudeTy .spin S).value : ℝ) = l' at *
  generalize ((LibM.log (magnitudeTy .spin S)).value : ℝ) = x at *
  have h1 := abs_sub_le x l' l
  have h2 := abs_sub_abs_le_abs_sub l' l
  have h3 : ε * |l'| ≤ ε * (|l| + 53 / 10 * uR) := mul_le_mul_of_nonneg_left (by linarith) hε0
  have h4 : ε * uR ≤ 1 / 100 * uR := mul_le_mul_of_nonneg_right hε hu0
  generalize (2 : ℝ) ^ (-1075 : ℤ) = y at *
  generalize uR = u at *
  linarith

end Engabra
