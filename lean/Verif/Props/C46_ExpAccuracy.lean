import Verif.Props.C34_Direction
import Verif.Props.C20_Exp
import Verif.Props.C45_Composition
import Mathlib.Analysis.InnerProductSpace.PiL2

/-! # C46: exponentials in binary64

`exp(BiVector)` and `exp(Spinor)` with IEEE arithmetic and a mathematical library of stated
accuracy: how far the result is from the exponential series, and how far its length is from one. -/

namespace Engabra

open F64 (Finite HasVal)
open Spec

/-- Specification: `std::sin` and `std::cos` are within `ε` of sine and cosine at every finite
argument. -/
def LibmOk [LibM F64] (ε : ℝ) : Prop := ∀ x : F64, x.Finite →
  ((LibM.sin x).Finite ∧ |((LibM.sin x).value : ℝ) - Real.sin x.value| ≤ ε) ∧
  ((LibM.cos x).Finite ∧ |((LibM.cos x).value : ℝ) - Real.cos x.value| ≤ ε)

/-- Specification: `std::exp` has relative error at most `ε` where the exponential is between
`2^-1000` and `2^1000`. -/
def LibmExpOk [LibM F64] (ε : ℝ) : Prop := ∀ x : F64, x.Finite →
  (2 : ℝ) ^ (-1000 : ℤ) ≤ Real.exp x.value → Real.exp x.value ≤ 2 ^ (1000 : ℤ) →
  (LibM.exp x).Finite ∧ |((LibM.exp x).value : ℝ) - Real.exp x.value| ≤ ε * Real.exp x.value

/-- Specification: the real numbers an object stands for. -/
noncomputable def realTy (t : Ty) (x : t.D F64) : t.D ℝ := mapTy (fun c => (c.value : ℝ)) t x

theorem length_realTy (t : Ty) (x : t.D F64) : length t (realTy t x) = euclid t x := by
  unfold length euclid sqSum realTy
  congr 1
  cases t <;> simp only [comps, mapTy, List.map_cons, List.map_nil, List.sum_cons, List.sum_nil] <;>
    push_cast <;> ring

/-- One product, in the reals. -/
theorem mul_real {a b : F64} (fa : a.Finite) (fb : b.Finite)
    (h : |(a.value : ℝ) * b.value| ≤ 2 ^ 1022) : (a * b).Finite ∧
    |((a * b).value : ℝ) - a.value * b.value|
      ≤ 2 ^ (-53 : ℤ) * |(a.value : ℝ) * b.value| + 2 ^ (-1075 : ℤ) := by
  have hq : |a.value * b.value| ≤ 2 ^ 1022 := by
    have : ((|a.value * b.value| : ℚ) : ℝ) ≤ ((2 ^ 1022 : ℚ) : ℝ) := by
      rw [Rat.cast_abs, Rat.cast_mul, Rat.cast_pow, Rat.cast_ofNat]; exact h
    exact Rat.cast_le.1 this
  have hs := F64.mul_spec fa fb (F64.safe_lt (hq.trans (by
    change F64.safe ≤ 2 * F64.safe
    linarith [F64.one_le_safe])))
  refine ⟨hs.1, ?_⟩
  have h6 := (Rat.cast_le (K := ℝ)).2 (F64.rn_err (a.value * b.value))
  rw [← hs.2, Rat.cast_abs, Rat.cast_sub, Rat.cast_add, Rat.cast_mul, Rat.cast_mul, cast_zpow,
    cast_zpow, Rat.cast_abs, Rat.cast_mul] at h6
  exact h6

theorem tiny_le_uR : (2 : ℝ) ^ (-1075 : ℤ) ≤ 1 / 1000 * uR := by
  unfold uR
  rw [show (-1075 : ℤ) = -1022 + -53 from by norm_num only, zpow_add₀ (by norm_num)]
  refine mul_le_mul_of_nonneg_right ?_ uR_nonneg
  calc (2 : ℝ) ^ (-1022 : ℤ) ≤ (2 : ℝ) ^ (-10 : ℤ) :=
        zpow_le_zpow_right₀ (by norm_num) (by norm_num)
    _ ≤ _ := by norm_num

theorem small_le_pow {x : ℝ} (h : x ≤ 2) : x ≤ 2 ^ 1022 :=
  h.trans (le_self_pow₀ one_le_two (by norm_num))

theorem uR_le : uR ≤ 1 / 1000000 := by unfold uR; norm_num

/-- A component of the bivector part: `s` is the computed sine, `d` a component of the computed
direction, `n` the exact one. -/
theorem biv_comp {s d : F64} {σ n ε : ℝ} (hε0 : 0 ≤ ε) (hε : ε ≤ 1 / 100) (fs : s.Finite)
    (fd : d.Finite) (hs : |(s.value : ℝ) - σ| ≤ ε) (hσ : |σ| ≤ 1) (hn : |n| ≤ 1)
    (hd : |(d.value : ℝ) - n| ≤ 8 * uR * |n| + 2 ^ (-1075 : ℤ)) :
    (s * d).Finite ∧ |((s * d).value : ℝ)| ≤ 103 / 100 ∧
    |((s * d).value : ℝ) - σ * n| ≤ 101 / 100 * ε + 10 * uR := by
  have ht := tiny_le_uR
  have hu := uR_le
  have hu0 := uR_nonneg
  have h8 : 8 * uR * |n| ≤ 8 * uR := mul_le_of_le_one_right (by linarith) hn
  have hd1 : |(d.value : ℝ) - n| ≤ 801 / 100 * uR := by
    generalize (2 : ℝ) ^ (-1075 : ℤ) = t at *
    generalize uR = u at *
    linarith
  have hda : |(d.value : ℝ)| ≤ 1001 / 1000 := by
    have := abs_sub_abs_le_abs_sub (d.value : ℝ) n
    linarith
  have hsa : |(s.value : ℝ)| ≤ 101 / 100 := by
    have := abs_sub_abs_le_abs_sub (s.value : ℝ) σ
    linarith
  have hp : |(s.value : ℝ) * d.value| ≤ 102 / 100 := by
    rw [abs_mul]
    refine (mul_le_mul hsa hda (abs_nonneg _) (by norm_num)).trans (by norm_num)
  obtain ⟨f, he⟩ := mul_real fs fd (small_le_pow (hp.trans (by norm_num)))
  have hr : |((s * d).value : ℝ) - s.value * d.value| ≤ 103 / 100 * uR := by
    refine he.trans ?_
    have := mul_le_mul_of_nonneg_left hp hu0
    change uR * _ + _ ≤ _
    generalize (2 : ℝ) ^ (-1075 : ℤ) = t at *
    linarith
  have hdiff : |(s.value : ℝ) * d.value - σ * n| ≤ 101 / 100 * ε + 802 / 100 * uR := by
    rw [show (s.value : ℝ) * d.value - σ * n = (s.value - σ) * d.value + σ * (d.value - n) by ring]
    refine (abs_add_le _ _).trans ?_
    rw [abs_mul, abs_mul]
    have h1 := mul_le_mul hs hda (abs_nonneg _) hε0
    have h2 := mul_le_mul hσ hd1 (abs_nonneg _) zero_le_one
    linarith
  refine ⟨f, ?_, ?_⟩
  · have := abs_sub_abs_le_abs_sub ((s * d).value : ℝ) ((s.value : ℝ) * d.value)
    linarith
  · refine (abs_sub_le _ ((s.value : ℝ) * d.value) _).trans ?_
    linarith

theorem comps_spin {α : Type} (S : Spinor α) : comps .spin S =
    [S.theSca.theData.d0, S.theBiv.theData.d0, S.theBiv.theData.d1, S.theBiv.theData.d2] := rfl

/-- What `exp(BiVector)` computes when the argument is in the central range. -/
theorem expBiv_central [LibM F64] (B : BiVector F64) (h : Central .biv B)
    (hc : B.theData.d0.value = 0 ∨ (2 : ℚ) ^ (-400 : ℤ) ≤ |B.theData.d0.value|) :
    ∃ m d0 d1 d2 : F64,
      expBiv B = ⟨⟨⟨LibM.cos m⟩⟩, ⟨⟨LibM.sin m * d0, LibM.sin m * d1, LibM.sin m * d2⟩⟩⟩ ∧
      m.Finite ∧ |(m.value : ℝ) - euclid .biv B| ≤ 52 / 10 * uR * euclid .biv B ∧
      List.Forall₂ (fun d c => d.Finite ∧ |(d.value : ℝ) - (c.value : ℝ) / euclid .biv B|
          ≤ 8 * uR * |(c.value : ℝ) / euclid .biv B| + 2 ^ (-1075 : ℤ))
        [d0, d1, d2] (comps .biv B) := by
  obtain ⟨hmf, hme⟩ := C34_magnitude .biv B h
  obtain ⟨f, hf, hd⟩ := C34_direction .biv B h
  obtain ⟨⟨b0, b1, b2⟩⟩ := B
  set B : BiVector F64 := ⟨⟨b0, b1, b2⟩⟩ with hB
  have hb0 := hd b0 (by simp [comps, hB])
  have hb1 := hd b1 (by simp [comps, hB])
  have hb2 := hd b2 (by simp [comps, hB])
  have e1 : (directionTy .biv B).theData.d0 = f b0 ∧ (directionTy .biv B).theData.d1 = f b1 ∧
      (directionTy .biv B).theData.d2 = f b2 := by
    simpa [comps, hB] using hf
  have v1 : isValid B = true := by
    change isValidDub b0 = true
    rcases hc with h0 | h0
    · exact valid_of_tiny (h.1 b0 (by simp [comps, hB])).1 (by
        rw [show b0.value = 0 from h0, abs_zero]; exact (F64.two_zpow_pos _).le)
    · exact valid_of_normal (h.1 b0 (by simp [comps, hB])).1
        ((zpow_le_zpow_right₀ (by norm_num) (by norm_num)).trans h0)
  have v2 : isValid (directionTy .biv B) = true := by
    change isValidDub (directionTy .biv B).theData.d0 = true
    rw [e1.1]
    exact dir_comp_valid h hc hb0.1 hb0.2
  refine ⟨magnitudeTy .biv B, f b0, f b1, f b2, ?_, hmf, hme, ?_⟩
  · unfold expBiv
    rw [if_pos v1]
    have e2 : pairMagDirFrom B = (magnitudeTy .biv B, directionTy .biv B) :=
      (pairMagDirTy_eq.2.2.1 B).symm.trans
        (Prod.ext (by unfold pairMagDirTy; simp only []; split <;> rfl) rfl)
    simp only [e2]
    rw [if_pos v2, ← e1.1, ← e1.2.1, ← e1.2.2]
    rfl
  · exact .cons hb0 (.cons hb1 (.cons hb2 .nil))

theorem unit_comp {t : Ty} {B : t.D F64} (h : Central t B) {c : F64} (hc : c ∈ comps t B) :
    |(c.value : ℝ) / euclid t B| ≤ 1 := by
  obtain ⟨hl, -, -⟩ := central_real h
  have hE : 0 < euclid t B := lt_of_lt_of_le (F64.two_zpow_pos _) hl
  rw [abs_div, abs_of_pos hE, div_le_one hE]
  apply Real.abs_le_sqrt
  have := (Rat.cast_le (K := ℝ)).2 (list_le_sum (comps t B) hc)
  rw [Rat.cast_mul, ← pow_two] at this
  exact this

/-- Components of the result against `cos m`, `sin m * n` for the *computed* magnitude `m`. -/
theorem expBiv_core [LibM F64] {ε : ℝ} (hε0 : 0 ≤ ε) (hε : ε ≤ 1 / 100) (hlib : LibmOk ε)
    (B : BiVector F64) (h : Central .biv B)
    (hc : B.theData.d0.value = 0 ∨ (2 : ℚ) ^ (-400 : ℤ) ≤ |B.theData.d0.value|) :
    ∃ m : ℝ, |m - euclid .biv B| ≤ 52 / 10 * uR * euclid .biv B ∧
      List.Forall₂ (fun c y => c.Finite ∧ |(c.value : ℝ)| ≤ 103 / 100 ∧
          |(c.value : ℝ) - y| ≤ 101 / 100 * ε + 10 * uR)
        (comps .spin (expBiv B))
        (Real.cos m :: (comps .biv (realTy .biv B)).map fun b => Real.sin m * (b / euclid .biv B)) := by
  obtain ⟨m, d0, d1, d2, he, hmf, hm, hd⟩ := expBiv_central B h hc
  refine ⟨m.value, hm, ?_⟩
  obtain ⟨⟨s1, s2⟩, ⟨c1, c2⟩⟩ := hlib m hmf
  have hs := Real.abs_sin_le_one (m.value : ℝ)
  have hcos := Real.abs_cos_le_one (m.value : ℝ)
  have hu0 := uR_nonneg
  rw [he, comps_spin]
  have hn := fun c hc => unit_comp h (c := c) hc
  simp only [comps, List.forall₂_cons, List.forall₂_nil_left_iff, and_true, List.mem_cons,
    List.not_mem_nil, or_false, forall_eq_or_imp, forall_eq, realTy, mapTy, List.map_cons,
    List.map_nil] at hd hn ⊢
  obtain ⟨⟨f0, g0⟩, ⟨f1, g1⟩, ⟨f2, g2⟩⟩ := hd
  refine ⟨⟨c1, ?_, by linarith⟩, biv_comp hε0 hε s1 f0 s2 hs hn.1 g0,
    biv_comp hε0 hε s1 f1 s2 hs hn.2.1 g1, biv_comp hε0 hε s1 f2 s2 hs hn.2.2 g2⟩
  have := abs_sub_abs_le_abs_sub ((LibM.cos m).value : ℝ) (Real.cos m.value)
  linarith

/-- The exponential series of a bivector, component by component. -/
theorem exp_comps (s : ℝ) (B : BiVector F64) : comps .spin (expR s (realTy .biv B)) =
    (Real.cos (euclid .biv B) :: (comps .biv (realTy .biv B)).map fun b =>
      Real.sin (euclid .biv B) * (b / euclid .biv B)).map (Real.exp s * ·) := by
  unfold expR
  rw [length_realTy]
  simp only [comps, engabra, List.map_cons, List.map_nil]
  congr 2
  · ring
  · congr 1
    · ring
    · congr 1; ring

/-- Same, against the exact exponential. -/
theorem expBiv_exact [LibM F64] {ε : ℝ} (hε0 : 0 ≤ ε) (hε : ε ≤ 1 / 100) (hlib : LibmOk ε)
    (B : BiVector F64) (h : Central .biv B)
    (hc : B.theData.d0.value = 0 ∨ (2 : ℚ) ^ (-400 : ℤ) ≤ |B.theData.d0.value|) :
      List.Forall₂ (fun c y => c.Finite ∧ |(c.value : ℝ)| ≤ 103 / 100 ∧
          |(c.value : ℝ) - y| ≤ 11 / 10 * ε + (10 + 6 * euclid .biv B) * uR)
        (comps .spin (expBiv B))
        (Real.cos (euclid .biv B) :: (comps .biv (realTy .biv B)).map fun b =>
          Real.sin (euclid .biv B) * (b / euclid .biv B)) := by
  obtain ⟨m, hm, hk⟩ := expBiv_core hε0 hε hlib B h hc
  have hn := fun c hc => unit_comp h (c := c) hc
  obtain ⟨hl, -, -⟩ := central_real h
  have hE : 0 < euclid .biv B := lt_of_lt_of_le (F64.two_zpow_pos _) hl
  have hu0 := uR_nonneg
  have hEu : 0 ≤ euclid .biv B * uR := mul_nonneg hE.le hu0
  generalize euclid .biv B = E at *
  have hsin : |Real.sin m - Real.sin E| ≤ 52 / 10 * uR * E := by
    have := Real.abs_sin_sub_sin_le m E
    linarith
  have hcos : |Real.cos m - Real.cos E| ≤ 52 / 10 * uR * E := by
    have := Real.abs_cos_sub_cos_le m E
    linarith
  rw [comps_spin] at hk ⊢
  simp only [comps, List.forall₂_cons, List.forall₂_nil_left_iff, and_true, List.mem_cons,
    List.not_mem_nil, or_false, forall_eq_or_imp, forall_eq, realTy, mapTy, List.map_cons,
    List.map_nil] at hk hn ⊢
  have step : ∀ {x n : ℝ}, |n| ≤ 1 → |x - Real.sin m * n| ≤ 101 / 100 * ε + 10 * uR →
      |x - Real.sin E * n| ≤ 11 / 10 * ε + (10 + 6 * E) * uR := by
    intro x n h1 h2
    have h3 : |Real.sin m * n - Real.sin E * n| ≤ 52 / 10 * uR * E := by
      rw [← sub_mul, abs_mul]
      exact (mul_le_of_le_one_right (abs_nonneg _) h1).trans hsin
    have := abs_sub_le x (Real.sin m * n) (Real.sin E * n)
    linarith
  obtain ⟨⟨a1, a2, a3⟩, ⟨b1, b2, b3⟩, ⟨c1, c2, c3⟩, d1, d2, d3⟩ := hk
  refine ⟨⟨a1, a2, ?_⟩, ⟨b1, b2, step hn.1 b3⟩, ⟨c1, c2, step hn.2.1 c3⟩, d1, d2, step hn.2.2 d3⟩
  have := abs_sub_le ((expBiv B).theSca.theData.d0.value : ℝ) (Real.cos m) (Real.cos E)
  linarith

/-! ## Accuracy -/

/-- **C46.**  `exp(B)` against the exponential series of `B`, for every bivector in the central range
whose first component is zero or at least `2^-400`: with a library whose sine and cosine are within
`ε`, all components are finite and each is within `1.1 ε + (10 + 6|B|) u` of the component of the
series (`u = 2^-53`; `|B| u` is what rounding the angle costs). -/
theorem C46_exp [LibM F64] (ε : ℝ) (hε0 : 0 ≤ ε) (hε : ε ≤ 1 / 100) (hlib : LibmOk ε)
    (B : BiVector F64) (h : Central .biv B)
    (hc : B.theData.d0.value = 0 ∨ (2 : ℚ) ^ (-400 : ℤ) ≤ |B.theData.d0.value|) :
    ∃ Y : Spinor ℝ, IsExp (toMV (realTy .biv B : BiVector ℝ)) (toMV Y) ∧
      List.Forall₂ (fun c y => c.Finite ∧ |(c.value : ℝ) - y|
          ≤ 11 / 10 * ε + (10 + 6 * euclid .biv B) * 2 ^ (-53 : ℤ))
        (comps .spin (expBiv B)) (comps .spin Y) := by
  refine ⟨expR 0 (realTy .biv B), isExp_expR 0 (realTy .biv B), ?_⟩
  rw [exp_comps, Real.exp_zero]
  simp only [one_mul, List.map_id']
  exact (expBiv_exact hε0 hε hlib B h hc).imp fun c y h => ⟨h.1, h.2.2⟩

theorem smul_comp {e y : F64} {X Y ε δ : ℝ} (hε0 : 0 ≤ ε) (hε : ε ≤ 1 / 100) (fe : e.Finite)
    (fy : y.Finite) (hX0 : 0 < X) (hX : X ≤ 2 ^ (1000 : ℤ)) (he : |(e.value : ℝ) - X| ≤ ε * X)
    (hy : |(y.value : ℝ)| ≤ 103 / 100) (hd : |(y.value : ℝ) - Y| ≤ δ) : (e * y).Finite ∧
    |((e * y).value : ℝ) - X * Y| ≤ X * (11 / 10 * ε + δ + 2 * uR) + 2 ^ (-1075 : ℤ) := by
  have hu0 := uR_nonneg
  have heX : |(e.value : ℝ)| ≤ 101 / 100 * X := by
    have h1 := abs_sub_abs_le_abs_sub (e.value : ℝ) X
    rw [abs_of_pos hX0] at h1
    have := mul_le_mul_of_nonneg_right hε hX0.le
    linarith
  have hp : |(e.value : ℝ) * y.value| ≤ 11 / 10 * X := by
    rw [abs_mul]
    have := mul_le_mul heX hy (abs_nonneg _) (by linarith)
    linarith
  have hbig : |(e.value : ℝ) * y.value| ≤ 2 ^ 1022 := by
    refine (hp.trans (mul_le_mul_of_nonneg_left hX (by norm_num))).trans ?_
    calc (11 / 10 : ℝ) * 2 ^ (1000 : ℤ) ≤ 2 ^ (22 : ℤ) * 2 ^ (1000 : ℤ) :=
          mul_le_mul_of_nonneg_right (by norm_num) (F64.two_zpow_pos _).le
      _ = 2 ^ 1022 := by rw [← zpow_add₀ (by norm_num), ← zpow_natCast]; norm_num only
  obtain ⟨f, hr⟩ := mul_real fe fy hbig
  refine ⟨f, ?_⟩
  have h1 : |(e.value : ℝ) * y.value - X * Y| ≤ X * (103 / 100 * ε + δ) := by
    rw [show (e.value : ℝ) * y.value - X * Y = (e.value - X) * y.value + X * (y.value - Y) by ring]
    refine (abs_add_le _ _).trans ?_
    rw [abs_mul, abs_mul, abs_of_pos hX0]
    have h2 := mul_le_mul he hy (abs_nonneg _) (by positivity)
    have h3 := mul_le_mul_of_nonneg_left hd hX0.le
    linarith
  have h4 := abs_sub_le ((e * y).value : ℝ) (e.value * y.value) (X * Y)
  have h5 := mul_le_mul_of_nonneg_left hp hu0
  have h6 : 0 ≤ X * ε := by positivity
  have h7 : 0 ≤ X * uR := by positivity
  change _ ≤ uR * _ + _ at hr
  generalize (2 : ℝ) ^ (-1075 : ℤ) = t at *
  generalize uR = u at *
  linarith

/-- **C46.**  `exp(s + B)` against the exponential series of `s + B`, with a library whose `exp` has
relative error at most `ε`, while `e^s` is between `2^-1000` and `2^1000`. -/
theorem C46_exp_spinor [LibM F64] (ε : ℝ) (hε0 : 0 ≤ ε) (hε : ε ≤ 1 / 100) (hlib : LibmOk ε)
    (hexp : LibmExpOk ε) (S : Spinor F64) (hs : S.theSca.theData.d0.Finite)
    (hs1 : (2 : ℝ) ^ (-1000 : ℤ) ≤ Real.exp S.theSca.theData.d0.value)
    (hs2 : Real.exp S.theSca.theData.d0.value ≤ 2 ^ (1000 : ℤ)) (h : Central .biv S.theBiv)
    (hc : S.theBiv.theData.d0.value = 0 ∨ (2 : ℚ) ^ (-400 : ℤ) ≤ |S.theBiv.theData.d0.value|) :
    ∃ Y : Spinor ℝ, IsExp (toMV (realTy .spin S : Spinor ℝ)) (toMV Y) ∧
      List.Forall₂ (fun c y => c.Finite ∧ |(c.value : ℝ) - y|
          ≤ Real.exp S.theSca.theData.d0.value
              * (22 / 10 * ε + (12 + 6 * euclid .biv S.theBiv) * 2 ^ (-53 : ℤ)) + 2 ^ (-1075 : ℤ))
        (comps .spin (expSpin S)) (comps .spin Y) := by
  obtain ⟨⟨⟨s⟩⟩, B⟩ := S
  simp only at *
  obtain ⟨e1, e2⟩ := hexp s hs hs1 hs2
  refine ⟨expR s.value (realTy .biv B), isExp_expR s.value (realTy .biv B), ?_⟩
  rw [exp_comps, show comps .spin (expSpin (⟨⟨⟨s⟩⟩, B⟩ : Spinor F64))
    = (comps .spin (expBiv B)).map (LibM.exp s * ·) from rfl, List.forall₂_map_left_iff,
    List.forall₂_map_right_iff]
  refine (expBiv_exact hε0 hε hlib B h hc).imp fun c y hcy => ?_
  obtain ⟨g1, g2⟩ := smul_comp hε0 hε e1 hcy.1 (Real.exp_pos _) hs2 e2 hcy.2.1 hcy.2.2
  refine ⟨g1, g2.trans (le_of_eq ?_)⟩
  change _ = Real.exp s.value * (22 / 10 * ε + (12 + 6 * euclid .biv B) * uR) + _
  ring

/-! ## Length -/

theorem len_spin (S : Spinor F64) : len (exactObj ⟨.spin, S⟩)
    = √(((comps .spin S).map fun c => (c.value : ℝ) ^ 2).sum) := by
  unfold len
  congr 1
  have : ∀ s : Spinor ℚ, ∑ k : Fin 8, ((cf (promote .spin s) k : ℚ) : ℝ) ^ 2
      = ((comps .spin s).map fun c : ℚ => (c : ℝ) ^ 2).sum := by
    intro s
    simp only [Fin.sum_univ_eight, cf_0, cf_1, cf_2, cf_3, cf_4, cf_5, cf_6, cf_7, engabra, comps,
      List.map_cons, List.map_nil, List.sum_cons, List.sum_nil]
    push_cast; ring
  exact this (valTy .spin S)

theorem reverse_triangle4 {a b c d a' b' c' d' δ : ℝ} (hδ : 0 ≤ δ)
    (h : √(a' ^ 2 + (b' ^ 2 + (c' ^ 2 + d' ^ 2))) = 1)
    (ha : |a - a'| ≤ δ) (hb : |b - b'| ≤ δ) (hc : |c - c'| ≤ δ) (hd : |d - d'| ≤ δ) :
    |√(a ^ 2 + (b ^ 2 + (c ^ 2 + d ^ 2))) - 1| ≤ 2 * δ := by
  have e : ∀ a b c d : ℝ, √(a ^ 2 + (b ^ 2 + (c ^ 2 + d ^ 2)))
      = ‖(!₂[a, b, c, d] : EuclideanSpace ℝ (Fin 4))‖ := by
    intro a b c d
    rw [EuclideanSpace.norm_eq]
    congr 1
    simp [Fin.sum_univ_four]; ring
  rw [← h, e, e]
  refine (abs_norm_sub_norm_le _ _).trans ?_
  have e2 : (!₂[a, b, c, d] : EuclideanSpace ℝ (Fin 4)) - !₂[a', b', c', d']
      = !₂[a - a', b - b', c - c', d - d'] := by
    ext i; fin_cases i <;> simp
  rw [e2, ← e, ← Real.sqrt_sq (by linarith : 0 ≤ 2 * δ)]
  apply Real.sqrt_le_sqrt
  have q : ∀ {x : ℝ}, |x| ≤ δ → x ^ 2 ≤ δ ^ 2 := fun h => by
    rw [← sq_abs]; exact pow_le_pow_left₀ (abs_nonneg _) h 2
  have := q ha; have := q hb; have := q hc; have := q hd
  linarith

/-- **C46.**  `exp(B)` has length one up to `2.02 ε + 20 u`, however large `B` is in the central
range: the error of the angle does not enter. -/
theorem C46_unit [LibM F64] (ε : ℝ) (hε0 : 0 ≤ ε) (hε : ε ≤ 1 / 100) (hlib : LibmOk ε)
    (B : BiVector F64) (h : Central .biv B)
    (hc : B.theData.d0.value = 0 ∨ (2 : ℚ) ^ (-400 : ℤ) ≤ |B.theData.d0.value|) :
    (∀ c ∈ comps .spin (expBiv B), c.Finite) ∧
    |√(((comps .spin (expBiv B)).map fun c => (c.value : ℝ) ^ 2).sum) - 1|
      ≤ 202 / 100 * ε + 20 * 2 ^ (-53 : ℤ) := by
  obtain ⟨m, -, hk⟩ := expBiv_core hε0 hε hlib B h hc
  obtain ⟨hl, -, hS⟩ := central_real h
  have hE : 0 < euclid .biv B := lt_of_lt_of_le (F64.two_zpow_pos _) hl
  have hEE : euclid .biv B * euclid .biv B = (sqSum .biv B : ℝ) := Real.mul_self_sqrt hS.le
  have hu0 := uR_nonneg
  rw [comps_spin] at hk ⊢
  simp only [comps, List.forall₂_cons, List.forall₂_nil_left_iff, and_true, List.mem_cons,
    List.not_mem_nil, or_false, forall_eq_or_imp, forall_eq, realTy, mapTy, List.map_cons,
    List.map_nil, List.sum_cons, List.sum_nil, add_zero] at hk ⊢
  obtain ⟨⟨a1, a2, a3⟩, ⟨b1, b2, b3⟩, ⟨c1, c2, c3⟩, d1, d2, d3⟩ := hk
  refine ⟨⟨a1, b1, c1, d1⟩, ?_⟩
  refine (reverse_triangle4 (by positivity) ?_ a3 b3 c3 d3).trans (le_of_eq ?_)
  · rw [Real.sqrt_eq_one]
    have e : ∀ x y z : ℝ, Real.cos m ^ 2 + ((Real.sin m * (x / euclid .biv B)) ^ 2
        + ((Real.sin m * (y / euclid .biv B)) ^ 2 + (Real.sin m * (z / euclid .biv B)) ^ 2))
        = Real.cos m ^ 2 + Real.sin m ^ 2 * ((x * x + (y * y + z * z))
          / (euclid .biv B * euclid .biv B)) := by intro x y z; field_simp
    rw [e, hEE]
    have e2 : ((sqSum .biv B : ℚ) : ℝ) = (B.theData.d0.value : ℝ) * B.theData.d0.value
        + ((B.theData.d1.value : ℝ) * B.theData.d1.value + (B.theData.d2.value : ℝ) * B.theData.d2.value) := by
      simp only [sqSum, comps, List.map_cons, List.map_nil, List.sum_cons, List.sum_nil]
      push_cast; ring
    rw [← e2, div_self hS.ne', mul_one]
    exact Real.cos_sq_add_sin_sq m
  · change 2 * (101 / 100 * ε + 10 * uR) = 202 / 100 * ε + 20 * uR
    ring

/-- **C46.**  Turning a vector by `exp(B)` for every `B` of a list, one after another: the vector
stays finite and its length drifts by at most `140 u + 9 ε` (relative) per turn, whatever the angles
and planes, as long as `n (ε + 2^-46) ≤ 1/1024`. -/
theorem C46_turns [LibM F64] (ε : ℝ) (hε0 : 0 ≤ ε) (hε : ε ≤ 1 / 100) (hlib : LibmOk ε)
    (Bs : List (BiVector F64)) (h : ∀ B ∈ Bs, Central .biv B)
    (hc : ∀ B ∈ Bs, B.theData.d0.value = 0 ∨ (2 : ℚ) ^ (-400 : ℤ) ≤ |B.theData.d0.value|)
    (v : Vector F64) (hv : ∀ c ∈ comps .vec v, c.Finite)
    (hlo : 2 ^ (-900 : ℤ) ≤ len (exactObj ⟨.vec, v⟩)) (hhi : len (exactObj ⟨.vec, v⟩) ≤ 2 ^ 900)
    (hn : Bs.length * (ε + 2 ^ (-46 : ℤ)) ≤ 1 / 1024) :
    (∀ c ∈ comps .vec (Bs.foldl (fun v B => rotate (expBiv B) v) v), c.Finite) ∧
    |len (exactObj ⟨.vec, Bs.foldl (fun v B => rotate (expBiv B) v) v⟩) - len (exactObj ⟨.vec, v⟩)|
      ≤ Bs.length * (140 * 2 ^ (-53 : ℤ) + 9 * ε) * len (exactObj ⟨.vec, v⟩) := by
  have hu := uR_le
  have hu0 := uR_nonneg
  have hn0 : (0 : ℝ) ≤ Bs.length := Nat.cast_nonneg _
  have e48 : (2 : ℝ) ^ (-48 : ℤ) = 32 * uR := by unfold uR; norm_num
  have e46 : (2 : ℝ) ^ (-46 : ℤ) = 128 * uR := by unfold uR; norm_num
  have hnu : 0 ≤ (Bs.length : ℝ) * uR := by positivity
  have hne : 0 ≤ (Bs.length : ℝ) * ε := by positivity
  have key := C45_rotate_loop (202 / 100 * ε + 20 * uR) (by positivity) (by linarith) v
    (Bs.map expBiv) (by
      rw [List.length_map, e48]
      rw [e46] at hn
      linarith) hv
    (fun S hS => by
      obtain ⟨B, hB, rfl⟩ := List.mem_map.1 hS
      exact (C46_unit ε hε0 hε hlib B (h B hB) (hc B hB)).1)
    (fun S hS => by
      obtain ⟨B, hB, rfl⟩ := List.mem_map.1 hS
      rw [len_spin]
      exact (C46_unit ε hε0 hε hlib B (h B hB) (hc B hB)).2) hlo hhi
  rw [List.foldl_map, List.length_map] at key
  refine ⟨key.1, key.2.2.trans ?_⟩
  apply mul_le_mul_of_nonneg_right _ (len_nonneg _)
  apply mul_le_mul_of_nonneg_left _ hn0
  change 58 * uR + _ ≤ 140 * uR + _
  linarith

/-! ## Outside the central range -/

theorem pair_biv (B : BiVector F64) : pairMagDirFrom B = (magnitudeTy .biv B, directionTy .biv B) :=
  (pairMagDirTy_eq.2.2.1 B).symm.trans
    (Prod.ext (by unfold pairMagDirTy; simp only []; split <;> rfl) rfl)

theorem euclid_biv_le {B : BiVector F64} {b : ℝ} (hb : 0 ≤ b)
    (h : ∀ c ∈ comps .biv B, |(c.value : ℝ)| ≤ b) : euclid .biv B ≤ 2 * b := by
  rw [← length_realTy]
  unfold length
  rw [← Real.sqrt_sq (by linarith : 0 ≤ 2 * b)]
  apply Real.sqrt_le_sqrt
  simp only [comps, realTy, mapTy, List.forall_mem_cons, List.not_mem_nil, false_imp_iff,
    implies_true, and_true, List.map_cons, List.map_nil, List.sum_cons, List.sum_nil, add_zero]
    at h ⊢
  have q : ∀ {x : ℝ}, |x| ≤ b → x ^ 2 ≤ b ^ 2 := fun h => by
    rw [← sq_abs]; exact pow_le_pow_left₀ (abs_nonneg _) h 2
  have := q h.1; have := q h.2.1; have := q h.2.2
  have := sq_nonneg b
  linarith

/-- **C46.**  For bivectors with no component above `2^-538` (and valid first component) `exp` is
exactly one, which is within `2^-537` of the exponential series.  The mathematical library is not
even consulted. -/
theorem C46_tiny [LibM F64] (B : BiVector F64)
    (h : ∀ c ∈ comps .biv B, c.Finite ∧ |c.value| ≤ (2 : ℚ) ^ (-538 : ℤ))
    (hv : isValidDub B.theData.d0 = true) :
    comps .spin (expBiv B) = [1, 0, 0, 0] ∧
    ∃ Y : Spinor ℝ, IsExp (toMV (realTy .biv B : BiVector ℝ)) (toMV Y) ∧
      List.Forall₂ (fun c y => |((F64.value c : ℚ) : ℝ) - y| ≤ 2 ^ (-537 : ℤ))
        (comps .spin (expBiv B)) (comps .spin Y) := by
  obtain ⟨-, h2⟩ := C34_fails_underflow .biv B h
  have hval : expBiv B = ⟨⟨⟨1⟩⟩, ⟨⟨0, 0, 0⟩⟩⟩ := by
    unfold expBiv
    rw [if_pos (show isValid B = true from hv), pair_biv]
    simp only [h2]
    rfl
  refine ⟨by rw [hval]; rfl, expR 0 (realTy .biv B), isExp_expR 0 (realTy .biv B), ?_⟩
  have hb : ∀ c ∈ comps .biv B, |(c.value : ℝ)| ≤ 2 ^ (-538 : ℤ) := fun c hc => by
    rw [← cast_zpow, ← Rat.cast_abs]; exact Rat.cast_le.2 (h c hc).2
  have hE := euclid_biv_le (zpow_pos two_pos _).le hb
  have hE0 : 0 ≤ euclid .biv B := Real.sqrt_nonneg _
  have e2 : (2 : ℝ) * 2 ^ (-538 : ℤ) = 2 ^ (-537 : ℤ) := by
    rw [show (-537 : ℤ) = 1 + -538 by norm_num, zpow_add₀ two_ne_zero, zpow_one]
  rw [e2] at hE
  have hs : |Real.sin (euclid .biv B)| ≤ euclid .biv B := by
    have := Real.abs_sin_le_abs (x := euclid .biv B)
    rwa [abs_of_nonneg hE0] at this
  have hn : ∀ c ∈ comps .biv B, |(c.value : ℝ) / euclid .biv B| ≤ 1 := by
    intro c hc
    rcases hE0.eq_or_lt with h0 | h0
    · rw [← h0, div_zero, abs_zero]; exact zero_le_one
    · rw [abs_div, abs_of_pos h0, div_le_one h0]
      apply Real.abs_le_sqrt
      have := (Rat.cast_le (K := ℝ)).2 (list_le_sum (comps .biv B) hc)
      rw [Rat.cast_mul, ← pow_two] at this
      exact this
  have hcos : |1 - Real.cos (euclid .biv B)| ≤ 2 ^ (-537 : ℤ) := by
    have := Real.abs_cos_sub_cos_le 0 (euclid .biv B)
    rw [Real.cos_zero, zero_sub, abs_neg, abs_of_nonneg hE0] at this
    exact this.trans hE
  have hm : ∀ n : ℝ, |n| ≤ 1 → |0 - Real.sin (euclid .biv B) * n| ≤ 2 ^ (-537 : ℤ) := by
    intro n h1
    rw [zero_sub, abs_neg, abs_mul]
    exact ((mul_le_of_le_one_right (abs_nonneg _) h1).trans hs).trans hE
  rw [exp_comps, hval, comps_spin]
  have v1 : (((1 : F64).value : ℚ) : ℝ) = 1 := by rw [F64.hasVal_one.2, Rat.cast_one]
  have v0 : (((0 : F64).value : ℚ) : ℝ) = 0 := by rw [F64.hasVal_zero'.2, Rat.cast_zero]
  simp only [comps, List.forall₂_cons, List.forall₂_nil_left_iff, and_true, List.mem_cons,
    List.not_mem_nil, or_false, forall_eq_or_imp, forall_eq, realTy, mapTy, List.map_cons,
    List.map_nil, Real.exp_zero, one_mul, v0, v1] at hn ⊢
  exact ⟨hcos, hm _ hn.1, hm _ hn.2.1, hm _ hn.2.2⟩

/-- **C46.**  A component of `2^512` or more is lost: the magnitude overflows, and with the C
library's `sin(inf) = cos(inf) = NaN` every component of `exp(B)` is NaN although every component of
`B` is valid and the exponential is a spinor of length one. -/
theorem C46_fails_overflow [LibM F64] (hs : LibM.sin (.inf false : F64) = .nan)
    (hcs : LibM.cos (.inf false : F64) = .nan) (B : BiVector F64)
    (hf : ∀ c ∈ comps .biv B, c.Finite) (h : ∃ c ∈ comps .biv B, (2 : ℚ) ^ 512 ≤ |c.value|)
    (hv : isValidDub B.theData.d0 = true) :
    comps .spin (expBiv B) = [.nan, .nan, .nan, .nan] := by
  obtain ⟨h1, h2⟩ := C34_fails_overflow .biv B hf h
  have hd : isValid (directionTy .biv B) = true := by
    change isValidDub (directionTy .biv B).theData.d0 = true
    obtain ⟨g1, g2⟩ := h2 (directionTy .biv B).theData.d0 (by simp [comps])
    refine valid_of_tiny g1 ?_
    rw [g2, abs_zero]; exact (F64.two_zpow_pos _).le
  have hval : expBiv B = ⟨⟨⟨.nan⟩⟩, (.nan : F64) * directionTy .biv B⟩ := by
    unfold expBiv
    rw [if_pos (show isValid B = true from hv), pair_biv]
    simp only [h1]
    rw [if_pos hd, hs, hcs]
  rw [hval]
  have hnan : ∀ x : F64, .nan * x = (.nan : F64) := fun x => by rw [F64.mul_def]; rfl
  simp only [comps, engabra, hnan]

/-- **C46.**  A subnormal first component makes the whole result NaN, whatever the other components
are; the same value in another component does not. -/
theorem C46_fails_subnormal [LibM F64] (B : BiVector F64) (hf : B.theData.d0.Finite)
    (h0 : B.theData.d0.value ≠ 0) (h1 : |B.theData.d0.value| < 2 ^ (-1022 : ℤ)) :
    comps .spin (expBiv B) = [.nan, .nan, .nan, .nan] := by
  have : isValidDub B.theData.d0 = false := invalid_of_subnormal ⟨hf, rfl⟩ h0 h1
  unfold expBiv
  rw [if_neg (show ¬ isValid B = true from fun h => by
    change isValidDub B.theData.d0 = true at h
    rw [this] at h; cases h)]
  rfl

/-! ## The hypotheses are met -/

/-- A correctly rounded library (sine, cosine, exponential, logarithm; the functions that play no
part here are given NaN). -/
@[instance_reducible] noncomputable def refLibM : LibM F64 where
  sin
    | .nan | .inf _ => .nan
    | x => F64.roundTo (Real.sin x.value)
  cos
    | .nan | .inf _ => .nan
    | x => F64.roundTo (Real.cos x.value)
  exp x := F64.roundTo (Real.exp x.value)
  log x := F64.roundTo (Real.log x.value)
  atan2 _ _ := .nan
  csqrt _ := (.nan, .nan)
  cabs _ := .nan
  cmul _ _ := (.nan, .nan)
  cdiv _ _ := (.nan, .nan)

theorem round_real {c : ℝ} (h : |c| ≤ 1) :
    (F64.roundTo c).Finite ∧ |((F64.roundTo c).value : ℝ) - c| ≤ 2 ^ (-53 : ℤ) := by
  have h1 := F64.roundTo_value (x := c) (F64.safe_lt_real (small_le_pow (by linarith)))
  refine ⟨h1.1, ?_⟩
  rw [h1.2]
  refine (F64.rnVal_err_rel (K := ℝ) c).trans
    (max_le ?_ (zpow_le_zpow_right₀ (by norm_num) (by norm_num)))
  have := mul_le_mul_of_nonneg_left h (F64.two_zpow_pos (K := ℝ) (-53)).le
  rwa [mul_one] at this

theorem refLibM_ok : @LibmOk refLibM (2 ^ (-53 : ℤ)) ∧ @LibmExpOk refLibM (2 ^ (-53 : ℤ)) ∧
    refLibM.sin (.inf false) = .nan ∧ refLibM.cos (.inf false) = .nan := by
  refine ⟨fun x hx => ?_, fun x hx h1 h2 => ?_, rfl, rfl⟩
  · have e1 : refLibM.sin x = F64.roundTo (Real.sin x.value) := by cases x <;> first | rfl | exact absurd hx id
    have e2 : refLibM.cos x = F64.roundTo (Real.cos x.value) := by cases x <;> first | rfl | exact absurd hx id
    rw [e1, e2]
    exact ⟨round_real (Real.abs_sin_le_one _), round_real (Real.abs_cos_le_one _)⟩
  · have e1 : refLibM.exp x = F64.roundTo (Real.exp x.value) := rfl
    rw [e1]
    have hp := Real.exp_pos (x.value : ℝ)
    generalize Real.exp (x.value : ℝ) = X at *
    have h3 := F64.roundTo_value (x := X) (F64.safe_lt_real (by
      rw [abs_of_pos hp]
      refine h2.trans ?_
      rw [← zpow_natCast]; exact zpow_le_zpow_right₀ one_le_two (by norm_num)))
    refine ⟨h3.1, ?_⟩
    rw [h3.2]
    have := F64.rn_rel (x := X) (by
      rw [abs_of_pos hp]
      exact (zpow_le_zpow_right₀ one_le_two (by norm_num)).trans h1)
    rwa [abs_of_pos hp] at this

/-- The bivector `e23 + e31 + e12`. -/
theorem ones_central : Central .biv (⟨⟨1, 1, 1⟩⟩ : BiVector F64) ∧
    (2 : ℚ) ^ (-400 : ℤ) ≤ |(1 : F64).value| := by
  have e : |(1 : F64).value| = 1 := by rw [F64.hasVal_one.2, abs_one]
  have a : (1 : ℚ) ≤ 2 ^ (500 : ℤ) := one_le_zpow₀ one_le_two (by norm_num)
  have b : ∀ n : ℕ, (2 : ℚ) ^ (-n : ℤ) ≤ 1 := fun n =>
    zpow_le_one_of_nonpos₀ one_le_two (by omega)
  refine ⟨⟨?_, 1, by simp [comps], by rw [e]; exact b 500⟩, by rw [e]; exact b 400⟩
  intro c hc
  have : c = 1 := by simpa [comps] using hc
  subst this
  exact ⟨F64.hasVal_one.1, by rw [e]; exact a⟩

/-- Accuracy and length of `exp(e23 + e31 + e12)` with a correctly rounded library. -/
example : letI := refLibM
    (∃ Y : Spinor ℝ, IsExp (toMV (realTy .biv ⟨⟨(1 : F64), (1 : F64), (1 : F64)⟩⟩ : BiVector ℝ)) (toMV Y) ∧
      List.Forall₂ (fun c y => c.Finite ∧ |(c.value : ℝ) - y| ≤ 2 ^ (-48 : ℤ))
        (comps .spin (expBiv (⟨⟨1, 1, 1⟩⟩ : BiVector F64))) (comps .spin Y)) ∧
    |√(((comps .spin (expBiv (⟨⟨1, 1, 1⟩⟩ : BiVector F64))).map fun c => (c.value : ℝ) ^ 2).sum) - 1|
      ≤ 2 ^ (-48 : ℤ) := by
  let _ := refLibM
  have hε : (2 : ℝ) ^ (-53 : ℤ) ≤ 1 / 100 := by norm_num
  constructor
  · obtain ⟨Y, h1, h2⟩ := C46_exp (2 ^ (-53 : ℤ)) (by positivity) hε refLibM_ok.1 _
      ones_central.1 (Or.inr ones_central.2)
    refine ⟨Y, h1, h2.imp fun c y h => ⟨h.1, h.2.trans ?_⟩⟩
    have hE := euclid_biv_le (B := (⟨⟨1, 1, 1⟩⟩ : BiVector F64)) zero_le_one (fun c hc => by
      have : c = 1 := by simpa [comps] using hc
      rw [this, F64.hasVal_one.2, Rat.cast_one, abs_one])
    generalize euclid .biv (⟨⟨1, 1, 1⟩⟩ : BiVector F64) = E at *
    norm_num
    linarith
  · refine (C46_unit (2 ^ (-53 : ℤ)) (by positivity) hε refLibM_ok.1 _
      ones_central.1 (Or.inr ones_central.2)).2.trans ?_
    norm_num

/-- A million turns by `exp(e23 + e31 + e12)`. -/
example : letI := refLibM
    |len (exactObj ⟨.vec, (List.replicate 1000000 (⟨⟨1, 1, 1⟩⟩ : BiVector F64)).foldl
      (fun v B => rotate (expBiv B) v) (e1 : Vector F64)⟩) - 1| ≤ 2 ^ (-25 : ℤ) := by
  let _ := refLibM
  have hε : (2 : ℝ) ^ (-53 : ℤ) ≤ 1 / 100 := by norm_num
  have hl : (2 : ℝ) ^ (-900 : ℤ) ≤ 1 := zpow_le_one_of_nonpos₀ one_le_two (by norm_num)
  have h := (C46_turns (2 ^ (-53 : ℤ)) (by positivity) hε refLibM_ok.1
    (List.replicate 1000000 (⟨⟨1, 1, 1⟩⟩ : BiVector F64))
    (fun B hB => by rw [List.eq_of_mem_replicate hB]; exact ones_central.1)
    (fun B hB => by rw [List.eq_of_mem_replicate hB]; exact Or.inr ones_central.2)
    e1 len_unit_vec.1 (by rw [len_unit_vec.2]; exact hl)
    (by rw [len_unit_vec.2]; exact one_le_pow₀ one_le_two)
    (by rw [List.length_replicate]; norm_num)).2
  rw [len_unit_vec.2, List.length_replicate] at h
  refine h.trans ?_
  norm_num

/-- A tiny bivector, a huge one and one with a subnormal first component. -/
example : ∃ B C D : BiVector F64,
    ((∀ c ∈ comps .biv B, c.Finite ∧ |c.value| ≤ (2 : ℚ) ^ (-538 : ℤ)) ∧
      isValidDub B.theData.d0 = true ∧ B.theData.d0.value ≠ 0) ∧
    ((∀ c ∈ comps .biv C, c.Finite) ∧ (∃ c ∈ comps .biv C, (2 : ℚ) ^ 512 ≤ |c.value|) ∧
      isValidDub C.theData.d0 = true) ∧
    (D.theData.d0.Finite ∧ D.theData.d0.value ≠ 0 ∧ |D.theData.d0.value| < 2 ^ (-1022 : ℤ)) := by
  have ha := F64.pow2_val (e := -600) (by norm_num) (by norm_num)
  have hb := F64.pow2_val (e := 512) (by norm_num) (by norm_num)
  have hc := F64.pow2_val (e := -1030) (by norm_num) (by norm_num)
  have va := F64.pow2_valid (e := -600) (by norm_num) (by norm_num)
  have vb := F64.pow2_valid (e := 512) (by norm_num) (by norm_num)
  have hb' : |(F64.pow2 512).value| = 2 ^ (512 : ℤ) := by
    rw [hb.2]; exact abs_of_pos (F64.two_zpow_pos _)
  generalize F64.pow2 512 = b at *
  have pa : (0 : ℚ) < 2 ^ (-600 : ℤ) := F64.two_zpow_pos _
  have pc : (0 : ℚ) < 2 ^ (-1030 : ℤ) := F64.two_zpow_pos _
  refine ⟨⟨⟨F64.pow2 (-600), F64.pow2 (-600), F64.pow2 (-600)⟩⟩, ⟨⟨b, 0, 0⟩⟩,
    ⟨⟨F64.pow2 (-1030), 0, 0⟩⟩, ⟨?_, va, ?_⟩, ⟨?_, ⟨b, by simp [comps], ?_⟩, vb⟩, hc.1, ?_, ?_⟩
  · intro c hcc
    have : c = F64.pow2 (-600) := by simpa [comps] using hcc
    subst this
    refine ⟨ha.1, ?_⟩
    rw [ha.2, abs_of_pos pa]
    exact zpow_le_zpow_right₀ one_le_two (by norm_num)
  · rw [ha.2]; exact pa.ne'
  · intro c hcc
    simp only [comps, List.mem_cons, List.not_mem_nil, or_false] at hcc
    rcases hcc with rfl | rfl | rfl
    exacts [hb.1, F64.hasVal_zero'.1, F64.hasVal_zero'.1]
  · exact (zpow_natCast (2 : ℚ) 512).symm.le.trans hb'.symm.le
  · change (F64.pow2 (-1030)).value ≠ 0
    rw [hc.2]; exact pc.ne'
  · change |(F64.pow2 (-1030)).value| < _
    rw [hc.2, abs_of_pos pc]
    exact zpow_lt_zpow_right₀ one_lt_two (by norm_num)

end Engabra
