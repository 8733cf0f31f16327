import Verif.Lemmas.LogF64
import Verif.Props.C10_C12_NullValid
import Mathlib.Analysis.Complex.ExponentialBounds

/-! # C51: logarithms and square roots of spinors in binary64

`logG2` and `sqrtG2` with IEEE arithmetic and a mathematical library of stated accuracy: how far
the logarithm is from the principal logarithm, how far `exp(logG2(S))` is from `S` and how far
`sqrtG2(S)` is from the principal square root of `S`. -/

namespace Engabra

open F64 (Finite HasVal)
open Spec

/-- Specification: the principal logarithm of a spinor which is not a scalar: its exponential
series sums to `S`, and its angle is strictly between zero and half a turn. -/
def IsLog (S L : Spinor ℝ) : Prop :=
  IsExp (toMV L) (toMV S) ∧ 0 < length .biv L.theBiv ∧ length .biv L.theBiv < Real.pi

/-- Away from the real axis: the cosine is at least `2^-49` short of one. -/
def OffAxis (S : Spinor F64) : Prop :=
  |(S.theSca.theData.d0.value : ℝ)| ≤ (1 - 2 ^ (-49 : ℤ)) * euclid .spin S

theorem offAxis_V {S : Spinor F64} (hE : 0 < euclid .spin S) (hc : OffAxis S) :
    (2 : ℝ) ^ (-25 : ℤ) ≤ euclid .biv S.theBiv / euclid .spin S ∧
    |(S.theSca.theData.d0.value : ℝ) / euclid .spin S| ≤ 1 - 2 ^ (-49 : ℤ) := by
  have hW : |(S.theSca.theData.d0.value : ℝ) / euclid .spin S| ≤ 1 - 2 ^ (-49 : ℤ) := by
    rw [abs_div, abs_of_pos hE, div_le_iff₀ hE]; exact hc
  refine ⟨?_, hW⟩
  have h1 := circle S hE
  have h2 : 0 ≤ euclid .biv S.theBiv / euclid .spin S := div_nonneg (Real.sqrt_nonneg _) hE.le
  have h3 := pow_le_pow_left₀ (abs_nonneg _) hW 2
  rw [sq_abs] at h3
  refine (abs_le_of_sq_le_sq' ?_ h2).2
  have : ((2 : ℝ) ^ (-25 : ℤ)) ^ 2 + (1 - 2 ^ (-49 : ℤ)) ^ 2 ≤ 1 := by norm_num
  linarith

/-- Off the axis `logG2` takes the general branch. -/
theorem logG2_off [LibM F64] (S : Spinor F64) (D : BiVector F64) (h : Central .spin S)
    (hv : isValid S = true) (hm : (2 : ℝ) ^ (-51 : ℤ) ≤ euclid .spin S) (hc : OffAxis S) :
    logG2 S D = ⟨⟨⟨LibM.log (magnitudeTy .spin S)⟩⟩,
        LibM.atan2 (magnitudeTy .biv (directionTy .spin S).theBiv)
            (directionTy .spin S).theSca.theData.d0
          * directionTy .biv (directionTy .spin S).theBiv⟩ := by
  have hE : 0 < euclid .spin S := lt_of_lt_of_le (F64.two_zpow_pos _) hm
  obtain ⟨hV, hW⟩ := offAxis_V hE hc
  obtain ⟨-, hC, -⟩ := log_parts S h
    ((zpow_le_zpow_right₀ (by norm_num) (by norm_num)).trans hV)
  rw [logG2_eval S D h hv hm]
  have hη3 : (2 : ℝ) ^ (-1075 : ℤ) ≤ 1 / 1000 * uR := tiny_le_uR
  have hu : uR = 1 / 9007199254740992 := by unfold uR; norm_num
  have hCb : |((directionTy .spin S).theSca.theData.d0.value : ℝ)| ≤ ((1 - 2 ^ (-52 : ℤ) : ℚ) : ℝ) := by
    have e : ((1 - 2 ^ (-52 : ℤ) : ℚ) : ℝ) = 1 - 2 ^ (-52 : ℤ) := by push_cast; rfl
    rw [e]
    have h1 := abs_sub_abs_le_abs_sub ((directionTy .spin S).theSca.theData.d0.value : ℝ)
      (S.theSca.theData.d0.value / euclid .spin S)
    rw [hu] at hC hη3
    have e49 : (2 : ℝ) ^ (-49 : ℤ) = 1 / 562949953421312 := by norm_num
    have e52 : (2 : ℝ) ^ (-52 : ℤ) = 1 / 4503599627370496 := by norm_num
    rw [e49] at hW
    rw [e52]
    generalize (2 : ℝ) ^ (-1075 : ℤ) = x at *
    linarith
  rw [← Rat.cast_abs] at hCb
  have hCq := abs_le.1 (Rat.cast_le.1 hCb)
  rw [if_neg (not_lt.2 hCq.2), if_neg (not_lt.2 hCq.1)]

/-- The exact principal logarithm. -/
noncomputable def logR (S : Spinor F64) : Spinor ℝ :=
  ⟨⟨⟨Real.log (euclid .spin S)⟩⟩, (angleF S / euclid .biv S.theBiv : ℝ) * realTy .biv S.theBiv⟩

theorem logR_spec (S : Spinor F64) (hm : (2 : ℝ) ^ (-51 : ℤ) ≤ euclid .spin S) (hc : OffAxis S) :
    expR (logR S).theSca.theData.d0 (logR S).theBiv = realTy .spin S ∧
    length .biv (logR S).theBiv = angleF S ∧ (2 : ℝ) ^ (-26 : ℤ) ≤ angleF S ∧ angleF S < Real.pi := by
  have h1 : eps < length .spin (realTy .spin S : Spinor ℝ) := by
    rw [length_realTy]
    refine lt_of_lt_of_le ?_ hm
    unfold eps; norm_num
  have h2 : |(realTy .spin S : Spinor ℝ).theSca.theData.d0| ≤ (1 - eps) * length .spin (realTy .spin S : Spinor ℝ) := by
    rw [length_realTy]
    refine hc.trans (mul_le_mul_of_nonneg_right ?_ (Real.sqrt_nonneg _))
    unfold eps; norm_num
  have h3 := expR_log _ h1 h2
  obtain ⟨h4, h5⟩ := angle_bounds _ h1 h2
  have h6 := biv_pos _ h1 h2
  rw [← angleF_eq] at h3 h4 h5
  have e : (realTy .spin S : Spinor ℝ).theBiv = realTy .biv S.theBiv := rfl
  rw [e, length_realTy] at h3 h6
  rw [length_realTy] at h3
  have h7 : (2 : ℝ) ^ (-26 : ℤ) ≤ angleF S := by
    rw [zpow_neg]
    convert h4 using 1
    norm_num
  have h8 : 0 < angleF S := lt_of_lt_of_le (F64.two_zpow_pos _) h7
  refine ⟨h3, ?_, h7, h5⟩
  change length .biv ((angleF S / euclid .biv S.theBiv : ℝ) * realTy .biv S.theBiv) = _
  rw [length_smul_biv, length_realTy, abs_of_pos (div_pos h8 h6), div_mul_cancel₀ _ h6.ne']

/-- Computed against exact logarithm, whenever the general branch is taken. -/
theorem logG2_est_gen [LibM F64] {ε : ℝ} (hε0 : 0 ≤ ε) (hε : ε ≤ 1 / 100) (hlib : LibmLogOk ε)
    (S : Spinor F64) (D : BiVector F64) (h : Central .spin S)
    (hV : (2 : ℝ) ^ (-400 : ℤ) ≤ euclid .biv S.theBiv / euclid .spin S)
    (hbr : logG2 S D = ⟨⟨⟨LibM.log (magnitudeTy .spin S)⟩⟩,
        LibM.atan2 (magnitudeTy .biv (directionTy .spin S).theBiv)
            (directionTy .spin S).theSca.theData.d0
          * directionTy .biv (directionTy .spin S).theBiv⟩) :
    (logG2 S D).theSca.theData.d0.Finite ∧
    |((logG2 S D).theSca.theData.d0.value : ℝ) - (logR S).theSca.theData.d0|
      ≤ ε * |(logR S).theSca.theData.d0| + 6 * uR ∧
    List.Forall₂ (fun g y => (g.Finite ∧ |(g.value : ℝ) - y| ≤ (11 / 10 * ε + 64 * uR) * |y| + 2 ^ (-669 : ℤ)) ∧
        (y = 0 → g.value = 0))
      (comps .biv (logG2 S D).theBiv) (comps .biv (logR S).theBiv) := by
  obtain ⟨hl, -, -⟩ := central_real h
  have hE : 0 < euclid .spin S := lt_of_lt_of_le (F64.two_zpow_pos _) hl
  obtain ⟨s1, s2⟩ := log_sca hε0 hε hlib S h
  obtain ⟨a1, -, hb⟩ := log_biv hε0 hε hlib S h hV
  rw [hbr]
  refine ⟨s1, s2, ?_⟩
  have a0 : 0 < angleF S := lt_of_lt_of_le (F64.two_zpow_pos _) a1
  have hb0 : 0 < euclid .biv S.theBiv := by
    have := mul_pos (lt_of_lt_of_le (F64.two_zpow_pos _) hV) hE
    rwa [div_mul_cancel₀ _ hE.ne'] at this
  have e : comps .biv (logR S).theBiv = (comps .biv S.theBiv).map fun c =>
      angleF S * (c.value / euclid .biv S.theBiv) := by
    unfold logR
    simp only [comps, realTy, mapTy, engabra, List.map_cons, List.map_nil]
    congr 1
    · ring
    · congr 1
      · ring
      · congr 1; ring
  rw [e, List.forall₂_map_right_iff]
  refine hb.imp fun g c hgc => ⟨hgc.1, fun h0 => hgc.2 ?_⟩
  have : (c.value : ℝ) = 0 := by
    rcases mul_eq_zero.1 h0 with h1 | h1
    · exact absurd h1 a0.ne'
    · rcases div_eq_zero_iff.1 h1 with h2 | h2
      · exact h2
      · exact absurd h2 hb0.ne'
  exact_mod_cast this

/-- Computed against exact logarithm. -/
theorem logG2_est [LibM F64] {ε : ℝ} (hε0 : 0 ≤ ε) (hε : ε ≤ 1 / 100) (hlib : LibmLogOk ε)
    (S : Spinor F64) (D : BiVector F64) (h : Central .spin S) (hv : isValid S = true)
    (hm : (2 : ℝ) ^ (-51 : ℤ) ≤ euclid .spin S) (hc : OffAxis S) :
    (logG2 S D).theSca.theData.d0.Finite ∧
    |((logG2 S D).theSca.theData.d0.value : ℝ) - (logR S).theSca.theData.d0|
      ≤ ε * |(logR S).theSca.theData.d0| + 6 * uR ∧
    List.Forall₂ (fun g y => (g.Finite ∧ |(g.value : ℝ) - y| ≤ (11 / 10 * ε + 64 * uR) * |y| + 2 ^ (-669 : ℤ)) ∧
        (y = 0 → g.value = 0))
      (comps .biv (logG2 S D).theBiv) (comps .biv (logR S).theBiv) := by
  have hE : 0 < euclid .spin S := lt_of_lt_of_le (F64.two_zpow_pos _) hm
  obtain ⟨hV, -⟩ := offAxis_V hE hc
  have hV' := (zpow_le_zpow_right₀ (by norm_num) (by norm_num) : (2 : ℝ) ^ (-400 : ℤ) ≤ _).trans hV
  exact logG2_est_gen hε0 hε hlib S D h hV' (logG2_off S D h hv hm hc)

/-! ## The logarithm -/

/-- **C51.** `logG2(S)` against the principal logarithm, for every valid spinor in the central range
with magnitude at least `2^-51` and off the real axis, with a library whose `log` and `atan2` have
relative error at most `ε`: the components are finite, the scalar part is within `ε |log|S|| + 6u`
and each bivector component within a relative error `1.1 ε + 64 u` (`u = 2^-53`), whatever the
second argument. -/
theorem C51_log [LibM F64] (ε : ℝ) (hε0 : 0 ≤ ε) (hε : ε ≤ 1 / 100) (hlib : LibmLogOk ε)
    (S : Spinor F64) (D : BiVector F64) (h : Central .spin S) (hv : isValid S = true)
    (hm : (2 : ℝ) ^ (-51 : ℤ) ≤ euclid .spin S) (hc : OffAxis S) :
    ∃ L : Spinor ℝ, IsLog (realTy .spin S) L ∧
      ((logG2 S D).theSca.theData.d0.Finite ∧
        |((logG2 S D).theSca.theData.d0.value : ℝ) - L.theSca.theData.d0|
          ≤ ε * |L.theSca.theData.d0| + 6 * 2 ^ (-53 : ℤ)) ∧
      List.Forall₂ (fun g y => g.Finite ∧
          |(g.value : ℝ) - y| ≤ (11 / 10 * ε + 64 * 2 ^ (-53 : ℤ)) * |y| + 2 ^ (-669 : ℤ))
        (comps .biv (logG2 S D).theBiv) (comps .biv L.theBiv) := by
  obtain ⟨h1, h2, h3, h4⟩ := logR_spec S hm hc
  obtain ⟨e1, e2, e3⟩ := logG2_est hε0 hε hlib S D h hv hm hc
  refine ⟨logR S, ⟨?_, ?_, ?_⟩, ⟨e1, e2⟩, e3.imp fun g y hgy => hgy.1⟩
  · have := isExp_expR (logR S).theSca.theData.d0 (logR S).theBiv
    rw [h1] at this
    exact this
  · rw [h2]; exact lt_of_lt_of_le (F64.two_zpow_pos _) h3
  · rw [h2]; exact h4

theorem length_expR (s : ℝ) (B : BiVector ℝ) : length .spin (expR s B) = Real.exp s := by
  rw [length_eq]
  have : magSqTy .spin (expR s B) = Real.exp s ^ 2 := magSq_expR s B
  rw [this, Real.sqrt_sq (Real.exp_pos s).le]

/-- **C51.** The principal logarithm is unique, so that "the" logarithm above is well defined. -/
theorem C51_log_unique (S L L' : Spinor ℝ) (h : IsLog S L) (h' : IsLog S L') : L = L' := by
  have key : ∀ {L : Spinor ℝ}, IsLog S L → S = expR L.theSca.theData.d0 L.theBiv := by
    rintro ⟨⟨⟨s⟩⟩, B⟩ hL
    have := isExp_unique hL.1 (isExp_expR s B)
    obtain ⟨⟨⟨a⟩⟩, ⟨⟨b0, b1, b2⟩⟩⟩ := S
    simp only [toMV, engabra, MultiVector.mk.injEq] at this
    ext <;> simp_all [expR, engabra]
  obtain ⟨⟨⟨s⟩⟩, B⟩ := L
  obtain ⟨⟨⟨s'⟩⟩, B'⟩ := L'
  have e := key h
  have e' := key h'
  obtain ⟨-, hp, hpi⟩ := h
  obtain ⟨-, hp', hpi'⟩ := h'
  simp only at e e' hp hpi hp' hpi'
  have e2 : expR s B = expR s' B' := e.symm.trans e'
  have hs : s = s' := by
    have := congrArg (length .spin) e2
    rw [length_expR, length_expR] at this
    exact Real.exp_injective this
  subst hs
  have hcos : Real.cos (length .biv B) = Real.cos (length .biv B') := by
    have := congrArg (fun x : Spinor ℝ => x.theSca.theData.d0) e2
    exact mul_left_cancel₀ (Real.exp_pos s).ne' this
  have hl : length .biv B = length .biv B' :=
    Real.injOn_cos ⟨hp.le, hpi.le⟩ ⟨hp'.le, hpi'.le⟩ hcos
  have hB := congrArg (fun x : Spinor ℝ => x.theBiv) e2
  simp only [expR, ← hl] at hB
  have hk : Real.exp s * (Real.sin (length .biv B) / length .biv B) ≠ 0 :=
    mul_ne_zero (Real.exp_pos s).ne' (div_ne_zero (Real.sin_pos_of_pos_of_lt_pi hp hpi).ne' hp.ne')
  generalize Real.exp s * (Real.sin (length .biv B) / length .biv B) = k at *
  have b0 := congrArg (fun x : BiVector ℝ => x.theData.d0) hB
  have b1 := congrArg (fun x : BiVector ℝ => x.theData.d1) hB
  have b2 := congrArg (fun x : BiVector ℝ => x.theData.d2) hB
  simp only [engabra] at b0 b1 b2
  have : B = B' := by
    ext
    · exact mul_left_cancel₀ hk b0
    · exact mul_left_cancel₀ hk b1
    · exact mul_left_cancel₀ hk b2
  rw [this]

/-! ## Exponentials of computed logarithms -/

/-- `exp(Spinor)` against the exact exponential. -/
theorem expSpin_exact [LibM F64] {ε : ℝ} (hε0 : 0 ≤ ε) (hε : ε ≤ 1 / 100) (hlib : LibmOk ε)
    (hexp : LibmExpOk ε) (S : Spinor F64) (hs : S.theSca.theData.d0.Finite)
    (hs1 : (2 : ℝ) ^ (-1000 : ℤ) ≤ Real.exp S.theSca.theData.d0.value)
    (hs2 : Real.exp S.theSca.theData.d0.value ≤ 2 ^ (1000 : ℤ)) (h : Central .biv S.theBiv)
    (hc : S.theBiv.theData.d0.value = 0 ∨ (2 : ℚ) ^ (-400 : ℤ) ≤ |S.theBiv.theData.d0.value|) :
    List.Forall₂ (fun c y => c.Finite ∧ |(c.value : ℝ) - y|
          ≤ Real.exp S.theSca.theData.d0.value
              * (22 / 10 * ε + (12 + 6 * euclid .biv S.theBiv) * uR) + 2 ^ (-1075 : ℤ))
        (comps .spin (expSpin S))
        (comps .spin (expR S.theSca.theData.d0.value (realTy .biv S.theBiv))) := by
  obtain ⟨⟨⟨s⟩⟩, B⟩ := S
  simp only at *
  obtain ⟨e1, e2⟩ := hexp s hs hs1 hs2
  rw [exp_comps, show comps .spin (expSpin (⟨⟨⟨s⟩⟩, B⟩ : Spinor F64))
    = (comps .spin (expBiv B)).map (LibM.exp s * ·) from rfl, List.forall₂_map_left_iff,
    List.forall₂_map_right_iff]
  refine (expBiv_exact hε0 hε hlib B h hc).imp fun c y hcy => ?_
  obtain ⟨g1, g2⟩ := smul_comp hε0 hε e1 hcy.1 (Real.exp_pos _) hs2 e2 hcy.2.1 hcy.2.2
  refine ⟨g1, g2.trans (le_of_eq ?_)⟩
  ring

/-- One component of a perturbed exponential. -/
theorem exp_pert {l l' d : ℝ} (h : |l' - l| ≤ d) (hd : d ≤ 1 / 100) {y y' δ : ℝ} (hy' : |y'| ≤ 1)
    (hy : |y' - y| ≤ δ) :
    |Real.exp l' * y' - Real.exp l * y| ≤ Real.exp l * (101 / 100 * d + δ) ∧
    Real.exp l' ≤ 102 / 100 * Real.exp l := by
  have hd0 : 0 ≤ d := (abs_nonneg _).trans h
  have h1 : |Real.exp (l' - l) - 1| ≤ 101 / 100 * d := by
    have a := Real.abs_exp_sub_one_sub_id_le (x := l' - l) (by linarith)
    have b := abs_sub_le (Real.exp (l' - l) - 1) (l' - l) 0
    rw [sub_zero, sub_zero] at b
    have c : (l' - l) ^ 2 ≤ 1 / 100 * d := by
      rw [← sq_abs, pow_two]
      exact mul_le_mul (h.trans hd) h (abs_nonneg _) (by norm_num)
    linarith
  have e : Real.exp l' = Real.exp l * Real.exp (l' - l) := by rw [← Real.exp_add]; congr 1; ring
  have hX := Real.exp_pos l
  rw [e]
  generalize Real.exp l = X at *
  generalize Real.exp (l' - l) = q at *
  constructor
  · rw [show X * q * y' - X * y = X * ((q - 1) * y' + (y' - y)) by ring, abs_mul, abs_of_pos hX]
    refine mul_le_mul_of_nonneg_left ((abs_add_le _ _).trans ?_) hX.le
    rw [abs_mul]
    have := mul_le_mul h1 hy' (abs_nonneg _) (by linarith)
    linarith
  · have := (abs_le.1 h1).2
    rw [mul_comm X]
    exact mul_le_mul_of_nonneg_right (by linarith) hX.le

/-- Weakening of the absolute part of an error bound. -/
theorem weak669 {x c : ℝ} (h : x ≤ c + 2 ^ (-669 : ℤ)) : x ≤ c + 2 ^ (-660 : ℤ) := by
  have : (2 : ℝ) ^ (-669 : ℤ) ≤ 2 ^ (-660 : ℤ) := zpow_le_zpow_right₀ (by norm_num) (by norm_num)
  generalize (2 : ℝ) ^ (-669 : ℤ) = a at *
  generalize (2 : ℝ) ^ (-660 : ℤ) = b at *
  linarith

/-- The exponential of a perturbed logarithm, in the reals. `c` is a relative error of the
bivector components, `d` an absolute error of the scalar. -/
theorem expR_pert {l l' d c : ℝ} {B B' : BiVector ℝ} (h : |l' - l| ≤ d) (hd : d ≤ 1 / 100)
    (hc0 : 0 ≤ c) (hc : c ≤ 1 / 1000) (hθ : (2 : ℝ) ^ (-40 : ℤ) ≤ length .biv B)
    (hπ : length .biv B ≤ 315 / 100)
    (hB : List.Forall₂ (fun x y => |x - y| ≤ c * |y| + 2 ^ (-660 : ℤ)) (comps .biv B') (comps .biv B)) :
    List.Forall₂ (fun x y => |x - y| ≤ Real.exp l * (101 / 100 * d + 53 / 10 * c + 2 ^ (-600 : ℤ)))
      (comps .spin (expR l' B')) (comps .spin (expR l B)) ∧
    Real.exp l' ≤ 102 / 100 * Real.exp l ∧
    |length .biv B' - length .biv B| ≤ c * length .biv B + 2 ^ (-659 : ℤ) := by
  obtain ⟨⟨x0, x1, x2⟩⟩ := B'
  obtain ⟨⟨y0, y1, y2⟩⟩ := B
  have lx : length .biv (⟨⟨x0, x1, x2⟩⟩ : BiVector ℝ) = √(x0 ^ 2 + x1 ^ 2 + x2 ^ 2) := by
    unfold length; congr 1
    simp only [comps, List.map_cons, List.map_nil, List.sum_cons, List.sum_nil]; ring
  have ly : length .biv (⟨⟨y0, y1, y2⟩⟩ : BiVector ℝ) = √(y0 ^ 2 + y1 ^ 2 + y2 ^ 2) := by
    unfold length; congr 1
    simp only [comps, List.map_cons, List.map_nil, List.sum_cons, List.sum_nil]; ring
  simp only [comps, List.forall₂_cons, List.forall₂_nil_left_iff, and_true] at hB
  obtain ⟨h0, h1, h2⟩ := hB
  have hη0 : (0 : ℝ) ≤ 2 ^ (-660 : ℤ) := (F64.two_zpow_pos _).le
  have hn := norm3_est hc0 hη0 h0 h1 h2
  rw [← lx, ← ly] at hn
  have a0 : y0 ^ 2 ≤ y0 ^ 2 + y1 ^ 2 + y2 ^ 2 := by linarith only [sq_nonneg y1, sq_nonneg y2]
  have a1 : y1 ^ 2 ≤ y0 ^ 2 + y1 ^ 2 + y2 ^ 2 := by linarith only [sq_nonneg y0, sq_nonneg y2]
  have a2 : y2 ^ 2 ≤ y0 ^ 2 + y1 ^ 2 + y2 ^ 2 := by linarith only [sq_nonneg y0, sq_nonneg y1]
  have m0 : x0 ^ 2 ≤ x0 ^ 2 + x1 ^ 2 + x2 ^ 2 := by linarith only [sq_nonneg x1, sq_nonneg x2]
  have m1 : x1 ^ 2 ≤ x0 ^ 2 + x1 ^ 2 + x2 ^ 2 := by linarith only [sq_nonneg x0, sq_nonneg x2]
  have m2 : x2 ^ 2 ≤ x0 ^ 2 + x1 ^ 2 + x2 ^ 2 := by linarith only [sq_nonneg x0, sq_nonneg x1]
  have b0 := Real.abs_le_sqrt a0
  have b1 := Real.abs_le_sqrt a1
  have b2 := Real.abs_le_sqrt a2
  have c0 := Real.abs_le_sqrt m0
  have c1 := Real.abs_le_sqrt m1
  have c2 := Real.abs_le_sqrt m2
  rw [← ly] at b0 b1 b2
  rw [← lx] at c0 c1 c2
  have ex : comps .spin (expR l' (⟨⟨x0, x1, x2⟩⟩ : BiVector ℝ))
      = (Real.cos (length .biv (⟨⟨x0, x1, x2⟩⟩ : BiVector ℝ)) :: [x0, x1, x2].map fun b =>
          Real.sin (length .biv (⟨⟨x0, x1, x2⟩⟩ : BiVector ℝ))
            * (b / length .biv (⟨⟨x0, x1, x2⟩⟩ : BiVector ℝ))).map (Real.exp l' * ·) := by
    unfold expR
    simp only [comps, engabra, List.map_cons, List.map_nil, List.cons.injEq, and_true, true_and]
    refine ⟨?_, ?_, ?_⟩ <;> ring
  have ey : comps .spin (expR l (⟨⟨y0, y1, y2⟩⟩ : BiVector ℝ))
      = (Real.cos (length .biv (⟨⟨y0, y1, y2⟩⟩ : BiVector ℝ)) :: [y0, y1, y2].map fun b =>
          Real.sin (length .biv (⟨⟨y0, y1, y2⟩⟩ : BiVector ℝ))
            * (b / length .biv (⟨⟨y0, y1, y2⟩⟩ : BiVector ℝ))).map (Real.exp l * ·) := by
    unfold expR
    simp only [comps, engabra, List.map_cons, List.map_nil, List.cons.injEq, and_true, true_and]
    refine ⟨?_, ?_, ?_⟩ <;> ring
  rw [ex, ey]
  clear lx ly ex ey a0 a1 a2 m0 m1 m2
  generalize length .biv (⟨⟨x0, x1, x2⟩⟩ : BiVector ℝ) = m' at *
  generalize length .biv (⟨⟨y0, y1, y2⟩⟩ : BiVector ℝ) = m at *
  have hm0 : 0 < m := lt_of_lt_of_le (F64.two_zpow_pos _) hθ
  have e668 : (2 : ℝ) ^ (-659 : ℤ) = 2 * 2 ^ (-660 : ℤ) := by
    rw [show (-659 : ℤ) = 1 + -660 from by norm_num only, zpow_add₀ (by norm_num)]; norm_num
  have hη1 : (2 : ℝ) ^ (-660 : ℤ) ≤ 2 ^ (-620 : ℤ) * m := by
    rw [show (-660 : ℤ) = -620 + -40 from by norm_num only, zpow_add₀ (by norm_num)]
    exact mul_le_mul_of_nonneg_left hθ (F64.two_zpow_pos _).le
  have hκ : (2 : ℝ) ^ (-620 : ℤ) ≤ 1 / 1000 * 2 ^ (-600 : ℤ) := by
    rw [show (-620 : ℤ) = -20 + -600 from by norm_num only, zpow_add₀ (by norm_num)]
    exact mul_le_mul_of_nonneg_right (by norm_num) (F64.two_zpow_pos _).le
  have h600 : (2 : ℝ) ^ (-600 : ℤ) ≤ 1 / 1000 := by
    calc (2 : ℝ) ^ (-600 : ℤ) ≤ (2 : ℝ) ^ (-10 : ℤ) :=
          zpow_le_zpow_right₀ (by norm_num) (by norm_num)
      _ ≤ _ := by norm_num
  rw [← e668] at hn
  have h6000 := F64.two_zpow_pos (K := ℝ) (-600)
  have h6420 := F64.two_zpow_pos (K := ℝ) (-620)
  have hκm : (2 : ℝ) ^ (-620 : ℤ) * m ≤ (2 : ℝ) ^ (-620 : ℤ) * (315 / 100) :=
    mul_le_mul_of_nonneg_left hπ h6420.le
  have hηm : (2 : ℝ) ^ (-660 : ℤ) ≤ m / 1000 := by
    have : (2 : ℝ) ^ (-620 : ℤ) * m ≤ 1 / 1000 * m :=
      mul_le_mul_of_nonneg_right (by linarith) hm0.le
    linarith
  have hm'0 : 0 < m' := by
    have := (abs_le.1 hn).1
    have h5 : c * m ≤ 1 / 1000 * m := mul_le_mul_of_nonneg_right hc hm0.le
    linarith
  have hcm : c * m ≤ 315 / 100 * c := by
    have := mul_le_mul_of_nonneg_left hπ hc0
    linarith
  have comp : ∀ {x y : ℝ}, |x - y| ≤ c * |y| + 2 ^ (-660 : ℤ) → |y| ≤ m → |x| ≤ m' →
      |Real.sin m' * (x / m') - Real.sin m * (y / m)| ≤ 53 / 10 * c + 2 ^ (-600 : ℤ) ∧
      |Real.sin m' * (x / m')| ≤ 1 := by
    intro x y hxy hy hx
    have hnx : |x / m'| ≤ 1 := by rw [abs_div, abs_of_pos hm'0, div_le_one hm'0]; exact hx
    have hny : |y / m| ≤ 1 := by rw [abs_div, abs_of_pos hm0, div_le_one hm0]; exact hy
    have hu1 := unit_est hm0 hc0 hc hη0 hηm hxy (by rw [← e668]; exact hn)
    have hη5 : 11 / 10 * (2 : ℝ) ^ (-660 : ℤ) / m ≤ 11 / 10 * 2 ^ (-620 : ℤ) := by
      rw [div_le_iff₀ hm0]; linarith
    have hη6 := mul_le_mul hη5 (by linarith : 1 + 2 * |y / m| ≤ 3) (by positivity) (by positivity)
    have hc1 : 21 / 10 * c * |y / m| ≤ 21 / 10 * c := mul_le_of_le_one_right (by linarith) hny
    have hs := Real.abs_sin_sub_sin_le m' m
    have hs1 := Real.abs_sin_le_one m
    have hs2 := Real.abs_sin_le_one m'
    constructor
    · rw [show Real.sin m' * (x / m') - Real.sin m * (y / m)
        = (Real.sin m' - Real.sin m) * (x / m') + Real.sin m * (x / m' - y / m) by ring]
      refine (abs_add_le _ _).trans ?_
      rw [abs_mul, abs_mul]
      have k1 := mul_le_mul (hs.trans hn) hnx (abs_nonneg _) ((abs_nonneg _).trans hn)
      have k2 := mul_le_mul hs1 hu1 (abs_nonneg _) zero_le_one
      linarith
    · rw [abs_mul]
      have := mul_le_mul hs2 hnx (abs_nonneg _) zero_le_one
      linarith
  refine ⟨?_, (exp_pert h hd (y' := 0) (y := 0) (δ := 0) (by simp) (by simp)).2, hn⟩
  have wrap : ∀ {y' y : ℝ}, |y' - y| ≤ 53 / 10 * c + 2 ^ (-600 : ℤ) ∧ |y'| ≤ 1 →
      |Real.exp l' * y' - Real.exp l * y| ≤ Real.exp l * (101 / 100 * d + 53 / 10 * c + 2 ^ (-600 : ℤ)) := by
    intro y' y hy
    refine (exp_pert h hd hy.2 hy.1).1.trans (le_of_eq ?_)
    ring
  have hcosd : |Real.cos m' - Real.cos m| ≤ 53 / 10 * c + 2 ^ (-600 : ℤ) := by
    have := Real.abs_cos_sub_cos_le m' m
    linarith
  exact .cons (wrap ⟨hcosd, Real.abs_cos_le_one _⟩) (.cons (wrap (comp h0 b0 c0))
    (.cons (wrap (comp h1 b1 c1)) (.cons (wrap (comp h2 b2 c2)) .nil)))

/-- The computed exponential of a computed logarithm. -/
theorem exp_of_log [LibM F64] {ε d c : ℝ} (hε0 : 0 ≤ ε) (hε : ε ≤ 1 / 100) (hlib : LibmOk ε)
    (hexp : LibmExpOk ε) (L' : Spinor F64) (L : Spinor ℝ) (hf : L'.theSca.theData.d0.Finite)
    (hs : |(L'.theSca.theData.d0.value : ℝ) - L.theSca.theData.d0| ≤ d) (hd : d ≤ 1 / 100)
    (hc0 : 0 ≤ c) (hc : c ≤ 1 / 1000)
    (hB : List.Forall₂ (fun g y => (g.Finite ∧ |(g.value : ℝ) - y| ≤ c * |y| + 2 ^ (-660 : ℤ)) ∧
        (y = 0 → g.value = 0)) (comps .biv L'.theBiv) (comps .biv L.theBiv))
    (hθ : (2 : ℝ) ^ (-40 : ℤ) ≤ length .biv L.theBiv) (hπ : length .biv L.theBiv ≤ 315 / 100)
    (h0 : L.theBiv.theData.d0 = 0 ∨ (2 : ℝ) ^ (-398 : ℤ) ≤ |L.theBiv.theData.d0|)
    (h1 : (2 : ℝ) ^ (-900 : ℤ) ≤ Real.exp L.theSca.theData.d0)
    (h2 : Real.exp L.theSca.theData.d0 ≤ 2 ^ (900 : ℤ)) :
    List.Forall₂ (fun g y => g.Finite ∧
        |(g.value : ℝ) - y| ≤ Real.exp L.theSca.theData.d0
          * (101 / 100 * d + 53 / 10 * c + 23 / 10 * ε + 33 * uR))
      (comps .spin (expSpin L')) (comps .spin (expR L.theSca.theData.d0 L.theBiv)) := by
  obtain ⟨⟨⟨l⟩⟩, B⟩ := L
  obtain ⟨⟨⟨l'⟩⟩, B'⟩ := L'
  simp only at *
  have hBr : List.Forall₂ (fun x y => |x - y| ≤ c * |y| + 2 ^ (-660 : ℤ))
      (comps .biv (realTy .biv B')) (comps .biv B) := by
    rw [show comps .biv (realTy .biv B') = (comps .biv B').map fun g => (g.value : ℝ) from rfl,
      List.forall₂_map_left_iff]
    exact hB.imp fun g y h => h.1.2
  obtain ⟨p1, p2, p3⟩ := expR_pert hs hd hc0 hc hθ hπ hBr
  rw [length_realTy] at p3
  have e668 : (2 : ℝ) ^ (-659 : ℤ) = 2 * 2 ^ (-660 : ℤ) := by
    rw [show (-659 : ℤ) = 1 + -660 from by norm_num only, zpow_add₀ (by norm_num)]; norm_num
  have hη0 : (0 : ℝ) < 2 ^ (-660 : ℤ) := F64.two_zpow_pos _
  have hη : (2 : ℝ) ^ (-660 : ℤ) ≤ 1 / 1000 * 2 ^ (-398 : ℤ) := by
    rw [show (-660 : ℤ) = -262 + -398 from by norm_num only, zpow_add₀ (by norm_num)]
    refine mul_le_mul_of_nonneg_right ?_ (F64.two_zpow_pos _).le
    calc (2 : ℝ) ^ (-262 : ℤ) ≤ (2 : ℝ) ^ (-10 : ℤ) :=
          zpow_le_zpow_right₀ (by norm_num) (by norm_num)
      _ ≤ _ := by norm_num
  have h398 : (2 : ℝ) ^ (-398 : ℤ) ≤ 1 / 1000 * 2 ^ (-40 : ℤ) := by
    rw [show (-398 : ℤ) = -358 + -40 from by norm_num only, zpow_add₀ (by norm_num)]
    refine mul_le_mul_of_nonneg_right ?_ (F64.two_zpow_pos _).le
    calc (2 : ℝ) ^ (-358 : ℤ) ≤ (2 : ℝ) ^ (-10 : ℤ) :=
          zpow_le_zpow_right₀ (by norm_num) (by norm_num)
      _ ≤ _ := by norm_num
  have h27 : (2 : ℝ) ^ (-40 : ℤ) ≤ 1 := by norm_num
  have hcl : c * length .biv B ≤ 1 / 1000 * length .biv B :=
    mul_le_mul_of_nonneg_right hc (length_nonneg _ _)
  have q3 := abs_le.1 p3
  have h27p : (0 : ℝ) < 2 ^ (-40 : ℤ) := F64.two_zpow_pos _
  have hlen : euclid .biv B' ≤ 32 / 10 := by linarith
  have hlen2 : 1 / 2 * (2 : ℝ) ^ (-40 : ℤ) ≤ euclid .biv B' := by
    have q4 := q3.1
    clear * - q4 e668 hη h398 hcl h27p hθ
    generalize (2 : ℝ) ^ (-40 : ℤ) = a at *
    generalize (2 : ℝ) ^ (-398 : ℤ) = b at *
    generalize (2 : ℝ) ^ (-660 : ℤ) = c at *
    generalize (2 : ℝ) ^ (-659 : ℤ) = d at *
    linarith only [q4, e668, hη, h398, hcl, h27p, hθ]
  have hsmall : ∀ g ∈ comps .biv B', |(g.value : ℝ)| ≤ 32 / 10 := by
    intro g hg
    refine le_trans ?_ hlen
    apply Real.abs_le_sqrt
    have := (Rat.cast_le (K := ℝ)).2 (list_le_sum (comps .biv B') hg)
    rw [Rat.cast_mul, ← pow_two] at this
    exact this
  have hfin : ∀ g ∈ comps .biv B', g.Finite := by
    obtain ⟨⟨g0, g1, g2⟩⟩ := B'
    obtain ⟨⟨y0, y1, y2⟩⟩ := B
    simp only [comps, List.forall₂_cons, List.forall₂_nil_left_iff, and_true] at hB
    simp only [comps, List.mem_cons, List.not_mem_nil, or_false, forall_eq_or_imp, forall_eq]
    exact ⟨hB.1.1.1, hB.2.1.1.1, hB.2.2.1.1⟩
  have hcen : Central .biv B' := by
    refine ⟨fun g hg => ⟨hfin g hg, ?_⟩, ?_⟩
    · have h4 : |g.value| ≤ 4 := by
        have : ((|g.value| : ℚ) : ℝ) ≤ ((4 : ℚ) : ℝ) := by
          rw [Rat.cast_abs, Rat.cast_ofNat]; exact (hsmall g hg).trans (by norm_num)
        exact Rat.cast_le.1 this
      refine h4.trans ?_
      calc (4 : ℚ) = 2 ^ (2 : ℤ) := by norm_num
        _ ≤ _ := zpow_le_zpow_right₀ (by norm_num) (by norm_num)
    · by_contra hcon
      push Not at hcon
      have hle := euclid_biv_le (B := B') (F64.two_zpow_pos (K := ℝ) (-500)).le
        (fun q hq => by
          have := (Rat.cast_lt (K := ℝ)).2 (hcon q hq)
          rw [Rat.cast_abs, cast_zpow] at this
          exact this.le)
      have h5 : (2 : ℝ) ^ (-500 : ℤ) ≤ 2 ^ (-398 : ℤ) := zpow_le_zpow_right₀ (by norm_num) (by norm_num)
      generalize (2 : ℝ) ^ (-500 : ℤ) = a at *
      generalize (2 : ℝ) ^ (-398 : ℤ) = b at *
      generalize (2 : ℝ) ^ (-40 : ℤ) = c at *
      linarith only [hle, h5, h398, hlen2, h27p]
  have hfirst : B'.theData.d0.value = 0 ∨ (2 : ℚ) ^ (-400 : ℤ) ≤ |B'.theData.d0.value| := by
    obtain ⟨⟨g0, g1, g2⟩⟩ := B'
    obtain ⟨⟨y0, y1, y2⟩⟩ := B
    simp only [comps, List.forall₂_cons, List.forall₂_nil_left_iff, and_true] at hB
    simp only at h0 ⊢
    rcases h0 with h0 | h0
    · exact Or.inl (hB.1.2 h0)
    · right
      have k1 := hB.1.1.2
      have k2 := abs_sub_abs_le_abs_sub y0 (g0.value : ℝ)
      rw [abs_sub_comm] at k2
      have k3 : c * |y0| ≤ 1 / 1000 * |y0| := mul_le_mul_of_nonneg_right hc (abs_nonneg _)
      have k4 : (2 : ℝ) ^ (-398 : ℤ) = 4 * 2 ^ (-400 : ℤ) := by
        rw [show (-398 : ℤ) = 2 + -400 from by norm_num only, zpow_add₀ (by norm_num)]; norm_num
      have k5 : (2 : ℝ) ^ (-400 : ℤ) ≤ |(g0.value : ℝ)| := by
        rw [k4] at h0 hη
        have := F64.two_zpow_pos (K := ℝ) (-400)
        generalize (2 : ℝ) ^ (-400 : ℤ) = x at *
        generalize (2 : ℝ) ^ (-660 : ℤ) = y at *
        linarith only [k1, k2, k3, h0, hη, this]
      rw [← cast_zpow, ← Rat.cast_abs] at k5
      exact Rat.cast_le.1 k5
  have hX := Real.exp_pos l
  have hXl : Real.exp l ≤ 102 / 100 * Real.exp (l'.value : ℝ) :=
    (exp_pert (by rw [abs_sub_comm]; exact hs) hd (y' := 0) (y := 0) (δ := 0) (by simp) (by simp)).2
  have u1 : (2 : ℝ) ^ (-1000 : ℤ) ≤ Real.exp (l'.value : ℝ) := by
    have : (2 : ℝ) ^ (-900 : ℤ) = 2 ^ (100 : ℤ) * 2 ^ (-1000 : ℤ) := by
      rw [← zpow_add₀ (by norm_num)]; norm_num only
    have h100 : (2 : ℝ) ≤ 2 ^ (100 : ℤ) := by
      calc (2 : ℝ) = 2 ^ (1 : ℤ) := (zpow_one _).symm
        _ ≤ _ := zpow_le_zpow_right₀ (by norm_num) (by norm_num)
    have h3 := mul_le_mul_of_nonneg_right h100 (F64.two_zpow_pos (K := ℝ) (-1000)).le
    have h4 := F64.two_zpow_pos (K := ℝ) (-1000)
    rw [this] at h1
    have h5 := h3.trans (h1.trans hXl)
    generalize (2 : ℝ) ^ (-1000 : ℤ) = x at *
    linarith only [h5, h4]
  have u2 : Real.exp (l'.value : ℝ) ≤ 2 ^ (1000 : ℤ) := by
    have : (2 : ℝ) ^ (1000 : ℤ) = 2 ^ (100 : ℤ) * 2 ^ (900 : ℤ) := by
      rw [← zpow_add₀ (by norm_num)]; norm_num only
    have h100 : (2 : ℝ) ≤ 2 ^ (100 : ℤ) := by
      calc (2 : ℝ) = 2 ^ (1 : ℤ) := (zpow_one _).symm
        _ ≤ _ := zpow_le_zpow_right₀ (by norm_num) (by norm_num)
    have h3 := mul_le_mul_of_nonneg_right h100 (F64.two_zpow_pos (K := ℝ) (900)).le
    have h4 := F64.two_zpow_pos (K := ℝ) (900)
    rw [this]
    refine p2.trans (le_trans ?_ h3)
    generalize (2 : ℝ) ^ (900 : ℤ) = x at *
    linarith only [h2, h4, hX]
  have hE := expSpin_exact hε0 hε hlib hexp (⟨⟨⟨l'⟩⟩, B'⟩ : Spinor F64) hf u1 u2 hcen hfirst
  simp only at hE
  have hu0 := uR_nonneg
  have bound : Real.exp (l'.value : ℝ) * (22 / 10 * ε + (12 + 6 * euclid .biv B') * uR)
      ≤ Real.exp l * (225 / 100 * ε + 32 * uR) := by
    have k1 : (12 + 6 * euclid .biv B') * uR ≤ 312 / 10 * uR :=
      mul_le_mul_of_nonneg_right (by linarith) hu0
    have k2 := mul_le_mul p2 (by linarith : 22 / 10 * ε + (12 + 6 * euclid .biv B') * uR
      ≤ 22 / 10 * ε + 312 / 10 * uR) (by
        have : 0 ≤ euclid .biv B' := Real.sqrt_nonneg _
        positivity) (by positivity)
    have k3 : 0 ≤ Real.exp l * ε := by positivity
    have k4 : 0 ≤ Real.exp l * uR := by positivity
    generalize uR = u at *
    linarith only [k2, k3, k4]
  have t1 : (2 : ℝ) ^ (-1075 : ℤ) ≤ Real.exp l * (1 / 10 * uR) := by
    have k1 := mul_le_mul_of_nonneg_right h1 (by linarith : 0 ≤ 1 / 10 * uR)
    refine le_trans ?_ k1
    unfold uR
    have : (2 : ℝ) ^ (-1075 : ℤ) = 2 ^ (-900 : ℤ) * (2 ^ (-122 : ℤ) * 2 ^ (-53 : ℤ)) := by
      rw [← zpow_add₀ (by norm_num), ← zpow_add₀ (by norm_num)]; norm_num only
    rw [this]
    refine mul_le_mul_of_nonneg_left ?_ (F64.two_zpow_pos _).le
    exact mul_le_mul_of_nonneg_right (by norm_num) (F64.two_zpow_pos _).le
  have t2 : (2 : ℝ) ^ (-600 : ℤ) ≤ 1 / 10 * uR := by
    unfold uR
    rw [show (-600 : ℤ) = -547 + -53 from by norm_num only, zpow_add₀ (by norm_num)]
    refine mul_le_mul_of_nonneg_right ?_ (F64.two_zpow_pos _).le
    calc (2 : ℝ) ^ (-547 : ℤ) ≤ (2 : ℝ) ^ (-10 : ℤ) :=
          zpow_le_zpow_right₀ (by norm_num) (by norm_num)
      _ ≤ _ := by norm_num
  have t3 := mul_le_mul_of_nonneg_left t2 hX.le
  have glue : ∀ {g : F64} {x y : ℝ}, (g.Finite ∧ |(g.value : ℝ) - x|
        ≤ Real.exp (l'.value : ℝ) * (22 / 10 * ε + (12 + 6 * euclid .biv B') * uR) + 2 ^ (-1075 : ℤ)) →
      |x - y| ≤ Real.exp l * (101 / 100 * d + 53 / 10 * c + 2 ^ (-600 : ℤ)) →
      g.Finite ∧ |(g.value : ℝ) - y| ≤ Real.exp l * (101 / 100 * d + 53 / 10 * c + 23 / 10 * ε + 33 * uR) := by
    intro g x y hg hxy
    refine ⟨hg.1, ?_⟩
    have k := abs_sub_le (g.value : ℝ) x y
    have k3 : 0 ≤ Real.exp l * ε := by positivity
    have k4 : 0 ≤ Real.exp l * uR := by positivity
    have k5 := hg.2
    generalize (2 : ℝ) ^ (-600 : ℤ) = a at *
    generalize (2 : ℝ) ^ (-1075 : ℤ) = b at *
    generalize uR = u at *
    generalize Real.exp (l'.value : ℝ) * (22 / 10 * ε + (12 + 6 * euclid .biv B') * u) = z at *
    linarith only [k, k3, k4, k5, hxy, t1, t3, bound]
  rw [comps_spin] at hE ⊢
  simp only [comps, List.forall₂_cons, List.forall₂_nil_left_iff, and_true] at hE p1 ⊢
  exact ⟨glue hE.1 p1.1, glue hE.2.1 p1.2.1, glue hE.2.2.1 p1.2.2.1, glue hE.2.2.2 p1.2.2.2⟩

theorem log_abs_le {E : ℝ} (h1 : (2 : ℝ) ^ (-51 : ℤ) ≤ E) (h2 : E ≤ 2 ^ (502 : ℤ)) :
    |Real.log E| ≤ 400 := by
  have hE : 0 < E := lt_of_lt_of_le (F64.two_zpow_pos _) h1
  have a := Real.log_le_log (F64.two_zpow_pos _) h1
  have b := Real.log_le_log hE h2
  rw [Real.log_zpow] at a b
  have c := Real.log_two_lt_d9
  have d := Real.log_two_gt_d9
  rw [abs_le]
  push_cast at a b
  constructor <;> linarith

/-- The first bivector component is zero or not extremely small against the others: below that the
computed direction can be subnormal, which `exp` takes for invalid (C46). -/
def FirstFair (S : Spinor F64) : Prop :=
  S.theBiv.theData.d0.value = 0 ∨
    (2 : ℝ) ^ (-300 : ℤ) * euclid .biv S.theBiv ≤ |(S.theBiv.theData.d0.value : ℝ)|

theorem logR_first (S : Spinor F64) (hm : (2 : ℝ) ^ (-51 : ℤ) ≤ euclid .spin S) (hc : OffAxis S)
    (hf : FirstFair S) :
    (logR S).theBiv.theData.d0 = 0 ∨ (2 : ℝ) ^ (-326 : ℤ) ≤ |(logR S).theBiv.theData.d0| := by
  have e : (logR S).theBiv.theData.d0 = angleF S / euclid .biv S.theBiv * S.theBiv.theData.d0.value := rfl
  have hE : 0 < euclid .spin S := lt_of_lt_of_le (F64.two_zpow_pos _) hm
  obtain ⟨hV, -⟩ := offAxis_V hE hc
  have hb0 : 0 < euclid .biv S.theBiv := by
    have := mul_pos (lt_of_lt_of_le (F64.two_zpow_pos _) hV) hE
    rwa [div_mul_cancel₀ _ hE.ne'] at this
  obtain ⟨-, -, h3, -⟩ := logR_spec S hm hc
  have h8 : 0 < angleF S := lt_of_lt_of_le (F64.two_zpow_pos _) h3
  rw [e]
  rcases hf with h | h
  · left; rw [h, Rat.cast_zero, mul_zero]
  · right
    rw [abs_mul, abs_of_pos (div_pos h8 hb0)]
    calc (2 : ℝ) ^ (-326 : ℤ) = 2 ^ (-26 : ℤ) * 2 ^ (-300 : ℤ) := by
          rw [← zpow_add₀ (by norm_num)]; norm_num only
      _ ≤ angleF S * 2 ^ (-300 : ℤ) := mul_le_mul_of_nonneg_right h3 (F64.two_zpow_pos _).le
      _ = angleF S / euclid .biv S.theBiv * (2 ^ (-300 : ℤ) * euclid .biv S.theBiv) := by field_simp
      _ ≤ _ := mul_le_mul_of_nonneg_left h (div_pos h8 hb0).le

/-- **C51.** `exp(logG2(S))` against `S`: every component of the round trip is finite and within
`|S| ((1.01 |log|S|| + 9) ε + 380 u)` of the component of `S`. -/
theorem C51_exp_log [LibM F64] (ε : ℝ) (hε0 : 0 ≤ ε) (hε : ε ≤ 2 ^ (-20 : ℤ)) (hlog : LibmLogOk ε)
    (hlib : LibmOk ε) (hexp : LibmExpOk ε) (S : Spinor F64) (D : BiVector F64) (h : Central .spin S)
    (hv : isValid S = true) (hm : (2 : ℝ) ^ (-51 : ℤ) ≤ euclid .spin S) (hc : OffAxis S)
    (hf : FirstFair S) :
    List.Forall₂ (fun g c => g.Finite ∧ |(g.value : ℝ) - c.value| ≤ euclid .spin S
          * ((101 / 100 * |Real.log (euclid .spin S)| + 9) * ε + 380 * 2 ^ (-53 : ℤ)))
      (comps .spin (expSpin (logG2 S D))) (comps .spin S) := by
  have hε' : ε ≤ 1 / 100 := hε.trans (by norm_num)
  obtain ⟨h1, h2, h3, h4⟩ := logR_spec S hm hc
  obtain ⟨e1, e2, e3⟩ := logG2_est hε0 hε' hlog S D h hv hm hc
  have hfr := logR_first S hm hc hf
  have hE : 0 < euclid .spin S := lt_of_lt_of_le (F64.two_zpow_pos _) hm
  obtain ⟨-, hup, -⟩ := central_real h
  have hla := log_abs_le hm hup
  have hu0 := uR_nonneg
  have hu := uR_le
  have hex : Real.exp (logR S).theSca.theData.d0 = euclid .spin S := Real.exp_log hE
  have hl : (logR S).theSca.theData.d0 = Real.log (euclid .spin S) := rfl
  have hd : ε * |(logR S).theSca.theData.d0| + 6 * uR ≤ 1 / 100 := by
    rw [hl]
    have := mul_le_mul hε hla (abs_nonneg _) (by positivity)
    have e : (2 : ℝ) ^ (-20 : ℤ) * 400 ≤ 1 / 1000 := by norm_num
    generalize (2 : ℝ) ^ (-20 : ℤ) = x at *
    generalize uR = u at *
    linarith only [this, e, hu]
  have hcc : 11 / 10 * ε + 64 * uR ≤ 1 / 1000 := by
    have e : (2 : ℝ) ^ (-20 : ℤ) ≤ 1 / 10000 := by norm_num
    generalize (2 : ℝ) ^ (-20 : ℤ) = x at *
    generalize uR = u at *
    linarith only [e, hε, hu]
  have main := exp_of_log hε0 hε' hlib hexp (logG2 S D) (logR S) e1 e2 hd (by positivity) hcc
    (e3.imp fun _ _ k => ⟨⟨k.1.1, weak669 k.1.2⟩, k.2⟩)
    (by rw [h2]; exact (zpow_le_zpow_right₀ (by norm_num) (by norm_num)).trans h3)
    (by rw [h2]; exact h4.le.trans (Real.pi_lt_d2.le.trans (by norm_num)))
    (hfr.imp id fun k => (zpow_le_zpow_right₀ (by norm_num) (by norm_num)).trans k)
    (by rw [hex]; exact (zpow_le_zpow_right₀ (by norm_num) (by norm_num)).trans hm)
    (by rw [hex]; exact hup.trans (zpow_le_zpow_right₀ (by norm_num) (by norm_num)))
  rw [h1, hex, show comps .spin (realTy .spin S : Spinor ℝ)
    = (comps .spin S).map fun c => (c.value : ℝ) from rfl, List.forall₂_map_right_iff] at main
  refine main.imp fun g c hgc => ⟨hgc.1, hgc.2.trans (mul_le_mul_of_nonneg_left ?_ hE.le)⟩
  rw [hl]
  change _ ≤ _ + 380 * uR
  generalize uR = u at *
  linarith only [hε0, hu0]

/-! ## Square roots -/

/-- Multiplication by one half. -/
theorem half_mul {x : F64} (hx : x.Finite) : ((Dbl.lit (1 / 2) : F64) * x).Finite ∧
    |((Dbl.lit (1 / 2) * x : F64).value : ℝ) - x.value / 2| ≤ 2 ^ (-1075 : ℤ) ∧
    (x.value = 0 → (Dbl.lit (1 / 2) * x : F64).value = 0) := by
  have hh : HasVal (Dbl.lit (1 / 2) : F64) ((2 : ℚ) ^ (-1 : ℤ)) :=
    F64.lit_pow (by norm_num) (by norm_num) (by norm_num)
  generalize (Dbl.lit (1 / 2) : F64) = k at *
  have hk : k.value * x.value = x.value / 2 := by rw [hh.2]; norm_num; ring
  have hb : |F64.rnVal (k.value * x.value)| < 2 ^ 1024 := by
    refine lt_of_le_of_lt ?_ (F64.value_lt (x := x))
    rw [← F64.rnVal_abs]
    have hr : F64.Rep |x.value| := by
      obtain ⟨m, e, hm, he, hv⟩ := F64.value_rep (x := x)
      exact ⟨|m|, e, by rwa [abs_abs], he, by
        rw [hv, abs_mul, abs_of_pos (F64.two_zpow_pos (K := ℚ) e), Int.cast_abs]⟩
    refine F64.rnVal_le_rep (K := ℚ) hr ?_
    rw [hk, abs_div, abs_two]
    have := abs_nonneg x.value
    simp only [Rat.cast_id]
    linarith
  obtain ⟨f1, f2⟩ := F64.mul_spec hh.1 hx hb
  have e2 : (k * x).value = F64.rnVal (x.value / 2) := by rw [F64.mul_def, f2, hk]
  refine ⟨f1, ?_, fun h0 => by rw [e2, h0, zero_div, F64.rnVal_zero]⟩
  have hq : |F64.rnVal (x.value / 2) - x.value / 2| ≤ (2 : ℚ) ^ (-1075 : ℤ) := by
    obtain ⟨m, e, hm, he, hv⟩ := F64.value_rep (x := x)
    by_cases he' : -1073 ≤ e
    · have hr : F64.Rep (x.value / 2) := ⟨m, e - 1, hm, by omega, by
        rw [hv, zpow_sub_one₀ (by norm_num)]; ring⟩
      rw [F64.rnVal_exact hr, sub_self, abs_zero]
      exact (F64.two_zpow_pos _).le
    · have he2 : e = -1074 := by omega
      subst he2
      have := F64.rnVal_err_rel (K := ℚ) (x.value / 2)
      simp only [Rat.cast_id] at this
      refine this.trans (max_le ?_ le_rfl)
      have h2 : |x.value / 2| ≤ (2 : ℚ) ^ (-1022 : ℤ) := by
        rw [hv, abs_div, abs_mul, abs_of_pos (F64.two_zpow_pos (K := ℚ) (-1074)), abs_two,
          div_le_iff₀ (by norm_num)]
        have hm' : |(m : ℚ)| ≤ 2 ^ (53 : ℤ) := by
          rw [← Int.cast_abs]; exact_mod_cast hm
        refine (mul_le_mul_of_nonneg_right hm' (F64.two_zpow_pos _).le).trans (le_of_eq ?_)
        rw [← zpow_add₀ (by norm_num), ← zpow_add_one₀ (by norm_num)]
        norm_num only
      refine (mul_le_mul_of_nonneg_left h2 (F64.two_zpow_pos _).le).trans (le_of_eq ?_)
      rw [← zpow_add₀ (by norm_num)]
      norm_num only
  have := (Rat.cast_le (K := ℝ)).2 hq
  rw [Rat.cast_abs, Rat.cast_sub, Rat.cast_div, Rat.cast_ofNat, cast_zpow] at this
  rw [e2]
  exact this

/-- The exact principal root. -/
noncomputable def rootR (S : Spinor F64) : Spinor ℝ :=
  expR (1 / 2 * (logR S).theSca.theData.d0) ((1 / 2 : ℝ) * (logR S).theBiv)

theorem expR_half (s : ℝ) (B : BiVector ℝ) :
    expR (1 / 2 * s) ((1 / 2 : ℝ) * B) * expR (1 / 2 * s) ((1 / 2 : ℝ) * B) = expR s B := by
  have e1 : (((1 / 2 : ℝ) + 1 / 2 : ℝ) * B : BiVector ℝ) = B := by
    ext <;> simp only [engabra] <;> ring
  have e2 : 1 / 2 * s + 1 / 2 * s = s := by ring
  have h := expR_mul_plane (1 / 2 * s) (1 / 2 * s) (1 / 2) (1 / 2) B
  rw [e1, e2] at h
  exact h

/-- `sqrtG2` outside its guard. -/
theorem sqrtG2_code [LibM F64] (S : Spinor F64) (D : BiVector F64) (h : Central .spin S)
    (hv : isValid S = true) (hm : (2 : ℝ) ^ (-49 : ℤ) ≤ euclid .spin S) :
    sqrtG2 S D = expSpin ((Dbl.lit (1 / 2) : F64) * logG2 S D) := by
  have hE : 0 < euclid .spin S := lt_of_lt_of_le (F64.two_zpow_pos _) hm
  obtain ⟨hmf, hme⟩ := C34_magnitude .spin S h
  have htol : HasVal (Dbl.lit 4 * Dbl.epsilon F64) ((2 : ℚ) ^ (-50 : ℤ)) := by
    have h4 : HasVal (Dbl.lit 4 : F64) ((2 : ℚ) ^ (2 : ℤ)) :=
      F64.lit_pow (by norm_num) (by norm_num) (by norm_num)
    have := F64.HasVal.mulR h4 F64.epsilon_val (F64.rnVal_exact (F64.rep_pow (-50) (by norm_num)) ▸ by
      rw [← zpow_add₀ (by norm_num)]; rfl) (by norm_num : |(2 : ℚ) ^ (-50 : ℤ)| ≤ 1024)
    exact this
  have g2 : HasVal (magnitudeTy .spin S) (magnitudeTy .spin S).value := ⟨hmf, rfl⟩
  have hlt : ¬ ((magnitudeTy .spin S).value < (2 : ℚ) ^ (-50 : ℤ)) := by
    rw [not_lt]
    have a1 := (abs_le.1 hme).1
    have a2 : 52 / 10 * (2 : ℝ) ^ (-53 : ℤ) * euclid .spin S ≤ 1 / 4 * euclid .spin S :=
      mul_le_mul_of_nonneg_right (by norm_num) hE.le
    have a3 : (2 : ℝ) ^ (-50 : ℤ) ≤ ((magnitudeTy .spin S).value : ℝ) := by
      have e : (2 : ℝ) ^ (-49 : ℤ) = 2 * 2 ^ (-50 : ℤ) := by norm_num
      have p := F64.two_zpow_pos (K := ℝ) (-50)
      rw [e] at hm
      linarith
    rw [← cast_zpow] at a3
    exact Rat.cast_le.1 a3
  unfold sqrtG2
  rw [if_pos hv]
  have em : magnitude S = magnitudeTy .spin S := rfl
  simp only [em]
  rw [g2.flt htol, if_neg (by rw [decide_eq_true_eq]; exact hlt)]

/-- The computed exponential of half a computed logarithm. -/
theorem root_of_log [LibM F64] {ε : ℝ} (hε0 : 0 ≤ ε) (hε : ε ≤ 2 ^ (-20 : ℤ)) (hlib : LibmOk ε)
    (hexp : LibmExpOk ε) (L' : Spinor F64) (L : Spinor ℝ) (e1 : L'.theSca.theData.d0.Finite)
    (e2 : |(L'.theSca.theData.d0.value : ℝ) - L.theSca.theData.d0| ≤ ε * |L.theSca.theData.d0| + 6 * uR)
    (e3 : List.Forall₂ (fun g y => (g.Finite ∧
        |(g.value : ℝ) - y| ≤ (11 / 10 * ε + 64 * uR) * |y| + 2 ^ (-669 : ℤ)) ∧ (y = 0 → g.value = 0))
      (comps .biv L'.theBiv) (comps .biv L.theBiv))
    (h3 : (2 : ℝ) ^ (-39 : ℤ) ≤ length .biv L.theBiv) (h4 : length .biv L.theBiv ≤ 315 / 100)
    (h0 : L.theBiv.theData.d0 = 0 ∨ (2 : ℝ) ^ (-397 : ℤ) ≤ |L.theBiv.theData.d0|)
    (hla : |L.theSca.theData.d0| ≤ 400)
    (h1 : (2 : ℝ) ^ (-900 : ℤ) ≤ Real.exp (1 / 2 * L.theSca.theData.d0))
    (h2 : Real.exp (1 / 2 * L.theSca.theData.d0) ≤ 2 ^ (900 : ℤ)) :
    List.Forall₂ (fun g y => g.Finite ∧ |(g.value : ℝ) - y| ≤ Real.exp (1 / 2 * L.theSca.theData.d0)
          * ((|L.theSca.theData.d0| + 9) * ε + 380 * uR))
        (comps .spin (expSpin ((Dbl.lit (1 / 2) : F64) * L')))
        (comps .spin (expR (1 / 2 * L.theSca.theData.d0) ((1 / 2 : ℝ) * L.theBiv))) := by
  have hε' : ε ≤ 1 / 100 := hε.trans (by norm_num)
  have hu0 := uR_nonneg
  have hu := uR_le
  have hη3 : (2 : ℝ) ^ (-1075 : ℤ) ≤ 1 / 1000 * uR := tiny_le_uR
  have hlen : length .biv ((1 / 2 : ℝ) * L.theBiv : BiVector ℝ) = 1 / 2 * length .biv L.theBiv := by
    rw [length_smul_biv, abs_of_pos (by norm_num)]
  have hd : ε * |1 / 2 * L.theSca.theData.d0| + 31 / 10 * uR ≤ 1 / 100 := by
    rw [abs_mul, abs_of_pos (by norm_num : (0 : ℝ) < 1 / 2)]
    have := mul_le_mul hε hla (abs_nonneg _) (by positivity)
    have e : (2 : ℝ) ^ (-20 : ℤ) * 400 ≤ 1 / 1000 := by norm_num
    have p : 0 ≤ ε * |L.theSca.theData.d0| := by positivity
    generalize (2 : ℝ) ^ (-20 : ℤ) = x at *
    generalize uR = u at *
    linarith only [this, e, hu, p]
  have hcc : 11 / 10 * ε + 64 * uR ≤ 1 / 1000 := by
    have e : (2 : ℝ) ^ (-20 : ℤ) ≤ 1 / 10000 := by norm_num
    generalize (2 : ℝ) ^ (-20 : ℤ) = x at *
    generalize uR = u at *
    linarith only [e, hε, hu]
  obtain ⟨k1, k2, -⟩ := half_mul e1
  have main := exp_of_log (d := ε * |1 / 2 * L.theSca.theData.d0| + 31 / 10 * uR)
    (c := 11 / 10 * ε + 64 * uR) hε0 hε' hlib hexp ((Dbl.lit (1 / 2) : F64) * L')
    ⟨⟨⟨1 / 2 * L.theSca.theData.d0⟩⟩, (1 / 2 : ℝ) * L.theBiv⟩ k1 ?_ hd (by positivity) hcc ?_
    (by
      simp only [hlen]
      refine le_trans (le_of_eq ?_) (mul_le_mul_of_nonneg_left h3 (by norm_num : (0 : ℝ) ≤ 1 / 2))
      norm_num)
    (by simp only [hlen]; linarith [length_nonneg .biv L.theBiv])
    ?_ h1 h2
  · refine main.imp fun g c hgc => ⟨hgc.1, hgc.2.trans (mul_le_mul_of_nonneg_left ?_ (Real.exp_pos _).le)⟩
    rw [abs_mul, abs_of_pos (by norm_num : (0 : ℝ) < 1 / 2)]
    have p : 0 ≤ ε * |L.theSca.theData.d0| := by positivity
    generalize uR = u at *
    linarith only [hε0, hu0, p]
  · simp only
    have b := abs_sub_le (((Dbl.lit (1 / 2) : F64) * L'.theSca.theData.d0).value : ℝ)
      (L'.theSca.theData.d0.value / 2) (1 / 2 * L.theSca.theData.d0)
    have b2 : |(L'.theSca.theData.d0.value : ℝ) / 2 - 1 / 2 * L.theSca.theData.d0|
        = 1 / 2 * |(L'.theSca.theData.d0.value : ℝ) - L.theSca.theData.d0| := by
      rw [show (L'.theSca.theData.d0.value : ℝ) / 2 - 1 / 2 * L.theSca.theData.d0
        = 1 / 2 * ((L'.theSca.theData.d0.value : ℝ) - L.theSca.theData.d0) by ring,
        abs_mul, abs_of_pos (by norm_num : (0 : ℝ) < 1 / 2)]
    rw [b2] at b
    refine b.trans ?_
    rw [abs_mul, abs_of_pos (by norm_num : (0 : ℝ) < 1 / 2)]
    generalize (2 : ℝ) ^ (-1075 : ℤ) = x at *
    generalize uR = u at *
    linarith only [k2, e2, hη3, hu0]
  · have eg : comps .biv ((Dbl.lit (1 / 2) : F64) * L' : Spinor F64).theBiv
        = (comps .biv L'.theBiv).map ((Dbl.lit (1 / 2) : F64) * ·) := rfl
    have ey : comps .biv ((1 / 2 : ℝ) * L.theBiv : BiVector ℝ)
        = (comps .biv L.theBiv).map ((1 / 2 : ℝ) * ·) := rfl
    rw [eg, ey, List.forall₂_map_left_iff, List.forall₂_map_right_iff]
    refine e3.imp fun g y hgy => ?_
    obtain ⟨⟨a1, a2⟩, a3⟩ := hgy
    obtain ⟨q1, q2, q3⟩ := half_mul a1
    refine ⟨⟨q1, weak669 ?_⟩, fun h0 => q3 (a3 (by linarith))⟩
    have b := abs_sub_le (((Dbl.lit (1 / 2) : F64) * g).value : ℝ) (g.value / 2) (1 / 2 * y)
    have b2 : |(g.value : ℝ) / 2 - 1 / 2 * y| = 1 / 2 * |(g.value : ℝ) - y| := by
      rw [show (g.value : ℝ) / 2 - 1 / 2 * y = 1 / 2 * ((g.value : ℝ) - y) by ring, abs_mul,
        abs_of_pos (by norm_num : (0 : ℝ) < 1 / 2)]
    rw [b2] at b
    refine b.trans ?_
    rw [abs_mul, abs_of_pos (by norm_num : (0 : ℝ) < 1 / 2)]
    have e4 : (2 : ℝ) ^ (-1075 : ℤ) ≤ 1 / 2 * 2 ^ (-669 : ℤ) := by
      rw [show (-1075 : ℤ) = -406 + -669 from by norm_num only, zpow_add₀ (by norm_num)]
      refine mul_le_mul_of_nonneg_right ?_ (F64.two_zpow_pos _).le
      calc (2 : ℝ) ^ (-406 : ℤ) ≤ (2 : ℝ) ^ (-1 : ℤ) :=
            zpow_le_zpow_right₀ (by norm_num) (by norm_num)
        _ ≤ _ := by norm_num
    generalize (2 : ℝ) ^ (-1075 : ℤ) = x at *
    generalize (2 : ℝ) ^ (-669 : ℤ) = z at *
    generalize uR = u at *
    linarith only [q2, a2, e4]
  · rcases h0 with k | k
    · left
      change 1 / 2 * L.theBiv.theData.d0 = 0
      rw [k, mul_zero]
    · right
      change _ ≤ |1 / 2 * L.theBiv.theData.d0|
      rw [abs_mul, abs_of_pos (by norm_num : (0 : ℝ) < 1 / 2)]
      refine le_trans ?_ (mul_le_mul_of_nonneg_left k (by norm_num : (0 : ℝ) ≤ 1 / 2))
      rw [show (-398 : ℤ) = -1 + -397 from by norm_num only, zpow_add₀ (by norm_num)]
      exact mul_le_mul_of_nonneg_right (by norm_num) (F64.two_zpow_pos _).le

/-- **C51.** `sqrtG2(S)` against the principal square root of `S` (the root with positive scalar
part): every component is finite and within `√|S| ((|log|S|| + 9) ε + 380 u)` of that of the root. -/
theorem C51_sqrt [LibM F64] (ε : ℝ) (hε0 : 0 ≤ ε) (hε : ε ≤ 2 ^ (-20 : ℤ)) (hlog : LibmLogOk ε)
    (hlib : LibmOk ε) (hexp : LibmExpOk ε) (S : Spinor F64) (D : BiVector F64) (h : Central .spin S)
    (hv : isValid S = true) (hm : (2 : ℝ) ^ (-49 : ℤ) ≤ euclid .spin S) (hc : OffAxis S)
    (hf : FirstFair S) :
    ∃ R : Spinor ℝ, R * R = realTy .spin S ∧ 0 < R.theSca.theData.d0 ∧
      List.Forall₂ (fun g y => g.Finite ∧ |(g.value : ℝ) - y| ≤ √(euclid .spin S)
          * ((|Real.log (euclid .spin S)| + 9) * ε + 380 * 2 ^ (-53 : ℤ)))
        (comps .spin (sqrtG2 S D)) (comps .spin R) := by
  have hm' : (2 : ℝ) ^ (-51 : ℤ) ≤ euclid .spin S :=
    (zpow_le_zpow_right₀ (by norm_num) (by norm_num)).trans hm
  have hε' : ε ≤ 1 / 100 := hε.trans (by norm_num)
  obtain ⟨h1, h2, h3, h4⟩ := logR_spec S hm' hc
  obtain ⟨e1, e2, e3⟩ := logG2_est hε0 hε' hlog S D h hv hm' hc
  have hfr := logR_first S hm' hc hf
  have hE : 0 < euclid .spin S := lt_of_lt_of_le (F64.two_zpow_pos _) hm
  obtain ⟨-, hup, -⟩ := central_real h
  have hla := log_abs_le hm' hup
  have hu0 := uR_nonneg
  have hu := uR_le
  have hη3 : (2 : ℝ) ^ (-1075 : ℤ) ≤ 1 / 1000 * uR := tiny_le_uR
  have hl : (logR S).theSca.theData.d0 = Real.log (euclid .spin S) := rfl
  have hθ0 : 0 < angleF S := lt_of_lt_of_le (F64.two_zpow_pos _) h3
  have hlen : length .biv ((1 / 2 : ℝ) * (logR S).theBiv : BiVector ℝ) = 1 / 2 * angleF S := by
    rw [length_smul_biv, h2, abs_of_pos (by norm_num)]
  have hex : Real.exp (1 / 2 * (logR S).theSca.theData.d0) = √(euclid .spin S) := by
    rw [hl, Real.sqrt_eq_rpow, Real.rpow_def_of_pos hE, mul_comm]
  refine ⟨rootR S, (expR_half _ _).trans h1, ?_, ?_⟩
  · change 0 < Real.exp _ * Real.cos (length .biv ((1 / 2 : ℝ) * (logR S).theBiv : BiVector ℝ))
    rw [hlen]
    exact mul_pos (Real.exp_pos _) (Real.cos_pos_of_mem_Ioo ⟨by linarith, by linarith⟩)
  rw [sqrtG2_code S D h hv hm]
  have main := root_of_log hε0 hε hlib hexp (logG2 S D) (logR S) e1 e2 e3
    (by rw [h2]; exact (zpow_le_zpow_right₀ (by norm_num) (by norm_num)).trans h3)
    (by rw [h2]; exact h4.le.trans (Real.pi_lt_d2.le.trans (by norm_num)))
    (hfr.imp id fun k => (zpow_le_zpow_right₀ (by norm_num) (by norm_num)).trans k)
    (by rw [hl]; exact hla)
    (by
      rw [hex]
      refine le_trans ?_ (Real.sqrt_le_sqrt hm)
      refine Real.le_sqrt_of_sq_le ?_
      rw [← zpow_natCast, ← zpow_mul]
      exact zpow_le_zpow_right₀ (by norm_num) (by norm_num))
    (by
      rw [hex]
      refine (Real.sqrt_le_sqrt hup).trans (Real.sqrt_le_iff.2 ⟨(F64.two_zpow_pos _).le, ?_⟩)
      rw [← zpow_natCast, ← zpow_mul]
      exact zpow_le_zpow_right₀ (by norm_num) (by norm_num))
  rw [hex] at main
  exact main

/-! A correctly rounded library, and `1 + e23 + e31 + e12`. -/

/-- `refLibM` with a correctly rounded `atan2`. -/
@[instance_reducible] noncomputable def refLibLog : LibM F64 :=
  { refLibM with atan2 := fun y x => F64.roundTo (Complex.arg ⟨x.value, y.value⟩) }

theorem refLibLog_ok : @LibmLogOk refLibLog (2 ^ (-53 : ℤ)) ∧ @LibmOk refLibLog (2 ^ (-53 : ℤ)) ∧
    @LibmExpOk refLibLog (2 ^ (-53 : ℤ)) := by
  have key : ∀ X : ℝ, |X| ≤ 2 ^ 11 → (F64.roundTo X).Finite ∧
      |((F64.roundTo X).value : ℝ) - X| ≤ 2 ^ (-53 : ℤ) * |X| + 2 ^ (-1075 : ℤ) := by
    intro X hX
    have h3 := F64.roundTo_value (x := X) (F64.safe_lt_real (hX.trans
      (pow_le_pow_right₀ one_le_two (by norm_num))))
    refine ⟨h3.1, ?_⟩
    rw [h3.2]
    refine (F64.rnVal_err_rel (K := ℝ) X).trans (max_le ?_ ?_)
    · exact le_add_of_nonneg_right (F64.two_zpow_pos _).le
    · exact le_add_of_nonneg_left (mul_nonneg (F64.two_zpow_pos _).le (abs_nonneg _))
  refine ⟨⟨fun x hx h0 => key _ ?_, fun y x hy hx h0 => ?_⟩, refLibM_ok.1, refLibM_ok.2.1⟩
  · have h0' : (0 : ℝ) < x.value := by exact_mod_cast h0
    have hl : (x.value : ℝ) ≤ 2 ^ (1024 : ℤ) := by
      have := (F64.value_lt (x := x)).le
      rw [abs_of_pos h0] at this
      have := (Rat.cast_le (K := ℝ)).2 this
      rw [Rat.cast_pow, Rat.cast_ofNat] at this
      rw [← zpow_natCast] at this
      exact this
    have hg : (2 : ℝ) ^ (-1074 : ℤ) ≤ x.value := by
      obtain ⟨m, e, -, he, hv⟩ := F64.value_rep (x := x)
      have hm : 0 < (m : ℚ) := by
        rw [hv] at h0
        exact pos_of_mul_pos_left h0 (F64.two_zpow_pos _).le
      have hm1 : (1 : ℚ) ≤ m := by
        have : 0 < m := by exact_mod_cast hm
        exact_mod_cast this
      have : (2 : ℚ) ^ (-1074 : ℤ) ≤ x.value := by
        rw [hv, ← one_mul ((2 : ℚ) ^ (-1074 : ℤ))]
        exact mul_le_mul hm1 (zpow_le_zpow_right₀ one_le_two he) (F64.two_zpow_pos _).le hm.le
      rw [← cast_zpow]
      exact (Rat.cast_le (K := ℝ)).2 this
    have h2 : 0 < Real.log 2 := Real.log_pos one_lt_two
    have h3 := Real.log_two_lt_d9
    have a := Real.log_le_log h0' hl
    have b := Real.log_le_log (F64.two_zpow_pos _) hg
    rw [Real.log_zpow] at a b
    push_cast at a b
    rw [abs_le]
    constructor <;> linarith
  · have h1 : 0 ≤ Complex.arg ⟨x.value, y.value⟩ := by
      rw [Complex.arg_nonneg_iff]
      change (0 : ℝ) ≤ (y.value : ℝ)
      exact_mod_cast h0.le
    have := key (Complex.arg ⟨x.value, y.value⟩) (by
      rw [abs_of_nonneg h1]
      exact (Complex.arg_le_pi _).trans (Real.pi_le_four.trans (by norm_num)))
    rwa [abs_of_nonneg h1] at this

/-- `1 + e23 + e31 + e12` -/
noncomputable def onesSpin : Spinor F64 := ⟨⟨⟨1⟩⟩, ⟨⟨1, 1, 1⟩⟩⟩

theorem onesSpin_ok : Central .spin onesSpin ∧ isValid onesSpin = true ∧ euclid .spin onesSpin = 2 ∧
    OffAxis onesSpin ∧ FirstFair onesSpin := by
  have e : (1 : F64).value = 1 := F64.hasVal_one.2
  have e' : |(1 : F64).value| = 1 := by rw [e, abs_one]
  have hE : euclid .spin onesSpin = 2 := by
    unfold euclid sqSum
    simp only [onesSpin, comps, List.map_cons, List.map_nil, List.sum_cons, List.sum_nil, e]
    rw [show (2 : ℝ) = √(2 ^ 2) by rw [Real.sqrt_sq (by norm_num)]]
    norm_num
  refine ⟨⟨?_, 1, by simp [comps, onesSpin], ?_⟩, ?_, hE, ?_, Or.inr ?_⟩
  · intro c hc
    have : c = 1 := by simpa [comps, onesSpin] using hc
    subst this
    exact ⟨F64.hasVal_one.1, by rw [e']; exact one_le_zpow₀ one_le_two (by norm_num)⟩
  · rw [e']; exact zpow_le_one_of_nonpos₀ one_le_two (by norm_num)
  · have hv : isValidDub (1 : F64) = true := isValidDub_one
    change (isValidDub (1 : F64) && isValidDub (1 : F64)) = true
    rw [hv]; rfl
  · unfold OffAxis
    rw [hE]
    simp only [onesSpin, e]
    norm_num
  · rw [euclid_biv]
    simp only [onesSpin, e, Rat.cast_one, abs_one]
    have h3 : √((1 : ℝ) ^ 2 + 1 ^ 2 + 1 ^ 2) ≤ 2 := Real.sqrt_le_iff.2 ⟨by norm_num, by norm_num⟩
    calc (2 : ℝ) ^ (-300 : ℤ) * √((1 : ℝ) ^ 2 + 1 ^ 2 + 1 ^ 2) ≤ 2 ^ (-1 : ℤ) * 2 :=
          mul_le_mul (zpow_le_zpow_right₀ one_le_two (by norm_num)) h3 (Real.sqrt_nonneg _)
            (by norm_num)
      _ = 1 := by norm_num

/-- The logarithm, the round trip and the root of `1 + e23 + e31 + e12`. -/
example (D : BiVector F64) : letI := refLibLog
    (∃ L : Spinor ℝ, IsLog (realTy .spin onesSpin) L ∧
      |((logG2 onesSpin D).theSca.theData.d0.value : ℝ) - L.theSca.theData.d0|
          ≤ 2 ^ (-53 : ℤ) * |L.theSca.theData.d0| + 6 * 2 ^ (-53 : ℤ)) ∧
    List.Forall₂ (fun g c => g.Finite ∧ |(g.value : ℝ) - c.value| ≤ 2 ^ (-43 : ℤ))
      (comps .spin (expSpin (logG2 onesSpin D))) (comps .spin onesSpin) ∧
    ∃ R : Spinor ℝ, R * R = realTy .spin onesSpin ∧ 0 < R.theSca.theData.d0 ∧
      List.Forall₂ (fun g y => g.Finite ∧ |(g.value : ℝ) - y| ≤ 2 ^ (-43 : ℤ))
        (comps .spin (sqrtG2 onesSpin D)) (comps .spin R) := by
  let _ := refLibLog
  obtain ⟨h1, h2, h3, h4, h5⟩ := onesSpin_ok
  obtain ⟨k1, k2, k3⟩ := refLibLog_ok
  have p := F64.two_zpow_pos (K := ℝ) (-53)
  have hl : |Real.log 2| ≤ 1 := by
    rw [abs_of_pos (Real.log_pos one_lt_two)]; linarith [Real.log_two_lt_d9]
  refine ⟨?_, ?_, ?_⟩
  · obtain ⟨L, a, b, -⟩ := C51_log (2 ^ (-53 : ℤ)) p.le (by norm_num) k1 onesSpin D h1 h2
      (by rw [h3]; norm_num) h4
    exact ⟨L, a, b.2⟩
  · refine (C51_exp_log (2 ^ (-53 : ℤ)) p.le (zpow_le_zpow_right₀ one_le_two (by norm_num)) k1 k2 k3
      onesSpin D h1 h2 (by rw [h3]; norm_num) h4 h5).imp fun g c h => ⟨h.1, h.2.trans ?_⟩
    rw [h3]
    norm_num
    linarith
  · obtain ⟨R, a, b, c⟩ := C51_sqrt (2 ^ (-53 : ℤ)) p.le (zpow_le_zpow_right₀ one_le_two (by norm_num))
      k1 k2 k3 onesSpin D h1 h2 (by rw [h3]; norm_num) h4 h5
    refine ⟨R, a, b, c.imp fun g c h => ⟨h.1, h.2.trans ?_⟩⟩
    rw [h3]
    have hs : √(2 : ℝ) ≤ 2 := Real.sqrt_le_iff.2 ⟨by norm_num, by norm_num⟩
    refine (mul_le_mul_of_nonneg_right hs (by positivity)).trans ?_
    norm_num
    linarith

end Engabra
