import Verif.Lemmas.XR
import Verif.Props.C13_C15_Norms
import Mathlib.Analysis.InnerProductSpace.PiL2
import Mathlib.Algebra.BigOperators.Fin

/-! # C13 (magnitude), C15 (amplitude), C16 (direction), in ideal arithmetic

`lift t x` is the object with the real components of `x`. -/

namespace Engabra
open XR

/-- Specification: Euclidean length of the component list. -/
noncomputable def length (t : Ty) (x : t.D ℝ) : ℝ := √(((comps t x).map fun c => c ^ 2).sum)

theorem length_eq (t : Ty) (x : t.D ℝ) : length t x = √(magSqTy t x) := by
  rw [length, C13_magSq_sum_of_squares]

theorem length_nonneg (t : Ty) (x : t.D ℝ) : 0 ≤ length t x := Real.sqrt_nonneg _

/-- **C13.** `magnitude(x)` is the Euclidean length of the components. -/
theorem C13_magnitude (t : Ty) (x : t.D ℝ) : magnitudeTy t (lift t x) = val (length t x) := by
  rw [magnitudeTy, magSq_lift, sqrt_val _ (C13_magSq_nonneg t x), length_eq]

theorem length_smul (t : Ty) (s : ℝ) (x : t.D ℝ) : length t (smulTy t s x) = |s| * length t x := by
  have h : magSqTy t (smulTy t s x) = s ^ 2 * magSqTy t x := by
    cases t <;> simp only [engabra] <;> ring
  rw [length_eq, length_eq, h, Real.sqrt_mul (sq_nonneg s), Real.sqrt_sq_eq_abs]

/-- **C13.** `magnitude(s*x) = |s| * magnitude(x)`. -/
theorem C13_magnitude_smul (t : Ty) (s : ℝ) (x : t.D ℝ) :
    magnitudeTy t (smulTy t (val s) (lift t x)) = Dbl.abs (val s) * magnitudeTy t (lift t x) := by
  rw [smul_lift, C13_magnitude, C13_magnitude, length_smul, abs_val, val_mul]

theorem length_promote (t : Ty) (x : t.D ℝ) : length .mv (promote t x) = length t x := by
  rw [length_eq, length_eq]
  exact congrArg _ (magSq_promote t x)

/-- Components as a Euclidean vector. -/
noncomputable def toE (A : MultiVector ℝ) : EuclideanSpace ℝ (Fin 8) :=
  WithLp.toLp 2 ![A.theSca.theData.d0, A.theVec.theData.d0, A.theVec.theData.d1, A.theVec.theData.d2,
    A.theBiv.theData.d0, A.theBiv.theData.d1, A.theBiv.theData.d2, A.theTri.theData.d0]

theorem length_mv_add (A B : MultiVector ℝ) :
    length .mv (A + B) ≤ length .mv A + length .mv B := by
  have h : ∀ A : MultiVector ℝ, length .mv A = ‖toE A‖ := by
    intro A
    rw [EuclideanSpace.norm_eq, length]
    congr 1
    simp only [comps, List.map_cons, List.map_nil, List.sum_cons, List.sum_nil, toE,
      Fin.sum_univ_eight, Real.norm_eq_abs, sq_abs]
    simp
    ring
  rw [h, h, h]
  have : toE (A + B) = toE A + toE B := by
    ext i
    fin_cases i <;> simp [toE, engabra]
  rw [this]
  exact norm_add_le _ _

/-- **C13.** Triangle inequality, for every same-type sum. -/
theorem C13_triangle (t : Ty) (x y z : t.D ℝ) (h : addTy t t x y = some ⟨t, z⟩) :
    length t z ≤ length t x + length t y := by
  rw [← length_promote t x, ← length_promote t y, ← length_promote t z]
  have := C04_typed_sum_agrees t t t x y z h
  rw [this]
  exact length_mv_add _ _

/-- Triangle inequality as seen through the API. -/
theorem C13_magnitude_triangle (t : Ty) (x y z : t.D ℝ) (h : addTy t t x y = some ⟨t, z⟩) :
    Dbl.lt (magnitudeTy t (lift t x) + magnitudeTy t (lift t y)) (magnitudeTy t (lift t z))
      = false := by
  rw [C13_magnitude, C13_magnitude, C13_magnitude, val_add, ← Bool.not_eq_true, lt_val, not_lt]
  exact C13_triangle t x y z h

example : addTy .vec .vec (⟨⟨1, 2, 3⟩⟩ : Vector ℝ) (⟨⟨1, 0, 1⟩⟩ : Vector ℝ)
    = some ⟨.vec, (⟨⟨1 + 1, 2 + 0, 3 + 1⟩⟩ : Vector ℝ)⟩ := rfl

/-! ## C15: amplitude -/

theorem ampSq_lift (t : Ty) (x : t.D ℝ) :
    ampSqTy t (lift t x) = (ampSqTy t x).map (lift .cplx) := by
  cases t <;> rfl

/-- **C15.** `amplitude(x) * amplitude(x) = ampSq(x)`: stated for any template argument, given
its squared amplitude `z`. -/
theorem C15_amplitude_sq {T : Type} [AmpSq T XR] (x : T) (z : ComPlex ℝ)
    (h : ampSq x = lift .cplx z) : amplitude x * amplitude x = lift .cplx z := by
  have hs : ∀ w : ℂ, (w ^ (1 / 2 : ℂ)) * (w ^ (1 / 2 : ℂ)) = w := by
    intro w
    rw [← pow_two, ← Complex.cpow_nat_mul]
    norm_num
  unfold amplitude
  simp only [h, lift, mapTy]
  have e : LibM.csqrt (val z.theSca.theData.d0, val z.theTri.theData.d0)
      = (val (((⟨z.theSca.theData.d0, z.theTri.theData.d0⟩ : ℂ) ^ (1 / 2 : ℂ)).re),
         val (((⟨z.theSca.theData.d0, z.theTri.theData.d0⟩ : ℂ) ^ (1 / 2 : ℂ)).im)) := rfl
  rw [e]
  have h1 := hs ⟨z.theSca.theData.d0, z.theTri.theData.d0⟩
  generalize (⟨z.theSca.theData.d0, z.theTri.theData.d0⟩ : ℂ) ^ (1 / 2 : ℂ) = w at *
  have hre := congrArg Complex.re h1
  have him := congrArg Complex.im h1
  simp only [Complex.mul_re, Complex.mul_im] at hre him
  ext <;> simp only [ComPlex.from, engabra, val_mul, val_add, val_sub, val_inj]
  · linarith
  · linarith

/-- **C15** at every type: for each of the nine structs the amplitude squares to
`x * dirverse(x)`. -/
theorem C15_amplitude_mv (A : MultiVector ℝ) :
    toMV (amplitude (lift .mv A) * amplitude (lift .mv A))
      = lift .mv A * dirverse (lift .mv A) := by
  obtain ⟨z, hz, hzz, -⟩ := C15_ampSq .mv (by decide) A
  have h := ampSq_lift .mv A
  rw [hz] at h
  have h' : ampSq (lift .mv A) = lift .cplx z := Option.some.inj h
  rw [C15_amplitude_sq _ _ h']
  change promote .cplx (lift .cplx z) = _
  rw [promote_lift]
  exact congrArg (lift .mv) hzz

/-- The principal root is taken: the scalar part of the amplitude is never negative. -/
theorem C15_amplitude_principal (A : MultiVector ℝ) :
    ∃ a b : ℝ, amplitude (lift .mv A) = lift .cplx ⟨⟨⟨a⟩⟩, ⟨⟨b⟩⟩⟩ ∧ 0 ≤ a := by
  obtain ⟨z, hz, -, -⟩ := C15_ampSq .mv (by decide) A
  have h := ampSq_lift .mv A
  rw [hz] at h
  have h' : ampSq (lift .mv A) = lift .cplx z := Option.some.inj h
  refine ⟨((⟨z.theSca.theData.d0, z.theTri.theData.d0⟩ : ℂ) ^ (1 / 2 : ℂ)).re,
    ((⟨z.theSca.theData.d0, z.theTri.theData.d0⟩ : ℂ) ^ (1 / 2 : ℂ)).im, ?_, ?_⟩
  · unfold amplitude
    rw [h']; rfl
  · generalize (⟨z.theSca.theData.d0, z.theTri.theData.d0⟩ : ℂ) = w
    by_cases hw : w = 0
    · rw [hw, Complex.zero_cpow (by norm_num)]; simp
    · rw [Complex.cpow_def_of_ne_zero hw, Complex.exp_re]
      apply mul_nonneg (Real.exp_nonneg _)
      apply Real.cos_nonneg_of_mem_Icc
      have h1 := Complex.neg_pi_lt_arg w
      have h2 := Complex.arg_le_pi w
      have e : (Complex.log w * (1 / 2 : ℂ)).im = w.arg / 2 := by
        rw [Complex.mul_im]
        simp [Complex.log_im]
        ring
      rw [e]
      constructor <;> linarith

/-! ## C16: direction -/

/-- Smallest positive double; `pairMagDirFrom` gives a direction above it. -/
noncomputable def tiny : ℝ := 1 / 2 ^ 1074

theorem tiny_pos : 0 < tiny := by unfold tiny; positivity

theorem pairMagDir_above (t : Ty) (x : t.D ℝ) (h : tiny < length t x) :
    pairMagDirTy t (lift t x) = (val (length t x), lift t (smulTy t (1 / length t x) x)) := by
  have hp : length t x ≠ 0 := (tiny_pos.trans h).ne'
  unfold pairMagDirTy
  simp only [C13_magnitude, denormMin_def]
  have h' : Dbl.lt (val (1 / 2 ^ 1074)) (val (length t x)) = true := (lt_val _ _).2 h
  rw [if_pos h', XR.one_def, val_div _ _ hp, smul_lift]

theorem pairMagDir_below (t : Ty) (x : t.D ℝ) (h : length t x ≤ tiny) :
    pairMagDirTy t (lift t x) = (val (length t x), gnullTy Dbl.nan t) := by
  unfold pairMagDirTy
  simp only [C13_magnitude, denormMin_def]
  rw [if_neg]
  rw [lt_val, not_lt]; exact h

/-- **C16.** The first member of the pair is always the magnitude. -/
theorem C16_pair_fst (t : Ty) (x : t.D ℝ) :
    (pairMagDirTy t (lift t x)).1 = magnitudeTy t (lift t x) := by
  unfold pairMagDirTy
  simp only
  split <;> rfl

/-- **C16.** The second member is the direction, of unit magnitude. -/
theorem C16_unit (t : Ty) (x : t.D ℝ) (h : tiny < length t x) :
    magnitudeTy t (directionTy t (lift t x)) = 1 := by
  have hp : 0 < length t x := tiny_pos.trans h
  unfold directionTy
  rw [pairMagDir_above t x h]
  simp only
  rw [C13_magnitude, length_smul, XR.one_def, val_inj, abs_of_pos (by positivity)]
  field_simp

/-- **C16.** Magnitude times direction is the original. -/
theorem C16_product (t : Ty) (x : t.D ℝ) (h : tiny < length t x) :
    smulTy t (magnitudeTy t (lift t x)) (directionTy t (lift t x)) = lift t x := by
  have hp : length t x ≠ 0 := (tiny_pos.trans h).ne'
  unfold directionTy
  rw [pairMagDir_above t x h, C13_magnitude, smul_lift]
  congr 1
  have e : ∀ r : ℝ, r ≠ 0 → smulTy t r (smulTy t (1 / r) x) = x := by
    intro r hr
    have key : ∀ c : ℝ, r * (1 / r * c) = c := by intro c; field_simp
    cases t
    case dub => exact key x
    all_goals (ext <;> simp only [engabra, key])
  exact e _ hp

/-- **C16.** At or below the smallest positive double (in particular for zero) the direction is
`null`, which is not valid. -/
theorem C16_null (t : Ty) (x : t.D ℝ) (h : length t x ≤ tiny) :
    directionTy t (lift t x) = gnullTy Dbl.nan t ∧
    isValidTy t (directionTy t (lift t x)) = false := by
  have e : directionTy t (lift t x) = gnullTy Dbl.nan t := by
    unfold directionTy; rw [pairMagDir_below t x h]
  refine ⟨e, ?_⟩
  rw [e]
  cases t <;> rfl

/-- **C16.** Direction does not depend on a positive scale factor. -/
theorem C16_scale (t : Ty) (s : ℝ) (hs : 0 < s) (x : t.D ℝ) (h : tiny < length t x)
    (h' : tiny < s * length t x) :
    directionTy t (lift t (smulTy t s x)) = directionTy t (lift t x) := by
  have hp : length t x ≠ 0 := (tiny_pos.trans h).ne'
  have hl : length t (smulTy t s x) = s * length t x := by rw [length_smul, abs_of_pos hs]
  unfold directionTy
  rw [pairMagDir_above t x h, pairMagDir_above t _ (by rw [hl]; exact h'), hl]
  simp only
  congr 1
  generalize length t x = r at *
  have key : ∀ c : ℝ, 1 / (s * r) * (s * c) = 1 / r * c := by
    intro c; field_simp
  cases t
  case dub => exact key x
  all_goals (ext <;> simp only [engabra, key])

/-- ... and a negative one flips it. -/
theorem C16_neg (t : Ty) (x : t.D ℝ) (h : tiny < length t x) :
    directionTy t (lift t (negTy t x)) = negTy t (directionTy t (lift t x)) := by
  have hl : length t (negTy t x) = length t x := by
    rw [length_eq, length_eq, (C13_magSq_unary t x).2.2.2.1]
  unfold directionTy
  rw [pairMagDir_above t x h, pairMagDir_above t _ (by rw [hl]; exact h), hl, neg_lift]
  simp only
  congr 1
  generalize length t x = r at *
  have key : ∀ c : ℝ, 1 / r * -c = -(1 / r * c) := by intro c; ring
  cases t
  case dub => exact key x
  all_goals (ext <;> simp only [engabra, key])

/-- Non-triviality: a 3-4-0 vector. -/
example : length .vec (⟨⟨3, 4, 0⟩⟩ : Vector ℝ) = 5 := by
  rw [length]
  have : ((comps .vec (⟨⟨3, 4, 0⟩⟩ : Vector ℝ)).map fun c => c ^ 2).sum = 5 ^ 2 := by
    simp [comps]; norm_num
  rw [this, Real.sqrt_sq (by norm_num)]
example : tiny < 5 := by
  unfold tiny
  have : (1 : ℝ) / 2 ^ 1074 ≤ 1 := by
    rw [div_le_one (by positivity)]; exact one_le_pow₀ (by norm_num)
  linarith

/-- The hypothesis of `C16_unit` and of `C16_product` for the vector `(3, 4, 0)`, of length 5, and that
of `C16_null` for the zero bivector. -/
example : tiny < length .vec (⟨⟨3, 4, 0⟩⟩ : Vector ℝ) ∧ length .biv (gzero : BiVector ℝ) ≤ tiny := by
  constructor
  · have h5 : length .vec (⟨⟨3, 4, 0⟩⟩ : Vector ℝ) = 5 := by
      rw [length]
      have : ((comps .vec (⟨⟨3, 4, 0⟩⟩ : Vector ℝ)).map fun c => c ^ 2).sum = 5 ^ 2 := by
        simp [comps]; norm_num
      rw [this, Real.sqrt_sq (by norm_num)]
    rw [h5]
    unfold tiny
    have : (1 : ℝ) / 2 ^ 1074 ≤ 1 := by
      rw [div_le_one (by positivity)]; exact one_le_pow₀ (by norm_num)
    linarith
  · have : length .biv (gzero : BiVector ℝ) = 0 := by simp [length, comps, gzero]
    rw [this]; exact tiny_pos.le

end Engabra
