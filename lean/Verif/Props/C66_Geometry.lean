import Verif.Props.C65_Solve
import Mathlib.Analysis.InnerProductSpace.Projection.Reflection
import Mathlib.Geometry.Euclidean.Angle.Unoriented.Basic
import Mathlib.MeasureTheory.Measure.Haar.InnerProductSpace
import Mathlib.MeasureTheory.Measure.Lebesgue.EqHaar

/-! # C66: what products mean in Euclidean space

The points of Euclidean 3-space are those of Mathlib, and so are orthogonal projections,
reflections, angles and volume. -/

namespace Engabra

open XR InnerProductGeometry
open scoped RealInnerProductSpace

/-- Euclidean 3-space. -/
abbrev E3 := EuclideanSpace ℝ (Fin 3)

/-- The `Vector` with the coordinates of a point. -/
noncomputable def vecOf (p : E3) : Vector XR := ⟨⟨val (p 0), val (p 1), val (p 2)⟩⟩
/-- The `BiVector` whose dual is the vector `n`: the oriented plane with normal `n`. -/
noncomputable def planeOf (n : E3) : BiVector XR := ⟨⟨val (n 0), val (n 1), val (n 2)⟩⟩
/-- A `Scalar`. -/
def scaOf (s : ℝ) : Scalar XR := ⟨⟨val s⟩⟩
/-- A `TriVector`. -/
def triOf (s : ℝ) : TriVector XR := ⟨⟨val s⟩⟩

theorem planeOf_dual (n : E3) : (dual (vecOf n) : BiVector XR) = planeOf n := rfl

theorem inner_E3 (a b : E3) : ⟪a, b⟫ = a 0 * b 0 + a 1 * b 1 + a 2 * b 2 := by
  simp [PiLp.inner_apply, Fin.sum_univ_three, mul_comm]

theorem normSq_E3 (a : E3) : ‖a‖ ^ 2 = a 0 * a 0 + a 1 * a 1 + a 2 * a 2 := by
  rw [← real_inner_self_eq_norm_sq, inner_E3]

theorem ne_E3 {a : E3} (h : a ≠ 0) : a 0 * a 0 + a 1 * a 1 + a 2 * a 2 ≠ 0 := by
  rw [← normSq_E3]; positivity

/-- The inverse of a non-zero vector. -/
theorem inverse_vecOf (a : E3) (h : a ≠ 0) :
    inverseBlade (vecOf a) = vecOf ((1 / (a 0 * a 0 + a 1 * a 1 + a 2 * a 2)) • a) := by
  have hm := ne_E3 h
  have e := inverseTy_eq .vec (⟨⟨a 0, a 1, a 2⟩⟩ : Vector ℝ) _ rfl
    (by simpa [magSqTy, engabra] using hm) (by simp)
  refine (Option.some.inj e).trans ?_
  simp [lift, mapTy, vecOf, engabra, magSqTy, smulTy, reverseTy]

theorem inverse_planeOf (a : E3) (h : a ≠ 0) :
    inverseBlade (planeOf a) = planeOf ((-(1 / (a 0 * a 0 + a 1 * a 1 + a 2 * a 2))) • a) := by
  have hm := ne_E3 h
  have e := inverseTy_eq .biv (⟨⟨a 0, a 1, a 2⟩⟩ : BiVector ℝ) _ rfl
    (by simpa [magSqTy, engabra] using hm) (by simp)
  refine (Option.some.inj e).trans ?_
  simp [lift, mapTy, planeOf, engabra, magSqTy, smulTy, reverseTy]

theorem proj_E3 (a v : E3) : (Submodule.span ℝ {a}).starProjection v
    = ((a 0 * v 0 + a 1 * v 1 + a 2 * v 2) * (1 / (a 0 * a 0 + a 1 * a 1 + a 2 * a 2))) • a := by
  rw [Submodule.starProjection_singleton, inner_E3, ← normSq_E3]
  simp [div_eq_mul_inv]


theorem orth_E3 (a v : E3) : (Submodule.span ℝ {a})ᗮ.starProjection v
    = v - ((a 0 * v 0 + a 1 * v 1 + a 2 * v 2) * (1 / (a 0 * a 0 + a 1 * a 1 + a 2 * a 2))) • a := by
  rw [Submodule.starProjection_orthogonal_val, proj_E3]

theorem refl_E3 (a v : E3) : (Submodule.span ℝ {a}).reflection v
    = (2 * ((a 0 * v 0 + a 1 * v 1 + a 2 * v 2) * (1 / (a 0 * a 0 + a 1 * a 1 + a 2 * a 2)))) • a - v := by
  rw [Submodule.reflection_apply, proj_E3]; module

/-- The identity behind all of them. -/
theorem unit_E3 {a : E3} (h : a ≠ 0) :
    (a 0 * a 0 + a 1 * a 1 + a 2 * a 2) * (1 / (a 0 * a 0 + a 1 * a 1 + a 2 * a 2)) = 1 := by
  exact mul_one_div_cancel (ne_E3 h)

/-- The coordinates of a point as a real `Vector`. -/
noncomputable def rvec (p : E3) : Vector ℝ := ⟨⟨p 0, p 1, p 2⟩⟩
noncomputable def rbiv (p : E3) : BiVector ℝ := ⟨⟨p 0, p 1, p 2⟩⟩

/-- Compute both sides over the reals. -/
macro "geo" : tactic => `(tactic|
  simp only [rvec, rbiv, engabra,
    PiLp.smul_apply, PiLp.sub_apply, PiLp.neg_apply, smul_eq_mul, Vector.mk.injEq, A3.mk.injEq, A1.mk.injEq,
    ImSpin.mk.injEq, TriVector.mk.injEq, Scalar.mk.injEq, Spinor.mk.injEq, BiVector.mk.injEq])

/-- **C66.** The scalar part of `v*a` times `inverse(a)` is the orthogonal projection of `v` onto
the line of `a`. -/
theorem C66_project_line (a v : E3) (h : a ≠ 0) :
    (vecOf v * vecOf a : Spinor XR).theSca * inverseBlade (vecOf a)
      = vecOf ((Submodule.span ℝ {a}).starProjection v) := by
  rw [inverse_vecOf a h, proj_E3]
  generalize 1 / (a 0 * a 0 + a 1 * a 1 + a 2 * a 2) = r at *
  suffices k : ((rvec v * rvec a : Spinor ℝ).theSca * rvec (r • a) : Vector ℝ)
      = (rvec (((a 0 * v 0 + a 1 * v 1 + a 2 * v 2) * r) • a)) from
    congrArg (lift .vec) k
  geo
  refine ⟨?_, ?_, ?_⟩ <;> ring

/-- **C66.** The bivector part of `v*a` times `inverse(a)` is a vector: what is left of `v` when
its projection onto the line of `a` is removed. -/
theorem C66_reject_line (a v : E3) (h : a ≠ 0) :
    (vecOf v * vecOf a : Spinor XR).theBiv * inverseBlade (vecOf a)
      = (⟨vecOf ((Submodule.span ℝ {a})ᗮ.starProjection v), triOf 0⟩ : ImSpin XR) := by
  rw [inverse_vecOf a h, orth_E3]
  have hu := unit_E3 h
  generalize 1 / (a 0 * a 0 + a 1 * a 1 + a 2 * a 2) = r at *
  suffices k : ((rvec v * rvec a : Spinor ℝ).theBiv * rvec (r • a) : ImSpin ℝ)
      = (⟨rvec (v - ((a 0 * v 0 + a 1 * v 1 + a 2 * v 2) * r) • a), ⟨⟨0⟩⟩⟩ : ImSpin ℝ) from
    congrArg (lift .imsp) k
  geo
  refine ⟨⟨?_, ?_, ?_⟩, ?_⟩
  · linear_combination (v 0) * hu
  · linear_combination (v 1) * hu
  · linear_combination (v 2) * hu
  · ring

/-- **C66.** `-a*v*inverse(a)` is the mirror image of `v` in the plane through the origin
orthogonal to `a`. -/
theorem C66_reflect (a v : E3) (h : a ≠ 0) :
    -(vecOf a * vecOf v * inverseBlade (vecOf a) : ImSpin XR)
      = (⟨vecOf ((Submodule.span ℝ {a})ᗮ.reflection v), triOf 0⟩ : ImSpin XR) := by
  rw [inverse_vecOf a h, Submodule.reflection_orthogonal_apply, refl_E3]
  have hu := unit_E3 h
  generalize 1 / (a 0 * a 0 + a 1 * a 1 + a 2 * a 2) = r at *
  suffices k : (-(rvec a * rvec v * rvec (r • a)) : ImSpin ℝ)
      = (⟨rvec (-(((2 * ((a 0 * v 0 + a 1 * v 1 + a 2 * v 2) * r)) • a - v))), ⟨⟨0⟩⟩⟩ : ImSpin ℝ) from
    congrArg (lift .imsp) k
  geo
  refine ⟨⟨?_, ?_, ?_⟩, ?_⟩
  · linear_combination (v 0) * hu
  · linear_combination (v 1) * hu
  · linear_combination (v 2) * hu
  · ring

/-- **C66.** `a*v*inverse(a)` is `v` turned by half a turn about the line of `a`. -/
theorem C66_half_turn (a v : E3) (h : a ≠ 0) :
    (vecOf a * vecOf v * inverseBlade (vecOf a) : ImSpin XR)
      = (⟨vecOf ((Submodule.span ℝ {a}).reflection v), triOf 0⟩ : ImSpin XR) := by
  rw [inverse_vecOf a h, refl_E3]
  have hu := unit_E3 h
  generalize 1 / (a 0 * a 0 + a 1 * a 1 + a 2 * a 2) = r at *
  suffices k : (rvec a * rvec v * rvec (r • a) : ImSpin ℝ)
      = (⟨rvec ((2 * ((a 0 * v 0 + a 1 * v 1 + a 2 * v 2) * r)) • a - v), ⟨⟨0⟩⟩⟩ : ImSpin ℝ) from
    congrArg (lift .imsp) k
  geo
  refine ⟨⟨?_, ?_, ?_⟩, ?_⟩
  · linear_combination -(v 0) * hu
  · linear_combination -(v 1) * hu
  · linear_combination -(v 2) * hu
  · ring

/-- **C66.** For a bivector `B` with normal `n`: the vector part of `v*B` times `inverse(B)` is the
orthogonal projection of `v` onto the plane of `B`. -/
theorem C66_project_plane (n v : E3) (h : n ≠ 0) :
    (vecOf v * planeOf n : ImSpin XR).theVec * inverseBlade (planeOf n)
      = (⟨vecOf ((Submodule.span ℝ {n})ᗮ.starProjection v), triOf 0⟩ : ImSpin XR) := by
  rw [inverse_planeOf n h, orth_E3]
  have hu := unit_E3 h
  generalize 1 / (n 0 * n 0 + n 1 * n 1 + n 2 * n 2) = r at *
  suffices k : ((rvec v * rbiv n : ImSpin ℝ).theVec * rbiv ((-r) • n) : ImSpin ℝ)
      = (⟨rvec (v - ((n 0 * v 0 + n 1 * v 1 + n 2 * v 2) * r) • n), ⟨⟨0⟩⟩⟩ : ImSpin ℝ) from
    congrArg (lift .imsp) k
  geo
  refine ⟨⟨?_, ?_, ?_⟩, ?_⟩
  · linear_combination (v 0) * hu
  · linear_combination (v 1) * hu
  · linear_combination (v 2) * hu
  · ring

/-- **C66.** The trivector part of `v*B` times `inverse(B)` is the component of `v` along the
normal. -/
theorem C66_reject_plane (n v : E3) (h : n ≠ 0) :
    (vecOf v * planeOf n : ImSpin XR).theTri * inverseBlade (planeOf n)
      = vecOf ((Submodule.span ℝ {n}).starProjection v) := by
  rw [inverse_planeOf n h, proj_E3]
  generalize 1 / (n 0 * n 0 + n 1 * n 1 + n 2 * n 2) = r at *
  suffices k : ((rvec v * rbiv n : ImSpin ℝ).theTri * rbiv ((-r) • n) : Vector ℝ)
      = (rvec (((n 0 * v 0 + n 1 * v 1 + n 2 * v 2) * r) • n)) from
    congrArg (lift .vec) k
  geo
  refine ⟨?_, ?_, ?_⟩ <;> ring

/-- **C66.** `-B*v*inverse(B)` is the mirror image of `v` in the plane of `B`. -/
theorem C66_reflect_plane (n v : E3) (h : n ≠ 0) :
    -(planeOf n * vecOf v * inverseBlade (planeOf n) : ImSpin XR)
      = (⟨vecOf ((Submodule.span ℝ {n})ᗮ.reflection v), triOf 0⟩ : ImSpin XR) := by
  rw [inverse_planeOf n h, Submodule.reflection_orthogonal_apply, refl_E3]
  have hu := unit_E3 h
  generalize 1 / (n 0 * n 0 + n 1 * n 1 + n 2 * n 2) = r at *
  suffices k : (-(rbiv n * rvec v * rbiv ((-r) • n)) : ImSpin ℝ)
      = (⟨rvec (-(((2 * ((n 0 * v 0 + n 1 * v 1 + n 2 * v 2) * r)) • n - v))), ⟨⟨0⟩⟩⟩ : ImSpin ℝ) from
    congrArg (lift .imsp) k
  geo
  refine ⟨⟨?_, ?_, ?_⟩, ?_⟩
  · linear_combination (v 0) * hu
  · linear_combination (v 1) * hu
  · linear_combination (v 2) * hu
  · ring

/-- **C66.** The square of a vector is the scalar `‖a‖²`, the square of a bivector the scalar
`-‖n‖²`, and the square of a trivector the scalar `-s²`. -/
theorem C66_squares (a : E3) (s : ℝ) :
    vecOf a * vecOf a = (⟨scaOf (‖a‖ ^ 2), planeOf 0⟩ : Spinor XR) ∧
    planeOf a * planeOf a = (⟨scaOf (-‖a‖ ^ 2), planeOf 0⟩ : Spinor XR) ∧
    triOf s * triOf s = scaOf (-s ^ 2) := by
  rw [normSq_E3]
  refine ⟨?_, ?_, ?_⟩
  · suffices k : (rvec a * rvec a : Spinor ℝ)
      = ⟨⟨⟨a 0 * a 0 + a 1 * a 1 + a 2 * a 2⟩⟩, rbiv 0⟩ from congrArg (lift .spin) k
    geo
    refine ⟨?_, ?_, ?_, ?_⟩ <;> simp <;> ring
  · suffices k : (rbiv a * rbiv a : Spinor ℝ)
      = ⟨⟨⟨-(a 0 * a 0 + a 1 * a 1 + a 2 * a 2)⟩⟩, rbiv 0⟩ from congrArg (lift .spin) k
    geo
    refine ⟨?_, ?_, ?_, ?_⟩ <;> simp <;> ring
  · suffices k : ((⟨⟨s⟩⟩ : TriVector ℝ) * (⟨⟨s⟩⟩ : TriVector ℝ) : Scalar ℝ) = ⟨⟨-s ^ 2⟩⟩ from
      congrArg (lift .sca) k
    geo
    ring

/-- **C66.** The product of two vectors: the scalar part is `‖a‖ ‖b‖ cos θ`, with `θ` the angle
between them, and the magnitude of the bivector part is `‖a‖ ‖b‖ sin θ`, the area of the
parallelogram they span. -/
theorem C66_angle (a b : E3) :
    (vecOf a * vecOf b : Spinor XR).theSca = scaOf (‖a‖ * ‖b‖ * Real.cos (angle a b)) ∧
    magnitude (T := BiVector XR) (vecOf a * vecOf b : Spinor XR).theBiv
      = val (‖a‖ * ‖b‖ * Real.sin (angle a b)) := by
  constructor
  · rw [mul_comm (‖a‖ * ‖b‖), cos_angle_mul_norm_mul_norm, inner_E3]
    suffices k : (rvec a * rvec b : Spinor ℝ).theSca = ⟨⟨a 0 * b 0 + a 1 * b 1 + a 2 * b 2⟩⟩ from
      congrArg (lift .sca) k
    geo
    ring
  · rw [mul_comm (‖a‖ * ‖b‖), sin_angle_mul_norm_mul_norm, inner_E3, inner_E3, inner_E3]
    have := C13_magnitude .biv (rvec a * rvec b : Spinor ℝ).theBiv
    refine this.trans ?_
    refine congrArg val ?_
    unfold length
    refine congrArg Real.sqrt ?_
    simp [comps]
    geo
    ring

/-- **C66.** A point lies in the plane spanned by two independent vectors exactly when its product
with the bivector part of their product has no trivector part. -/
theorem C66_plane (a b x : E3) (h : LinearIndependent ℝ ![a, b]) :
    (vecOf x * (vecOf a * vecOf b : Spinor XR).theBiv : ImSpin XR).theTri = triOf 0
      ↔ x ∈ Submodule.span ℝ {a, b} := by
  obtain ⟨d, hd⟩ : ∃ d : ℝ, d = x 0 * (a 1 * b 2 - a 2 * b 1) + x 1 * (a 2 * b 0 - a 0 * b 2)
    + x 2 * (a 0 * b 1 - a 1 * b 0) := ⟨_, rfl⟩
  have key : (vecOf x * (vecOf a * vecOf b : Spinor XR).theBiv : ImSpin XR).theTri = triOf d := by
    suffices k : (rvec x * (rvec a * rvec b : Spinor ℝ).theBiv : ImSpin ℝ).theTri = ⟨⟨d⟩⟩ from
      congrArg (lift .tri) k
    rw [hd]; geo; ring
  have e0 : triOf d = triOf 0 ↔ d = 0 := by simp [triOf]
  rw [key, e0, Submodule.mem_span_pair]
  constructor
  · intro h0
    rw [LinearIndependent.pair_iff] at h
    obtain ⟨m, hm⟩ : ∃ m : ℝ, m = (a 1 * b 2 - a 2 * b 1) ^ 2 + (a 2 * b 0 - a 0 * b 2) ^ 2
      + (a 0 * b 1 - a 1 * b 0) ^ 2 := ⟨_, rfl⟩
    have hm0 : m ≠ 0 := by
      intro h1
      have z0 : a 1 * b 2 - a 2 * b 1 = 0 := by nlinarith only [hm, h1, sq_nonneg (a 1 * b 2 - a 2 * b 1), sq_nonneg (a 2 * b 0 - a 0 * b 2), sq_nonneg (a 0 * b 1 - a 1 * b 0)]
      have z1 : a 2 * b 0 - a 0 * b 2 = 0 := by nlinarith only [hm, h1, sq_nonneg (a 1 * b 2 - a 2 * b 1), sq_nonneg (a 2 * b 0 - a 0 * b 2), sq_nonneg (a 0 * b 1 - a 1 * b 0)]
      have z2 : a 0 * b 1 - a 1 * b 0 = 0 := by nlinarith only [hm, h1, sq_nonneg (a 1 * b 2 - a 2 * b 1), sq_nonneg (a 2 * b 0 - a 0 * b 2), sq_nonneg (a 0 * b 1 - a 1 * b 0)]
      have hb : b ≠ 0 := by
        rintro rfl
        exact one_ne_zero (h 0 1 (by simp)).2
      refine ne_E3 hb (h (b 0 * b 0 + b 1 * b 1 + b 2 * b 2) (-(a 0 * b 0 + a 1 * b 1 + a 2 * b 2)) ?_).1
      ext i
      fin_cases i <;> simp
      · linear_combination (b 1) * z2 - (b 2) * z1
      · linear_combination (b 2) * z0 - (b 0) * z2
      · linear_combination (b 0) * z1 - (b 1) * z0
    refine ⟨((x 1 * b 2 - x 2 * b 1) * (a 1 * b 2 - a 2 * b 1) + (x 2 * b 0 - x 0 * b 2) * (a 2 * b 0 - a 0 * b 2)
      + (x 0 * b 1 - x 1 * b 0) * (a 0 * b 1 - a 1 * b 0)) / m,
      ((a 1 * x 2 - a 2 * x 1) * (a 1 * b 2 - a 2 * b 1) + (a 2 * x 0 - a 0 * x 2) * (a 2 * b 0 - a 0 * b 2)
      + (a 0 * x 1 - a 1 * x 0) * (a 0 * b 1 - a 1 * b 0)) / m, ?_⟩
    have hd' := hd.symm.trans h0
    ext i
    fin_cases i <;> simp <;> field_simp <;> rw [hm]
    · linear_combination -(a 1 * b 2 - a 2 * b 1) * hd'
    · linear_combination -(a 2 * b 0 - a 0 * b 2) * hd'
    · linear_combination -(a 0 * b 1 - a 1 * b 0) * hd'
  · rintro ⟨s, t, rfl⟩
    rw [hd]
    simp
    ring

/-- **C66.** The trivector part of `a*b*c` is the determinant of the three vectors, so its absolute
value is the volume of the parallelepiped they span. -/
theorem C66_volume (a b c : E3) :
    (vecOf a * vecOf b * vecOf c : ImSpin XR).theTri
      = triOf (Matrix.det (.of ![a, b, c])) ∧
    MeasureTheory.volume (parallelepiped ![a, b, c])
      = ENNReal.ofReal |Matrix.det (.of ![(a : Fin 3 → ℝ), b, c])| := by
  constructor
  · suffices k : (rvec a * rvec b * rvec c : ImSpin ℝ).theTri
      = ⟨⟨Matrix.det (.of ![(a : Fin 3 → ℝ), b, c])⟩⟩ from congrArg (lift .tri) k
    rw [Matrix.det_fin_three]
    geo
    simp
    ring
  · rw [← (EuclideanSpace.basisFun (Fin 3) ℝ).addHaar_eq_volume, MeasureTheory.Measure.addHaar_parallelepiped,
      Module.Basis.det_apply]
    refine congrArg (fun t => ENNReal.ofReal |t|) ?_
    rw [← Matrix.det_transpose]
    refine congrArg Matrix.det ?_
    ext i j
    fin_cases i <;> simp [Module.Basis.toMatrix_apply]

/-- Hypotheses are met: `3 e1 - 4 e3` is not zero, and it is independent of `e2`. -/
example : (!₂[3, 0, -4] : E3) ≠ 0 ∧ LinearIndependent ℝ ![(!₂[3, 0, -4] : E3), !₂[0, 1, 0]] := by
  constructor
  · intro h
    have := congrArg (fun v : E3 => v 0) h
    norm_num at this
  · rw [LinearIndependent.pair_iff]
    intro s t h
    have h0 := congrArg (fun v : E3 => v 0) h
    have h1 := congrArg (fun v : E3 => v 1) h
    simp at h0 h1
    exact ⟨h0, h1⟩

end Engabra
