import Verif.Props.C66_Geometry
import Mathlib.Analysis.InnerProductSpace.Projection.FiniteDimensional

/-! # C66, continued: every isometry and every rotation can be written with the library -/

namespace Engabra

open XR Module
open scoped RealInnerProductSpace

/-- What a user writes to reflect `w` in the plane orthogonal to `a`. -/
noncomputable def mirror (a w : Vector XR) : Vector XR :=
  (-(a * w * inverseBlade a : ImSpin XR)).theVec

theorem mirror_vecOf (a v : E3) (h : a ≠ 0) :
    mirror (vecOf a) (vecOf v) = vecOf ((Submodule.span ℝ {a})ᗮ.reflection v) :=
  congrArg ImSpin.theVec (C66_reflect a v h)

theorem reflection_zero (v : E3) : (Submodule.span ℝ {(0 : E3)})ᗮ.reflection v = v := by
  rw [Submodule.reflection_orthogonal_apply, refl_E3]; simp

/-- Leaving out the zero vectors changes nothing. -/
theorem prod_filter (l : List E3) : ∃ m : List E3, (∀ a ∈ m, a ≠ 0) ∧ m.length ≤ l.length ∧
    (m.map fun v => (Submodule.span ℝ {v})ᗮ.reflection).prod
      = (l.map fun v => (Submodule.span ℝ {v})ᗮ.reflection).prod := by
  induction l with
  | nil => exact ⟨[], by simp, le_rfl, rfl⟩
  | cons a l ih =>
    obtain ⟨m, h0, hl, hp⟩ := ih
    by_cases ha : a = 0
    · refine ⟨m, h0, by simp; omega, ?_⟩
      subst ha
      rw [List.map_cons, List.prod_cons, hp]
      ext1 v
      rw [LinearIsometryEquiv.coe_mul, Function.comp_apply, reflection_zero]
    · refine ⟨a :: m, ?_, by simpa using hl, by rw [List.map_cons, List.prod_cons, hp, List.map_cons,
        List.prod_cons]⟩
      intro b hb
      rcases List.mem_cons.1 hb with rfl | hb
      · exact ha
      · exact h0 b hb

theorem finrank_E3 : finrank ℝ E3 = 3 := by simp

/-- Cartan and Dieudonné, without zero vectors. -/
theorem reflections_E3 (φ : E3 ≃ₗᵢ[ℝ] E3) : ∃ l : List E3, (∀ a ∈ l, a ≠ 0) ∧ l.length ≤ 3 ∧
    φ = (l.map fun v => (Submodule.span ℝ {v})ᗮ.reflection).prod := by
  obtain ⟨l, hl, hp⟩ := φ.reflections_generate_dim
  obtain ⟨m, h0, hm, hq⟩ := prod_filter l
  exact ⟨m, h0, hm.trans (hl.trans finrank_E3.le), hp.trans hq.symm⟩

theorem foldr_mirror (l : List E3) (h : ∀ a ∈ l, a ≠ 0) (v : E3) :
    l.foldr (fun a w => mirror (vecOf a) w) (vecOf v)
      = vecOf ((l.map fun v => (Submodule.span ℝ {v})ᗮ.reflection).prod v) := by
  induction l with
  | nil => rfl
  | cons a l ih =>
    rw [List.foldr_cons, ih fun b hb => h b (List.mem_cons_of_mem _ hb),
      mirror_vecOf a _ (h a (List.mem_cons_self ..))]
    rfl

/-- **C66.** Every isometry of 3-space fixing the origin is computed by at most three of these
reflections, in non-zero vectors. -/
theorem C66_every_isometry (φ : E3 ≃ₗᵢ[ℝ] E3) :
    ∃ l : List E3, (∀ a ∈ l, a ≠ 0) ∧ l.length ≤ 3 ∧
      ∀ v, l.foldr (fun a w => mirror (vecOf a) w) (vecOf v) = vecOf (φ v) := by
  obtain ⟨l, h0, hl, hp⟩ := reflections_E3 φ
  exact ⟨l, h0, hl, fun v => by rw [foldr_mirror l h0, ← hp]⟩

theorem det_mirror (a : E3) (h : a ≠ 0) :
    LinearMap.det (((Submodule.span ℝ {a})ᗮ.reflection).toLinearEquiv : E3 →ₗ[ℝ] E3) = -1 := by
  have := (Submodule.span ℝ {a})ᗮ.det_reflection
  rw [Submodule.orthogonal_orthogonal, finrank_span_singleton h, pow_one] at this
  exact this

theorem det_comp (φ ψ : E3 ≃ₗᵢ[ℝ] E3) :
    LinearMap.det ((φ * ψ).toLinearEquiv : E3 →ₗ[ℝ] E3)
      = LinearMap.det (φ.toLinearEquiv : E3 →ₗ[ℝ] E3) * LinearMap.det (ψ.toLinearEquiv : E3 →ₗ[ℝ] E3) :=
  LinearMap.det_comp _ _

/-- The mirror image in coordinates. -/
theorem mirror_coord (a v : E3) (h : a ≠ 0) (i : Fin 3) :
    (Submodule.span ℝ {a})ᗮ.reflection v i = 1 / (a 0 * a 0 + a 1 * a 1 + a 2 * a 2) *
      ((a 0 * a 0 + a 1 * a 1 + a 2 * a 2) * v i - 2 * (a 0 * v 0 + a 1 * v 1 + a 2 * v 2) * a i) := by
  rw [Submodule.reflection_orthogonal_apply, refl_E3]
  have hu := unit_E3 h
  generalize 1 / (a 0 * a 0 + a 1 * a 1 + a 2 * a 2) = r at *
  simp only [PiLp.neg_apply, PiLp.sub_apply, PiLp.smul_apply, smul_eq_mul]
  linear_combination -(v i) * hu

theorem sandwich_scale (c : ℝ) (T : Spinor ℝ) (v : Vector ℝ) :
    (c * T) * v * reverse (c * T) = ((c * c) * (T * v * reverse T : ImSpin ℝ) : ImSpin ℝ) := by
  mv_ring

/-- The unit spinor of two reflections, first in `a`, then in `b`. -/
theorem two_mirrors (a b : E3) (ha : a ≠ 0) (hb : b ≠ 0) :
    ∃ S : Spinor ℝ, magSq S = 1 ∧ ∀ v : E3, S * rvec v * reverse S
      = (⟨rvec ((Submodule.span ℝ {b})ᗮ.reflection ((Submodule.span ℝ {a})ᗮ.reflection v)), gzero⟩
        : ImSpin ℝ) := by
  obtain ⟨r, hr⟩ : ∃ r : ℝ, r = 1 / (a 0 * a 0 + a 1 * a 1 + a 2 * a 2) := ⟨_, rfl⟩
  obtain ⟨s, hs⟩ : ∃ s : ℝ, s = 1 / (b 0 * b 0 + b 1 * b 1 + b 2 * b 2) := ⟨_, rfl⟩
  have e := fun v i => mirror_coord a v ha i
  have e' := fun v i => mirror_coord b v hb i
  have hua := unit_E3 ha
  have hub := unit_E3 hb
  rw [← hr] at hua
  rw [← hs] at hub
  simp only [← hr] at e
  simp only [← hs] at e'
  have hra : 0 ≤ r := by rw [hr, ← normSq_E3]; positivity
  have hrb : 0 ≤ s := by rw [hs, ← normSq_E3]; positivity
  have hc : √(r * s) * √(r * s) = r * s := Real.mul_self_sqrt (mul_nonneg hra hrb)
  generalize √(r * s) = c at *
  refine ⟨c * (rvec b * rvec a : Spinor ℝ), ?_, fun v => ?_⟩
  · have : magSq (c * (rvec b * rvec a : Spinor ℝ)) = (c * c) * ((a 0 * a 0 + a 1 * a 1 + a 2 * a 2)
        * (b 0 * b 0 + b 1 * b 1 + b 2 * b 2)) := by
      geo; ring
    rw [this, hc]
    linear_combination hub + ((b 0 * b 0 + b 1 * b 1 + b 2 * b 2) * s) * hua
  · rw [sandwich_scale, hc]
    simp only [rvec, e', e v]
    geo
    refine ⟨⟨?_, ?_, ?_⟩, ?_⟩ <;> ring

/-- **C66.** Every rotation of 3-space about the origin is `S*v*reverse(S)` for a spinor `S` of
magnitude one. -/
theorem C66_every_rotation (φ : E3 ≃ₗᵢ[ℝ] E3)
    (h : LinearMap.det (φ.toLinearEquiv : E3 →ₗ[ℝ] E3) = 1) :
    ∃ S : Spinor ℝ, magSq S = 1 ∧ ∀ v : E3, S * rvec v * reverse S = (⟨rvec (φ v), gzero⟩ : ImSpin ℝ) := by
  obtain ⟨l, h0, hl, rfl⟩ := reflections_E3 φ
  match l, hl with
  | [], _ => exact ⟨gone, by simp [engabra], fun v => by simp; geo; simp⟩
  | [a], _ =>
    have ha := h0 a (by simp)
    simp [det_mirror a ha] at h
    norm_num at h
  | [b, a], _ =>
    obtain ⟨S, h1, h2⟩ := two_mirrors a b (h0 a (by simp)) (h0 b (by simp))
    refine ⟨S, h1, fun v => ?_⟩
    rw [h2]; simp
  | [a, b, c], _ =>
    have ha := h0 a (by simp)
    have hb := h0 b (by simp)
    have hc := h0 c (by simp)
    rw [List.map_cons, List.prod_cons, List.map_cons, List.prod_cons, List.map_cons, List.prod_cons,
      List.map_nil, List.prod_nil, mul_one, det_comp, det_comp, det_mirror a ha, det_mirror b hb,
      det_mirror c hc] at h
    norm_num at h

/-- **C66.** The spinor is determined up to sign. -/
theorem C66_rotation_unique (S T : Spinor ℝ) (hS : magSq S = 1) (hT : magSq T = 1)
    (h : ∀ v : Vector ℝ, S * v * reverse S = (T * v * reverse T : ImSpin ℝ)) : S = T ∨ S = -T := by
  have hs : ∀ v, sandwich S v = sandwich T v := fun v => congrArg ImSpin.theVec (h v)
  have hR : ∀ v, sandwich (reverse T * S) v = v := by
    intro v
    rw [C22_comp, hs, C22_inverse T hT]
  have hTS : T * (reverse T * S : Spinor ℝ) = S := by
    have : T * (reverse T * S : Spinor ℝ) = magSq T * S := by mv_ring
    rw [this, hT]; mv_ring
  have hm : magSq (reverse T * S : Spinor ℝ) = 1 := by
    have : magSq (reverse T * S : Spinor ℝ) = magSq T * magSq S := by simp only [engabra]; ring
    rw [this, hS, hT, one_mul]
  generalize (reverse T * S : Spinor ℝ) = R at *
  have h1 := congrArg (fun v : Vector ℝ => v.theData.d0) (hR e1)
  have h2 := congrArg (fun v : Vector ℝ => v.theData.d1) (hR e2)
  obtain ⟨⟨⟨w⟩⟩, ⟨⟨x, y, z⟩⟩⟩ := R
  simp only [sandwich, engabra] at h1 h2 hm
  have hx : x = 0 := by nlinarith only [h1, h2, hm, sq_nonneg x, sq_nonneg y, sq_nonneg z]
  have hy : y = 0 := by nlinarith only [h1, h2, hm, sq_nonneg x, sq_nonneg y, sq_nonneg z]
  have hz : z = 0 := by nlinarith only [h1, h2, hm, sq_nonneg x, sq_nonneg y, sq_nonneg z]
  subst hx hy hz
  have hw : (w - 1) * (w + 1) = 0 := by linear_combination hm
  rw [← hTS]
  rcases mul_eq_zero.1 hw with h0 | h0
  · left
    obtain rfl : w = 1 := by linarith
    mv_ring
  · right
    obtain rfl : w = -1 := by linarith
    mv_ring

/-- `S*v*reverse(S)` as a linear map on points. -/
noncomputable def sandwichE (S : Spinor ℝ) : E3 →ₗ[ℝ] E3 where
  toFun v := !₂[(sandwich S (rvec v)).theData.d0, (sandwich S (rvec v)).theData.d1,
    (sandwich S (rvec v)).theData.d2]
  map_add' v w := by
    ext i; fin_cases i <;> simp [sandwich] <;> geo <;> simp <;> ring
  map_smul' s v := by
    ext i; fin_cases i <;> simp [sandwich] <;> geo <;> ring

/-- **C66.** Conversely, for every spinor `S` of magnitude one, `S*v*reverse(S)` is a rotation. -/
theorem C66_spinor_rotates (S : Spinor ℝ) (hS : magSq S = 1) :
    ∃ φ : E3 ≃ₗᵢ[ℝ] E3, LinearMap.det (φ.toLinearEquiv : E3 →ₗ[ℝ] E3) = 1 ∧
      ∀ v : E3, S * rvec v * reverse S = (⟨rvec (φ v), gzero⟩ : ImSpin ℝ) := by
  have hn : ∀ v, ‖sandwichE S v‖ = ‖v‖ := by
    intro v
    refine (pow_left_inj₀ (norm_nonneg _) (norm_nonneg _) two_ne_zero).1 ?_
    rw [normSq_E3, normSq_E3]
    exact (C22_dot S hS (rvec v) (rvec v) :)
  let f : E3 →ₗᵢ[ℝ] E3 := ⟨sandwichE S, hn⟩
  refine ⟨f.toLinearIsometryEquiv rfl, ?_, fun v => ?_⟩
  · have : ((f.toLinearIsometryEquiv rfl).toLinearEquiv : E3 →ₗ[ℝ] E3) = sandwichE S := by
      ext v; rfl
    rw [this, ← LinearMap.det_toMatrix (EuclideanSpace.basisFun (Fin 3) ℝ).toBasis, Matrix.det_fin_three]
    have hm : magSq S ^ 3 = 1 := by rw [hS, one_pow]
    rw [← hm]
    simp [LinearMap.toMatrix_apply, sandwichE, sandwich, rvec]
    simp only [engabra]
    ring
  · rw [C22_grade]
    rfl

end Engabra
