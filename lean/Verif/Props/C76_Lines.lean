import Verif.Props.C66_Geometry

/-! # C76: intersections of lines and planes -/

namespace Engabra

open XR InnerProductGeometry
open scoped RealInnerProductSpace

theorem inverse_triOf (s : ℝ) (h : s ≠ 0) : inverseBlade (triOf s) = triOf (-(1 / s)) := by
  have e := inverseTy_eq .tri (⟨⟨s⟩⟩ : TriVector ℝ) _ rfl
    (by simpa [magSqTy, engabra] using h) (by simp)
  refine (Option.some.inj e).trans ?_
  simp [lift, mapTy, triOf, engabra, magSqTy, smulTy, reverseTy]
  field_simp

/-- Determinant of three vectors. -/
noncomputable def det3 (a b c : E3) : ℝ :=
  a 0 * (b 1 * c 2 - b 2 * c 1) + a 1 * (b 2 * c 0 - b 0 * c 2) + a 2 * (b 0 * c 1 - b 1 * c 0)

theorem tri_abc (a b c : E3) : (vecOf a * vecOf b * vecOf c : ImSpin XR).theTri = triOf (det3 a b c) := by
  suffices k : (rvec a * rvec b * rvec c : ImSpin ℝ).theTri = ⟨⟨det3 a b c⟩⟩ from congrArg (lift .tri) k
  unfold det3; geo; ring

theorem triOf_inj {a b : ℝ} : triOf a = triOf b ↔ a = b := by simp [triOf]

theorem tri_ratio (a b : ℝ) (h : b ≠ 0) : (triOf a * inverseBlade (triOf b) : Scalar XR) = scaOf (a / b) := by
  rw [inverse_triOf b h]
  suffices k : ((⟨⟨a⟩⟩ : TriVector ℝ) * (⟨⟨-(1 / b)⟩⟩ : TriVector ℝ) : Scalar ℝ) = ⟨⟨a / b⟩⟩ from
    congrArg (lift .sca) k
  geo; ring

/-- **C76.** Where a line meets a plane.  For the line through `p` along `d` and the plane through `q` with
bivector `B` (normal `n`), `-((p - q)*B).theTri * inverse((d*B).theTri)` is the parameter of the point
of the line that lies in the plane, provided the line is not parallel to it. -/
theorem C76_line_plane (p d q n : E3) (h : ⟪d, n⟫ ≠ 0) : ∃ t : ℝ,
    -(((vecOf p - vecOf q : Vector XR) * planeOf n : ImSpin XR).theTri *
      inverseBlade (vecOf d * planeOf n : ImSpin XR).theTri : Scalar XR) = scaOf t ∧
    ∀ s : ℝ, ⟪p + s • d - q, n⟫ = 0 ↔ s = t := by
  have e1 : ((vecOf p - vecOf q : Vector XR) * planeOf n : ImSpin XR).theTri = triOf ⟪p - q, n⟫ := by
    rw [inner_E3]
    suffices k : ((rvec p - rvec q : Vector ℝ) * rbiv n : ImSpin ℝ).theTri =
        ⟨⟨(p - q) 0 * n 0 + (p - q) 1 * n 1 + (p - q) 2 * n 2⟩⟩ from congrArg (lift .tri) k
    geo; ring
  have e2 : (vecOf d * planeOf n : ImSpin XR).theTri = triOf ⟪d, n⟫ := by
    rw [inner_E3]
    suffices k : (rvec d * rbiv n : ImSpin ℝ).theTri =
        ⟨⟨d 0 * n 0 + d 1 * n 1 + d 2 * n 2⟩⟩ from congrArg (lift .tri) k
    geo; ring
  refine ⟨-(⟪p - q, n⟫ / ⟪d, n⟫), ?_, fun s => ?_⟩
  · rw [e1, e2, tri_ratio _ _ h]
    rfl
  · rw [show p + s • d - q = (p - q) + s • d by abel, inner_add_left, inner_smul_left]
    simp only [conj_trivial]
    constructor
    · intro h'
      field_simp
      linarith
    · rintro rfl
      field_simp
      ring

/-- The cross product, as a point. -/
noncomputable def cross (a b : E3) : E3 :=
  !₂[a 1 * b 2 - a 2 * b 1, a 2 * b 0 - a 0 * b 2, a 0 * b 1 - a 1 * b 0]

theorem biv_ab (a b : E3) : (vecOf a * vecOf b : Spinor XR).theBiv = planeOf (cross a b) := by
  suffices k : (rvec a * rvec b : Spinor ℝ).theBiv = rbiv (cross a b) from congrArg (lift .biv) k
  simp [cross]
  geo
  simp

theorem cross_ne {a b : E3} (h : LinearIndependent ℝ ![a, b]) : cross a b ≠ 0 := by
  rw [LinearIndependent.pair_iff] at h
  intro h0
  have z0 : a 1 * b 2 - a 2 * b 1 = 0 := by simpa [cross] using congrArg (fun v : E3 => v 0) h0
  have z1 : a 2 * b 0 - a 0 * b 2 = 0 := by simpa [cross] using congrArg (fun v : E3 => v 1) h0
  have z2 : a 0 * b 1 - a 1 * b 0 = 0 := by simpa [cross] using congrArg (fun v : E3 => v 2) h0
  have hb : b ≠ 0 := by
    rintro rfl
    exact one_ne_zero (h 0 1 (by simp)).2
  refine ne_E3 hb (h (b 0 * b 0 + b 1 * b 1 + b 2 * b 2) (-(a 0 * b 0 + a 1 * b 1 + a 2 * b 2)) ?_).1
  ext i
  fin_cases i <;> simp
  · linear_combination (b 1) * z2 - (b 2) * z1
  · linear_combination (b 2) * z0 - (b 0) * z2
  · linear_combination (b 0) * z1 - (b 1) * z0

theorem biv_ratio (m n : E3) (h : n ≠ 0) : (planeOf m * inverseBlade (planeOf n) : Spinor XR).theSca =
    scaOf (⟪m, n⟫ / ‖n‖ ^ 2) := by
  rw [inverse_planeOf n h, inner_E3, normSq_E3]
  have hn := ne_E3 h
  suffices k : (rbiv m * rbiv (-(1 / (n 0 * n 0 + n 1 * n 1 + n 2 * n 2)) • n) : Spinor ℝ).theSca =
      ⟨⟨(m 0 * n 0 + m 1 * n 1 + m 2 * n 2) / (n 0 * n 0 + n 1 * n 1 + n 2 * n 2)⟩⟩ from
    congrArg (lift .sca) k
  geo; ring

theorem vecOf_sub (p q : E3) : (vecOf p - vecOf q : Vector XR) = vecOf (p - q) := by
  suffices k : (rvec p - rvec q : Vector ℝ) = rvec (p - q) from congrArg (lift .vec) k
  geo

theorem inner_cross_left (a b : E3) : ⟪a, cross a b⟫ = 0 := by
  rw [inner_E3]; simp [cross]; ring
theorem inner_cross_right (a b : E3) : ⟪b, cross a b⟫ = 0 := by
  rw [inner_E3]; simp [cross]; ring

/-- **C76.** Space intersection: two lines that are not parallel, through `p` along `d` and through `q`
along `e`.  With `w = q - p` and `B = (d*e).theBiv`, the scalar parts of `(w*e).theBiv * inverse(B)` and
`(w*d).theBiv * inverse(B)` are the parameters of the two points nearest to each other, and
`(w*B).theTri * inverse(B)` is the vector from the first to the second. -/
theorem C76_two_lines (p d q e : E3) (h : LinearIndependent ℝ ![d, e]) : ∃ s t : ℝ,
    (((vecOf q - vecOf p : Vector XR) * vecOf e : Spinor XR).theBiv *
      inverseBlade (vecOf d * vecOf e : Spinor XR).theBiv : Spinor XR).theSca = scaOf s ∧
    (((vecOf q - vecOf p : Vector XR) * vecOf d : Spinor XR).theBiv *
      inverseBlade (vecOf d * vecOf e : Spinor XR).theBiv : Spinor XR).theSca = scaOf t ∧
    (((vecOf q - vecOf p : Vector XR) * (vecOf d * vecOf e : Spinor XR).theBiv : ImSpin XR).theTri *
      inverseBlade (vecOf d * vecOf e : Spinor XR).theBiv : Vector XR) =
        vecOf ((q + t • e) - (p + s • d)) ∧
    ∀ s' t' : ℝ, dist (p + s • d) (q + t • e) ≤ dist (p + s' • d) (q + t' • e) ∧
      (dist (p + s' • d) (q + t' • e) = dist (p + s • d) (q + t • e) → s' = s ∧ t' = t) := by
  have hc := cross_ne h
  have hn : ‖cross d e‖ ^ 2 ≠ 0 := by positivity
  rw [LinearIndependent.pair_iff] at h
  obtain ⟨s, hs⟩ : ∃ s, s = ⟪cross (q - p) e, cross d e⟫ / ‖cross d e‖ ^ 2 := ⟨_, rfl⟩
  obtain ⟨t, ht⟩ : ∃ t, t = ⟪cross (q - p) d, cross d e⟫ / ‖cross d e‖ ^ 2 := ⟨_, rfl⟩
  obtain ⟨k, hk⟩ : ∃ k, k = ⟪q - p, cross d e⟫ / ‖cross d e‖ ^ 2 := ⟨_, rfl⟩
  have hw : (q + t • e) - (p + s • d) = k • cross d e := by
    have hs' : s * ‖cross d e‖ ^ 2 = ⟪cross (q - p) e, cross d e⟫ := by rw [hs]; field_simp
    have ht' : t * ‖cross d e‖ ^ 2 = ⟪cross (q - p) d, cross d e⟫ := by rw [ht]; field_simp
    have hk' : k * ‖cross d e‖ ^ 2 = ⟪q - p, cross d e⟫ := by rw [hk]; field_simp
    rw [← sub_eq_zero]
    have : ‖cross d e‖ ^ 2 • ((q + t • e) - (p + s • d) - k • cross d e) = 0 := by
      rw [show ‖cross d e‖ ^ 2 • ((q + t • e) - (p + s • d) - k • cross d e) =
        ‖cross d e‖ ^ 2 • (q - p) + (t * ‖cross d e‖ ^ 2) • e - (s * ‖cross d e‖ ^ 2) • d
          - (k * ‖cross d e‖ ^ 2) • cross d e by module, hs', ht', hk', normSq_E3, inner_E3, inner_E3, inner_E3]
      ext i
      fin_cases i <;> simp [cross] <;> ring
    exact (smul_eq_zero.1 this).resolve_left hn
  refine ⟨s, t, ?_, ?_, ?_, fun s' t' => ?_⟩
  · rw [vecOf_sub, biv_ab, biv_ab, biv_ratio _ _ hc, hs]
  · rw [vecOf_sub, biv_ab, biv_ab, biv_ratio _ _ hc, ht]
  · rw [hw, hk, biv_ab, vecOf_sub, inverse_planeOf _ hc, inner_E3, normSq_E3]
    suffices k : ((rvec (q - p) * rbiv (cross d e) : ImSpin ℝ).theTri * rbiv (-(1 / (cross d e 0 * cross d e 0
        + cross d e 1 * cross d e 1 + cross d e 2 * cross d e 2)) • cross d e) : Vector ℝ) =
        rvec ((((q - p) 0 * cross d e 0 + (q - p) 1 * cross d e 1 + (q - p) 2 * cross d e 2) /
          (cross d e 0 * cross d e 0 + cross d e 1 * cross d e 1 + cross d e 2 * cross d e 2)) • cross d e) from
      congrArg (lift .vec) k
    geo
    refine ⟨?_, ?_, ?_⟩ <;> ring
  · have e1 : dist (p + s • d) (q + t • e) = ‖k • cross d e‖ := by
      rw [dist_comm, dist_eq_norm, hw]
    have e2 : dist (p + s' • d) (q + t' • e) ^ 2 =
        ‖k • cross d e‖ ^ 2 + ‖(t' - t) • e - (s' - s) • d‖ ^ 2 := by
      rw [dist_comm, dist_eq_norm, show (q + t' • e) - (p + s' • d) =
        ((q + t • e) - (p + s • d)) + ((t' - t) • e - (s' - s) • d) by module, hw, norm_add_sq_real]
      have : ⟪k • cross d e, (t' - t) • e - (s' - s) • d⟫ = 0 := by
        rw [inner_sub_right, inner_smul_left, inner_smul_right, inner_smul_left, inner_smul_right,
          real_inner_comm, inner_cross_right, real_inner_comm, inner_cross_left]
        simp
      rw [this]; ring
    constructor
    · rw [e1]
      refine le_of_sq_le_sq ?_ dist_nonneg
      rw [e2]; nlinarith [sq_nonneg ‖(t' - t) • e - (s' - s) • d‖]
    · intro h'
      rw [h', e1] at e2
      have h0 : ‖(t' - t) • e - (s' - s) • d‖ = 0 := by
        have : ‖(t' - t) • e - (s' - s) • d‖ ^ 2 = 0 := by linarith
        exact pow_eq_zero_iff (two_ne_zero) |>.1 this
      rw [norm_eq_zero] at h0
      obtain ⟨u1, u2⟩ := h (-(s' - s)) (t' - t) (by rw [← h0]; module)
      constructor <;> linarith

/-- **C76.** Two lines that are not parallel meet exactly when `((q - p)*B).theTri` is zero. -/
theorem C76_lines_meet (p d q e : E3) (h : LinearIndependent ℝ ![d, e]) :
    (∃ s t : ℝ, p + s • d = q + t • e) ↔
      ((vecOf q - vecOf p : Vector XR) * (vecOf d * vecOf e : Spinor XR).theBiv : ImSpin XR).theTri
        = triOf 0 := by
  have hc := cross_ne h
  have e1 : ((vecOf q - vecOf p : Vector XR) * (vecOf d * vecOf e : Spinor XR).theBiv : ImSpin XR).theTri =
      triOf ⟪q - p, cross d e⟫ := by
    rw [vecOf_sub, biv_ab, inner_E3]
    suffices k : (rvec (q - p) * rbiv (cross d e) : ImSpin ℝ).theTri =
        ⟨⟨(q - p) 0 * cross d e 0 + (q - p) 1 * cross d e 1 + (q - p) 2 * cross d e 2⟩⟩ from
      congrArg (lift .tri) k
    geo; ring
  rw [e1, triOf_inj]
  constructor
  · rintro ⟨s, t, h'⟩
    have : q - p = s • d - t • e := by
      rw [sub_eq_sub_iff_add_eq_add, add_comm (s • d), h']
    rw [this, inner_sub_left, inner_smul_left, inner_smul_left, inner_cross_left, inner_cross_right]
    simp
  · intro h0
    obtain ⟨s, t, -, -, h3, -⟩ := C76_two_lines p d q e h
    refine ⟨s, t, ?_⟩
    rw [e1, h0, biv_ab, inverse_planeOf _ hc] at h3
    have h4 : vecOf (0 : E3) = vecOf ((q + t • e) - (p + s • d)) := by
      rw [← h3]
      suffices k : rvec (0 : E3) = ((⟨⟨0⟩⟩ : TriVector ℝ) * rbiv (-(1 / (cross d e 0 * cross d e 0
        + cross d e 1 * cross d e 1 + cross d e 2 * cross d e 2)) • cross d e) : Vector ℝ) from
        congrArg (lift .vec) k
      geo; simp
    have h5 : (q + t • e) - (p + s • d) = 0 := by
      simp only [vecOf, Vector.mk.injEq, A3.mk.injEq, val.injEq] at h4
      ext i
      fin_cases i
      · exact h4.1.symm
      · exact h4.2.1.symm
      · exact h4.2.2.symm
    exact (sub_eq_zero.1 h5).symm

/-- **C76.** Three vectors are independent exactly when their product has a trivector part. -/
theorem C76_independent (a b c : E3) : LinearIndependent ℝ ![a, b, c] ↔
    (vecOf a * vecOf b * vecOf c : ImSpin XR).theTri ≠ triOf 0 := by
  rw [tri_abc, Ne, triOf_inj]
  have e : det3 a b c = Matrix.det (.of ![(a : Fin 3 → ℝ), b, c]) := by
    rw [Matrix.det_fin_three]; unfold det3; simp; ring
  rw [e, ← Ne, ← isUnit_iff_ne_zero, ← Matrix.isUnit_iff_isUnit_det, ← Matrix.linearIndependent_rows_iff_isUnit]
  rw [← LinearMap.linearIndependent_iff (WithLp.linearEquiv 2 ℝ (Fin 3 → ℝ)).toLinearMap
    (LinearEquiv.ker _)]
  apply iff_of_eq
  congr 1
  funext i
  fin_cases i <;> rfl

/-- **C76.** Coordinates with respect to any three independent vectors (Cramer's rule): ratios of
trivectors. -/
theorem C76_coordinates (a b c v : E3)
    (h : (vecOf a * vecOf b * vecOf c : ImSpin XR).theTri ≠ triOf 0) : ∃ x y z : ℝ,
    ((vecOf v * vecOf b * vecOf c : ImSpin XR).theTri *
      inverseBlade (vecOf a * vecOf b * vecOf c : ImSpin XR).theTri : Scalar XR) = scaOf x ∧
    ((vecOf a * vecOf v * vecOf c : ImSpin XR).theTri *
      inverseBlade (vecOf a * vecOf b * vecOf c : ImSpin XR).theTri : Scalar XR) = scaOf y ∧
    ((vecOf a * vecOf b * vecOf v : ImSpin XR).theTri *
      inverseBlade (vecOf a * vecOf b * vecOf c : ImSpin XR).theTri : Scalar XR) = scaOf z ∧
    ∀ x' y' z' : ℝ, x' • a + y' • b + z' • c = v ↔ (x' = x ∧ y' = y ∧ z' = z) := by
  rw [tri_abc, Ne, triOf_inj] at h
  refine ⟨_, _, _, by rw [tri_abc, tri_abc, tri_ratio _ _ h], by rw [tri_abc, tri_abc, tri_ratio _ _ h],
    by rw [tri_abc, tri_abc, tri_ratio _ _ h], fun x' y' z' => ?_⟩
  constructor
  · rintro rfl
    refine ⟨?_, ?_, ?_⟩ <;> rw [eq_div_iff h] <;> unfold det3 <;> simp <;> ring
  · rintro ⟨rfl, rfl, rfl⟩
    have : det3 a b c • ((det3 v b c / det3 a b c) • a + (det3 a v c / det3 a b c) • b +
        (det3 a b v / det3 a b c) • c) = det3 a b c • v := by
      rw [smul_add, smul_add, smul_smul, smul_smul, smul_smul, mul_div_cancel₀ _ h, mul_div_cancel₀ _ h,
        mul_div_cancel₀ _ h]
      ext i
      fin_cases i <;> simp [det3] <;> ring
    exact smul_right_injective E3 h this

/-- **C76.** The point common to three planes: the solution of three linear equations. -/
theorem C76_three_planes (m n k : E3) (a b c : ℝ)
    (h : (vecOf m * vecOf n * vecOf k : ImSpin XR).theTri ≠ triOf 0) : ∃ x : E3,
    ((val a * (vecOf n * vecOf k : Spinor XR).theBiv + (val b * (vecOf k * vecOf m : Spinor XR).theBiv : BiVector XR)
        + (val c * (vecOf m * vecOf n : Spinor XR).theBiv : BiVector XR) : BiVector XR) *
      inverseBlade (vecOf m * vecOf n * vecOf k : ImSpin XR).theTri : Vector XR) = vecOf x ∧
    ∀ y : E3, (⟪y, m⟫ = a ∧ ⟪y, n⟫ = b ∧ ⟪y, k⟫ = c) ↔ y = x := by
  rw [tri_abc, Ne, triOf_inj] at h
  refine ⟨(1 / det3 m n k) • (a • cross n k + b • cross k m + c • cross m n), ?_, fun y => ?_⟩
  · rw [tri_abc, inverse_triOf _ h, biv_ab, biv_ab, biv_ab]
    suffices k : ((a * rbiv (cross n k) + (b * rbiv (cross k m) : BiVector ℝ)
        + (c * rbiv (cross m n) : BiVector ℝ) : BiVector ℝ) * (⟨⟨-(1 / det3 m n k)⟩⟩ : TriVector ℝ) : Vector ℝ) =
        rvec ((1 / det3 m n k) • (a • cross n k + b • cross k m + c • cross m n)) from
      congrArg (lift .vec) k
    simp only [rvec, rbiv, engabra]
    ext <;> simp <;> ring
  · constructor
    · rintro ⟨rfl, rfl, rfl⟩
      have : det3 m n k • y = ⟪y, m⟫ • cross n k + ⟪y, n⟫ • cross k m + ⟪y, k⟫ • cross m n := by
        rw [inner_E3, inner_E3, inner_E3]
        ext i
        fin_cases i <;> simp [det3, cross] <;> ring
      rw [← this, smul_smul, one_div_mul_cancel h, one_smul]
    · rintro rfl
      have d1 : ⟪cross n k, m⟫ = det3 m n k := by rw [inner_E3]; simp [cross, det3]; ring
      have d2 : ⟪cross k m, n⟫ = det3 m n k := by rw [inner_E3]; simp [cross, det3]; ring
      have d3 : ⟪cross m n, k⟫ = det3 m n k := by rw [inner_E3]; simp [cross, det3]; ring
      have l := inner_cross_left
      have r := inner_cross_right
      refine ⟨?_, ?_, ?_⟩
      · rw [inner_smul_left, inner_add_left, inner_add_left, inner_smul_left, inner_smul_left, inner_smul_left,
          d1, real_inner_comm, r, real_inner_comm, l]
        simp; field_simp
      · rw [inner_smul_left, inner_add_left, inner_add_left, inner_smul_left, inner_smul_left, inner_smul_left,
          d2, real_inner_comm, l, real_inner_comm, r]
        simp; field_simp
      · rw [inner_smul_left, inner_add_left, inner_add_left, inner_smul_left, inner_smul_left, inner_smul_left,
          d3, real_inner_comm, r, real_inner_comm, l]
        simp; field_simp

theorem half_magSq (a : E3) : (val (1 / 2) * magSq (vecOf a) : XR) = val (1 / 2 * ‖a‖ ^ 2) := by
  rw [normSq_E3]
  have : magSq (vecOf a) = val (magSq (rvec a)) := rfl
  rw [this, val_mul]
  congr 1
  simp only [rvec, engabra]
  try ring

theorem same_dist (y p q : E3) : dist y q = dist y p ↔ ⟪y - p, q - p⟫ = 1 / 2 * ‖q - p‖ ^ 2 := by
  have e : dist y q ^ 2 = dist y p ^ 2 - 2 * ⟪y - p, q - p⟫ + ‖q - p‖ ^ 2 := by
    rw [dist_eq_norm, dist_eq_norm, ← norm_sub_sq_real, sub_sub_sub_cancel_right]
  constructor
  · intro h; rw [h] at e; linarith
  · intro h
    have : dist y q ^ 2 = dist y p ^ 2 := by linarith
    exact (pow_left_inj₀ dist_nonneg dist_nonneg two_ne_zero).1 this

/-- **C76.** The centre of the sphere through four points that are not in one plane. -/
theorem C76_sphere (p q r s : E3)
    (h : ((vecOf q - vecOf p : Vector XR) * (vecOf r - vecOf p : Vector XR) * (vecOf s - vecOf p : Vector XR) :
      ImSpin XR).theTri ≠ triOf 0) : ∃ x : E3,
    (let a : Vector XR := vecOf q - vecOf p
     let b : Vector XR := vecOf r - vecOf p
     let c : Vector XR := vecOf s - vecOf p
     (vecOf p + ((val (1 / 2) * magSq a) * (b * c : Spinor XR).theBiv
        + ((val (1 / 2) * magSq b) * (c * a : Spinor XR).theBiv : BiVector XR)
        + ((val (1 / 2) * magSq c) * (a * b : Spinor XR).theBiv : BiVector XR) : BiVector XR) *
      inverseBlade (a * b * c : ImSpin XR).theTri : Vector XR)) = vecOf x ∧
    ∀ y : E3, (dist y q = dist y p ∧ dist y r = dist y p ∧ dist y s = dist y p) ↔ y = x := by
  simp only [vecOf_sub] at h ⊢
  obtain ⟨x, hx, hy⟩ := C76_three_planes (q - p) (r - p) (s - p) (1 / 2 * ‖q - p‖ ^ 2)
    (1 / 2 * ‖r - p‖ ^ 2) (1 / 2 * ‖s - p‖ ^ 2) h
  refine ⟨p + x, ?_, fun y => ?_⟩
  · rw [half_magSq, half_magSq, half_magSq, hx]
    suffices k : rvec p + rvec x = rvec (p + x) from congrArg (lift .vec) k
    geo; simp
  · rw [same_dist, same_dist, same_dist, hy, sub_eq_iff_eq_add']

/-- Hypotheses are met: a line that crosses a tilted plane, two skew lines, three independent vectors. -/
example : ⟪(!₂[1, 2, 2] : E3), !₂[0, 3, -4]⟫ ≠ 0 ∧
    LinearIndependent ℝ ![(!₂[1, 0, 2] : E3), !₂[0, 1, 1]] ∧
    (vecOf !₂[1, 0, 2] * vecOf !₂[0, 1, 1] * vecOf !₂[3, 0, 1] : ImSpin XR).theTri ≠ triOf 0 := by
  refine ⟨?_, ?_, ?_⟩
  · rw [inner_E3]; simp; norm_num
  · rw [LinearIndependent.pair_iff]
    intro s t h
    have h0 := congrArg (fun v : E3 => v 0) h
    have h1 := congrArg (fun v : E3 => v 1) h
    simp at h0 h1
    exact ⟨h0, h1⟩
  · rw [tri_abc, Ne, triOf_inj]; simp [det3]; norm_num

/-- Four points not in one plane. -/
example : ((vecOf !₂[2, 1, 1] - vecOf !₂[1, 1, 1] : Vector XR) * (vecOf !₂[1, 3, 1] - vecOf !₂[1, 1, 1] : Vector XR)
    * (vecOf !₂[1, 1, 4] - vecOf !₂[1, 1, 1] : Vector XR) : ImSpin XR).theTri ≠ triOf 0 := by
  simp only [vecOf_sub]
  rw [tri_abc, Ne, triOf_inj]; simp [det3]; norm_num

end Engabra
