import Verif.Props.C66_Geometry

/-! # C66: orthogonal and parallel vectors, and the header's vector equation -/

namespace Engabra

open XR InnerProductGeometry
open scoped RealInnerProductSpace

/-- **C66.** Two vectors are orthogonal exactly when their product is a pure bivector, and exactly
when they anticommute. -/
theorem C66_orthogonal (a b : E3) :
    (⟪a, b⟫ = 0 ↔ (vecOf a * vecOf b : Spinor XR).theSca = scaOf 0) ∧
    (⟪a, b⟫ = 0 ↔ vecOf a * vecOf b = (-(vecOf b * vecOf a) : Spinor XR)) := by
  rw [inner_E3]
  constructor
  · rw [show (vecOf a * vecOf b : Spinor XR).theSca = scaOf (a 0 * b 0 + a 1 * b 1 + a 2 * b 2) from by
      suffices k : (rvec a * rvec b : Spinor ℝ).theSca = ⟨⟨a 0 * b 0 + a 1 * b 1 + a 2 * b 2⟩⟩ from
        congrArg (lift .sca) k
      geo
      ring]
    simp [scaOf]
  · constructor
    · intro h
      suffices k : (rvec a * rvec b : Spinor ℝ) = -(rvec b * rvec a) from congrArg (lift .spin) k
      geo
      refine ⟨by linear_combination 2 * h, ?_, ?_, ?_⟩ <;> ring
    · intro h
      have e : val (0 + a 0 * b 0 + a 1 * b 1 + a 2 * b 2) = val (-(0 + b 0 * a 0 + b 1 * a 1 + b 2 * a 2)) :=
        congrArg (fun s : Spinor XR => s.theSca.theData.d0) h
      have := XR.val.inj e
      linarith

/-- **C66.** Two vectors are parallel (one is a multiple of the other) exactly when their product
is a pure scalar, and exactly when they commute. -/
theorem C66_parallel (a b : E3) (h : a ≠ 0) :
    (b ∈ Submodule.span ℝ {a} ↔ (vecOf a * vecOf b : Spinor XR).theBiv = planeOf 0) ∧
    (b ∈ Submodule.span ℝ {a} ↔ vecOf a * vecOf b = (vecOf b * vecOf a : Spinor XR)) := by
  have hu := unit_E3 h
  have key : b ∈ Submodule.span ℝ {a} ↔
      (a 1 * b 2 - a 2 * b 1 = 0 ∧ a 2 * b 0 - a 0 * b 2 = 0 ∧ a 0 * b 1 - a 1 * b 0 = 0) := by
    rw [Submodule.mem_span_singleton]
    constructor
    · rintro ⟨r, rfl⟩
      simp only [PiLp.smul_apply, smul_eq_mul]
      refine ⟨?_, ?_, ?_⟩ <;> ring
    · rintro ⟨h0, h1, h2⟩
      obtain ⟨r, hr⟩ : ∃ r, r = 1 / (a 0 * a 0 + a 1 * a 1 + a 2 * a 2) := ⟨_, rfl⟩
      rw [← hr] at hu
      refine ⟨r * (a 0 * b 0 + a 1 * b 1 + a 2 * b 2), ?_⟩
      ext k
      fin_cases k
      · simp
        linear_combination (b 0) * hu - r * (a 2) * h1 + r * (a 1) * h2
      · simp
        linear_combination (b 1) * hu - r * (a 0) * h2 + r * (a 2) * h0
      · simp
        linear_combination (b 2) * hu - r * (a 1) * h0 + r * (a 0) * h1
  have e1 : (vecOf a * vecOf b : Spinor XR).theBiv
      = ⟨⟨val (a 1 * b 2 - a 2 * b 1), val (a 2 * b 0 - a 0 * b 2), val (a 0 * b 1 - a 1 * b 0)⟩⟩ := by
    suffices k : (rvec a * rvec b : Spinor ℝ).theBiv
      = ⟨⟨a 1 * b 2 - a 2 * b 1, a 2 * b 0 - a 0 * b 2, a 0 * b 1 - a 1 * b 0⟩⟩ from
        congrArg (lift .biv) k
    geo
  refine ⟨?_, ?_⟩
  · rw [key, e1]
    simp [planeOf]
  · rw [key]
    constructor
    · rintro ⟨h0, h1, h2⟩
      suffices k : (rvec a * rvec b : Spinor ℝ) = (rvec b * rvec a) from congrArg (lift .spin) k
      geo
      refine ⟨by ring, by linear_combination 2 * h0, by linear_combination 2 * h1, by linear_combination 2 * h2⟩
    · intro e
      have e2 : (vecOf b * vecOf a : Spinor XR).theBiv
        = ⟨⟨val (-(a 1 * b 2 - a 2 * b 1)), val (-(a 2 * b 0 - a 0 * b 2)), val (-(a 0 * b 1 - a 1 * b 0))⟩⟩ := by
        suffices k : (rvec b * rvec a : Spinor ℝ).theBiv
          = ⟨⟨-(a 1 * b 2 - a 2 * b 1), -(a 2 * b 0 - a 0 * b 2), -(a 0 * b 1 - a 1 * b 0)⟩⟩ from
            congrArg (lift .biv) k
        geo
        refine ⟨?_, ?_, ?_⟩ <;> ring
      have := e1.symm.trans ((congrArg Spinor.theBiv e).trans e2)
      simp only [BiVector.mk.injEq, A3.mk.injEq, XR.val.injEq] at this
      obtain ⟨h0, h1, h2⟩ := this
      exact ⟨by linarith, by linarith, by linarith⟩

/-- **C66.** The product of three mutually orthogonal vectors is a pure trivector, and the product
of an orthonormal right-handed triple is the unit trivector. -/
theorem C66_orthogonal_triple (a b c : E3) (hab : ⟪a, b⟫ = 0) (hbc : ⟪b, c⟫ = 0) (hac : ⟪a, c⟫ = 0) :
    vecOf a * vecOf b * vecOf c
      = (⟨vecOf 0, triOf (Matrix.det (.of ![(a : Fin 3 → ℝ), b, c]))⟩ : ImSpin XR) := by
  rw [inner_E3] at hab hbc hac
  suffices k : (rvec a * rvec b * rvec c : ImSpin ℝ)
      = ⟨rvec 0, ⟨⟨Matrix.det (.of ![(a : Fin 3 → ℝ), b, c])⟩⟩⟩ from congrArg (lift .imsp) k
  rw [Matrix.det_fin_three]
  geo
  refine ⟨⟨?_, ?_, ?_⟩, ?_⟩
  · simp; linear_combination (c 0) * hab + (a 0) * hbc - (b 0) * hac
  · simp; linear_combination (c 1) * hab + (a 1) * hbc - (b 1) * hac
  · simp; linear_combination (c 2) * hab + (a 2) * hbc - (b 2) * hac
  · simp; ring

/-- Such a triple: `3 e1 - 4 e3`, `e2` and `4 e1 + 3 e3`. -/
example : ⟪(!₂[3, 0, -4] : E3), !₂[0, 1, 0]⟫ = 0 ∧ ⟪(!₂[0, 1, 0] : E3), !₂[4, 0, 3]⟫ = 0 ∧
    ⟪(!₂[3, 0, -4] : E3), !₂[4, 0, 3]⟫ = 0 := by
  rw [inner_E3, inner_E3, inner_E3]
  simp
  norm_num

/-- Back from the extended reals. -/
noncomputable def dropXR : XR → ℝ
  | .val r => r
  | _ => 0

/-- **C66.** The header's `a*x + S = R` for a vector `a` and spinors `S`, `R`: a vector `x` solves
it exactly when `inverse(a)*(R - S)` has no trivector part and `x` is its vector part. -/
theorem C66_vector_equation (a x : E3) (h : a ≠ 0) (S R : Spinor ℝ) :
    (vecOf a * vecOf x : Spinor XR) + lift .spin S = lift .spin R ↔
      inverseBlade (vecOf a) * (lift .spin R - lift .spin S : Spinor XR)
        = (⟨vecOf x, triOf 0⟩ : ImSpin XR) := by
  have hu := unit_E3 h
  rw [inverse_vecOf a h]
  obtain ⟨r, hr⟩ : ∃ r, r = 1 / (a 0 * a 0 + a 1 * a 1 + a 2 * a 2) := ⟨_, rfl⟩
  rw [← hr] at hu ⊢
  have inj : ∀ (t : Ty) (p q : t.D ℝ), lift t p = lift t q ↔ p = q := by
    intro t p q
    refine ⟨fun e => ?_, fun e => congrArg _ e⟩
    have := congrArg (mapTy dropXR t) e
    cases t <;> exact this
  have l1 : (vecOf a * vecOf x : Spinor XR) + lift .spin S = lift .spin R ↔
      (rvec a * rvec x : Spinor ℝ) + S = R := inj .spin ((rvec a * rvec x : Spinor ℝ) + S) R
  have l2 : vecOf (r • a) * (lift .spin R - lift .spin S : Spinor XR)
        = (⟨vecOf x, triOf 0⟩ : ImSpin XR) ↔ rvec (r • a) * (R - S : Spinor ℝ) = (⟨rvec x, ⟨⟨0⟩⟩⟩ : ImSpin ℝ) :=
    inj .imsp (rvec (r • a) * (R - S : Spinor ℝ)) (⟨rvec x, ⟨⟨0⟩⟩⟩)
  rw [l1, l2]
  obtain ⟨⟨⟨s0⟩⟩, ⟨⟨s1, s2, s3⟩⟩⟩ := S
  obtain ⟨⟨⟨r0⟩⟩, ⟨⟨r1, r2, r3⟩⟩⟩ := R
  geo
  constructor
  · rintro ⟨h0, h1, h2, h3⟩
    refine ⟨⟨?_, ?_, ?_⟩, ?_⟩
    · linear_combination (x 0) * hu - r * (a 0) * h0 + r * a 1 * h3 - r * a 2 * h2
    · linear_combination (x 1) * hu - r * (a 1) * h0 + r * a 2 * h1 - r * a 0 * h3
    · linear_combination (x 2) * hu - r * (a 2) * h0 + r * a 0 * h2 - r * a 1 * h1
    · linear_combination -(r * a 0) * h1 - r * a 1 * h2 - r * a 2 * h3
  · rintro ⟨⟨h0, h1, h2⟩, h3⟩
    refine ⟨?_, ?_, ?_, ?_⟩
    · linear_combination (r0 - s0) * hu - a 0 * h0 - a 1 * h1 - a 2 * h2
    · linear_combination (r1 - s1) * hu - a 0 * h3 - a 1 * h2 + a 2 * h1
    · linear_combination (r2 - s2) * hu - a 1 * h3 - a 2 * h0 + a 0 * h2
    · linear_combination (r3 - s3) * hu - a 2 * h3 - a 0 * h1 + a 1 * h0

end Engabra
