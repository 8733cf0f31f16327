import Verif.Spec.Exp
import Verif.Props.C19_Isomorphisms
import Verif.Props.C03_TypedProducts
import Mathlib.Analysis.Normed.Algebra.QuaternionExponential
import Mathlib.Analysis.SpecialFunctions.Trigonometric.Series

/-! The exponential series of a spinor, by the isomorphism with the quaternions. -/

namespace Engabra
open Spec

theorem isExp_unique {A E F : MultiVector ℝ} (h : IsExp A E) (h' : IsExp A F) : E = F := by
  have u : ∀ k < 8, (comps .mv E).getD k 0 = (comps .mv F).getD k 0 :=
    fun k hk => (h k hk).unique (h' k hk)
  ext
  · exact u 0 (by norm_num)
  · exact u 1 (by norm_num)
  · exact u 2 (by norm_num)
  · exact u 3 (by norm_num)
  · exact u 4 (by norm_num)
  · exact u 5 (by norm_num)
  · exact u 6 (by norm_num)
  · exact u 7 (by norm_num)

/-- Powers of a spinor by the spinor product. -/
def powSpin (S : Spinor ℝ) : ℕ → Spinor ℝ
  | 0 => gone
  | n + 1 => powSpin S n * S

theorem powMv_spin (S : Spinor ℝ) (n : ℕ) : powMv (toMV S) n = toMV (powSpin S n) := by
  induction n with
  | zero => rfl
  | succ n ih =>
    change powMv (toMV S) n * toMV S = toMV (powSpin S n * S)
    rw [ih]
    exact (C03_typed_product_agrees .spin .spin (powSpin S n) S).symm

theorem toH_pow (S : Spinor ℝ) (n : ℕ) : (powSpin S n).toH = S.toH ^ n := by
  induction n with
  | zero => rw [pow_zero]; exact (C19_quaternion_rest S S).1
  | succ n ih =>
    rw [pow_succ, ← ih]
    exact C19_quaternion.map_mul (powSpin S n) S

open Quaternion in
theorem isExp_spin (S E : Spinor ℝ) (h : E.toH = NormedSpace.exp S.toH) :
    IsExp (toMV S) (toMV E) := by
  have hs := NormedSpace.exp_series_hasSum_exp' (𝕂 := ℝ) (𝔸 := ℍ[ℝ]) S.toH
  rw [← h] at hs
  have key : ∀ (f : ℍ[ℝ] →+ ℝ), Continuous f →
      HasSum (fun n : ℕ => f (((n.factorial : ℝ)⁻¹) • (powSpin S n).toH)) (f E.toH) := by
    intro f hf
    have := hs.map f hf
    simpa only [Function.comp_def, toH_pow] using this
  have hre : HasSum (fun n : ℕ => (n.factorial : ℝ)⁻¹ * (powSpin S n).theSca.theData.d0)
      E.theSca.theData.d0 :=
    key ⟨⟨fun q => q.re, rfl⟩, fun _ _ => rfl⟩ Quaternion.continuous_re
  have hI : HasSum (fun n : ℕ => (n.factorial : ℝ)⁻¹ * -(powSpin S n).theBiv.theData.d0)
      (-E.theBiv.theData.d0) :=
    key ⟨⟨fun q => q.imI, rfl⟩, fun _ _ => rfl⟩ Quaternion.continuous_imI
  have hJ : HasSum (fun n : ℕ => (n.factorial : ℝ)⁻¹ * -(powSpin S n).theBiv.theData.d1)
      (-E.theBiv.theData.d1) :=
    key ⟨⟨fun q => q.imJ, rfl⟩, fun _ _ => rfl⟩ Quaternion.continuous_imJ
  have hK : HasSum (fun n : ℕ => (n.factorial : ℝ)⁻¹ * -(powSpin S n).theBiv.theData.d2)
      (-E.theBiv.theData.d2) :=
    key ⟨⟨fun q => q.imK, rfl⟩, fun _ _ => rfl⟩ Quaternion.continuous_imK
  intro k hk
  simp only [powMv_spin]
  have hz : HasSum (fun n : ℕ => (0 : ℝ) / (n.factorial : ℝ)) 0 := by
    simp only [zero_div]; exact hasSum_zero
  have hd : ∀ (f : ℕ → ℝ) (a : ℝ), HasSum (fun n : ℕ => (n.factorial : ℝ)⁻¹ * -f n) (-a) →
      HasSum (fun n : ℕ => f n / (n.factorial : ℝ)) a := by
    intro f a h
    have h2 := h.neg
    simp only [neg_neg] at h2
    have e : (fun n : ℕ => f n / (n.factorial : ℝ)) = fun n => -((n.factorial : ℝ)⁻¹ * -f n) := by
      funext n; rw [div_eq_mul_inv]; ring
    rw [e]; exact h2
  have hp : ∀ (f : ℕ → ℝ) (a : ℝ), HasSum (fun n : ℕ => (n.factorial : ℝ)⁻¹ * f n) a →
      HasSum (fun n : ℕ => f n / (n.factorial : ℝ)) a := by
    intro f a h
    have e : (fun n : ℕ => f n / (n.factorial : ℝ)) = fun n => (n.factorial : ℝ)⁻¹ * f n := by
      funext n; rw [div_eq_mul_inv]; ring
    rw [e]; exact h
  match k, hk with
  | 0, _ => exact hp _ _ hre
  | 1, _ => exact hz
  | 2, _ => exact hz
  | 3, _ => exact hz
  | 4, _ => exact hd _ _ hI
  | 5, _ => exact hd _ _ hJ
  | 6, _ => exact hd _ _ hK
  | 7, _ => exact hz

/-- Closed form: `exp(s+B) = e^s (cos|B| + sin|B|/|B| B)`. -/
theorem isExp_closed (S : Spinor ℝ) (θ : ℝ) (hθ : θ ^ 2 = magSq S.theBiv) (hθ0 : 0 ≤ θ) :
    IsExp (toMV S) (toMV (⟨⟨⟨Real.exp S.theSca.theData.d0 * Real.cos θ⟩⟩,
      (Real.exp S.theSca.theData.d0 * (Real.sin θ / θ) : ℝ) * S.theBiv⟩ : Spinor ℝ)) := by
  apply isExp_spin
  rw [Quaternion.exp_eq]
  have hn : ‖S.toH.im‖ = θ := by
    have h1 : ‖S.toH.im‖ * ‖S.toH.im‖ = θ ^ 2 := by
      rw [← Quaternion.normSq_eq_norm_mul_self, Quaternion.normSq_def', hθ]
      simp only [Quaternion.re_im, Quaternion.imI_im, Quaternion.imJ_im, Quaternion.imK_im,
        toH_imI, toH_imJ, toH_imK, engabra]
      ring
    nlinarith [norm_nonneg S.toH.im, sq_nonneg (‖S.toH.im‖ - θ)]
  rw [hn, ← Real.exp_eq_exp_ℝ]
  ext <;> simp [toH_re, toH_imI, toH_imJ, toH_imK, engabra] <;> ring

end Engabra
