import Verif.Lemmas.Func
import Verif.Spec.Euclid
import Verif.Props.C01_Product
import Mathlib.Analysis.SpecialFunctions.Trigonometric.Basic
import Mathlib.Tactic.LinearCombination

/-! # C22: the spinor sandwich is a rotation -/

namespace Engabra
open Spec

section
variable {α : Type} [CommRing α]

/-- coordinates of a `Vector` -/
def Vector.xyz (v : Vector α) : V3 α := ⟨v.theData.d0, v.theData.d1, v.theData.d2⟩

/-- `(S * v * reverse(S)).theVec`: what a user writes to rotate `v` by `S`. -/
def sandwich (S : Spinor α) (v : Vector α) : Vector α := (S * v * reverse S).theVec

attribute [local engabra] Vector.xyz sandwich dot cross det Spec.add smul

/-- **C22.** The sandwich has no trivector part, for any spinor. -/
theorem C22_grade (S : Spinor α) (v : Vector α) :
    S * v * reverse S = (⟨sandwich S v, gzero⟩ : ImSpin α) := by mv_ring

/-- **C22.** Linear in `v`. -/
theorem C22_add (S : Spinor α) (v w : Vector α) :
    sandwich S (v + w) = sandwich S v + sandwich S w := by mv_ring
theorem C22_smul (S : Spinor α) (s : α) (v : Vector α) :
    sandwich S (s * v) = s * sandwich S v := by mv_ring

/-- **C22.** Dot products are scaled by `magSq(S)^2`, so preserved by unit spinors. -/
theorem C22_dot_general (S : Spinor α) (v w : Vector α) :
    dot (sandwich S v).xyz (sandwich S w).xyz = magSq S ^ 2 * dot v.xyz w.xyz := by
  simp only [engabra]; ring

theorem C22_dot (S : Spinor α) (hS : magSq S = 1) (v w : Vector α) :
    dot (sandwich S v).xyz (sandwich S w).xyz = dot v.xyz w.xyz := by
  rw [C22_dot_general, hS]; ring

/-- **C22.** Length is preserved. -/
theorem C22_length (S : Spinor α) (hS : magSq S = 1) (v : Vector α) :
    magSq (sandwich S v) = magSq v := by
  have h := C22_dot S hS v v
  have e : ∀ u : Vector α, magSq u = dot u.xyz u.xyz := by
    intro u; simp only [engabra]; ring
  rw [e, e, h]

/-- The sandwich maps cross products to cross products (times `magSq(S)`). -/
theorem C22_cross_general (S : Spinor α) (v w : Vector α) :
    cross (sandwich S v).xyz (sandwich S w).xyz
      = smul (magSq S) (sandwich S ⟨⟨(cross v.xyz w.xyz).x, (cross v.xyz w.xyz).y,
          (cross v.xyz w.xyz).z⟩⟩).xyz := by
  simp only [engabra, V3.mk.injEq]
  refine ⟨?_, ?_, ?_⟩ <;> ring

/-- **C22.** Orientation (triple product) is preserved by unit spinors: the map is a proper
rotation, not a reflection. -/
theorem C22_det (S : Spinor α) (hS : magSq S = 1) (u v w : Vector α) :
    det (sandwich S u).xyz (sandwich S v).xyz (sandwich S w).xyz = det u.xyz v.xyz w.xyz := by
  have h := C22_cross_general S v w
  rw [hS] at h
  unfold det
  rw [h]
  have h2 := C22_dot S hS u ⟨⟨(cross v.xyz w.xyz).x, (cross v.xyz w.xyz).y, (cross v.xyz w.xyz).z⟩⟩
  simp only [smul, one_mul]
  exact h2

/-- **C22.** Composition of rotations is the product of spinors. -/
theorem C22_comp (S T : Spinor α) (v : Vector α) :
    sandwich (S * T) v = sandwich S (sandwich T v) := by
  mv_ring

/-- **C22.** The unit spinor does nothing, and `reverse(S)` undoes `S`. -/
theorem C22_one (v : Vector α) : sandwich gone v = v := by mv_ring
theorem C22_inverse (S : Spinor α) (hS : magSq S = 1) (v : Vector α) :
    sandwich (reverse S) (sandwich S v) = v := by
  rw [← C22_comp]
  have : reverse S * S = ⟨⟨⟨magSq S⟩⟩, gzero⟩ := by mv_ring
  rw [this, hS]
  mv_ring

/-- **C22.** `S` and `-S` are the same rotation. -/
theorem C22_double_cover (S : Spinor α) (v : Vector α) : sandwich (-S) v = sandwich S v := by
  mv_ring
end

/-- **C22.** Rodrigues' formula.  For a unit bivector `B` with dual axis `n` (so
`B = dual(n)`), the spinor `cos(θ/2) + sin(θ/2) B` turns every vector by the angle `θ` about
`-n` (i.e. for `B = e12`, `θ = π/2` takes `e2` to `e1`). -/
theorem C22_rodrigues (n : Vector ℝ) (hn : magSq n = 1) (θ : ℝ) (v : Vector ℝ) :
    (sandwich (⟨⟨⟨Real.cos (θ / 2)⟩⟩, Real.sin (θ / 2) * (dual n : BiVector ℝ)⟩ : Spinor ℝ) v).xyz
      = Spec.add (Spec.add (smul (Real.cos θ) v.xyz) (smul (Real.sin θ) (cross v.xyz n.xyz)))
          (smul ((1 - Real.cos θ) * dot n.xyz v.xyz) n.xyz) := by
  have hc : Real.cos θ = Real.cos (θ / 2) ^ 2 - Real.sin (θ / 2) ^ 2 := by
    rw [← Real.cos_two_mul']; congr 1; ring
  have hs : Real.sin θ = 2 * Real.sin (θ / 2) * Real.cos (θ / 2) := by
    rw [← Real.sin_two_mul]; congr 1; ring
  have h1 : Real.sin (θ / 2) ^ 2 + Real.cos (θ / 2) ^ 2 = 1 := Real.sin_sq_add_cos_sq _
  rw [hc, hs]
  generalize Real.cos (θ / 2) = c at *
  generalize Real.sin (θ / 2) = s at *
  obtain ⟨⟨n0, n1, n2⟩⟩ := n
  obtain ⟨⟨v0, v1, v2⟩⟩ := v
  simp only [engabra] at hn
  simp only [sandwich, Vector.xyz, Spec.add, smul, cross, dot, engabra, V3.mk.injEq]
  have hc2 : c ^ 2 = 1 - s ^ 2 := by linarith
  refine ⟨?_, ?_, ?_⟩
  · linear_combination (s ^ 2 * v0) * hn * (-1) + ((n0*v0+n1*v1+n2*v2) * n0) * h1
  · linear_combination (s ^ 2 * v1) * hn * (-1) + ((n0*v0+n1*v1+n2*v2) * n1) * h1
  · linear_combination (s ^ 2 * v2) * hn * (-1) + ((n0*v0+n1*v1+n2*v2) * n2) * h1

/-- Non-triviality: a quarter turn. -/
example : sandwich (⟨⟨⟨1⟩⟩, ⟨⟨0, 0, 1⟩⟩⟩ : Spinor Int) (e2 : Vector Int) = (2 : Int) * (e1 : Vector Int) := by
  decide
example : magSq (⟨⟨⟨3/5⟩⟩, ⟨⟨0, 4/5, 0⟩⟩⟩ : Spinor ℝ) = 1 := by
  simp only [engabra]; norm_num

end Engabra
