import Verif.Spec.Euclid
import Mathlib.Analysis.SpecialFunctions.Trigonometric.Basic

/-! # Rotations of Euclidean space

Small specification used by C58; it does not mention spinors. -/

namespace Spec

/-- difference -/
def sub3 (a b : V3 ℝ) : V3 ℝ := ⟨a.x - b.x, a.y - b.y, a.z - b.z⟩

/-- length -/
noncomputable def norm3 (a : V3 ℝ) : ℝ := √(dot a a)

/-- distance of two points -/
noncomputable def dist3 (a b : V3 ℝ) : ℝ := norm3 (sub3 a b)

/-- Rodrigues' rotation of `v` in the plane and by the angle of the bivector with
components `A` (on `e23`, `e31`, `e12`); its length is the angle.  `A = (0,0,π/2)` takes `e2` to
`e1`: the coordinates of a fixed vector after the frame has been turned from `e1` towards `e2`. -/
noncomputable def turn (A v : V3 ℝ) : V3 ℝ :=
  let θ := norm3 A
  add (add (smul (Real.cos θ) v) (smul (Real.sin θ / θ) (cross v A)))
    (smul ((1 - Real.cos θ) / θ ^ 2 * dot A v) A)

/-- Several turns: the last of the list acts first. -/
noncomputable def turns (As : List (V3 ℝ)) (v : V3 ℝ) : V3 ℝ := As.foldr turn v

end Spec
