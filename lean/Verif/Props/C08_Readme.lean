import Verif.Props.C06_C08_Unary
import Mathlib.Data.Real.Basic
import Mathlib.Tactic.Linarith

/-! # C08: the table of duals in the README

`README.md:696-701` gives `dual(sca) = e123*sca`, `dual(vec) = e123*vec`,
`dual(biv) = -e123*biv` and `dual(tri) = -e123*tri`; `README.md:551-554` says that `dual`
multiplies by the unit trivector.  The code does the latter. -/

namespace Engabra

/-- **C08.** The first two lines of the README's table hold. -/
theorem C08_readme_sca_vec (s : Scalar ℝ) (v : Vector ℝ) :
    (dual s : TriVector ℝ) = (e123 : TriVector ℝ) * s ∧ (dual v : BiVector ℝ) = (e123 : TriVector ℝ) * v := by
  constructor <;> mv_ring

/-- **C08.** The last two lines of the README's table have the wrong sign: they hold for zero
arguments only. -/
theorem C08_readme_biv_tri (b : BiVector ℝ) (p : TriVector ℝ) :
    ((dual b : Vector ℝ) = -(e123 : TriVector ℝ) * b ↔ b = gzero) ∧
    ((dual p : Scalar ℝ) = -(e123 : TriVector ℝ) * p ↔ p = gzero) := by
  obtain ⟨⟨x, y, z⟩⟩ := b
  obtain ⟨⟨w⟩⟩ := p
  constructor <;> constructor
  · intro h
    simp only [engabra, Vector.mk.injEq, A3.mk.injEq] at h
    obtain ⟨h1, h2, h3⟩ := h
    ext <;> simp only [engabra] <;> linarith
  · intro h
    rw [h]; ext <;> simp [engabra]
  · intro h
    simp only [engabra, Scalar.mk.injEq, A1.mk.injEq] at h
    ext; simp only [engabra]; linarith
  · intro h
    rw [h]; ext; simp [engabra]

example : (dual (e12 : BiVector ℝ) : Vector ℝ) = ⟨⟨0, 0, -1⟩⟩ ∧
    -(e123 : TriVector ℝ) * (e12 : BiVector ℝ) = ⟨⟨0, 0, 1⟩⟩ := by
  constructor <;> ext <;> simp [engabra]

end Engabra
