import Verif.Lemmas.Unfold
import Verif.Model.Const
import Verif.Model.Overload
import Mathlib.Tactic.Ring
import Mathlib.Algebra.Ring.Defs
import Mathlib.Algebra.Group.Basic

/-! `mv_ring`: an equality between values of the model types over a commutative ring,
reduced to polynomial identities between components. -/

namespace Engabra

set_option linter.unusedSectionVars false

section
variable {α : Type} [Zero α] [One α]
@[engabra] theorem gzeroSca : (gzero : Scalar α) = ⟨⟨0⟩⟩ := rfl
@[engabra] theorem gzeroVec : (gzero : Vector α) = ⟨⟨0, 0, 0⟩⟩ := rfl
@[engabra] theorem gzeroBiv : (gzero : BiVector α) = ⟨⟨0, 0, 0⟩⟩ := rfl
@[engabra] theorem gzeroTri : (gzero : TriVector α) = ⟨⟨0⟩⟩ := rfl
@[engabra] theorem gzeroSpin : (gzero : Spinor α) = ⟨gzero, gzero⟩ := rfl
@[engabra] theorem gzeroImsp : (gzero : ImSpin α) = ⟨gzero, gzero⟩ := rfl
@[engabra] theorem gzeroCplx : (gzero : ComPlex α) = ⟨gzero, gzero⟩ := rfl
@[engabra] theorem gzeroDplx : (gzero : DirPlex α) = ⟨gzero, gzero⟩ := rfl
@[engabra] theorem gzeroMv : (gzero : MultiVector α) = ⟨gzero, gzero, gzero, gzero⟩ := rfl
@[engabra] theorem goneSca : (gone : Scalar α) = ⟨⟨1⟩⟩ := rfl
@[engabra] theorem goneVec : (gone : Vector α) = gzero := rfl
@[engabra] theorem goneBiv : (gone : BiVector α) = gzero := rfl
@[engabra] theorem goneTri : (gone : TriVector α) = ⟨⟨1⟩⟩ := rfl
@[engabra] theorem goneSpin : (gone : Spinor α) = ⟨gone, gzero⟩ := rfl
@[engabra] theorem goneImsp : (gone : ImSpin α) = ⟨⟨⟨1, 0, 0⟩⟩, ⟨⟨0⟩⟩⟩ := rfl
@[engabra] theorem goneCplx : (gone : ComPlex α) = ⟨⟨⟨1⟩⟩, ⟨⟨0⟩⟩⟩ := rfl
@[engabra] theorem goneDplx : (gone : DirPlex α) = ⟨⟨⟨1, 0, 0⟩⟩, ⟨⟨0, 0, 0⟩⟩⟩ := rfl
@[engabra] theorem goneMv : (gone : MultiVector α) = ⟨gone, gzero, gzero, gzero⟩ := rfl
attribute [engabra] e0 e1 e2 e3 e23 e31 e12 e123 promote mulTy
end

/-- Split an equation of model structures in components, unfold, and close with `ring`. -/
macro "mv_ring" : tactic =>
  `(tactic| (ext <;> simp only [engabra] <;> ring))

end Engabra
