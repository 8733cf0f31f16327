import Verif.Props.C01_Product

/-! # C03: every typed product agrees with the promoted MultiVector product

One theorem per `operator*` overload (99), over an arbitrary commutative ring, then
the statement for the whole overload set. -/

namespace Engabra

variable {α : Type} [CommRing α]

theorem C03_mul_Dub_Sca (a : α) (b : Scalar α) :
    toMV (a * b) = mvOfDub a * toMV b := by mv_ring

theorem C03_mul_Dub_Vec (a : α) (b : Vector α) :
    toMV (a * b) = mvOfDub a * toMV b := by mv_ring

theorem C03_mul_Dub_Biv (a : α) (b : BiVector α) :
    toMV (a * b) = mvOfDub a * toMV b := by mv_ring

theorem C03_mul_Dub_Tri (a : α) (b : TriVector α) :
    toMV (a * b) = mvOfDub a * toMV b := by mv_ring

theorem C03_mul_Dub_Spin (a : α) (b : Spinor α) :
    toMV (a * b) = mvOfDub a * toMV b := by mv_ring

theorem C03_mul_Dub_Imsp (a : α) (b : ImSpin α) :
    toMV (a * b) = mvOfDub a * toMV b := by mv_ring

theorem C03_mul_Dub_Cplx (a : α) (b : ComPlex α) :
    toMV (a * b) = mvOfDub a * toMV b := by mv_ring

theorem C03_mul_Dub_Dplx (a : α) (b : DirPlex α) :
    toMV (a * b) = mvOfDub a * toMV b := by mv_ring

theorem C03_mul_Dub_Mv (a : α) (b : MultiVector α) :
    toMV (a * b) = mvOfDub a * toMV b := by mv_ring

theorem C03_mul_Sca_Dub (a : Scalar α) (b : α) :
    toMV (a * b) = toMV a * mvOfDub b := by mv_ring

theorem C03_mul_Sca_Sca (a : Scalar α) (b : Scalar α) :
    toMV (a * b) = toMV a * toMV b := by mv_ring

theorem C03_mul_Sca_Vec (a : Scalar α) (b : Vector α) :
    toMV (a * b) = toMV a * toMV b := by mv_ring

theorem C03_mul_Sca_Biv (a : Scalar α) (b : BiVector α) :
    toMV (a * b) = toMV a * toMV b := by mv_ring

theorem C03_mul_Sca_Tri (a : Scalar α) (b : TriVector α) :
    toMV (a * b) = toMV a * toMV b := by mv_ring

theorem C03_mul_Sca_Spin (a : Scalar α) (b : Spinor α) :
    toMV (a * b) = toMV a * toMV b := by mv_ring

theorem C03_mul_Sca_Imsp (a : Scalar α) (b : ImSpin α) :
    toMV (a * b) = toMV a * toMV b := by mv_ring

theorem C03_mul_Sca_Cplx (a : Scalar α) (b : ComPlex α) :
    toMV (a * b) = toMV a * toMV b := by mv_ring

theorem C03_mul_Sca_Dplx (a : Scalar α) (b : DirPlex α) :
    toMV (a * b) = toMV a * toMV b := by mv_ring

theorem C03_mul_Sca_Mv (a : Scalar α) (b : MultiVector α) :
    toMV (a * b) = toMV a * toMV b := by mv_ring

theorem C03_mul_Vec_Dub (a : Vector α) (b : α) :
    toMV (a * b) = toMV a * mvOfDub b := by mv_ring

theorem C03_mul_Vec_Sca (a : Vector α) (b : Scalar α) :
    toMV (a * b) = toMV a * toMV b := by mv_ring

theorem C03_mul_Vec_Vec (a : Vector α) (b : Vector α) :
    toMV (a * b) = toMV a * toMV b := by mv_ring

theorem C03_mul_Vec_Biv (a : Vector α) (b : BiVector α) :
    toMV (a * b) = toMV a * toMV b := by mv_ring

theorem C03_mul_Vec_Tri (a : Vector α) (b : TriVector α) :
    toMV (a * b) = toMV a * toMV b := by mv_ring

theorem C03_mul_Vec_Spin (a : Vector α) (b : Spinor α) :
    toMV (a * b) = toMV a * toMV b := by mv_ring

theorem C03_mul_Vec_Imsp (a : Vector α) (b : ImSpin α) :
    toMV (a * b) = toMV a * toMV b := by mv_ring

theorem C03_mul_Vec_Cplx (a : Vector α) (b : ComPlex α) :
    toMV (a * b) = toMV a * toMV b := by mv_ring

theorem C03_mul_Vec_Dplx (a : Vector α) (b : DirPlex α) :
    toMV (a * b) = toMV a * toMV b := by mv_ring

theorem C03_mul_Vec_Mv (a : Vector α) (b : MultiVector α) :
    toMV (a * b) = toMV a * toMV b := by mv_ring

theorem C03_mul_Biv_Dub (a : BiVector α) (b : α) :
    toMV (a * b) = toMV a * mvOfDub b := by mv_ring

theorem C03_mul_Biv_Sca (a : BiVector α) (b : Scalar α) :
    toMV (a * b) = toMV a * toMV b := by mv_ring

theorem C03_mul_Biv_Vec (a : BiVector α) (b : Vector α) :
    toMV (a * b) = toMV a * toMV b := by mv_ring

theorem C03_mul_Biv_Biv (a : BiVector α) (b : BiVector α) :
    toMV (a * b) = toMV a * toMV b := by mv_ring

theorem C03_mul_Biv_Tri (a : BiVector α) (b : TriVector α) :
    toMV (a * b) = toMV a * toMV b := by mv_ring

theorem C03_mul_Biv_Spin (a : BiVector α) (b : Spinor α) :
    toMV (a * b) = toMV a * toMV b := by mv_ring

theorem C03_mul_Biv_Imsp (a : BiVector α) (b : ImSpin α) :
    toMV (a * b) = toMV a * toMV b := by mv_ring

theorem C03_mul_Biv_Cplx (a : BiVector α) (b : ComPlex α) :
    toMV (a * b) = toMV a * toMV b := by mv_ring

theorem C03_mul_Biv_Dplx (a : BiVector α) (b : DirPlex α) :
    toMV (a * b) = toMV a * toMV b := by mv_ring

theorem C03_mul_Biv_Mv (a : BiVector α) (b : MultiVector α) :
    toMV (a * b) = toMV a * toMV b := by mv_ring

theorem C03_mul_Tri_Dub (a : TriVector α) (b : α) :
    toMV (a * b) = toMV a * mvOfDub b := by mv_ring

theorem C03_mul_Tri_Sca (a : TriVector α) (b : Scalar α) :
    toMV (a * b) = toMV a * toMV b := by mv_ring

theorem C03_mul_Tri_Vec (a : TriVector α) (b : Vector α) :
    toMV (a * b) = toMV a * toMV b := by mv_ring

theorem C03_mul_Tri_Biv (a : TriVector α) (b : BiVector α) :
    toMV (a * b) = toMV a * toMV b := by mv_ring

theorem C03_mul_Tri_Tri (a : TriVector α) (b : TriVector α) :
    toMV (a * b) = toMV a * toMV b := by mv_ring

theorem C03_mul_Tri_Spin (a : TriVector α) (b : Spinor α) :
    toMV (a * b) = toMV a * toMV b := by mv_ring

theorem C03_mul_Tri_Imsp (a : TriVector α) (b : ImSpin α) :
    toMV (a * b) = toMV a * toMV b := by mv_ring

theorem C03_mul_Tri_Cplx (a : TriVector α) (b : ComPlex α) :
    toMV (a * b) = toMV a * toMV b := by mv_ring

theorem C03_mul_Tri_Dplx (a : TriVector α) (b : DirPlex α) :
    toMV (a * b) = toMV a * toMV b := by mv_ring

theorem C03_mul_Tri_Mv (a : TriVector α) (b : MultiVector α) :
    toMV (a * b) = toMV a * toMV b := by mv_ring

theorem C03_mul_Spin_Dub (a : Spinor α) (b : α) :
    toMV (a * b) = toMV a * mvOfDub b := by mv_ring

theorem C03_mul_Spin_Sca (a : Spinor α) (b : Scalar α) :
    toMV (a * b) = toMV a * toMV b := by mv_ring

theorem C03_mul_Spin_Vec (a : Spinor α) (b : Vector α) :
    toMV (a * b) = toMV a * toMV b := by mv_ring

theorem C03_mul_Spin_Biv (a : Spinor α) (b : BiVector α) :
    toMV (a * b) = toMV a * toMV b := by mv_ring

theorem C03_mul_Spin_Tri (a : Spinor α) (b : TriVector α) :
    toMV (a * b) = toMV a * toMV b := by mv_ring

theorem C03_mul_Spin_Spin (a : Spinor α) (b : Spinor α) :
    toMV (a * b) = toMV a * toMV b := by mv_ring

theorem C03_mul_Spin_Imsp (a : Spinor α) (b : ImSpin α) :
    toMV (a * b) = toMV a * toMV b := by mv_ring

theorem C03_mul_Spin_Cplx (a : Spinor α) (b : ComPlex α) :
    toMV (a * b) = toMV a * toMV b := by mv_ring

theorem C03_mul_Spin_Dplx (a : Spinor α) (b : DirPlex α) :
    toMV (a * b) = toMV a * toMV b := by mv_ring

theorem C03_mul_Spin_Mv (a : Spinor α) (b : MultiVector α) :
    toMV (a * b) = toMV a * toMV b := by mv_ring

theorem C03_mul_Imsp_Dub (a : ImSpin α) (b : α) :
    toMV (a * b) = toMV a * mvOfDub b := by mv_ring

theorem C03_mul_Imsp_Sca (a : ImSpin α) (b : Scalar α) :
    toMV (a * b) = toMV a * toMV b := by mv_ring

theorem C03_mul_Imsp_Vec (a : ImSpin α) (b : Vector α) :
    toMV (a * b) = toMV a * toMV b := by mv_ring

theorem C03_mul_Imsp_Biv (a : ImSpin α) (b : BiVector α) :
    toMV (a * b) = toMV a * toMV b := by mv_ring

theorem C03_mul_Imsp_Tri (a : ImSpin α) (b : TriVector α) :
    toMV (a * b) = toMV a * toMV b := by mv_ring

theorem C03_mul_Imsp_Spin (a : ImSpin α) (b : Spinor α) :
    toMV (a * b) = toMV a * toMV b := by mv_ring

theorem C03_mul_Imsp_Imsp (a : ImSpin α) (b : ImSpin α) :
    toMV (a * b) = toMV a * toMV b := by mv_ring

theorem C03_mul_Imsp_Cplx (a : ImSpin α) (b : ComPlex α) :
    toMV (a * b) = toMV a * toMV b := by mv_ring

theorem C03_mul_Imsp_Dplx (a : ImSpin α) (b : DirPlex α) :
    toMV (a * b) = toMV a * toMV b := by mv_ring

theorem C03_mul_Imsp_Mv (a : ImSpin α) (b : MultiVector α) :
    toMV (a * b) = toMV a * toMV b := by mv_ring

theorem C03_mul_Cplx_Dub (a : ComPlex α) (b : α) :
    toMV (a * b) = toMV a * mvOfDub b := by mv_ring

theorem C03_mul_Cplx_Sca (a : ComPlex α) (b : Scalar α) :
    toMV (a * b) = toMV a * toMV b := by mv_ring

theorem C03_mul_Cplx_Vec (a : ComPlex α) (b : Vector α) :
    toMV (a * b) = toMV a * toMV b := by mv_ring

theorem C03_mul_Cplx_Biv (a : ComPlex α) (b : BiVector α) :
    toMV (a * b) = toMV a * toMV b := by mv_ring

theorem C03_mul_Cplx_Tri (a : ComPlex α) (b : TriVector α) :
    toMV (a * b) = toMV a * toMV b := by mv_ring

theorem C03_mul_Cplx_Spin (a : ComPlex α) (b : Spinor α) :
    toMV (a * b) = toMV a * toMV b := by mv_ring

theorem C03_mul_Cplx_Imsp (a : ComPlex α) (b : ImSpin α) :
    toMV (a * b) = toMV a * toMV b := by mv_ring

theorem C03_mul_Cplx_Cplx (a : ComPlex α) (b : ComPlex α) :
    toMV (a * b) = toMV a * toMV b := by mv_ring

theorem C03_mul_Cplx_Dplx (a : ComPlex α) (b : DirPlex α) :
    toMV (a * b) = toMV a * toMV b := by mv_ring

theorem C03_mul_Cplx_Mv (a : ComPlex α) (b : MultiVector α) :
    toMV (a * b) = toMV a * toMV b := by mv_ring

theorem C03_mul_Dplx_Dub (a : DirPlex α) (b : α) :
    toMV (a * b) = toMV a * mvOfDub b := by mv_ring

theorem C03_mul_Dplx_Sca (a : DirPlex α) (b : Scalar α) :
    toMV (a * b) = toMV a * toMV b := by mv_ring

theorem C03_mul_Dplx_Vec (a : DirPlex α) (b : Vector α) :
    toMV (a * b) = toMV a * toMV b := by mv_ring

theorem C03_mul_Dplx_Biv (a : DirPlex α) (b : BiVector α) :
    toMV (a * b) = toMV a * toMV b := by mv_ring

theorem C03_mul_Dplx_Tri (a : DirPlex α) (b : TriVector α) :
    toMV (a * b) = toMV a * toMV b := by mv_ring

theorem C03_mul_Dplx_Spin (a : DirPlex α) (b : Spinor α) :
    toMV (a * b) = toMV a * toMV b := by mv_ring

theorem C03_mul_Dplx_Imsp (a : DirPlex α) (b : ImSpin α) :
    toMV (a * b) = toMV a * toMV b := by mv_ring

theorem C03_mul_Dplx_Cplx (a : DirPlex α) (b : ComPlex α) :
    toMV (a * b) = toMV a * toMV b := by mv_ring

theorem C03_mul_Dplx_Dplx (a : DirPlex α) (b : DirPlex α) :
    toMV (a * b) = toMV a * toMV b := by mv_ring

theorem C03_mul_Dplx_Mv (a : DirPlex α) (b : MultiVector α) :
    toMV (a * b) = toMV a * toMV b := by mv_ring

theorem C03_mul_Mv_Dub (a : MultiVector α) (b : α) :
    toMV (a * b) = toMV a * mvOfDub b := by mv_ring

theorem C03_mul_Mv_Sca (a : MultiVector α) (b : Scalar α) :
    toMV (a * b) = toMV a * toMV b := by mv_ring

theorem C03_mul_Mv_Vec (a : MultiVector α) (b : Vector α) :
    toMV (a * b) = toMV a * toMV b := by mv_ring

theorem C03_mul_Mv_Biv (a : MultiVector α) (b : BiVector α) :
    toMV (a * b) = toMV a * toMV b := by mv_ring

theorem C03_mul_Mv_Tri (a : MultiVector α) (b : TriVector α) :
    toMV (a * b) = toMV a * toMV b := by mv_ring

theorem C03_mul_Mv_Spin (a : MultiVector α) (b : Spinor α) :
    toMV (a * b) = toMV a * toMV b := by mv_ring

theorem C03_mul_Mv_Imsp (a : MultiVector α) (b : ImSpin α) :
    toMV (a * b) = toMV a * toMV b := by mv_ring

theorem C03_mul_Mv_Cplx (a : MultiVector α) (b : ComPlex α) :
    toMV (a * b) = toMV a * toMV b := by mv_ring

theorem C03_mul_Mv_Dplx (a : MultiVector α) (b : DirPlex α) :
    toMV (a * b) = toMV a * toMV b := by mv_ring

theorem C03_mul_Mv_Mv (a : MultiVector α) (b : MultiVector α) :
    toMV (a * b) = toMV a * toMV b := by mv_ring

/-- **C03.** For all ten operand types on either side, promoting both operands and using the
MultiVector product gives the promotion of the typed product. -/
theorem C03_typed_product_agrees (s t : Ty) (a : s.D α) (b : t.D α) :
    promote (mulRes s t) (mulTy s t a b) = promote s a * promote t b := by
  cases s <;> cases t
  · show mvOfDub (a * b) = mvOfDub a * mvOfDub b
    mv_ring
  · exact C03_mul_Dub_Sca a b
  · exact C03_mul_Dub_Vec a b
  · exact C03_mul_Dub_Biv a b
  · exact C03_mul_Dub_Tri a b
  · exact C03_mul_Dub_Spin a b
  · exact C03_mul_Dub_Imsp a b
  · exact C03_mul_Dub_Cplx a b
  · exact C03_mul_Dub_Dplx a b
  · exact C03_mul_Dub_Mv a b
  · exact C03_mul_Sca_Dub a b
  · exact C03_mul_Sca_Sca a b
  · exact C03_mul_Sca_Vec a b
  · exact C03_mul_Sca_Biv a b
  · exact C03_mul_Sca_Tri a b
  · exact C03_mul_Sca_Spin a b
  · exact C03_mul_Sca_Imsp a b
  · exact C03_mul_Sca_Cplx a b
  · exact C03_mul_Sca_Dplx a b
  · exact C03_mul_Sca_Mv a b
  · exact C03_mul_Vec_Dub a b
  · exact C03_mul_Vec_Sca a b
  · exact C03_mul_Vec_Vec a b
  · exact C03_mul_Vec_Biv a b
  · exact C03_mul_Vec_Tri a b
  · exact C03_mul_Vec_Spin a b
  · exact C03_mul_Vec_Imsp a b
  · exact C03_mul_Vec_Cplx a b
  · exact C03_mul_Vec_Dplx a b
  · exact C03_mul_Vec_Mv a b
  · exact C03_mul_Biv_Dub a b
  · exact C03_mul_Biv_Sca a b
  · exact C03_mul_Biv_Vec a b
  · exact C03_mul_Biv_Biv a b
  · exact C03_mul_Biv_Tri a b
  · exact C03_mul_Biv_Spin a b
  · exact C03_mul_Biv_Imsp a b
  · exact C03_mul_Biv_Cplx a b
  · exact C03_mul_Biv_Dplx a b
  · exact C03_mul_Biv_Mv a b
  · exact C03_mul_Tri_Dub a b
  · exact C03_mul_Tri_Sca a b
  · exact C03_mul_Tri_Vec a b
  · exact C03_mul_Tri_Biv a b
  · exact C03_mul_Tri_Tri a b
  · exact C03_mul_Tri_Spin a b
  · exact C03_mul_Tri_Imsp a b
  · exact C03_mul_Tri_Cplx a b
  · exact C03_mul_Tri_Dplx a b
  · exact C03_mul_Tri_Mv a b
  · exact C03_mul_Spin_Dub a b
  · exact C03_mul_Spin_Sca a b
  · exact C03_mul_Spin_Vec a b
  · exact C03_mul_Spin_Biv a b
  · exact C03_mul_Spin_Tri a b
  · exact C03_mul_Spin_Spin a b
  · exact C03_mul_Spin_Imsp a b
  · exact C03_mul_Spin_Cplx a b
  · exact C03_mul_Spin_Dplx a b
  · exact C03_mul_Spin_Mv a b
  · exact C03_mul_Imsp_Dub a b
  · exact C03_mul_Imsp_Sca a b
  · exact C03_mul_Imsp_Vec a b
  · exact C03_mul_Imsp_Biv a b
  · exact C03_mul_Imsp_Tri a b
  · exact C03_mul_Imsp_Spin a b
  · exact C03_mul_Imsp_Imsp a b
  · exact C03_mul_Imsp_Cplx a b
  · exact C03_mul_Imsp_Dplx a b
  · exact C03_mul_Imsp_Mv a b
  · exact C03_mul_Cplx_Dub a b
  · exact C03_mul_Cplx_Sca a b
  · exact C03_mul_Cplx_Vec a b
  · exact C03_mul_Cplx_Biv a b
  · exact C03_mul_Cplx_Tri a b
  · exact C03_mul_Cplx_Spin a b
  · exact C03_mul_Cplx_Imsp a b
  · exact C03_mul_Cplx_Cplx a b
  · exact C03_mul_Cplx_Dplx a b
  · exact C03_mul_Cplx_Mv a b
  · exact C03_mul_Dplx_Dub a b
  · exact C03_mul_Dplx_Sca a b
  · exact C03_mul_Dplx_Vec a b
  · exact C03_mul_Dplx_Biv a b
  · exact C03_mul_Dplx_Tri a b
  · exact C03_mul_Dplx_Spin a b
  · exact C03_mul_Dplx_Imsp a b
  · exact C03_mul_Dplx_Cplx a b
  · exact C03_mul_Dplx_Dplx a b
  · exact C03_mul_Dplx_Mv a b
  · exact C03_mul_Mv_Dub a b
  · exact C03_mul_Mv_Sca a b
  · exact C03_mul_Mv_Vec a b
  · exact C03_mul_Mv_Biv a b
  · exact C03_mul_Mv_Tri a b
  · exact C03_mul_Mv_Spin a b
  · exact C03_mul_Mv_Imsp a b
  · exact C03_mul_Mv_Cplx a b
  · exact C03_mul_Mv_Dplx a b
  · exact C03_mul_Mv_Mv a b

/-- A concrete non trivial instance of C03 over `ℤ` (spinor times dirplex). -/
example : promote (mulRes .spin .dplx) (mulTy .spin .dplx
      (⟨⟨⟨2⟩⟩, ⟨⟨1, -3, 5⟩⟩⟩ : Spinor Int) (⟨⟨⟨1, 2, 3⟩⟩, ⟨⟨4, 5, -6⟩⟩⟩ : DirPlex Int))
    = mvOf8 41 21 2 1 15 (-16) (-29) 10 := by decide

end Engabra
