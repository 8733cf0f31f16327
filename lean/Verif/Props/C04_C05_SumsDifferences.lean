import Verif.Props.C01_Product
import Mathlib.Tactic.Linarith
import Mathlib.Tactic.NormNum

/-! # C04: typed sums; C05: typed differences

`addTy`/`subTy` return `none` exactly for operand types without an overload. -/

namespace Engabra

variable {α : Type} [CommRing α]

theorem C04_add_Sca_Sca (a : Scalar α) (b : Scalar α) :
    toMV (a + b) = toMV a + toMV b := by mv_ring

theorem C04_add_Sca_Biv (a : Scalar α) (b : BiVector α) :
    toMV (a + b) = toMV a + toMV b := by mv_ring

theorem C04_add_Sca_Tri (a : Scalar α) (b : TriVector α) :
    toMV (a + b) = toMV a + toMV b := by mv_ring

theorem C04_add_Sca_Spin (a : Scalar α) (b : Spinor α) :
    toMV (a + b) = toMV a + toMV b := by mv_ring

theorem C04_add_Sca_Cplx (a : Scalar α) (b : ComPlex α) :
    toMV (a + b) = toMV a + toMV b := by mv_ring

theorem C04_add_Sca_Mv (a : Scalar α) (b : MultiVector α) :
    toMV (a + b) = toMV a + toMV b := by mv_ring

theorem C04_add_Vec_Vec (a : Vector α) (b : Vector α) :
    toMV (a + b) = toMV a + toMV b := by mv_ring

theorem C04_add_Vec_Biv (a : Vector α) (b : BiVector α) :
    toMV (a + b) = toMV a + toMV b := by mv_ring

theorem C04_add_Vec_Tri (a : Vector α) (b : TriVector α) :
    toMV (a + b) = toMV a + toMV b := by mv_ring

theorem C04_add_Vec_Imsp (a : Vector α) (b : ImSpin α) :
    toMV (a + b) = toMV a + toMV b := by mv_ring

theorem C04_add_Vec_Dplx (a : Vector α) (b : DirPlex α) :
    toMV (a + b) = toMV a + toMV b := by mv_ring

theorem C04_add_Vec_Mv (a : Vector α) (b : MultiVector α) :
    toMV (a + b) = toMV a + toMV b := by mv_ring

theorem C04_add_Biv_Sca (a : BiVector α) (b : Scalar α) :
    toMV (a + b) = toMV a + toMV b := by mv_ring

theorem C04_add_Biv_Vec (a : BiVector α) (b : Vector α) :
    toMV (a + b) = toMV a + toMV b := by mv_ring

theorem C04_add_Biv_Biv (a : BiVector α) (b : BiVector α) :
    toMV (a + b) = toMV a + toMV b := by mv_ring

theorem C04_add_Biv_Spin (a : BiVector α) (b : Spinor α) :
    toMV (a + b) = toMV a + toMV b := by mv_ring

theorem C04_add_Biv_Dplx (a : BiVector α) (b : DirPlex α) :
    toMV (a + b) = toMV a + toMV b := by mv_ring

theorem C04_add_Biv_Mv (a : BiVector α) (b : MultiVector α) :
    toMV (a + b) = toMV a + toMV b := by mv_ring

theorem C04_add_Tri_Sca (a : TriVector α) (b : Scalar α) :
    toMV (a + b) = toMV a + toMV b := by mv_ring

theorem C04_add_Tri_Vec (a : TriVector α) (b : Vector α) :
    toMV (a + b) = toMV a + toMV b := by mv_ring

theorem C04_add_Tri_Tri (a : TriVector α) (b : TriVector α) :
    toMV (a + b) = toMV a + toMV b := by mv_ring

theorem C04_add_Tri_Imsp (a : TriVector α) (b : ImSpin α) :
    toMV (a + b) = toMV a + toMV b := by mv_ring

theorem C04_add_Tri_Cplx (a : TriVector α) (b : ComPlex α) :
    toMV (a + b) = toMV a + toMV b := by mv_ring

theorem C04_add_Tri_Mv (a : TriVector α) (b : MultiVector α) :
    toMV (a + b) = toMV a + toMV b := by mv_ring

theorem C04_add_Spin_Sca (a : Spinor α) (b : Scalar α) :
    toMV (a + b) = toMV a + toMV b := by mv_ring

theorem C04_add_Spin_Biv (a : Spinor α) (b : BiVector α) :
    toMV (a + b) = toMV a + toMV b := by mv_ring

theorem C04_add_Spin_Spin (a : Spinor α) (b : Spinor α) :
    toMV (a + b) = toMV a + toMV b := by mv_ring

theorem C04_add_Spin_Imsp (a : Spinor α) (b : ImSpin α) :
    toMV (a + b) = toMV a + toMV b := by mv_ring

theorem C04_add_Spin_Mv (a : Spinor α) (b : MultiVector α) :
    toMV (a + b) = toMV a + toMV b := by mv_ring

theorem C04_add_Imsp_Vec (a : ImSpin α) (b : Vector α) :
    toMV (a + b) = toMV a + toMV b := by mv_ring

theorem C04_add_Imsp_Tri (a : ImSpin α) (b : TriVector α) :
    toMV (a + b) = toMV a + toMV b := by mv_ring

theorem C04_add_Imsp_Spin (a : ImSpin α) (b : Spinor α) :
    toMV (a + b) = toMV a + toMV b := by mv_ring

theorem C04_add_Imsp_Imsp (a : ImSpin α) (b : ImSpin α) :
    toMV (a + b) = toMV a + toMV b := by mv_ring

theorem C04_add_Imsp_Mv (a : ImSpin α) (b : MultiVector α) :
    toMV (a + b) = toMV a + toMV b := by mv_ring

theorem C04_add_Cplx_Sca (a : ComPlex α) (b : Scalar α) :
    toMV (a + b) = toMV a + toMV b := by mv_ring

theorem C04_add_Cplx_Tri (a : ComPlex α) (b : TriVector α) :
    toMV (a + b) = toMV a + toMV b := by mv_ring

theorem C04_add_Cplx_Cplx (a : ComPlex α) (b : ComPlex α) :
    toMV (a + b) = toMV a + toMV b := by mv_ring

theorem C04_add_Cplx_Dplx (a : ComPlex α) (b : DirPlex α) :
    toMV (a + b) = toMV a + toMV b := by mv_ring

theorem C04_add_Cplx_Mv (a : ComPlex α) (b : MultiVector α) :
    toMV (a + b) = toMV a + toMV b := by mv_ring

theorem C04_add_Dplx_Vec (a : DirPlex α) (b : Vector α) :
    toMV (a + b) = toMV a + toMV b := by mv_ring

theorem C04_add_Dplx_Biv (a : DirPlex α) (b : BiVector α) :
    toMV (a + b) = toMV a + toMV b := by mv_ring

theorem C04_add_Dplx_Cplx (a : DirPlex α) (b : ComPlex α) :
    toMV (a + b) = toMV a + toMV b := by mv_ring

theorem C04_add_Dplx_Dplx (a : DirPlex α) (b : DirPlex α) :
    toMV (a + b) = toMV a + toMV b := by mv_ring

theorem C04_add_Dplx_Mv (a : DirPlex α) (b : MultiVector α) :
    toMV (a + b) = toMV a + toMV b := by mv_ring

theorem C04_add_Mv_Sca (a : MultiVector α) (b : Scalar α) :
    toMV (a + b) = toMV a + toMV b := by mv_ring

theorem C04_add_Mv_Vec (a : MultiVector α) (b : Vector α) :
    toMV (a + b) = toMV a + toMV b := by mv_ring

theorem C04_add_Mv_Biv (a : MultiVector α) (b : BiVector α) :
    toMV (a + b) = toMV a + toMV b := by mv_ring

theorem C04_add_Mv_Tri (a : MultiVector α) (b : TriVector α) :
    toMV (a + b) = toMV a + toMV b := by mv_ring

theorem C04_add_Mv_Spin (a : MultiVector α) (b : Spinor α) :
    toMV (a + b) = toMV a + toMV b := by mv_ring

theorem C04_add_Mv_Imsp (a : MultiVector α) (b : ImSpin α) :
    toMV (a + b) = toMV a + toMV b := by mv_ring

theorem C04_add_Mv_Cplx (a : MultiVector α) (b : ComPlex α) :
    toMV (a + b) = toMV a + toMV b := by mv_ring

theorem C04_add_Mv_Dplx (a : MultiVector α) (b : DirPlex α) :
    toMV (a + b) = toMV a + toMV b := by mv_ring

theorem C04_add_Mv_Mv (a : MultiVector α) (b : MultiVector α) :
    toMV (a + b) = toMV a + toMV b := by mv_ring

theorem C05_sub_Sca_Sca (a : Scalar α) (b : Scalar α) :
    toMV (a - b) = toMV a - toMV b := by mv_ring

theorem C05_sub_Sca_Biv (a : Scalar α) (b : BiVector α) :
    toMV (a - b) = toMV a - toMV b := by mv_ring

theorem C05_sub_Sca_Tri (a : Scalar α) (b : TriVector α) :
    toMV (a - b) = toMV a - toMV b := by mv_ring

theorem C05_sub_Sca_Spin (a : Scalar α) (b : Spinor α) :
    toMV (a - b) = toMV a - toMV b := by mv_ring

theorem C05_sub_Sca_Cplx (a : Scalar α) (b : ComPlex α) :
    toMV (a - b) = toMV a - toMV b := by mv_ring

theorem C05_sub_Sca_Mv (a : Scalar α) (b : MultiVector α) :
    toMV (a - b) = toMV a - toMV b := by mv_ring

theorem C05_sub_Vec_Vec (a : Vector α) (b : Vector α) :
    toMV (a - b) = toMV a - toMV b := by mv_ring

theorem C05_sub_Vec_Biv (a : Vector α) (b : BiVector α) :
    toMV (a - b) = toMV a - toMV b := by mv_ring

theorem C05_sub_Vec_Tri (a : Vector α) (b : TriVector α) :
    toMV (a - b) = toMV a - toMV b := by mv_ring

theorem C05_sub_Vec_Imsp (a : Vector α) (b : ImSpin α) :
    toMV (a - b) = toMV a - toMV b := by mv_ring

theorem C05_sub_Vec_Dplx (a : Vector α) (b : DirPlex α) :
    toMV (a - b) = toMV a - toMV b := by mv_ring

theorem C05_sub_Vec_Mv (a : Vector α) (b : MultiVector α) :
    toMV (a - b) = toMV a - toMV b := by mv_ring

/-- Wrong order of operands in the code: the result is `b - a`. -/
theorem C05_sub_Biv_Sca_reversed (a : BiVector α) (b : Scalar α) :
    toMV (a - b) = toMV b - toMV a := by mv_ring

/-- Wrong order of operands in the code: the result is `b - a`. -/
theorem C05_sub_Biv_Vec_reversed (a : BiVector α) (b : Vector α) :
    toMV (a - b) = toMV b - toMV a := by mv_ring

theorem C05_sub_Biv_Biv (a : BiVector α) (b : BiVector α) :
    toMV (a - b) = toMV a - toMV b := by mv_ring

theorem C05_sub_Biv_Spin (a : BiVector α) (b : Spinor α) :
    toMV (a - b) = toMV a - toMV b := by mv_ring

theorem C05_sub_Biv_Dplx (a : BiVector α) (b : DirPlex α) :
    toMV (a - b) = toMV a - toMV b := by mv_ring

theorem C05_sub_Biv_Mv (a : BiVector α) (b : MultiVector α) :
    toMV (a - b) = toMV a - toMV b := by mv_ring

/-- Wrong order of operands in the code: the result is `b - a`. -/
theorem C05_sub_Tri_Sca_reversed (a : TriVector α) (b : Scalar α) :
    toMV (a - b) = toMV b - toMV a := by mv_ring

/-- Wrong order of operands in the code: the result is `b - a`. -/
theorem C05_sub_Tri_Vec_reversed (a : TriVector α) (b : Vector α) :
    toMV (a - b) = toMV b - toMV a := by mv_ring

theorem C05_sub_Tri_Tri (a : TriVector α) (b : TriVector α) :
    toMV (a - b) = toMV a - toMV b := by mv_ring

theorem C05_sub_Tri_Imsp (a : TriVector α) (b : ImSpin α) :
    toMV (a - b) = toMV a - toMV b := by mv_ring

theorem C05_sub_Tri_Cplx (a : TriVector α) (b : ComPlex α) :
    toMV (a - b) = toMV a - toMV b := by mv_ring

theorem C05_sub_Tri_Mv (a : TriVector α) (b : MultiVector α) :
    toMV (a - b) = toMV a - toMV b := by mv_ring

/-- Wrong order of operands in the code: the result is `b - a`. -/
theorem C05_sub_Spin_Sca_reversed (a : Spinor α) (b : Scalar α) :
    toMV (a - b) = toMV b - toMV a := by mv_ring

/-- Wrong order of operands in the code: the result is `b - a`. -/
theorem C05_sub_Spin_Biv_reversed (a : Spinor α) (b : BiVector α) :
    toMV (a - b) = toMV b - toMV a := by mv_ring

theorem C05_sub_Spin_Spin (a : Spinor α) (b : Spinor α) :
    toMV (a - b) = toMV a - toMV b := by mv_ring

theorem C05_sub_Spin_Imsp (a : Spinor α) (b : ImSpin α) :
    toMV (a - b) = toMV a - toMV b := by mv_ring

theorem C05_sub_Spin_Mv (a : Spinor α) (b : MultiVector α) :
    toMV (a - b) = toMV a - toMV b := by mv_ring

theorem C05_sub_Imsp_Vec (a : ImSpin α) (b : Vector α) :
    toMV (a - b) = toMV a - toMV b := by mv_ring

theorem C05_sub_Imsp_Tri (a : ImSpin α) (b : TriVector α) :
    toMV (a - b) = toMV a - toMV b := by mv_ring

theorem C05_sub_Imsp_Spin (a : ImSpin α) (b : Spinor α) :
    toMV (a - b) = toMV a - toMV b := by mv_ring

theorem C05_sub_Imsp_Imsp (a : ImSpin α) (b : ImSpin α) :
    toMV (a - b) = toMV a - toMV b := by mv_ring

theorem C05_sub_Imsp_Mv (a : ImSpin α) (b : MultiVector α) :
    toMV (a - b) = toMV a - toMV b := by mv_ring

theorem C05_sub_Cplx_Sca (a : ComPlex α) (b : Scalar α) :
    toMV (a - b) = toMV a - toMV b := by mv_ring

theorem C05_sub_Cplx_Tri (a : ComPlex α) (b : TriVector α) :
    toMV (a - b) = toMV a - toMV b := by mv_ring

theorem C05_sub_Cplx_Cplx (a : ComPlex α) (b : ComPlex α) :
    toMV (a - b) = toMV a - toMV b := by mv_ring

theorem C05_sub_Cplx_Dplx (a : ComPlex α) (b : DirPlex α) :
    toMV (a - b) = toMV a - toMV b := by mv_ring

theorem C05_sub_Cplx_Mv (a : ComPlex α) (b : MultiVector α) :
    toMV (a - b) = toMV a - toMV b := by mv_ring

theorem C05_sub_Dplx_Vec (a : DirPlex α) (b : Vector α) :
    toMV (a - b) = toMV a - toMV b := by mv_ring

theorem C05_sub_Dplx_Biv (a : DirPlex α) (b : BiVector α) :
    toMV (a - b) = toMV a - toMV b := by mv_ring

theorem C05_sub_Dplx_Cplx (a : DirPlex α) (b : ComPlex α) :
    toMV (a - b) = toMV a - toMV b := by mv_ring

theorem C05_sub_Dplx_Dplx (a : DirPlex α) (b : DirPlex α) :
    toMV (a - b) = toMV a - toMV b := by mv_ring

theorem C05_sub_Dplx_Mv (a : DirPlex α) (b : MultiVector α) :
    toMV (a - b) = toMV a - toMV b := by mv_ring

theorem C05_sub_Mv_Sca (a : MultiVector α) (b : Scalar α) :
    toMV (a - b) = toMV a - toMV b := by mv_ring

theorem C05_sub_Mv_Vec (a : MultiVector α) (b : Vector α) :
    toMV (a - b) = toMV a - toMV b := by mv_ring

theorem C05_sub_Mv_Biv (a : MultiVector α) (b : BiVector α) :
    toMV (a - b) = toMV a - toMV b := by mv_ring

theorem C05_sub_Mv_Tri (a : MultiVector α) (b : TriVector α) :
    toMV (a - b) = toMV a - toMV b := by mv_ring

theorem C05_sub_Mv_Spin (a : MultiVector α) (b : Spinor α) :
    toMV (a - b) = toMV a - toMV b := by mv_ring

theorem C05_sub_Mv_Imsp (a : MultiVector α) (b : ImSpin α) :
    toMV (a - b) = toMV a - toMV b := by mv_ring

theorem C05_sub_Mv_Cplx (a : MultiVector α) (b : ComPlex α) :
    toMV (a - b) = toMV a - toMV b := by mv_ring

theorem C05_sub_Mv_Dplx (a : MultiVector α) (b : DirPlex α) :
    toMV (a - b) = toMV a - toMV b := by mv_ring

theorem C05_sub_Mv_Mv (a : MultiVector α) (b : MultiVector α) :
    toMV (a - b) = toMV a - toMV b := by mv_ring

/-! ## C04 for the whole overload set -/

/-- **C04.** Whenever there is an `operator+` for the operand types, its promotion is the
MultiVector sum of the promotions. -/
theorem C04_typed_sum_agrees (s t r : Ty) (a : s.D α) (b : t.D α) (c : r.D α)
    (h : addTy s t a b = some ⟨r, c⟩) : promote r c = promote s a + promote t b := by
  cases s <;> cases t <;> simp only [addTy, Option.some.injEq, reduceCtorEq] at h <;>
    (cases h; mv_ring)

/-- Addition overloads exist symmetrically and commute: `a + b = b + a`, including the
result type. -/
theorem C04_add_comm (s t : Ty) (a : s.D α) (b : t.D α) : addTy s t a b = addTy t s b a := by
  cases s <;> cases t <;> simp only [addTy, Option.some.injEq] <;>
    first | rfl | (congr 1; first | exact add_comm a b | mv_ring)

/-- Same type sums: every type has one, associative, with `zero<T>()` neutral and unary
minus the inverse. -/
theorem C04_add_assoc (t : Ty) (a b c ab bc : t.D α)
    (hab : addTy t t a b = some ⟨t, ab⟩) (hbc : addTy t t b c = some ⟨t, bc⟩) :
    addTy t t ab c = addTy t t a bc := by
  cases t <;> simp only [addTy, Option.some.injEq, Sigma.mk.injEq, heq_eq_eq, true_and] at * <;>
    subst hab hbc <;> first | exact add_assoc a b c | mv_ring

theorem C04_add_self_type (t : Ty) (a b : t.D α) : ∃ c, addTy t t a b = some ⟨t, c⟩ := by
  cases t <;> exact ⟨_, rfl⟩

theorem C04_add_neg (t : Ty) (a c : t.D α) (h : addTy t t a (negTy t a) = some ⟨t, c⟩) :
    promote t c = gzero := by
  cases t <;> simp only [addTy, Option.some.injEq, Sigma.mk.injEq, heq_eq_eq, true_and] at h <;>
    subst h <;> simp only [negTy] <;> mv_ring

/-- C04 has content: e.g. Scalar + BiVector exists and gives a Spinor. -/
example : addTy .sca .biv (⟨⟨2⟩⟩ : Scalar Int) (⟨⟨1, 2, 3⟩⟩ : BiVector Int)
    = some ⟨.spin, (⟨⟨⟨2⟩⟩, ⟨⟨1, 2, 3⟩⟩⟩ : Spinor Int)⟩ := rfl

/-! ## C05 for the whole overload set -/

/-- The six operand type pairs whose `operator-` is implemented with exchanged operands. -/
def subReversed : Ty → Ty → Bool
  | .biv, .sca | .biv, .vec | .tri, .sca | .tri, .vec | .spin, .sca | .spin, .biv => true
  | _, _ => false

/-- **C05 (partial).** For every operand type pair with an `operator-`, *other than the six
pairs of `subReversed`*, the promotion of `a - b` is the difference of promotions.
Missing: the six pairs, for which the claim is false (`C05_fails_for_six`). -/
theorem C05_typed_difference_partial (s t r : Ty) (a : s.D α) (b : t.D α) (c : r.D α)
    (hok : subReversed s t = false)
    (h : subTy s t a b = some ⟨r, c⟩) : promote r c = promote s a - promote t b := by
  cases s <;> cases t <;> simp only [subReversed, Bool.true_eq_false] at hok <;>
    simp only [subTy, Option.some.injEq, reduceCtorEq] at h <;>
    (cases h; mv_ring)

/-- For the six pairs the code computes `b - a`. -/
theorem C05_six_are_reversed (s t r : Ty) (a : s.D α) (b : t.D α) (c : r.D α)
    (hbad : subReversed s t = true)
    (h : subTy s t a b = some ⟨r, c⟩) : promote r c = promote t b - promote s a := by
  cases s <;> cases t <;> simp only [subReversed, Bool.false_eq_true] at hbad <;>
    simp only [subTy, Option.some.injEq] at h <;>
    (cases h; mv_ring)

/-- **C05 negation.** For each of the six pairs there are operands for which `a - b` is not
the difference of `a` and `b`. -/
theorem C05_fails_for_six (s t : Ty) (hbad : subReversed s t = true) :
    ∃ (a : s.D ℝ) (b : t.D ℝ) (r : Ty) (c : r.D ℝ),
      subTy s t a b = some ⟨r, c⟩ ∧ promote r c ≠ promote s a - promote t b := by
  cases s <;> cases t <;> simp only [subReversed, Bool.false_eq_true] at hbad
  case biv.sca =>
    refine ⟨gzero, ⟨⟨1⟩⟩, .spin, _, rfl, fun h => ?_⟩
    have := congrArg (fun m : MultiVector ℝ => m.theSca.theData.d0) h
    simp only [engabra] at this; norm_num at this
  case biv.vec =>
    refine ⟨gzero, ⟨⟨1, 0, 0⟩⟩, .dplx, _, rfl, fun h => ?_⟩
    have := congrArg (fun m : MultiVector ℝ => m.theVec.theData.d0) h
    simp only [engabra] at this; norm_num at this
  case tri.sca =>
    refine ⟨gzero, ⟨⟨1⟩⟩, .cplx, _, rfl, fun h => ?_⟩
    have := congrArg (fun m : MultiVector ℝ => m.theSca.theData.d0) h
    simp only [engabra] at this; norm_num at this
  case tri.vec =>
    refine ⟨gzero, ⟨⟨1, 0, 0⟩⟩, .imsp, _, rfl, fun h => ?_⟩
    have := congrArg (fun m : MultiVector ℝ => m.theVec.theData.d0) h
    simp only [engabra] at this; norm_num at this
  case spin.sca =>
    refine ⟨gzero, ⟨⟨1⟩⟩, .spin, _, rfl, fun h => ?_⟩
    have := congrArg (fun m : MultiVector ℝ => m.theSca.theData.d0) h
    simp only [engabra] at this; norm_num at this
  case spin.biv =>
    refine ⟨gzero, ⟨⟨1, 0, 0⟩⟩, .spin, _, rfl, fun h => ?_⟩
    have := congrArg (fun m : MultiVector ℝ => m.theBiv.theData.d0) h
    simp only [engabra] at this; norm_num at this

/-- For the six pairs the wrong result is returned for *all* operands that differ as
multivectors: the law holds only in the degenerate case. -/
theorem C05_six_wrong_unless_equal (s t r : Ty) (a : s.D ℝ) (b : t.D ℝ) (c : r.D ℝ)
    (hbad : subReversed s t = true) (h : subTy s t a b = some ⟨r, c⟩) :
    promote r c = promote s a - promote t b ↔ promote s a = promote t b := by
  rw [C05_six_are_reversed s t r a b c hbad h]
  generalize promote s a = x
  generalize promote t b = y
  constructor
  · intro hxy
    ext <;> [have h := congrArg (fun m : MultiVector ℝ => m.theSca.theData.d0) hxy;
      have h := congrArg (fun m : MultiVector ℝ => m.theVec.theData.d0) hxy;
      have h := congrArg (fun m : MultiVector ℝ => m.theVec.theData.d1) hxy;
      have h := congrArg (fun m : MultiVector ℝ => m.theVec.theData.d2) hxy;
      have h := congrArg (fun m : MultiVector ℝ => m.theBiv.theData.d0) hxy;
      have h := congrArg (fun m : MultiVector ℝ => m.theBiv.theData.d1) hxy;
      have h := congrArg (fun m : MultiVector ℝ => m.theBiv.theData.d2) hxy;
      have h := congrArg (fun m : MultiVector ℝ => m.theTri.theData.d0) hxy] <;>
    simp only [engabra] at h <;> linarith
  · rintro rfl; rfl

/-- For the six pairs the order of the operands does not matter at all: `a - b` and `b - a`
are the same object (in every number type, so bit for bit for doubles). -/
theorem C05_six_order_irrelevant {β : Type} [Add β] [Sub β] [Mul β] [Neg β] [Zero β]
    (s t : Ty) (a : s.D β) (b : t.D β) (hbad : subReversed s t = true) :
    subTy s t a b = subTy t s b a := by
  cases s <;> cases t <;> simp only [subReversed, Bool.false_eq_true] at hbad <;> rfl

/-- **C05 (partial), anti-commutation** `a - b = -(b - a)`, for all pairs other than the six
and their mirror images.  Missing: the six, where `C05_six_order_irrelevant` holds instead. -/
theorem C05_anticommutes_partial (s t r r' : Ty) (a : s.D α) (b : t.D α) (c : r.D α) (c' : r'.D α)
    (hok : subReversed s t = false) (hok' : subReversed t s = false)
    (h : subTy s t a b = some ⟨r, c⟩) (h' : subTy t s b a = some ⟨r', c'⟩) :
    promote r c = - promote r' c' := by
  rw [C05_typed_difference_partial s t r a b c hok h,
    C05_typed_difference_partial t s r' b a c' hok' h', neg_sub]

/-- Subtraction overloads exist symmetrically (same operand type pairs as addition). -/
theorem C05_exists_iff_add (s t : Ty) (a : s.D α) (b : t.D α) :
    (subTy s t a b).isSome = (addTy s t a b).isSome := by
  cases s <;> cases t <;> rfl

/-- Concrete instance meeting the hypotheses of the partial theorem. -/
example : subReversed .mv .dplx = false ∧
    (subTy .mv .dplx (mvOf8 1 2 3 4 5 6 7 8 : MultiVector Int) ⟨⟨⟨1, 1, 1⟩⟩, ⟨⟨1, 1, 1⟩⟩⟩)
      = some ⟨.mv, (mvOf8 1 1 2 3 4 5 6 8 : MultiVector Int)⟩ := ⟨rfl, rfl⟩

/-- The hypotheses of `C05_six_are_reversed`: a bivector minus a vector, with the result of the code,
whose bivector part has the wrong sign. -/
example : subReversed .biv .vec = true ∧
    subTy .biv .vec (⟨⟨1, 2, 3⟩⟩ : BiVector Int) (⟨⟨4, 5, 6⟩⟩ : Vector Int)
      = some ⟨.dplx, (⟨⟨⟨4, 5, 6⟩⟩, ⟨⟨-1, -2, -3⟩⟩⟩ : DirPlex Int)⟩ := ⟨rfl, rfl⟩

/-- The hypotheses of `C05_anticommutes_partial`, for operands of different types. -/
example : subReversed .imsp .spin = false ∧ subReversed .spin .imsp = false ∧
    (∃ c, subTy .imsp .spin (⟨⟨⟨1, 2, 3⟩⟩, ⟨⟨4⟩⟩⟩ : ImSpin Int) ⟨⟨⟨5⟩⟩, ⟨⟨6, 7, 8⟩⟩⟩ = some ⟨.mv, c⟩) ∧
    ∃ c, subTy .spin .imsp (⟨⟨⟨5⟩⟩, ⟨⟨6, 7, 8⟩⟩⟩ : Spinor Int) ⟨⟨⟨1, 2, 3⟩⟩, ⟨⟨4⟩⟩⟩ = some ⟨.mv, c⟩ :=
  ⟨rfl, rfl, ⟨_, rfl⟩, _, rfl⟩

end Engabra
