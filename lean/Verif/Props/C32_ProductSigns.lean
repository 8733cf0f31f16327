import Verif.Lemmas.Terms

/-! # C32: signs of typed products in IEEE arithmetic -/

namespace Engabra

open F64 (nan inf zero fin IsFin Finite HasVal)

/-- `x` is `-y` up to the sign of a zero. -/
def Ng (x y : F64) : Prop := Sz x (-y)

theorem Ng.add {x x' y y' : F64} (h : Ng x x') (k : Ng y y') : Ng (x + y) (x' + y') :=
  (Sz.add h k).trans (F64.neg_add' x' y').symm

theorem Ng.neg {x x' : F64} (h : Ng x x') : Ng (-x) (-x') := Sz.neg h

theorem Ng.sub {x x' y y' : F64} (h : Ng x x') (k : Ng y y') : Ng (x - y) (x' - y') :=
  Ng.add (y := -y) (y' := -y') h k.neg

theorem Ng.zero : Ng (0 : F64) 0 := Or.inr ⟨_, _, rfl, rfl⟩

theorem Ng.right (a b : F64) : Ng (a * -b) (a * b) := Or.inl (F64.mul_neg' a b)
theorem Ng.left (a b : F64) : Ng (-a * b) (a * b) := Or.inl (F64.neg_mul' a b)

theorem Ng.out {x y : F64} (h : Ng x y) : Sz x (-y) := h

/-- Signs out of sums of products. -/
macro "ng_step" : tactic =>
  `(tactic| first
    | exact Ng.zero
    | exact Ng.right _ _
    | exact Ng.left _ _
    | refine Ng.sub ?_ ?_
    | refine Ng.add ?_ ?_
    | refine Ng.neg ?_
    | refine Ng.out ?_)

/-- The claim for one pair of types. -/
def SignsOk (s t : Ty) : Prop := ∀ (a : s.D F64) (b : t.D F64),
  SzTy _ (mulTy s t a (negTy t b)) (negTy _ (mulTy s t a b)) ∧
  SzTy _ (mulTy s t (negTy s a) b) (negTy _ (mulTy s t a b))

macro "signs" : tactic =>
  `(tactic| (intro a b; constructor <;>
    simp only [SzTy, comps, negTy, engabra, List.forall₂_cons, List.forall₂_nil_right_iff, and_true] <;>
    (repeat' apply And.intro) <;> (repeat' ng_step)))

theorem signs_dub (t : Ty) : SignsOk .dub t := by cases t <;> signs
theorem signs_sca (t : Ty) : SignsOk .sca t := by cases t <;> signs
theorem signs_vec (t : Ty) : SignsOk .vec t := by cases t <;> signs
theorem signs_biv (t : Ty) : SignsOk .biv t := by cases t <;> signs
theorem signs_tri (t : Ty) : SignsOk .tri t := by cases t <;> signs
theorem signs_spin (t : Ty) : SignsOk .spin t := by cases t <;> signs
theorem signs_imsp (t : Ty) : SignsOk .imsp t := by cases t <;> signs
theorem signs_cplx (t : Ty) : SignsOk .cplx t := by cases t <;> signs
theorem signs_dplx (t : Ty) : SignsOk .dplx t := by cases t <;> signs
theorem signs_mv (t : Ty) : SignsOk .mv t := by cases t <;> signs

/-- **C32.** `a * (-b)` and `(-a) * b` are `-(a * b)` up to the sign of a zero, for every typed
product. -/
theorem C32_product_signs (s t : Ty) (a : s.D F64) (b : t.D F64) :
    SzTy _ (mulTy s t a (negTy t b)) (negTy _ (mulTy s t a b)) ∧
    SzTy _ (mulTy s t (negTy s a) b) (negTy _ (mulTy s t a b)) := by
  cases s
  · exact signs_dub t a b
  · exact signs_sca t a b
  · exact signs_vec t a b
  · exact signs_biv t a b
  · exact signs_tri t a b
  · exact signs_spin t a b
  · exact signs_imsp t a b
  · exact signs_cplx t a b
  · exact signs_dplx t a b
  · exact signs_mv t a b

/-- **C32.** Not bit for bit: `e1 * (-e2)` and `-(e1 * e2)` differ in the sign of a zero. -/
theorem C32_fails_product_signs_bitwise :
    mulTy .vec .vec (e1 : Vector F64) (negTy .vec e2) ≠ negTy _ (mulTy .vec .vec (e1 : Vector F64) e2) := by
  intro h
  have h0 := congrArg (fun S : Spinor F64 => S.theSca.theData.d0) h
  simp only [negTy, engabra, F64.mul_neg'] at h0
  have a1 : (0 : F64) * 1 = 0 := (F64.mul_comm' _ _).trans (F64.one_mul' _)
  have a2 : (0 : F64) * 0 = 0 := if_pos (mul_zero _)
  have a3 : (0 : F64) + -0 = 0 := if_pos (add_zero _)
  have a4 : (0 : F64) + 0 = 0 := if_pos (add_zero _)
  rw [F64.one_mul', a1, a2, a3, a3, a3, a4, a4, a4] at h0
  exact absurd (congrArg F64.signbit h0) (by decide)

end Engabra
