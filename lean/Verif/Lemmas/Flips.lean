import Verif.Lemmas.Terms
import Verif.Props.C60_Checks
import Mathlib.Tactic.CasesM

/-! # Lemmas for C91: axes with reversed directions in binary64 -/

namespace Engabra

/-- Specification: `-x` or `x`. -/
noncomputable def sg (b : Bool) (x : F64) : F64 := bif b then -x else x

/-- Specification: components of an object when the first, second and third axis are reversed
according to `p`, `q`, `r`: those of a vector change with their axis, those of a bivector with
the two axes of the plane, and the trivector with all three. -/
noncomputable def flipTy (p q r : Bool) : (t : Ty) → t.D F64 → t.D F64
  | .dub, x => x
  | .sca, x => x
  | .vec, x => ⟨⟨sg p x.theData.d0, sg q x.theData.d1, sg r x.theData.d2⟩⟩
  | .biv, x => ⟨⟨sg (q ^^ r) x.theData.d0, sg (r ^^ p) x.theData.d1, sg (p ^^ q) x.theData.d2⟩⟩
  | .tri, x => ⟨⟨sg (p ^^ (q ^^ r)) x.theData.d0⟩⟩
  | .spin, x => ⟨x.theSca, ⟨⟨sg (q ^^ r) x.theBiv.theData.d0, sg (r ^^ p) x.theBiv.theData.d1,
      sg (p ^^ q) x.theBiv.theData.d2⟩⟩⟩
  | .imsp, x => ⟨⟨⟨sg p x.theVec.theData.d0, sg q x.theVec.theData.d1, sg r x.theVec.theData.d2⟩⟩,
      ⟨⟨sg (p ^^ (q ^^ r)) x.theTri.theData.d0⟩⟩⟩
  | .cplx, x => ⟨x.theSca, ⟨⟨sg (p ^^ (q ^^ r)) x.theTri.theData.d0⟩⟩⟩
  | .dplx, x => ⟨⟨⟨sg p x.theVec.theData.d0, sg q x.theVec.theData.d1, sg r x.theVec.theData.d2⟩⟩,
      ⟨⟨sg (q ^^ r) x.theBiv.theData.d0, sg (r ^^ p) x.theBiv.theData.d1,
        sg (p ^^ q) x.theBiv.theData.d2⟩⟩⟩
  | .mv, x => ⟨x.theSca,
      ⟨⟨sg p x.theVec.theData.d0, sg q x.theVec.theData.d1, sg r x.theVec.theData.d2⟩⟩,
      ⟨⟨sg (q ^^ r) x.theBiv.theData.d0, sg (r ^^ p) x.theBiv.theData.d1,
        sg (p ^^ q) x.theBiv.theData.d2⟩⟩,
      ⟨⟨sg (p ^^ (q ^^ r)) x.theTri.theData.d0⟩⟩⟩

namespace Flips

/-- `x'` is `x` with the sign `b`, up to the sign of a zero. -/
def Rs (b : Bool) (x' x : F64) : Prop := Sz x' (sg b x)

theorem sg_add (b : Bool) (x y : F64) : Sz (sg b x + sg b y) (sg b (x + y)) := by
  cases b
  · exact Sz.refl _
  · exact (F64.neg_add' x y).symm

theorem sg_neg (b : Bool) (x : F64) : -(sg b x) = sg b (-x) := by cases b <;> rfl

theorem sg_mul (b c : Bool) (x y : F64) : sg b x * sg c y = sg (b ^^ c) (x * y) := by
  cases b <;> cases c
  · rfl
  · exact F64.mul_neg' x y
  · exact F64.neg_mul' x y
  · exact (F64.neg_mul' x (-y)).trans (by rw [F64.mul_neg', F64.neg_neg'']; rfl)

theorem Rs.add {b : Bool} {x x' y y' : F64} (h : Rs b x' x) (k : Rs b y' y) : Rs b (x' + y') (x + y) :=
  (Sz.add h k).trans (sg_add b x y)

theorem Rs.neg {b : Bool} {x x' : F64} (h : Rs b x' x) : Rs b (-x') (-x) := by
  have := Sz.neg h
  rw [sg_neg] at this
  exact this

theorem Rs.sub {b : Bool} {x x' y y' : F64} (h : Rs b x' x) (k : Rs b y' y) : Rs b (x' - y') (x - y) :=
  Rs.add (y := -y) (y' := -y') h k.neg

theorem Rs.zero (b : Bool) : Rs b (0 : F64) 0 := by
  cases b <;> exact Or.inr ⟨_, _, rfl, rfl⟩

theorem Rs.mul {b c d : Bool} {x x' y y' : F64} (h : Rs b x' x) (k : Rs c y' y) (e : (b ^^ c) = d) :
    Rs d (x' * y') (x * y) := by
  have := Sz.mul h k
  rw [sg_mul, e] at this
  exact this

/-- Componentwise relation of a value and a value in the reversed axes. -/
def RelTy (p q r : Bool) : (t : Ty) → t.D F64 → t.D F64 → Prop
  | .dub, x', x => Rs false x' x
  | .sca, x', x => Rs false x'.theData.d0 x.theData.d0
  | .vec, x', x => Rs p x'.theData.d0 x.theData.d0 ∧ Rs q x'.theData.d1 x.theData.d1 ∧
      Rs r x'.theData.d2 x.theData.d2
  | .biv, x', x => Rs (q ^^ r) x'.theData.d0 x.theData.d0 ∧ Rs (r ^^ p) x'.theData.d1 x.theData.d1 ∧
      Rs (p ^^ q) x'.theData.d2 x.theData.d2
  | .tri, x', x => Rs (p ^^ (q ^^ r)) x'.theData.d0 x.theData.d0
  | .spin, x', x => Rs false x'.theSca.theData.d0 x.theSca.theData.d0 ∧
      Rs (q ^^ r) x'.theBiv.theData.d0 x.theBiv.theData.d0 ∧
      Rs (r ^^ p) x'.theBiv.theData.d1 x.theBiv.theData.d1 ∧
      Rs (p ^^ q) x'.theBiv.theData.d2 x.theBiv.theData.d2
  | .imsp, x', x => Rs p x'.theVec.theData.d0 x.theVec.theData.d0 ∧
      Rs q x'.theVec.theData.d1 x.theVec.theData.d1 ∧
      Rs r x'.theVec.theData.d2 x.theVec.theData.d2 ∧
      Rs (p ^^ (q ^^ r)) x'.theTri.theData.d0 x.theTri.theData.d0
  | .cplx, x', x => Rs false x'.theSca.theData.d0 x.theSca.theData.d0 ∧
      Rs (p ^^ (q ^^ r)) x'.theTri.theData.d0 x.theTri.theData.d0
  | .dplx, x', x => Rs p x'.theVec.theData.d0 x.theVec.theData.d0 ∧
      Rs q x'.theVec.theData.d1 x.theVec.theData.d1 ∧
      Rs r x'.theVec.theData.d2 x.theVec.theData.d2 ∧
      Rs (q ^^ r) x'.theBiv.theData.d0 x.theBiv.theData.d0 ∧
      Rs (r ^^ p) x'.theBiv.theData.d1 x.theBiv.theData.d1 ∧
      Rs (p ^^ q) x'.theBiv.theData.d2 x.theBiv.theData.d2
  | .mv, x', x => Rs false x'.theSca.theData.d0 x.theSca.theData.d0 ∧
      Rs p x'.theVec.theData.d0 x.theVec.theData.d0 ∧
      Rs q x'.theVec.theData.d1 x.theVec.theData.d1 ∧
      Rs r x'.theVec.theData.d2 x.theVec.theData.d2 ∧
      Rs (q ^^ r) x'.theBiv.theData.d0 x.theBiv.theData.d0 ∧
      Rs (r ^^ p) x'.theBiv.theData.d1 x.theBiv.theData.d1 ∧
      Rs (p ^^ q) x'.theBiv.theData.d2 x.theBiv.theData.d2 ∧
      Rs (p ^^ (q ^^ r)) x'.theTri.theData.d0 x.theTri.theData.d0

theorem relTy_iff (p q r : Bool) (t : Ty) (x' x : t.D F64) :
    RelTy p q r t x' x ↔ SzTy t x' (flipTy p q r t x) := by
  cases t <;>
    simp only [RelTy, SzTy, comps, flipTy, List.forall₂_cons, List.forall₂_nil_right_iff, and_true] <;> exact Iff.rfl

macro "rs_step" : tactic =>
  `(tactic| first
    | assumption
    | exact Rs.zero _
    | refine Rs.sub ?_ ?_
    | refine Rs.add ?_ ?_
    | refine Rs.neg ?_
    | exact Rs.mul (by assumption) (by assumption) (by clear * -; decide +revert)
    | exact Rs.mul (Rs.neg (by assumption)) (by assumption) (by clear * -; decide +revert)
    | exact Rs.mul (by assumption) (Rs.neg (by assumption)) (by clear * -; decide +revert)
    | exact Rs.mul (Rs.neg (by assumption)) (Rs.neg (by assumption)) (by clear * -; decide +revert))

macro "rs_all" : tactic =>
  `(tactic| ((repeat' apply And.intro) <;> (repeat' rs_step)))

def MulOk (s t : Ty) : Prop := ∀ (p q r : Bool) (a a' : s.D F64) (b b' : t.D F64),
  RelTy p q r s a' a → RelTy p q r t b' b → RelTy p q r _ (mulTy s t a' b') (mulTy s t a b)

macro "rs_mul" : tactic =>
  `(tactic| (intro p q r a a' b b' h k; simp only [RelTy, engabra] at h k ⊢; (try casesm* _ ∧ _); rs_all))

theorem mul_dub (t : Ty) : MulOk .dub t := by cases t <;> rs_mul
theorem mul_sca (t : Ty) : MulOk .sca t := by cases t <;> rs_mul
theorem mul_vec (t : Ty) : MulOk .vec t := by cases t <;> rs_mul
theorem mul_biv (t : Ty) : MulOk .biv t := by cases t <;> rs_mul
theorem mul_tri (t : Ty) : MulOk .tri t := by cases t <;> rs_mul
theorem mul_spin (t : Ty) : MulOk .spin t := by cases t <;> rs_mul
theorem mul_imsp (t : Ty) : MulOk .imsp t := by cases t <;> rs_mul
theorem mul_cplx (t : Ty) : MulOk .cplx t := by cases t <;> rs_mul
theorem mul_dplx (t : Ty) : MulOk .dplx t := by cases t <;> rs_mul
theorem mul_mv (t : Ty) : MulOk .mv t := by cases t <;> rs_mul

theorem mulOk (s t : Ty) : MulOk s t := by
  cases s
  · exact mul_dub t
  · exact mul_sca t
  · exact mul_vec t
  · exact mul_biv t
  · exact mul_tri t
  · exact mul_spin t
  · exact mul_imsp t
  · exact mul_cplx t
  · exact mul_dplx t
  · exact mul_mv t

/-- Results of an expression and of the expression in the reversed axes. -/
inductive RelOpt (p q r : Bool) : Option (Sigma fun t : Ty => t.D F64) →
    Option (Sigma fun t : Ty => t.D F64) → Prop
  | none : RelOpt p q r none none
  | some (t : Ty) (x' x : t.D F64) : RelTy p q r t x' x → RelOpt p q r (some ⟨t, x'⟩) (some ⟨t, x⟩)

macro "rs_opt" : tactic =>
  `(tactic| first
    | exact RelOpt.none
    | (refine RelOpt.some _ _ _ ?_; simp only [RelTy, engabra] at *; (try casesm* _ ∧ _); rs_all))

def AddOk (s t : Ty) : Prop := ∀ (p q r : Bool) (a a' : s.D F64) (b b' : t.D F64),
  RelTy p q r s a' a → RelTy p q r t b' b → RelOpt p q r (addTy s t a' b') (addTy s t a b) ∧
    RelOpt p q r (subTy s t a' b') (subTy s t a b)

macro "rs_add" : tactic =>
  `(tactic| (intro p q r a a' b b' h k; constructor <;> rs_opt))

theorem add_dub (t : Ty) : AddOk .dub t := by cases t <;> rs_add
theorem add_sca (t : Ty) : AddOk .sca t := by cases t <;> rs_add
theorem add_vec (t : Ty) : AddOk .vec t := by cases t <;> rs_add
theorem add_biv (t : Ty) : AddOk .biv t := by cases t <;> rs_add
theorem add_tri (t : Ty) : AddOk .tri t := by cases t <;> rs_add
theorem add_spin (t : Ty) : AddOk .spin t := by cases t <;> rs_add
theorem add_imsp (t : Ty) : AddOk .imsp t := by cases t <;> rs_add
theorem add_cplx (t : Ty) : AddOk .cplx t := by cases t <;> rs_add
theorem add_dplx (t : Ty) : AddOk .dplx t := by cases t <;> rs_add
theorem add_mv (t : Ty) : AddOk .mv t := by cases t <;> rs_add

theorem addOk (s t : Ty) : AddOk s t := by
  cases s
  · exact add_dub t
  · exact add_sca t
  · exact add_vec t
  · exact add_biv t
  · exact add_tri t
  · exact add_spin t
  · exact add_imsp t
  · exact add_cplx t
  · exact add_dplx t
  · exact add_mv t

theorem unary (t : Ty) (p q r : Bool) (a a' : t.D F64) (h : RelTy p q r t a' a) :
    RelTy p q r t (negTy t a') (negTy t a) ∧ RelTy p q r t (reverseTy t a') (reverseTy t a) ∧
    RelTy p q r t (oddverseTy t a') (oddverseTy t a) ∧
    RelTy p q r t (dirverseTy t a') (dirverseTy t a) := by
  cases t <;> simp only [RelTy, negTy, reverseTy, oddverseTy, dirverseTy, engabra] at h ⊢ <;>
    (try casesm* _ ∧ _) <;> rs_all

theorem Rs.cast {b c : Bool} {x x' : F64} (h : Rs b x' x) (e : b = c) : Rs c x' x := e ▸ h

theorem dual (t : Ty) (p q : Bool) (a a' : t.D F64) (h : RelTy p q (p ^^ q) t a' a) :
    RelTy p q (p ^^ q) _ (dualTy t a') (dualTy t a) := by
  cases t <;> simp only [RelTy, dualTy, engabra] at h ⊢ <;> (try casesm* _ ∧ _) <;>
    (repeat' apply And.intro) <;> first
    | exact Rs.cast (by assumption) (by clear * -; decide +revert)
    | exact Rs.cast (Rs.neg (by assumption)) (by clear * -; decide +revert)

end Flips
end Engabra
