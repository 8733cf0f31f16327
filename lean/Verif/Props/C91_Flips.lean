import Verif.Lemmas.Flips
import Verif.Spec.Axes
import Verif.Lemmas.Func
import Verif.Props.C17_C18_Inverse
import Verif.Props.C61_C62_Branch

/-! # C91 in binary64: axes with reversed directions

Reversing the direction of axes changes no result by more than the sign of a zero.  Turning the
axes by a quarter, on the contrary, can change the last bit. -/

namespace Engabra
open F64 (nan inf zero fin IsFin Finite HasVal)

/-- Specification: two results are of the same type and equal up to signs of zeros; or none
exists, because the expression does not compile. -/
inductive SzOpt : Option (Sigma fun t : Ty => t.D F64) → Option (Sigma fun t : Ty => t.D F64) → Prop
  | none : SzOpt none none
  | some (t : Ty) (x y : t.D F64) : SzTy t x y → SzOpt (some ⟨t, x⟩) (some ⟨t, y⟩)

/-- Specification: the object in the reversed axes. -/
noncomputable def flipObj (p q r : Bool) (x : Sigma fun t : Ty => t.D F64) :
    Sigma fun t : Ty => t.D F64 := ⟨x.1, flipTy p q r x.1 x.2⟩

theorem relOpt_expr (p q r : Bool) (e : Expr) (h : (p ^^ (q ^^ r)) = false ∨ e.dualFree)
    (env : Nat → Sigma fun t : Ty => t.D F64) :
    Flips.RelOpt p q r (e.eval fun i => flipObj p q r (env i)) (e.eval env) := by
  induction e with
  | var i =>
    refine Flips.RelOpt.some _ _ _ ((Flips.relTy_iff p q r _ _ _).2 ?_)
    unfold SzTy
    exact List.forall₂_same.2 fun c _ => Sz.refl c
  | mul a b iha ihb =>
    have ha := iha (h.imp_right And.left)
    have hb := ihb (h.imp_right And.right)
    simp only [Expr.eval]
    revert ha hb
    generalize a.eval (fun i => flipObj p q r (env i)) = a'
    generalize a.eval env = a
    generalize b.eval (fun i => flipObj p q r (env i)) = b'
    generalize b.eval env = b
    rintro (_ | ⟨s, x', x, hx⟩) (_ | ⟨t, y', y, hy⟩)
    · exact .none
    · exact .none
    · exact .none
    · exact .some _ _ _ (Flips.mulOk s t p q r x x' y y' hx hy)
  | add a b iha ihb =>
    have ha := iha (h.imp_right And.left)
    have hb := ihb (h.imp_right And.right)
    simp only [Expr.eval]
    revert ha hb
    generalize a.eval (fun i => flipObj p q r (env i)) = a'
    generalize a.eval env = a
    generalize b.eval (fun i => flipObj p q r (env i)) = b'
    generalize b.eval env = b
    rintro (_ | ⟨s, x', x, hx⟩) (_ | ⟨t, y', y, hy⟩)
    · exact .none
    · exact .none
    · exact .none
    · exact (Flips.addOk s t p q r x x' y y' hx hy).1
  | sub a b iha ihb =>
    have ha := iha (h.imp_right And.left)
    have hb := ihb (h.imp_right And.right)
    simp only [Expr.eval]
    revert ha hb
    generalize a.eval (fun i => flipObj p q r (env i)) = a'
    generalize a.eval env = a
    generalize b.eval (fun i => flipObj p q r (env i)) = b'
    generalize b.eval env = b
    rintro (_ | ⟨s, x', x, hx⟩) (_ | ⟨t, y', y, hy⟩)
    · exact .none
    · exact .none
    · exact .none
    · exact (Flips.addOk s t p q r x x' y y' hx hy).2
  | neg a ih =>
    have ha := ih h
    simp only [Expr.eval]
    revert ha
    generalize a.eval (fun i => flipObj p q r (env i)) = a'
    generalize a.eval env = a
    rintro (_ | ⟨s, x', x, hx⟩)
    · exact .none
    · exact .some _ _ _ (Flips.unary s p q r x x' hx).1
  | reverse a ih =>
    have ha := ih h
    simp only [Expr.eval]
    revert ha
    generalize a.eval (fun i => flipObj p q r (env i)) = a'
    generalize a.eval env = a
    rintro (_ | ⟨s, x', x, hx⟩)
    · exact .none
    · exact .some _ _ _ (Flips.unary s p q r x x' hx).2.1
  | oddverse a ih =>
    have ha := ih h
    simp only [Expr.eval]
    revert ha
    generalize a.eval (fun i => flipObj p q r (env i)) = a'
    generalize a.eval env = a
    rintro (_ | ⟨s, x', x, hx⟩)
    · exact .none
    · exact .some _ _ _ (Flips.unary s p q r x x' hx).2.2.1
  | dirverse a ih =>
    have ha := ih h
    simp only [Expr.eval]
    revert ha
    generalize a.eval (fun i => flipObj p q r (env i)) = a'
    generalize a.eval env = a
    rintro (_ | ⟨s, x', x, hx⟩)
    · exact .none
    · exact .some _ _ _ (Flips.unary s p q r x x' hx).2.2.2
  | dual a ih =>
    have h0 : (p ^^ (q ^^ r)) = false := h.resolve_right id
    have hr : r = (p ^^ q) := by revert h0; cases p <;> cases q <;> cases r <;> decide
    have ha := ih (.inl h0)
    simp only [Expr.eval]
    revert ha
    generalize a.eval (fun i => flipObj p q r (env i)) = a'
    generalize a.eval env = a
    subst hr
    rintro (_ | ⟨s, x', x, hx⟩)
    · exact .none
    · exact .some _ _ _ (Flips.dual s p q x x' hx)

/-- **C91**, binary64.  Every expression of any size, of operands of any types and with any
components, NaN and infinities included: with any of the axes reversed the result has the
components of the result in the original axes, with the signs of the reversed axes, up to
signs of zeros.  An expression with `dual` requires an even number of reversed axes. -/
theorem C91_flip_expr (p q r : Bool) (e : Expr) (h : (p ^^ (q ^^ r)) = false ∨ e.dualFree)
    (env : Nat → Sigma fun t : Ty => t.D F64) :
    SzOpt (e.eval fun i => flipObj p q r (env i)) ((e.eval env).map (flipObj p q r)) := by
  have := relOpt_expr p q r e h env
  revert this
  generalize e.eval (fun i => flipObj p q r (env i)) = a'
  generalize e.eval env = a
  rintro (_ | ⟨t, x', x, hx⟩)
  · exact .none
  · exact .some _ _ _ ((Flips.relTy_iff p q r t x' x).1 hx)

theorem sg_mul_self (b : Bool) (x : F64) : sg b x * sg b x = x * x := by
  cases b
  · rfl
  · exact F64.neg_mul_neg' x x

/-- **C91**, binary64.  `magSq` and `magnitude` are the same double, bit for bit. -/
theorem C91_flip_magSq (p q r : Bool) (t : Ty) (x : t.D F64) :
    magSqTy t (flipTy p q r t x) = magSqTy t x := by
  cases t <;> simp only [flipTy, engabra, sg_mul_self]

theorem C91_flip_magnitude (p q r : Bool) (t : Ty) (x : t.D F64) :
    magnitudeTy t (flipTy p q r t x) = magnitudeTy t x := by
  have e : ∀ z : t.D F64, t ≠ .dub → magnitudeTy t z = Dbl.sqrt (magSqTy t z) := by
    intro z ht
    cases t <;> rfl
  by_cases ht : t = .dub
  · subst ht; rfl
  · rw [e _ ht, e _ ht, C91_flip_magSq]

theorem sg_nan (b : Bool) : sg b F64.nan = F64.nan := by cases b <;> rfl

theorem mul_sg (k : F64) (b : Bool) (x : F64) : k * sg b x = sg b (k * x) :=
  (Flips.sg_mul false b k x).trans (by rw [Bool.false_xor])

theorem smul_flip (p q r : Bool) (t : Ty) (k : F64) (x : t.D F64) :
    smulTy t k (flipTy p q r t x) = flipTy p q r t (smulTy t k x) := by
  cases t <;> first
    | rfl
    | (ext <;> simp only [smulTy, flipTy, engabra, mul_sg])

/-- **C91**, binary64.  `direction`: bit for bit, unless it is null. -/
theorem C91_flip_direction (p q r : Bool) (t : Ty) (x : t.D F64) :
    directionTy t (flipTy p q r t x) = flipTy p q r t (directionTy t x) ∨
      (directionTy t (flipTy p q r t x) = directionTy t x ∧
        directionTy t x = gnullTy Dbl.nan t) := by
  unfold directionTy pairMagDirTy
  simp only [C91_flip_magnitude]
  split
  · left
    exact smul_flip p q r t _ x
  · right
    exact ⟨rfl, rfl⟩

theorem reverse_flip (p q r : Bool) (t : Ty) (x : t.D F64) :
    reverseTy t (flipTy p q r t x) = flipTy p q r t (reverseTy t x) := by
  cases t <;> first
    | rfl
    | (ext <;> simp only [reverseTy, flipTy, engabra, Flips.sg_neg])

/-- **C91**, binary64.  `inverse` of a blade: bit for bit. -/
theorem C91_flip_inverse (p q r : Bool) (t : Ty) (ht : t = .sca ∨ t = .vec ∨ t = .biv ∨ t = .tri)
    (x : t.D F64) :
    inverseTy t (flipTy p q r t x) = (inverseTy t x).map (flipTy p q r t) := by
  have e : ∀ z : t.D F64, inverseTy t z
      = some (smulTy t (1 / magSqTy t z) (reverseTy t z)) := by
    intro z
    rcases ht with rfl | rfl | rfl | rfl <;> rfl
  rw [e, e, C91_flip_magSq, reverse_flip, smul_flip]
  rfl

/-! ## Comparison -/

/-- Two arrays with the same signs applied. -/
inductive SgList : List F64 → List F64 → List F64 → List F64 → Prop
  | nil : SgList [] [] [] []
  | cons (b : Bool) (x y : F64) {xs' xs ys' ys : List F64} :
      SgList xs' xs ys' ys → SgList (sg b x :: xs') (x :: xs) (sg b y :: ys') (y :: ys)

theorem valid_sg (b : Bool) (x : F64) : isValidDub (sg b x) = isValidDub x := by
  cases b
  · rfl
  · exact F64.isValidDub_neg x

theorem sg_sub (b : Bool) (x y : F64) : Sz (sg b x - sg b y) (sg b (x - y)) := by
  cases b
  · exact Sz.refl _
  · exact F64.neg_sub_neg x y

theorem abs_sg (b : Bool) (x : F64) : Dbl.abs (sg b x) = Dbl.abs x := by
  cases b
  · rfl
  · exact F64.abs_neg' x

theorem near_sg {xs' xs ys' ys : List F64} (h : SgList xs' xs ys' ys) (hne : xs ≠ []) (tol : F64) :
    nearlyEqualsArr xs' ys' tol = nearlyEqualsArr xs ys tol := by
  have v : ∀ {xs' xs ys' ys : List F64}, SgList xs' xs ys' ys →
      xs'.all isValidDub = xs.all isValidDub ∧ ys'.all isValidDub = ys.all isValidDub ∧
      (∀ a, innerProduct a ys' = innerProduct a ys) ∧
      (∀ a, difLoop a xs' ys' = difLoop a xs ys) ∧
      (List.zipWith (fun x y => isSmallAbsDiff x y tol) xs' ys').all id
        = (List.zipWith (fun x y => isSmallAbsDiff x y tol) xs ys).all id := by
    intro xs' xs ys' ys h
    induction h with
    | nil => exact ⟨rfl, rfl, fun _ => rfl, fun _ => rfl, rfl⟩
    | cons b x y h ih =>
      obtain ⟨h1, h2, h3, h4, h5⟩ := ih
      refine ⟨?_, ?_, fun a => ?_, fun a => ?_, ?_⟩
      · rw [List.all_cons, List.all_cons, valid_sg, h1]
      · rw [List.all_cons, List.all_cons, valid_sg, h2]
      · simp only [innerProduct, sg_mul_self, h3]
      · simp only [difLoop, F64.Sz_mul_self (sg_sub b x y), sg_mul_self, h4]
      · simp only [List.zipWith_cons_cons, List.all_cons, h5]
        congr 1
        show isSmallAbsDiff _ _ tol = isSmallAbsDiff _ _ tol
        unfold isSmallAbsDiff isSmallAbs
        rw [F64.abs_Sz (sg_sub b x y), abs_sg]
  cases h with
  | nil => exact absurd rfl hne
  | cons b x y h =>
    obtain ⟨h1, h2, h3, h4, h5⟩ := v (.cons b x y h)
    rw [nearlyEqualsArr_eq, nearlyEqualsArr_eq, h1, h2, h3, h4, h5]

/-- **C91**, binary64.  `nearlyEquals` gives the same answer, for all values and tolerances. -/
theorem C91_flip_nearly (p q r : Bool) (t : Ty) (x y : t.D F64) (tol : F64) :
    nearlyEqualsTy t (flipTy p q r t x) (flipTy p q r t y) tol = nearlyEqualsTy t x y tol := by
  have h1 : ∀ (b : Bool) (a c : F64), nearlyEqualsArr [sg b a] [sg b c] tol = nearlyEqualsArr [a] [c] tol :=
    fun b a c => near_sg (.cons b a c .nil) (by simp) tol
  have h3 : ∀ (b b' b'' : Bool) (a c a' c' a'' c'' : F64),
      nearlyEqualsArr [sg b a, sg b' a', sg b'' a''] [sg b c, sg b' c', sg b'' c''] tol
        = nearlyEqualsArr [a, a', a''] [c, c', c''] tol :=
    fun b b' b'' a c a' c' a'' c'' =>
      near_sg (.cons b a c (.cons b' a' c' (.cons b'' a'' c'' .nil))) (by simp) tol
  cases t <;> simp only [nearlyEqualsTy, nearlyEquals, flipTy, A1.toList, A3.toList, h1, h3]

/-- **C91**, binary64: turning the axes by a third of a full turn, which only renames the
components, can change a result: the sums of three terms are added in another order. -/
theorem C91_turn_rounds : ∃ a b : Vector F64,
    (mulTy .vec .vec (⟨⟨a.theData.d1, a.theData.d2, a.theData.d0⟩⟩ : Vector F64)
        (⟨⟨b.theData.d1, b.theData.d2, b.theData.d0⟩⟩ : Vector F64) : Spinor F64).theSca.theData.d0.value
      ≠ (mulTy .vec .vec a b : Spinor F64).theSca.theData.d0.value := by
  have h3 := hasVal_congr (intDub_val 3 (by norm_num)) (q := 3) (by norm_num)
  have h1 : HasVal (1 : F64) 1 := F64.hasVal_one
  have hB : HasVal (F64.pow2 55) (2 ^ 55) := hasVal_congr (F64.pow2_val (by norm_num) (by norm_num)) (by norm_num)
  refine ⟨⟨⟨intDub 3, intDub 3, F64.pow2 55⟩⟩, ⟨⟨1, 1, 1⟩⟩, ?_⟩
  have m3 := h3.mul_one h1
  have mB := hB.mul_one h1
  have z3 : HasVal ((0 : F64) + intDub 3 * 1) 3 := F64.HasVal.zero_add F64.hasVal_zero' m3
  have s6 : HasVal ((0 : F64) + intDub 3 * 1 + intDub 3 * 1) 6 := by
    refine add_to z3 m3 ?_ (by norm_num)
    rw [F64.rnVal_exact ⟨6, 0, by norm_num, by norm_num, by norm_num⟩]; norm_num
  have sA : HasVal ((0 : F64) + intDub 3 * 1 + intDub 3 * 1 + F64.pow2 55 * 1) (2 ^ 55 + 8) := by
    refine add_to s6 mB ?_ (by norm_num)
    rw [rnVal_of (e := 3) (n := 2 ^ 52 + 1) (by norm_num) (by norm_num) (by norm_num)
      (by rw [abs_lt]; constructor <;> norm_num)]
    norm_num
  have sB : HasVal ((0 : F64) + intDub 3 * 1 + F64.pow2 55 * 1) (2 ^ 55) := by
    refine add_to z3 mB ?_ (by norm_num)
    rw [rnVal_of (e := 3) (n := 2 ^ 52) (by norm_num) (by norm_num) (by norm_num)
      (by rw [abs_lt]; constructor <;> norm_num)]
    norm_num
  have sC : HasVal ((0 : F64) + intDub 3 * 1 + F64.pow2 55 * 1 + intDub 3 * 1) (2 ^ 55) := by
    refine add_to sB m3 ?_ (by norm_num)
    rw [rnVal_of (e := 3) (n := 2 ^ 52) (by norm_num) (by norm_num) (by norm_num)
      (by rw [abs_lt]; constructor <;> norm_num)]
    norm_num
  intro h
  have h' : ((0 : F64) + intDub 3 * 1 + F64.pow2 55 * 1 + intDub 3 * 1).value
    = ((0 : F64) + intDub 3 * 1 + intDub 3 * 1 + F64.pow2 55 * 1).value := h
  rw [sA.2, sC.2] at h'
  norm_num at h'

/-! ## Examples -/

/-- An even number of reversed axes with a dual, which `C91_flip_expr` admits. -/
example : ((true ^^ (false ^^ true)) = false ∨ (Expr.dual (.var 0)).dualFree) := .inl rfl
/-- One reversed axis and no dual. -/
example : ((true ^^ (false ^^ false)) = false ∨ (Expr.mul (.var 0) (.var 1)).dualFree) :=
  .inr ⟨trivial, trivial⟩
/-- Reversing the first axis reverses the components that contain it. -/
example (a b c : F64) : (flipTy true false false .vec (⟨⟨a, b, c⟩⟩ : Vector F64) : Vector F64)
    = ⟨⟨-a, b, c⟩⟩ := rfl
example (a b c : F64) : (flipTy true false false .biv (⟨⟨a, b, c⟩⟩ : BiVector F64) : BiVector F64)
    = ⟨⟨a, -b, -c⟩⟩ := rfl

end Engabra
