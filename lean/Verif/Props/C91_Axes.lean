import Verif.Lemmas.Axes
import Verif.Props.C17_C18_Inverse
import Verif.Props.C20_Exp
import Verif.Props.C21_C37_ExpMv
import Verif.Props.C22_Rotation
import Verif.Props.C23_C24_LogSqrt
import Verif.Props.C27_Range

/-! # C91: the results do not depend on the choice of axes

`AxisChange` and `turnTy` (Spec/Axes.lean) describe a change of orthonormal axes.  Whatever a program
computes from the new components of its data are the new components of what it computes from the
old ones. -/

namespace Engabra
open Spec XR

section
variable {α : Type} [CommRing α]

/-! ## Which changes of axes there are -/

/-- **C91.** A unit spinor turns the axes: the vector part of `S * v * reverse(S)` is a change of
axes which keeps the handedness. -/
def axesOfSpinor (S : Spinor α) (hS : magSq S = 1) : AxisChange α where
  map a := (sandwich S ⟨⟨a.x, a.y, a.z⟩⟩).xyz
  sgn := 1
  sgn_sq := one_mul 1
  map_add a b := by
    have h := congrArg Vector.xyz (C22_add S ⟨⟨a.x, a.y, a.z⟩⟩ ⟨⟨b.x, b.y, b.z⟩⟩)
    exact h
  map_smul s a := by
    have h := congrArg Vector.xyz (C22_smul S s ⟨⟨a.x, a.y, a.z⟩⟩)
    exact h
  dot_map a b := C22_dot S hS ⟨⟨a.x, a.y, a.z⟩⟩ ⟨⟨b.x, b.y, b.z⟩⟩
  cross_map a b := by
    have h := C22_cross_general S ⟨⟨a.x, a.y, a.z⟩⟩ ⟨⟨b.x, b.y, b.z⟩⟩
    rw [hS] at h
    exact h

/-- **C91.** For these `turnTy` is the sandwich product of the library, for every type. -/
theorem C91_spinor (S : Spinor α) (hS : magSq S = 1) (t : Ty) (x : t.D α) :
    promote t (turnTy (axesOfSpinor S hS) t x) = promote .spin S * promote t x * reverse (promote .spin S) := by
  rw [Axes.promote_turn]
  generalize promote t x = A
  have hs : magSq S * magSq S = 1 := by rw [hS, one_mul]
  obtain ⟨⟨⟨w⟩⟩, ⟨⟨b0, b1, b2⟩⟩⟩ := S
  simp only [engabra] at hS
  ext <;> simp only [turnTy, turnVec, turnBiv, turnTri, axesOfSpinor, sandwich, Vector.xyz, engabra]
  · linear_combination (-A.theSca.theData.d0) * hS
  · ring
  · ring
  · ring
  · ring
  · ring
  · ring
  · linear_combination (-A.theTri.theData.d0) * hS

/-- Point reflection: a change of handedness. -/
def axesInverted : AxisChange α where
  map a := smul (-1) a
  sgn := -1
  sgn_sq := by ring
  map_add a b := by simp only [Spec.add, smul, V3.mk.injEq]; refine ⟨?_, ?_, ?_⟩ <;> ring
  map_smul s a := by simp only [smul, V3.mk.injEq]; refine ⟨?_, ?_, ?_⟩ <;> ring
  dot_map a b := by simp only [smul, dot]; ring
  cross_map a b := by simp only [smul, cross, V3.mk.injEq]; refine ⟨?_, ?_, ?_⟩ <;> ring

/-- Changes of axes follow one another. -/
def AxisChange.comp (C D : AxisChange α) : AxisChange α where
  map a := C.map (D.map a)
  sgn := C.sgn * D.sgn
  sgn_sq := by linear_combination D.sgn * D.sgn * C.sgn_sq + D.sgn_sq
  map_add a b := by rw [D.map_add, C.map_add]
  map_smul s a := by rw [D.map_smul, C.map_smul]
  dot_map a b := by rw [C.dot_map, D.dot_map]
  cross_map a b := by
    rw [C.cross_map, D.cross_map, C.map_smul]
    generalize C.map (D.map (cross a b)) = w
    simp only [smul, mul_assoc]

/-! ## Expressions -/

/-- **C91.** Products of all 100 pairs of types. -/
theorem C91_product (C : AxisChange α) (s t : Ty) (x : s.D α) (y : t.D α) :
    mulTy s t (turnTy C s x) (turnTy C t y) = turnTy C _ (mulTy s t x y) := Axes.mulTy C s t x y

/-- **C91.** `dual` depends on the handedness, and on nothing else of the axes. -/
theorem C91_dual (C : AxisChange α) (t : Ty) (x : t.D α) :
    smulTy _ C.sgn (dualTy t (turnTy C t x)) = turnTy C _ (dualTy t x) := Axes.dualTy C t x

theorem smulTy_one (t : Ty) (x : t.D α) : smulTy t (1 : α) x = x := by
  cases t <;> first
    | exact one_mul x
    | (ext <;> simp only [smulTy, engabra, one_mul])

/-- **C91.** Every expression of any size, of operands of any types: evaluated in the new axes it
gives the new components of its value in the old axes; and it compiles for the one if it
compiles for the other.  An expression with `dual` requires axes of the same handedness. -/
theorem C91_expr (C : AxisChange α) (e : Expr) (h : C.sgn = 1 ∨ e.dualFree)
    (env : Nat → Sigma fun t : Ty => t.D α) :
    e.eval (fun i => turnObj C (env i)) = (e.eval env).map (turnObj C) := by
  induction e with
  | var i => rfl
  | mul a b iha ihb =>
    have ha := iha (h.imp_right And.left)
    have hb := ihb (h.imp_right And.right)
    simp only [Expr.eval, ha, hb]
    cases a.eval env with
    | none => rfl
    | some x => cases b.eval env with
      | none => rfl
      | some y => exact congrArg some (Sigma.ext rfl (heq_of_eq (Axes.mulTy C x.1 y.1 x.2 y.2)))
  | add a b iha ihb =>
    have ha := iha (h.imp_right And.left)
    have hb := ihb (h.imp_right And.right)
    simp only [Expr.eval, ha, hb]
    cases a.eval env with
    | none => rfl
    | some x => cases b.eval env with
      | none => rfl
      | some y => exact Axes.addTy C x.1 y.1 x.2 y.2
  | sub a b iha ihb =>
    have ha := iha (h.imp_right And.left)
    have hb := ihb (h.imp_right And.right)
    simp only [Expr.eval, ha, hb]
    cases a.eval env with
    | none => rfl
    | some x => cases b.eval env with
      | none => rfl
      | some y => exact Axes.subTy C x.1 y.1 x.2 y.2
  | neg a ih =>
    simp only [Expr.eval, ih h]
    cases a.eval env with
    | none => rfl
    | some x => exact congrArg some (Sigma.ext rfl (heq_of_eq (Axes.negTy C x.1 x.2)))
  | reverse a ih =>
    simp only [Expr.eval, ih h]
    cases a.eval env with
    | none => rfl
    | some x => exact congrArg some (Sigma.ext rfl (heq_of_eq (Axes.reverseTy C x.1 x.2)))
  | oddverse a ih =>
    simp only [Expr.eval, ih h]
    cases a.eval env with
    | none => rfl
    | some x => exact congrArg some (Sigma.ext rfl (heq_of_eq (Axes.oddverseTy C x.1 x.2)))
  | dirverse a ih =>
    simp only [Expr.eval, ih h]
    cases a.eval env with
    | none => rfl
    | some x => exact congrArg some (Sigma.ext rfl (heq_of_eq (Axes.dirverseTy C x.1 x.2)))
  | dual a ih =>
    have hs : C.sgn = 1 := h.resolve_right id
    simp only [Expr.eval, ih (.inl hs)]
    cases a.eval env with
    | none => rfl
    | some x =>
      have k := Axes.dualTy C x.1 x.2
      rw [hs, smulTy_one] at k
      exact congrArg some (Sigma.ext rfl (heq_of_eq k))

/-- **C91.** `magSq` of every type is the same number in all axes. -/
theorem C91_magSq (C : AxisChange α) (t : Ty) (x : t.D α) :
    magSqTy t (turnTy C t x) = magSqTy t x := Axes.magSqTy C t x
end

/-! ## Functions, in exact arithmetic -/

theorem sgn_real (C : AxisChange ℝ) : C.sgn = 1 ∨ C.sgn = -1 := by
  have := C.sgn_sq
  exact mul_self_eq_one_iff.1 this

theorem length_turn (C : AxisChange ℝ) (t : Ty) (x : t.D ℝ) : length t (turnTy C t x) = length t x := by
  rw [length_eq, length_eq, C91_magSq]

/-- **C91.** `magnitude` is the same in all axes. -/
theorem C91_magnitude (C : AxisChange ℝ) (t : Ty) (x : t.D ℝ) :
    magnitudeTy t (lift t (turnTy C t x)) = magnitudeTy t (lift t x) := by
  rw [C13_magnitude, C13_magnitude, length_turn]

/-- Specification: what the function gives in the new axes are the new components of what it
gives in the old ones, or both are the same null (invalid) value. -/
def TurnsWith (C : AxisChange ℝ) (t : Ty) (r r' : t.D XR) : Prop :=
  (∃ y : t.D ℝ, r = lift t y ∧ r' = lift t (turnTy C t y)) ∨
    (r = r' ∧ isValidTy t r = false)

/-- **C91.** `direction`. -/
theorem C91_direction (C : AxisChange ℝ) (t : Ty) (x : t.D ℝ) :
    TurnsWith C t (directionTy t (lift t x)) (directionTy t (lift t (turnTy C t x))) := by
  have e : ∀ z : t.D XR, directionTy t z = (pairMagDirTy t z).2 := fun _ => by cases t <;> rfl
  rw [e, e]
  rcases lt_or_ge tiny (length t x) with h | h
  · refine .inl ⟨smulTy t (1 / length t x) x, ?_, ?_⟩
    · rw [pairMagDir_above t x h]
    · rw [pairMagDir_above t _ (by rwa [length_turn]), length_turn, Axes.smulTurn]
  · refine .inr ?_
    rw [pairMagDir_below t x h, pairMagDir_below t _ (by rwa [length_turn])]
    exact ⟨rfl, by cases t <;> rfl⟩

/-- **C91.** `inverse` of the blades. -/
theorem C91_inverse (C : AxisChange ℝ) (t : Ty) (ht : t = .sca ∨ t = .vec ∨ t = .biv ∨ t = .tri)
    (x : t.D ℝ) : ∃ r r', inverseTy t (lift t x) = some r ∧
      inverseTy t (lift t (turnTy C t x)) = some r' ∧ TurnsWith C t r r' := by
  by_cases h : magSqTy t x = 0
  · have h' : magSqTy t (turnTy C t x) = 0 := by rw [C91_magSq, h]
    have k := C17_zero t ht x ((C13_magSq_eq_zero_iff t x).1 h)
    exact ⟨_, _, k.1, (C17_zero t ht _ ((C13_magSq_eq_zero_iff t _).1 h')).1, .inr ⟨rfl, k.2⟩⟩
  · have h' : magSqTy t (turnTy C t x) ≠ 0 := by rwa [C91_magSq]
    refine ⟨_, _, inverseTy_eq t x _ rfl h ht, inverseTy_eq t _ _ rfl h' ht, .inl ⟨_, rfl, ?_⟩⟩
    rw [C91_magSq, Axes.reverseTy, Axes.smulTurn]

theorem lift_turnsWith (C : AxisChange ℝ) (t : Ty) {r r' : t.D XR} (y : t.D ℝ) (h : r = lift t y)
    (h' : r' = lift t (turnTy C t y)) : TurnsWith C t r r' := .inl ⟨y, h, h'⟩

/-- **C91.** `ampSq` of a multivector, a complex number whose imaginary part is a trivector. -/
theorem C91_ampSq (C : AxisChange ℝ) (A : MultiVector ℝ) :
    ampSq (turnTy C .mv A) = turnTy C .cplx (ampSq A) := Axes.ampSqMv C A

theorem num_turn (C : AxisChange ℝ) (z : ComPlex ℝ) :
    (turnTy C .cplx z : ComPlex ℝ).num = z.num ∨
      (turnTy C .cplx z : ComPlex ℝ).num = (starRingEnd ℂ) z.num := by
  rcases sgn_real C with h | h
  · left
    apply Complex.ext <;> simp only [turnTy, turnTri, h, one_mul]
  · right
    apply Complex.ext
    · rfl
    · simp only [turnTy, turnTri, h, ComPlex.num, Complex.conj_im]; ring

theorem inverse_cplx_turn (C : AxisChange ℝ) (z : ComPlex ℝ) :
    (∃ y : ComPlex ℝ, inverseCplx (lift .cplx z) = lift .cplx y ∧
      inverseCplx (lift .cplx (turnTy C .cplx z)) = lift .cplx (turnTy C .cplx y)) ∨
    (inverseCplx (lift .cplx z) = gnull Dbl.nan ∧
      inverseCplx (lift .cplx (turnTy C .cplx z)) = gnull Dbl.nan) := by
  have hn : ‖(turnTy C .cplx z : ComPlex ℝ).num‖ = ‖z.num‖ := by
    rcases num_turn C z with h | h <;> rw [h]
    exact Complex.norm_conj _
  rcases lt_or_ge dblMin (‖z.num‖ ^ 2) with h | h
  · refine .inl ⟨_, C18_complex_inverse z h, ?_⟩
    rw [C18_complex_inverse _ (by rwa [hn])]
    congr 1
    rcases sgn_real C with hs | hs
    · have e : ∀ w : ComPlex ℝ, (turnTy C .cplx w : ComPlex ℝ) = w := by
        intro w; ext <;> simp only [turnTy, turnTri, hs, one_mul]
      rw [e, e]
    · have e : (turnTy C .cplx z : ComPlex ℝ).num = (starRingEnd ℂ) z.num := by
        apply Complex.ext
        · rfl
        · simp only [turnTy, turnTri, hs, ComPlex.num, Complex.conj_im]; ring
      rw [e, ← map_inv₀]
      ext
      · rfl
      · simp only [turnTy, turnTri, hs, Complex.conj_im]; ring
  · exact .inr ⟨C18_complex_null z h, C18_complex_null _ (by rwa [hn])⟩

/-- **C91.** `inverse` of a `ComPlex`. -/
theorem C91_inverse_cplx (C : AxisChange ℝ) (z : ComPlex ℝ) :
    TurnsWith C .cplx (inverseCplx (lift .cplx z)) (inverseCplx (lift .cplx (turnTy C .cplx z))) := by
  rcases inverse_cplx_turn C z with h | ⟨h, h'⟩
  · exact .inl h
  · rw [h, h']
    exact .inr ⟨rfl, rfl⟩

/-- **C91.** `inverse` of a `MultiVector`. -/
theorem C91_inverse_mv (C : AxisChange ℝ) (A : MultiVector ℝ) :
    TurnsWith C .mv (inverseMv (lift .mv A)) (inverseMv (lift .mv (turnTy C .mv A))) := by
  rw [inverseMv_eq, inverseMv_eq, C91_ampSq]
  rcases inverse_cplx_turn C (ampSq A) with ⟨y, h, h'⟩ | ⟨h, h'⟩
  · rw [h, h']
    refine .inl ⟨y.theSca * dirverse A + y.theTri * dirverse A, rfl, ?_⟩
    have e : (y.theSca * (dirverse (turnTy C .mv A) : MultiVector ℝ)
        + (turnTri C y.theTri) * (dirverse (turnTy C .mv A) : MultiVector ℝ) : MultiVector ℝ)
        = turnTy C .mv (y.theSca * dirverse A + y.theTri * dirverse A) := by
      have h1 := Axes.dirverseTy C .mv A
      have h2 := Axes.mulTy C .sca .mv y.theSca (dirverse A)
      have h3 := Axes.mulTy C .tri .mv y.theTri (dirverse A)
      have h4 := Axes.addTy C .mv .mv (y.theSca * dirverse A) (y.theTri * dirverse A)
      change (dirverse (turnTy C .mv A) : MultiVector ℝ) = turnTy C .mv (dirverse A) at h1
      change (y.theSca * (turnTy C .mv (dirverse A) : MultiVector ℝ) : MultiVector ℝ)
        = turnTy C .mv (y.theSca * dirverse A) at h2
      change (turnTri C y.theTri * (turnTy C .mv (dirverse A) : MultiVector ℝ) : MultiVector ℝ)
        = turnTy C .mv (y.theTri * dirverse A) at h3
      rw [h1, h2, h3]
      exact eq_of_heq (Sigma.mk.inj (Option.some.inj h4)).2
    rw [← e]
    rfl
  · have e : ∀ B : MultiVector ℝ, ((gnull (Dbl.nan : XR) : ComPlex XR).theSca * lift .mv B
        + (gnull (Dbl.nan : XR) : ComPlex XR).theTri * lift .mv B : MultiVector XR)
        = mvOf8 nan nan nan nan nan nan nan nan := fun B => rfl
    rw [h, h', e, e]
    exact .inr ⟨rfl, rfl⟩

theorem expR_turn (C : AxisChange ℝ) (s : ℝ) (B : BiVector ℝ) :
    expR s (turnBiv C B) = turnTy C .spin (expR s B) := by
  have hl : length .biv (turnBiv C B) = length .biv B := length_turn C .biv B
  unfold expR
  rw [hl]
  generalize (Real.exp s * (Real.sin (length .biv B) / length .biv B)) = k
  have h := Axes.smulTurn C .biv k B
  change (k * turnBiv C B : BiVector ℝ) = turnBiv C (k * B) at h
  simp only [turnTy, h]

/-- **C91.** `exp` of a spinor, when the components looked at by the validity tests pass them in
both axes (see `C91_exp_depends`). -/
theorem C91_exp (C : AxisChange ℝ) (S : Spinor ℝ) (h : ExpOk S.theBiv) (h' : ExpOk (turnBiv C S.theBiv)) :
    TurnsWith C .spin (expSpin (lift .spin S)) (expSpin (lift .spin (turnTy C .spin S))) := by
  refine .inl ⟨expR S.theSca.theData.d0 S.theBiv, expSpin_ok _ _ h, ?_⟩
  rw [← expR_turn]
  exact expSpin_ok _ _ h'

theorem C91_exp_biv (C : AxisChange ℝ) (B : BiVector ℝ) (h : ExpOk B) (h' : ExpOk (turnBiv C B)) :
    TurnsWith C .spin (expBiv (lift .biv B)) (expBiv (lift .biv (turnTy C .biv B))) := by
  refine .inl ⟨expR 0 B, expBiv_ok _ h, ?_⟩
  rw [← expR_turn]
  exact expBiv_ok _ h'

/-- The formula of `exp` of a multivector, in terms of the vectors `v - b` and `v + b`. -/
noncomputable def expForm (a t : ℝ) (P N : V3 ℝ) : MultiVector ℝ :=
  let h := 1 / 2 * Real.exp a
  let p := Real.exp t
  let n := Real.exp (-t)
  let cp := Real.cos √(dot P P)
  let cn := Real.cos √(dot N N)
  let U := smul (h * p * syncR √(dot P P)) P
  let W := smul (h * n * syncR √(dot N N)) N
  ⟨⟨⟨h * (p * cp + n * cn)⟩⟩, ⟨⟨U.x + W.x, U.y + W.y, U.z + W.z⟩⟩,
    ⟨⟨W.x - U.x, W.y - U.y, W.z - U.z⟩⟩, ⟨⟨h * (p * cp - n * cn)⟩⟩⟩

theorem expMvR_eq (A : MultiVector ℝ) : expMvR A = expForm A.theSca.theData.d0 A.theTri.theData.d0
    ⟨A.theVec.theData.d0 - A.theBiv.theData.d0, A.theVec.theData.d1 - A.theBiv.theData.d1,
      A.theVec.theData.d2 - A.theBiv.theData.d2⟩
    ⟨A.theVec.theData.d0 + A.theBiv.theData.d0, A.theVec.theData.d1 + A.theBiv.theData.d1,
      A.theVec.theData.d2 + A.theBiv.theData.d2⟩ := by
  obtain ⟨⟨⟨a⟩⟩, ⟨⟨v0, v1, v2⟩⟩, ⟨⟨b0, b1, b2⟩⟩, ⟨⟨t⟩⟩⟩ := A
  unfold expMvR expForm
  simp only [dot, smul]
  have e1 : (v2 - b2) * (v2 - b2) + (v1 + -b1) * (v1 + -b1) + (v0 - b0) * (v0 - b0)
      = (v0 - b0) * (v0 - b0) + (v1 - b1) * (v1 - b1) + (v2 - b2) * (v2 - b2) := by ring
  have e2 : (v2 + b2) * (v2 + b2) + (v1 - -b1) * (v1 - -b1) + (v0 + b0) * (v0 + b0)
      = (v0 + b0) * (v0 + b0) + (v1 + b1) * (v1 + b1) + (v2 + b2) * (v2 + b2) := by ring
  rw [e1, e2]
  ext <;> simp only <;> ring

theorem expForm_turn (C : AxisChange ℝ) (hs : C.sgn = 1) (a t : ℝ) (P N : V3 ℝ) :
    expForm a t (C.map P) (C.map N) = turnTy C .mv (expForm a t P N) := by
  obtain ⟨p, q, r, h⟩ := Axes.map_matrix C
  have hd := C.dot_map
  simp only [expForm, hd]
  generalize √(dot P P) = u
  generalize √(dot N N) = w
  ext <;> simp only [turnTy, turnVec, turnBiv, turnTri, h, hs, smul] <;> ring

theorem expForm_mirror (C : AxisChange ℝ) (hs : C.sgn = -1) (a t : ℝ) (P N : V3 ℝ) :
    expForm a (-t) (C.map N) (C.map P) = turnTy C .mv (expForm a t P N) := by
  obtain ⟨p, q, r, h⟩ := Axes.map_matrix C
  have hd := C.dot_map
  simp only [expForm, hd, neg_neg]
  generalize √(dot P P) = u
  generalize √(dot N N) = w
  ext <;> simp only [turnTy, turnVec, turnBiv, turnTri, h, hs, smul] <;> ring

theorem expMvR_turn (C : AxisChange ℝ) (A : MultiVector ℝ) :
    expMvR (turnTy C .mv A) = turnTy C .mv (expMvR A) := by
  rw [expMvR_eq A]
  rcases sgn_real C with hs | hs
  · rw [← expForm_turn C hs, expMvR_eq]
    obtain ⟨p, q, r, h⟩ := Axes.map_matrix C
    simp only [turnTy, turnVec, turnBiv, turnTri, h, hs]
    congr 1
    · ring
    · simp only [V3.mk.injEq]; refine ⟨?_, ?_, ?_⟩ <;> ring
    · simp only [V3.mk.injEq]; refine ⟨?_, ?_, ?_⟩ <;> ring
  · rw [← expForm_mirror C hs, expMvR_eq]
    obtain ⟨p, q, r, h⟩ := Axes.map_matrix C
    simp only [turnTy, turnVec, turnBiv, turnTri, h, hs]
    congr 1
    · ring
    · simp only [V3.mk.injEq]; refine ⟨?_, ?_, ?_⟩ <;> ring
    · simp only [V3.mk.injEq]; refine ⟨?_, ?_, ?_⟩ <;> ring

/-- **C91.** `exp` of a multivector. -/
theorem C91_exp_mv (C : AxisChange ℝ) (A : MultiVector ℝ) (h : ValidFirst A)
    (h' : ValidFirst (turnTy C .mv A)) :
    TurnsWith C .mv (expMv (lift .mv A)) (expMv (lift .mv (turnTy C .mv A))) := by
  refine .inl ⟨_, expMv_lift A h, ?_⟩
  rw [expMv_lift _ h', expMvR_turn]

/-- **C91.** `logG2`: the spinor and the bivector for half turns are both given in the new axes. -/
theorem C91_log (C : AxisChange ℝ) (S : Spinor ℝ) (D : BiVector ℝ) (hw : Valid S.theSca.theData.d0)
    (hb : Valid S.theBiv.theData.d0) (hb' : Valid (turnBiv C S.theBiv).theData.d0)
    (hD : tiny < length .biv D) :
    TurnsWith C .spin (logG2 (lift .spin S) (lift .biv D))
      (logG2 (lift .spin (turnTy C .spin S)) (lift .biv (turnTy C .biv D))) := by
  have hl : length .spin (turnTy C .spin S) = length .spin S := length_turn C .spin S
  have hlb : length .biv (turnBiv C S.theBiv) = length .biv S.theBiv := length_turn C .biv S.theBiv
  have hlD : length .biv (turnTy C .biv D) = length .biv D := length_turn C .biv D
  have hD' : tiny < length .biv (turnTy C .biv D) := by rwa [hlD]
  have hsm : ∀ (k : ℝ) (B : BiVector ℝ), (k * turnBiv C B : BiVector ℝ) = turnBiv C (k * B) :=
    fun k B => Axes.smulTurn C .biv k B
  have hz : turnBiv C (gzero : BiVector ℝ) = gzero := by
    have := hsm 0 gzero
    have e : ∀ B : BiVector ℝ, (0 : ℝ) * B = gzero := by intro B; ext <;> simp only [engabra, zero_mul]
    rw [e, e] at this
    exact this.symm
  have hw' : Valid (turnTy C .spin S : Spinor ℝ).theSca.theData.d0 := hw
  have hb'' : Valid (turnTy C .spin S : Spinor ℝ).theBiv.theData.d0 := hb'
  rcases le_or_gt (length .spin S) eps with hr | hr
  · refine .inr ?_
    rw [logG2_small S _ hr, logG2_small _ _ (by rwa [hl])]
    exact ⟨rfl, rfl⟩
  have hr' : eps < length .spin (turnTy C .spin S) := by rwa [hl]
  rcases le_or_gt (|S.theSca.theData.d0|) ((1 - eps) * length .spin S) with hc | hc
  · refine .inl ⟨_, logG2_general S _ hw hb hr hc, ?_⟩
    rw [logG2_general _ _ hw' hb'' hr' (by rw [hl]; exact hc)]
    congr 1
    have ha : angleOf (turnTy C .spin S) = angleOf S := by
      unfold angleOf
      rw [hl]
      change Complex.arg ⟨S.theSca.theData.d0 / _, length .biv (turnBiv C S.theBiv) / _⟩ = _
      rw [hlb]
    rw [hl, ha]
    change (⟨_, (angleOf S / length .biv (turnBiv C S.theBiv) : ℝ) * turnBiv C S.theBiv⟩ : Spinor ℝ) = _
    rw [hlb, hsm]
    rfl
  · rcases lt_abs.1 hc with hc | hc
    · refine .inl ⟨_, logG2_near_one S _ hw hb hr hc, ?_⟩
      rw [logG2_near_one _ _ hw' hb'' hr' (by rw [hl]; exact hc), hl]
      congr 1
      simp only [turnTy, hz]
    · have hc' : S.theSca.theData.d0 < -((1 - eps) * length .spin S) := by linarith
      refine .inl ⟨_, logG2_near_minus_one S D hw hb hr hc' hD, ?_⟩
      rw [logG2_near_minus_one _ _ hw' hb'' hr' (by rw [hl]; exact hc') hD', hl, hlD]
      congr 1
      change (⟨_, (piLit / length .biv D : ℝ) * turnBiv C D⟩ : Spinor ℝ) = _
      rw [hsm]
      rfl

/-- **C91.** `amplitude` in axes of the same handedness. -/
theorem C91_amplitude (C : AxisChange ℝ) (hs : C.sgn = 1) (A : MultiVector ℝ) :
    amplitude (lift .mv (turnTy C .mv A)) = amplitude (lift .mv A) := by
  have e : ∀ w : ComPlex ℝ, (turnTy C .cplx w : ComPlex ℝ) = w := by
    intro w; ext <;> simp only [turnTy, turnTri, hs, one_mul]
  have h1 : ampSq (lift .mv A) = lift .cplx (ampSq A) := Option.some.inj (ampSq_lift .mv A)
  have h2 : ampSq (lift .mv (turnTy C .mv A)) = lift .cplx (ampSq (turnTy C .mv A)) :=
    Option.some.inj (ampSq_lift .mv (turnTy C .mv A))
  unfold amplitude
  rw [C91_ampSq, e] at h2
  simp only [h1, h2]

/-- **C91**, the other handedness: the amplitude of a vector is the trivector `|v| e123`, whatever
the handedness of the axes, although a trivector changes its sign with it. -/
theorem C91_amplitude_mirror : ∃ A : MultiVector ℝ, ∃ y : ComPlex ℝ,
    amplitude (lift .mv A) = lift .cplx y ∧
      amplitude (lift .mv (turnTy axesInverted .mv A)) = lift .cplx y ∧
      (turnTy axesInverted .cplx y : ComPlex ℝ) ≠ y := by
  have h : ∀ A : MultiVector ℝ, ampSq A = ⟨⟨⟨-1⟩⟩, ⟨⟨0⟩⟩⟩ →
      amplitude (lift .mv A) = lift .cplx ⟨⟨⟨0⟩⟩, ⟨⟨1⟩⟩⟩ := by
    intro A hA
    have h1 : ampSq (lift .mv A) = lift .cplx (ampSq A) := Option.some.inj (ampSq_lift .mv A)
    unfold amplitude
    simp only [h1, hA]
    change ComPlex.from (ofC ((⟨-1, 0⟩ : ℂ) ^ (1 / 2 : ℂ))) = _
    have e : ((⟨-1, 0⟩ : ℂ) ^ (1 / 2 : ℂ)) = Complex.I := by
      have e1 : (⟨-1, 0⟩ : ℂ) = -1 := by apply Complex.ext <;> simp
      rw [e1, Complex.cpow_def_of_ne_zero (by norm_num), Complex.log_neg_one,
        show (Real.pi * Complex.I * (1 / 2) : ℂ) = Real.pi / 2 * Complex.I by ring,
        Complex.exp_pi_div_two_mul_I]
    rw [e]
    rfl
  refine ⟨⟨⟨⟨0⟩⟩, ⟨⟨1, 0, 0⟩⟩, ⟨⟨0, 0, 0⟩⟩, ⟨⟨0⟩⟩⟩, ⟨⟨⟨0⟩⟩, ⟨⟨1⟩⟩⟩, h _ ?_, h _ ?_, ?_⟩
  · rw [ampSqMv]; ext <;> norm_num [engabra]
  · rw [ampSqMv]; ext <;> norm_num [turnTy, turnVec, turnBiv, turnTri, axesInverted, smul, engabra]
  · intro hc
    have := congrArg (fun z : ComPlex ℝ => z.theTri.theData.d0) hc
    simp only [turnTy, turnTri, axesInverted] at this
    norm_num at this

/-- A quarter turn about the third axis. -/
def axesQuarter {α : Type} [CommRing α] : AxisChange α where
  map a := ⟨a.y, -a.x, a.z⟩
  sgn := 1
  sgn_sq := one_mul 1
  map_add a b := by simp [Spec.add]; ring
  map_smul s a := by simp [smul]
  dot_map a b := by simp only [dot]; ring
  cross_map a b := by simp only [smul, cross, V3.mk.injEq]; refine ⟨?_, ?_, ?_⟩ <;> ring

/-- **C91**, the validity tests depend on the axes: `exp(B)` of a plane rotation by one radian, with
a first component below the smallest normal number, is null; in axes turned by a quarter it is
the rotation. -/
theorem C91_exp_depends : ∃ B : BiVector ℝ, expBiv (lift .biv B) = gnullTy Dbl.nan .spin ∧
    ∃ E : Spinor ℝ, expBiv (lift .biv (turnTy axesQuarter .biv B)) = lift .spin E ∧
      IsExp (toMV (turnTy axesQuarter .biv B : BiVector ℝ)) (toMV E) := by
  have hp : (0 : ℝ) < 1 / 2 ^ 1030 := by positivity
  have hlt : (1 : ℝ) / 2 ^ 1030 < 1 / 2 ^ 1022 := by
    apply one_div_lt_one_div_of_lt (by positivity)
    exact pow_lt_pow_right₀ (by norm_num) (by norm_num)
  have h22 : (1 : ℝ) / 2 ^ 1022 ≤ 1 / 2 := by
    apply one_div_le_one_div_of_le (by norm_num)
    calc (2 : ℝ) = 2 ^ 1 := (pow_one 2).symm
      _ ≤ 2 ^ 1022 := pow_le_pow_right₀ (by norm_num) (by norm_num)
  have h24 : (2 : ℝ) ≤ 2 ^ 1024 := by
    calc (2 : ℝ) = 2 ^ 1 := (pow_one 2).symm
      _ ≤ 2 ^ 1024 := pow_le_pow_right₀ (by norm_num) (by norm_num)
  have ht : tiny ≤ 1 / 2 ^ 1022 := by
    apply one_div_le_one_div_of_le (by positivity)
    exact pow_le_pow_right₀ (by norm_num) (by norm_num)
  refine ⟨⟨⟨1 / 2 ^ 1030, 1, 0⟩⟩, C20_null_if_first_invalid _ ?_, ?_⟩
  · rintro (h | ⟨h, -⟩)
    · exact hp.ne' h
    · rw [abs_of_pos hp] at h
      exact absurd hlt (not_lt.2 h)
  · have hl : length .biv (turnTy axesQuarter .biv (⟨⟨1 / 2 ^ 1030, 1, 0⟩⟩ : BiVector ℝ))
        = √((1 / 2 ^ 1030) ^ 2 + 1) := by
      rw [length_turn]
      unfold length
      congr 1
      simp only [comps, List.map_cons, List.map_nil, List.sum_cons, List.sum_nil]
      generalize (1 : ℝ) / 2 ^ 1030 = u
      ring
    have hu1 : (1 : ℝ) / 2 ^ 1030 ≤ 1 := hlt.le.trans (h22.trans (by norm_num))
    have key : ∀ u : ℝ, 0 < u → u ≤ 1 → 1 ≤ √(u ^ 2 + 1) ∧ √(u ^ 2 + 1) ≤ 2 := by
      intro u h0 h1
      refine ⟨Real.le_sqrt_of_sq_le (by nlinarith), Real.sqrt_le_iff.2 ⟨by norm_num, by nlinarith⟩⟩
    obtain ⟨k1, k2⟩ := key _ hp hu1
    rw [← hl] at k1 k2
    have hd : (turnTy axesQuarter .biv (⟨⟨1 / 2 ^ 1030, 1, 0⟩⟩ : BiVector ℝ) : BiVector ℝ).theData.d0 = 1 :=
      one_mul 1
    have hv : ∀ r : ℝ, 1 / 2 ≤ r → r ≤ 1 → Valid r := by
      intro r h1 h2
      have e : |r| = r := abs_of_pos (by linarith)
      exact .inr ⟨by rw [e]; exact h22.trans h1, by rw [e]; exact lt_of_lt_of_le (by linarith) h24⟩
    refine C20_exp_bivector_partial _ ⟨?_, .inr ⟨?_, ?_⟩⟩
    · rw [hd]; exact hv 1 (by norm_num) le_rfl
    · exact lt_of_lt_of_le (lt_of_le_of_lt (ht.trans h22) (by norm_num)) k1
    · rw [hd]
      refine hv _ ?_ ?_
      · exact one_div_le_one_div_of_le (by linarith) k2
      · rw [div_le_one (by linarith)]; exact k1

/-! ## Comparison -/

theorem gradeLists_lift (t : Ty) (x : t.D ℝ) :
    gradeLists t (lift t x) = (gradeLists t x).map (List.map XR.val) := by
  cases t <;> rfl

theorem norm3_turn (C : AxisChange ℝ) (x : V3 ℝ) (s : ℝ) (hs : s * s = 1) :
    listNorm [s * (C.map x).x, s * (C.map x).y, s * (C.map x).z] = listNorm [x.x, x.y, x.z] := by
  have h := C.dot_map x x
  simp only [dot] at h
  unfold listNorm
  congr 1
  simp only [List.map_cons, List.map_nil, List.sum_cons, List.sum_nil]
  linear_combination s * s * h + (x.x * x.x + x.y * x.y + x.z * x.z) * hs

theorem dist3_turn (C : AxisChange ℝ) (x y : V3 ℝ) (s : ℝ) (hs : s * s = 1) :
    listDist [s * (C.map x).x, s * (C.map x).y, s * (C.map x).z]
      [s * (C.map y).x, s * (C.map y).y, s * (C.map y).z]
      = listDist [x.x, x.y, x.z] [y.x, y.y, y.z] := by
  have h1 := C.dot_map x x
  have h2 := C.dot_map x y
  have h3 := C.dot_map y y
  simp only [dot] at h1 h2 h3
  unfold listDist listNorm
  congr 1
  simp only [List.zipWith_cons_cons, List.zipWith_nil_left, List.map_cons, List.map_nil,
    List.sum_cons, List.sum_nil]
  linear_combination s * s * (h1 - 2 * h2 + h3) + (x.x * x.x + x.y * x.y + x.z * x.z
    - 2 * (x.x * y.x + x.y * y.y + x.z * y.z) + (y.x * y.x + y.y * y.y + y.z * y.z)) * hs

theorem norm1_turn (x : ℝ) (s : ℝ) (hs : s * s = 1) : listNorm [s * x] = listNorm [x] := by
  unfold listNorm
  congr 1
  simp only [List.map_cons, List.map_nil, List.sum_cons, List.sum_nil]
  linear_combination x * x * hs

theorem dist1_turn (x y : ℝ) (s : ℝ) (hs : s * s = 1) : listDist [s * x] [s * y] = listDist [x] [y] := by
  unfold listDist listNorm
  congr 1
  simp only [List.zipWith_cons_cons, List.zipWith_nil_left, List.map_cons, List.map_nil,
    List.sum_cons, List.sum_nil]
  linear_combination (x - y) * (x - y) * hs

theorem grades_turn (C : AxisChange ℝ) (t : Ty) (x y : t.D ℝ) (Q : ℝ → ℝ → Prop) :
    (∀ p ∈ (gradeLists t (turnTy C t x)).zip (gradeLists t (turnTy C t y)),
      Q (listDist p.1 p.2) (listNorm p.2)) ↔
    ∀ p ∈ (gradeLists t x).zip (gradeLists t y), Q (listDist p.1 p.2) (listNorm p.2) := by
  have hs := C.sgn_sq
  have n1 : ∀ x : V3 ℝ, listNorm [(C.map x).x, (C.map x).y, (C.map x).z] = listNorm [x.x, x.y, x.z] := by
    intro x
    have := norm3_turn C x 1 (by norm_num)
    simpa only [one_mul] using this
  have d1 : ∀ x y : V3 ℝ, listDist [(C.map x).x, (C.map x).y, (C.map x).z]
      [(C.map y).x, (C.map y).y, (C.map y).z] = listDist [x.x, x.y, x.z] [y.x, y.y, y.z] := by
    intro x y
    have := dist3_turn C x y 1 (by norm_num)
    simpa only [one_mul] using this
  have n2 := fun x => norm3_turn C x C.sgn hs
  have d2 := fun x y => dist3_turn C x y C.sgn hs
  have n3 := fun x => norm1_turn x C.sgn hs
  have d3 := fun x y => dist1_turn x y C.sgn hs
  cases t <;>
    simp only [gradeLists, turnTy, turnVec, turnBiv, turnTri, List.zip_cons_cons, List.zip_nil_left,
      List.mem_cons, List.not_mem_nil, or_false, forall_eq_or_imp, forall_eq, n1, d1, n2, d2, n3, d3]

/-- **C91.** `nearlyEquals` against a reference without (almost) zero grades answers the same in all
axes. -/
theorem C91_nearly (C : AxisChange ℝ) (t : Ty) (ht : t ≠ .dub) (x y : t.D ℝ) (tol : ℝ)
    (hx : ∀ c ∈ comps t x, Valid c) (hy : ∀ c ∈ comps t y, Valid c)
    (hx' : ∀ c ∈ comps t (turnTy C t x), Valid c) (hy' : ∀ c ∈ comps t (turnTy C t y), Valid c)
    (hbig : ∀ g ∈ gradeLists t y, 1 / 2 ^ 1022 ≤ listNorm g) :
    nearlyEqualsTy t (lift t (turnTy C t x)) (lift t (turnTy C t y)) (val tol) = .ok true ↔
      nearlyEqualsTy t (lift t x) (lift t y) (val tol) = .ok true := by
  have key : ∀ u v : t.D ℝ, (∀ c ∈ comps t u, Valid c) → (∀ c ∈ comps t v, Valid c) →
      (∀ p ∈ (gradeLists t u).zip (gradeLists t v), 1 / 2 ^ 1022 ≤ listNorm p.2) →
      (nearlyEqualsTy t (lift t u) (lift t v) (val tol) = .ok true ↔
        ∀ p ∈ (gradeLists t u).zip (gradeLists t v), listDist p.1 p.2 < tol * listNorm p.2) := by
    intro u v hu hv hg
    rw [nearly_grades t ht, gradeLists_lift, gradeLists_lift, List.zip_map]
    have hl := grade_length t u v
    constructor
    · intro h p hp
      obtain ⟨l1, -, -, l2, l3⟩ := hl p hp
      exact (C27_exact p.1 p.2 tol l1 (fun c hc => hu c (l2 c hc)) (fun c hc => hv c (l3 c hc))
        (hg p hp)).1 (h _ (List.mem_map.2 ⟨p, hp, rfl⟩))
    · intro h q hq
      obtain ⟨p, hp, rfl⟩ := List.mem_map.1 hq
      obtain ⟨l1, -, -, l2, l3⟩ := hl p hp
      exact (C27_exact p.1 p.2 tol l1 (fun c hc => hu c (l2 c hc)) (fun c hc => hv c (l3 c hc))
        (hg p hp)).2 (h p hp)
  have hb : ∀ p ∈ (gradeLists t x).zip (gradeLists t y), 1 / 2 ^ 1022 ≤ listNorm p.2 :=
    fun p hp => hbig p.2 (List.of_mem_zip hp).2
  rw [key x y hx hy hb, key _ _ hx' hy' ((grades_turn C t x y fun _ n => 1 / 2 ^ 1022 ≤ n).2 hb)]
  exact grades_turn C t x y fun d n => d < tol * n

/-- Axes turned in the first plane by the angle with cosine `3/5`. -/
noncomputable def axes345 : AxisChange ℝ where
  map a := ⟨3 / 5 * a.x + 4 / 5 * a.y, -4 / 5 * a.x + 3 / 5 * a.y, a.z⟩
  sgn := 1
  sgn_sq := one_mul 1
  map_add a b := by simp [Spec.add]; constructor <;> ring
  map_smul s a := by simp [smul]; constructor <;> ring
  dot_map a b := by simp only [dot]; ring
  cross_map a b := by simp [smul, cross]; refine ⟨?_, ?_, ?_⟩ <;> ring

/-- **C91**, the zero reference: the differences are compared one by one, and so the answer depends
on the axes. -/
theorem C91_nearly_zero_depends : ∃ x : Vector ℝ,
    nearlyEqualsTy .vec (lift .vec x) (lift .vec gzero) (val 1) = .ok false ∧
    nearlyEqualsTy .vec (lift .vec (turnTy axes345 .vec x)) (lift .vec (turnTy axes345 .vec gzero))
      (val 1) = .ok true := by
  have h22 : (1 : ℝ) / 2 ^ 1022 ≤ 1 / 2 := by
    apply one_div_le_one_div_of_le (by norm_num)
    calc (2 : ℝ) = 2 ^ 1 := (pow_one 2).symm
      _ ≤ 2 ^ 1022 := pow_le_pow_right₀ (by norm_num only) (by norm_num only)
  have h24 : (2 : ℝ) ≤ 2 ^ 1024 := by
    calc (2 : ℝ) = 2 ^ 1 := (pow_one 2).symm
      _ ≤ 2 ^ 1024 := pow_le_pow_right₀ (by norm_num only) (by norm_num only)
  have hv : ∀ r : ℝ, 1 / 2 ≤ |r| → |r| < 2 → Valid r := fun r h1 h2 =>
    .inr ⟨h22.trans h1, lt_of_lt_of_le h2 h24⟩
  have hn : listNorm [0, 0, 0] < 1 / 2 ^ 1022 := by
    have : listNorm [0, 0, 0] = 0 := by unfold listNorm; simp
    rw [this]
    positivity
  have hz : ∀ c ∈ ([0, 0, 0] : List ℝ), Valid c := by
    intro c hc
    left
    simpa using hc
  have key : ∀ a b c : ℝ, Valid a → Valid b → Valid c →
      (nearlyEqualsTy .vec (lift .vec (⟨⟨a, b, c⟩⟩ : Vector ℝ)) (lift .vec gzero) (val 1) = .ok true ↔
        |a| < 1 ∧ |b| < 1 ∧ |c| < 1) := by
    intro a b c ha hb hc
    have := C27_exact_small [a, b, c] [0, 0, 0] 1 rfl (by simp)
      (by
        intro r hr
        simp only [List.mem_cons, List.not_mem_nil, or_false] at hr
        rcases hr with rfl | rfl | rfl <;> assumption) hz hn
    refine Iff.trans ?_ (this.trans ?_)
    · exact Iff.rfl
    · simp
  have hg : (turnTy axes345 .vec gzero : Vector ℝ) = gzero := by
    ext <;> simp [turnTy, turnVec, axes345, engabra]
  have hx : (turnTy axes345 .vec (⟨⟨9 / 8, 0, 0⟩⟩ : Vector ℝ) : Vector ℝ) = ⟨⟨27 / 40, -(9 / 10), 0⟩⟩ := by
    ext <;> simp only [turnTy, turnVec, axes345] <;> norm_num
  refine ⟨⟨⟨9 / 8, 0, 0⟩⟩, ?_, ?_⟩
  · obtain ⟨b, hb⟩ := C25_defined .vec (lift .vec (⟨⟨9 / 8, 0, 0⟩⟩ : Vector ℝ)) (lift .vec gzero) (val 1)
    cases b with
    | false => exact hb
    | true =>
      have := ((key _ _ _ (hv _ (by norm_num [abs_of_pos]) (by norm_num [abs_of_pos])) (.inl rfl) (.inl rfl)).1 hb).1
      norm_num [abs_of_pos] at this
  · rw [hg, hx]
    refine (key _ _ _ (hv _ ?_ ?_) (hv _ ?_ ?_) (.inl rfl)).2 ⟨?_, ?_, ?_⟩
    all_goals norm_num [abs_of_pos]

/-! ## Examples -/

/-- The hypotheses are met: a half turn, a general rotation, a mirror. -/
example : magSq (⟨⟨⟨3 / 5⟩⟩, ⟨⟨0, 4 / 5, 0⟩⟩⟩ : Spinor ℝ) = 1 := by simp only [engabra]; norm_num
example : (axesInverted : AxisChange ℝ).sgn = -1 := rfl
example : (turnTy axesQuarter .vec (⟨⟨1, 2, 3⟩⟩ : Vector ℤ) : Vector ℤ) = ⟨⟨2, -1, 3⟩⟩ := by decide
example : (turnTy axesQuarter .biv (⟨⟨1, 2, 3⟩⟩ : BiVector ℤ) : BiVector ℤ) = ⟨⟨2, -1, 3⟩⟩ := by decide
/-- Vector times bivector, directly and in the turned axes. -/
example : (mulTy .vec .biv (turnTy axesQuarter .vec (⟨⟨1, 2, 3⟩⟩ : Vector ℤ))
      (turnTy axesQuarter .biv (⟨⟨5, 7, 11⟩⟩ : BiVector ℤ)) : ImSpin ℤ)
    = turnTy axesQuarter .imsp (mulTy .vec .biv (⟨⟨1, 2, 3⟩⟩ : Vector ℤ) (⟨⟨5, 7, 11⟩⟩ : BiVector ℤ)) := by
  decide
example : (mulTy .vec .biv (⟨⟨1, 2, 3⟩⟩ : Vector ℤ) (⟨⟨5, 7, 11⟩⟩ : BiVector ℤ) : ImSpin ℤ)
    = ⟨⟨⟨-1, -4, 3⟩⟩, ⟨⟨52⟩⟩⟩ := by decide
/-- An expression with a dual, and one without. -/
example : (Expr.mul (.var 0) (.add (.var 1) (.reverse (.var 2)))).dualFree := ⟨trivial, trivial, trivial⟩
example : ¬ (Expr.mul (.var 0) (.dual (.var 1))).dualFree := fun h => h.2

end Engabra
