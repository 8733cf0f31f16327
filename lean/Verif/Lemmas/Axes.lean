import Verif.Spec.Axes
import Verif.Lemmas.Func
import Verif.Model.Template
import Verif.Props.C03_TypedProducts
import Verif.Props.C42_Expressions
import Mathlib.Tactic.LinearCombination

/-! Lemmas on changes of axes. -/

namespace Engabra
open Spec

variable {α : Type} [CommRing α]

namespace Axes

/-- A change of axes is given by the new coordinates of the old basis vectors. -/
theorem map_eq (C : AxisChange α) (a : V3 α) :
    C.map a = ⟨(C.map ⟨1, 0, 0⟩).x * a.x + (C.map ⟨0, 1, 0⟩).x * a.y + (C.map ⟨0, 0, 1⟩).x * a.z,
      (C.map ⟨1, 0, 0⟩).y * a.x + (C.map ⟨0, 1, 0⟩).y * a.y + (C.map ⟨0, 0, 1⟩).y * a.z,
      (C.map ⟨1, 0, 0⟩).z * a.x + (C.map ⟨0, 1, 0⟩).z * a.y + (C.map ⟨0, 0, 1⟩).z * a.z⟩ := by
  have h : a = Spec.add (Spec.add (smul a.x ⟨1, 0, 0⟩) (smul a.y ⟨0, 1, 0⟩)) (smul a.z ⟨0, 0, 1⟩) := by
    obtain ⟨x, y, z⟩ := a
    simp [Spec.add, smul]
  conv_lhs => rw [h]
  rw [C.map_add, C.map_add, C.map_smul, C.map_smul, C.map_smul]
  simp only [Spec.add, smul, V3.mk.injEq]
  refine ⟨?_, ?_, ?_⟩ <;> ring

omit [CommRing α] in
theorem eta3 (w : V3 α) : (⟨w.x, w.y, w.z⟩ : V3 α) = w := rfl

theorem map_cross (C : AxisChange α) (a b : V3 α) :
    C.map (cross a b) = smul C.sgn (cross (C.map a) (C.map b)) := by
  rw [C.cross_map]
  have hs := C.sgn_sq
  generalize C.map (cross a b) = w
  obtain ⟨x, y, z⟩ := w
  simp only [smul, ← mul_assoc, hs, one_mul]

/-- Vector and bivector parts of a product, as combinations of vectors. -/
def comb (a a' t t' e : α) (v b v' b' : V3 α) : V3 α :=
  Spec.add (Spec.add (Spec.add (smul a v') (smul a' v))
    (Spec.add (smul (-1) (cross v b')) (smul (-1) (cross b v'))))
    (Spec.add (smul (e * t) b') (smul (e * t') b))

theorem map_comb (C : AxisChange α) (a a' t t' e : α) (v b v' b' : V3 α) :
    C.map (comb a a' t t' e v b v' b') =
      Spec.add (Spec.add (Spec.add (smul a (C.map v')) (smul a' (C.map v)))
        (Spec.add (smul (-1) (smul C.sgn (cross (C.map v) (C.map b'))))
          (smul (-1) (smul C.sgn (cross (C.map b) (C.map v'))))))
        (Spec.add (smul (e * t) (C.map b')) (smul (e * t') (C.map b))) := by
  unfold comb
  simp only [C.map_add, C.map_smul, map_cross]

/-- The bivector part. -/
def combB (a a' t t' : α) (v b v' b' : V3 α) : V3 α :=
  Spec.add (Spec.add (Spec.add (smul a b') (smul a' b))
    (Spec.add (cross v v') (smul (-1) (cross b b'))))
    (Spec.add (smul t v') (smul t' v))

theorem map_combB (C : AxisChange α) (a a' t t' : α) (v b v' b' : V3 α) :
    C.map (combB a a' t t' v b v' b') =
      Spec.add (Spec.add (Spec.add (smul a (C.map b')) (smul a' (C.map b)))
        (Spec.add (smul C.sgn (cross (C.map v) (C.map v')))
          (smul (-1) (smul C.sgn (cross (C.map b) (C.map b'))))))
        (Spec.add (smul t (C.map v')) (smul t' (C.map v))) := by
  unfold combB
  simp only [C.map_add, C.map_smul, map_cross]

theorem mulMv (C : AxisChange α) (A B : MultiVector α) :
    (turnTy C .mv A * turnTy C .mv B : MultiVector α) = turnTy C .mv (A * B) := by
  obtain ⟨⟨⟨a⟩⟩, ⟨⟨v0, v1, v2⟩⟩, ⟨⟨b0, b1, b2⟩⟩, ⟨⟨t⟩⟩⟩ := A
  obtain ⟨⟨⟨a'⟩⟩, ⟨⟨v0', v1', v2'⟩⟩, ⟨⟨b0', b1', b2'⟩⟩, ⟨⟨t'⟩⟩⟩ := B
  have hprod : (⟨⟨⟨a⟩⟩, ⟨⟨v0, v1, v2⟩⟩, ⟨⟨b0, b1, b2⟩⟩, ⟨⟨t⟩⟩⟩ : MultiVector α)
        * (⟨⟨⟨a'⟩⟩, ⟨⟨v0', v1', v2'⟩⟩, ⟨⟨b0', b1', b2'⟩⟩, ⟨⟨t'⟩⟩⟩ : MultiVector α)
      = (⟨⟨⟨a * a' + dot ⟨v0, v1, v2⟩ ⟨v0', v1', v2'⟩ - dot ⟨b0, b1, b2⟩ ⟨b0', b1', b2'⟩ - t * t'⟩⟩,
        ⟨⟨(comb a a' t t' (-1) ⟨v0, v1, v2⟩ ⟨b0, b1, b2⟩ ⟨v0', v1', v2'⟩ ⟨b0', b1', b2'⟩).x,
          (comb a a' t t' (-1) ⟨v0, v1, v2⟩ ⟨b0, b1, b2⟩ ⟨v0', v1', v2'⟩ ⟨b0', b1', b2'⟩).y,
          (comb a a' t t' (-1) ⟨v0, v1, v2⟩ ⟨b0, b1, b2⟩ ⟨v0', v1', v2'⟩ ⟨b0', b1', b2'⟩).z⟩⟩,
        ⟨⟨(combB a a' t t' ⟨v0, v1, v2⟩ ⟨b0, b1, b2⟩ ⟨v0', v1', v2'⟩ ⟨b0', b1', b2'⟩).x,
          (combB a a' t t' ⟨v0, v1, v2⟩ ⟨b0, b1, b2⟩ ⟨v0', v1', v2'⟩ ⟨b0', b1', b2'⟩).y,
          (combB a a' t t' ⟨v0, v1, v2⟩ ⟨b0, b1, b2⟩ ⟨v0', v1', v2'⟩ ⟨b0', b1', b2'⟩).z⟩⟩,
        ⟨⟨a * t' + t * a' + dot ⟨v0, v1, v2⟩ ⟨b0', b1', b2'⟩ + dot ⟨b0, b1, b2⟩ ⟨v0', v1', v2'⟩⟩⟩⟩
          : MultiVector α) := by
    ext <;> simp only [comb, combB, Spec.add, smul, cross, dot, engabra] <;> ring
  rw [hprod]
  simp only [turnTy, turnVec, turnBiv, turnTri, eta3, map_comb, map_combB,
    ← C.dot_map ⟨v0, v1, v2⟩, ← C.dot_map ⟨b0, b1, b2⟩]
  have hs := C.sgn_sq
  generalize C.map ⟨v0, v1, v2⟩ = p
  generalize C.map ⟨v0', v1', v2'⟩ = p'
  generalize C.map ⟨b0, b1, b2⟩ = q
  generalize C.map ⟨b0', b1', b2'⟩ = q'
  generalize C.sgn = e at *
  obtain ⟨p0, p1, p2⟩ := p
  obtain ⟨p0', p1', p2'⟩ := p'
  obtain ⟨q0, q1, q2⟩ := q
  obtain ⟨q0', q1', q2'⟩ := q'
  ext <;> simp only [Spec.add, smul, cross, dot, engabra]
  · linear_combination (-(q0 * q0' + q1 * q1' + q2 * q2') - t * t') * hs
  · linear_combination (-(t * q0' + t' * q0)) * hs
  · linear_combination (-(t * q1' + t' * q1)) * hs
  · linear_combination (-(t * q2' + t' * q2)) * hs
  · linear_combination (-(p1 * p2' - p2 * p1')) * hs
  · linear_combination (-(p2 * p0' - p0 * p2')) * hs
  · linear_combination (-(p0 * p1' - p1 * p0')) * hs
  · ring

theorem promote_turn (C : AxisChange α) (t : Ty) (x : t.D α) :
    promote t (turnTy C t x) = turnTy C .mv (promote t x) := by
  have h0 : C.map ⟨0, 0, 0⟩ = ⟨0, 0, 0⟩ := by rw [map_eq]; simp
  cases t <;> ext <;> simp only [turnTy, turnVec, turnBiv, turnTri, engabra, h0, mul_zero]

theorem promote_inj (t : Ty) (x y : t.D α) (h : promote t x = promote t y) : x = y := by
  have hs := congrArg MultiVector.theSca h
  have hv := congrArg MultiVector.theVec h
  have hb := congrArg MultiVector.theBiv h
  have ht := congrArg MultiVector.theTri h
  cases t
  case dub => exact congrArg (fun z : Scalar α => z.theData.d0) hs
  case sca => exact hs
  case vec => exact hv
  case biv => exact hb
  case tri => exact ht
  case spin => exact Spinor.ext hs hb
  case imsp => exact ImSpin.ext hv ht
  case cplx => exact ComPlex.ext hs ht
  case dplx => exact DirPlex.ext hv hb
  case mv => exact h

theorem mulTy (C : AxisChange α) (s t : Ty) (x : s.D α) (y : t.D α) :
    Engabra.mulTy s t (turnTy C s x) (turnTy C t y) = turnTy C _ (Engabra.mulTy s t x y) := by
  apply promote_inj
  rw [C03_typed_product_agrees, promote_turn, promote_turn, promote_turn, mulMv,
    C03_typed_product_agrees]

theorem map_matrix (C : AxisChange α) : ∃ p q r : V3 α, ∀ a : V3 α, C.map a =
    ⟨p.x * a.x + q.x * a.y + r.x * a.z, p.y * a.x + q.y * a.y + r.y * a.z,
      p.z * a.x + q.z * a.y + r.z * a.z⟩ := ⟨_, _, _, map_eq C⟩

/-- Split in components and close with `ring`, a change of axes being a matrix. -/
macro "axis_ring" h:term : tactic => `(tactic|
  first
    | rfl
    | (simp only [Engabra.negTy, Engabra.reverseTy, Engabra.oddverseTy, Engabra.dirverseTy,
        Engabra.dualTy, turnObj, turnTy, turnVec, turnBiv, turnTri, $h:term, smulTy, engabra]; ring1)
    | (ext <;> simp only [Engabra.negTy, Engabra.reverseTy, Engabra.oddverseTy, Engabra.dirverseTy,
        Engabra.dualTy, turnObj, turnTy, turnVec, turnBiv, turnTri, $h:term, smulTy, engabra] <;> ring1))

theorem negTy (C : AxisChange α) (t : Ty) (x : t.D α) :
    Engabra.negTy t (turnTy C t x) = turnTy C t (Engabra.negTy t x) := by
  obtain ⟨p, q, r, h⟩ := map_matrix C
  cases t <;> axis_ring h

theorem reverseTy (C : AxisChange α) (t : Ty) (x : t.D α) :
    Engabra.reverseTy t (turnTy C t x) = turnTy C t (Engabra.reverseTy t x) := by
  obtain ⟨p, q, r, h⟩ := map_matrix C
  cases t <;> axis_ring h

theorem oddverseTy (C : AxisChange α) (t : Ty) (x : t.D α) :
    Engabra.oddverseTy t (turnTy C t x) = turnTy C t (Engabra.oddverseTy t x) := by
  obtain ⟨p, q, r, h⟩ := map_matrix C
  cases t <;> axis_ring h

theorem dirverseTy (C : AxisChange α) (t : Ty) (x : t.D α) :
    Engabra.dirverseTy t (turnTy C t x) = turnTy C t (Engabra.dirverseTy t x) := by
  obtain ⟨p, q, r, h⟩ := map_matrix C
  cases t <;> axis_ring h

theorem smulTurn (C : AxisChange α) (t : Ty) (s : α) (x : t.D α) :
    smulTy t s (turnTy C t x) = turnTy C t (smulTy t s x) := by
  obtain ⟨p, q, r, h⟩ := map_matrix C
  cases t <;> axis_ring h

/-- `dual` changes sign with the handedness. -/
theorem dualTy (C : AxisChange α) (t : Ty) (x : t.D α) :
    smulTy _ C.sgn (Engabra.dualTy t (turnTy C t x)) = turnTy C _ (Engabra.dualTy t x) := by
  have hp : ∀ (t : Ty) (s : α) (y : t.D α), promote t (smulTy t s y) = smulTy .mv s (promote t y) := by
    intro t s y
    cases t <;> mv_ring
  apply promote_inj
  rw [hp, promote_dual, promote_turn, promote_turn, promote_dual]
  generalize promote t x = A
  obtain ⟨p, q, r, h⟩ := map_matrix C
  have hs := C.sgn_sq
  ext <;> simp only [turnTy, turnVec, turnBiv, turnTri, h, smulTy, engabra]
  · linear_combination (-A.theTri.theData.d0) * hs
  · linear_combination (-(p.x * A.theBiv.theData.d0 + q.x * A.theBiv.theData.d1 + r.x * A.theBiv.theData.d2)) * hs
  · linear_combination (-(p.y * A.theBiv.theData.d0 + q.y * A.theBiv.theData.d1 + r.y * A.theBiv.theData.d2)) * hs
  · linear_combination (-(p.z * A.theBiv.theData.d0 + q.z * A.theBiv.theData.d1 + r.z * A.theBiv.theData.d2)) * hs

theorem addTy (C : AxisChange α) (s t : Ty) (x : s.D α) (y : t.D α) :
    Engabra.addTy s t (turnTy C s x) (turnTy C t y) = (Engabra.addTy s t x y).map (turnObj C) := by
  obtain ⟨p, q, r, h⟩ := map_matrix C
  cases s <;> cases t <;> first
    | rfl
    | (refine congrArg some (Sigma.ext rfl (heq_of_eq ?_)); axis_ring h)

theorem subTy (C : AxisChange α) (s t : Ty) (x : s.D α) (y : t.D α) :
    Engabra.subTy s t (turnTy C s x) (turnTy C t y) = (Engabra.subTy s t x y).map (turnObj C) := by
  obtain ⟨p, q, r, h⟩ := map_matrix C
  cases s <;> cases t <;> first
    | rfl
    | (refine congrArg some (Sigma.ext rfl (heq_of_eq ?_)); axis_ring h)

theorem magSqTy (C : AxisChange α) (t : Ty) (x : t.D α) :
    Engabra.magSqTy t (turnTy C t x) = Engabra.magSqTy t x := by
  have hs := C.sgn_sq
  have hd : ∀ a, _ := fun a => C.dot_map a a
  simp only [dot] at hd
  cases t
  case dub => rfl
  case sca => rfl
  all_goals simp only [turnTy, turnVec, turnBiv, turnTri, engabra]
  case vec => linear_combination hd ⟨x.theData.d0, x.theData.d1, x.theData.d2⟩
  case biv =>
    have h := hd ⟨x.theData.d0, x.theData.d1, x.theData.d2⟩
    generalize C.map ⟨x.theData.d0, x.theData.d1, x.theData.d2⟩ = w at *
    linear_combination h + (w.x * w.x + w.y * w.y + w.z * w.z) * hs
  case tri => linear_combination (x.theData.d0 * x.theData.d0) * hs
  case spin =>
    have h := hd ⟨x.theBiv.theData.d0, x.theBiv.theData.d1, x.theBiv.theData.d2⟩
    generalize C.map ⟨x.theBiv.theData.d0, x.theBiv.theData.d1, x.theBiv.theData.d2⟩ = w at *
    linear_combination h + (w.x * w.x + w.y * w.y + w.z * w.z) * hs
  case imsp =>
    have h := hd ⟨x.theVec.theData.d0, x.theVec.theData.d1, x.theVec.theData.d2⟩
    linear_combination h + (x.theTri.theData.d0 * x.theTri.theData.d0) * hs
  case cplx => linear_combination (x.theTri.theData.d0 * x.theTri.theData.d0) * hs
  case dplx =>
    have h := hd ⟨x.theBiv.theData.d0, x.theBiv.theData.d1, x.theBiv.theData.d2⟩
    have h' := hd ⟨x.theVec.theData.d0, x.theVec.theData.d1, x.theVec.theData.d2⟩
    generalize C.map ⟨x.theBiv.theData.d0, x.theBiv.theData.d1, x.theBiv.theData.d2⟩ = w at *
    linear_combination h' + h + (w.x * w.x + w.y * w.y + w.z * w.z) * hs
  case mv =>
    have h := hd ⟨x.theBiv.theData.d0, x.theBiv.theData.d1, x.theBiv.theData.d2⟩
    have h' := hd ⟨x.theVec.theData.d0, x.theVec.theData.d1, x.theVec.theData.d2⟩
    generalize C.map ⟨x.theBiv.theData.d0, x.theBiv.theData.d1, x.theBiv.theData.d2⟩ = w at *
    linear_combination h' + h + (w.x * w.x + w.y * w.y + w.z * w.z) * hs
      + (x.theTri.theData.d0 * x.theTri.theData.d0) * hs

theorem ampSqMv (C : AxisChange α) (A : MultiVector α) :
    ampSq (turnTy C .mv A) = turnTy C .cplx (ampSq A) := by
  have h1 := C.dot_map ⟨A.theVec.theData.d0, A.theVec.theData.d1, A.theVec.theData.d2⟩
    ⟨A.theBiv.theData.d0, A.theBiv.theData.d1, A.theBiv.theData.d2⟩
  have h2 := magSqTy C .vec A.theVec
  have h3 := magSqTy C .biv A.theBiv
  have h4 := magSqTy C .tri A.theTri
  simp only [dot] at h1
  have h5 : prodComm (turnVec C A.theVec).theData (turnBiv C A.theBiv).theData
      = C.sgn * prodComm A.theVec.theData A.theBiv.theData := by
    simp only [turnVec, turnBiv, engabra]
    linear_combination C.sgn * h1
  simp only [turnTy, Engabra.ampSqMv]
  change magSq (turnVec C A.theVec) = magSq A.theVec at h2
  change magSq (turnBiv C A.theBiv) = magSq A.theBiv at h3
  change magSq (turnTri C A.theTri) = magSq A.theTri at h4
  rw [h2, h3, h4, h5]
  ext
  · rfl
  · simp only [turnTri]; ring

end Axes
end Engabra
