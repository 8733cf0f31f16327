import Verif.Model.RefAmp
import Verif.Props.C50_Promotion
import Verif.Props.C61_C62_Branch
import Verif.Props.C27_Range
import Verif.Props.C13_C15_Norms
import Verif.Props.C60_Close

/-! # C92: the repository's references for `magnitude` and `amplitude`

The test programs compare `magnitude(x)` with `magnitude(MultiVector(x))`, and `amplitude(x)` with
the square root of `MultiVector(x) * dirverse(MultiVector(x))`. -/

set_option linter.unusedSimpArgs false

namespace Engabra
open F64 (nan inf zero fin IsFin Finite HasVal NN)

/-! ## `magnitude` -/

/-- Squares and their sums: no sign. -/
def Uns (x : F64) : Prop := NN x ∨ x = nan

theorem uns_sq (x : F64) : Uns (x * x) := by
  by_cases h : x = nan
  · right; rw [h]; rfl
  · left; exact F64.nn_sq h

theorem uns_zero : Uns (0 : F64) := .inl F64.nn_zero

theorem uns_add {x y : F64} (hx : Uns x) (hy : Uns y) : Uns (x + y) := by
  rcases hx with hx | rfl
  · rcases hy with hy | rfl
    · exact .inl (F64.nn_add hx hy)
    · right; rw [F64.add_comm']; rfl
  · right; rfl

theorem uns_zero_add {x : F64} (hx : Uns x) : (0 : F64) + x = x := by
  rcases hx with (rfl | rfl | ⟨v, h, rfl, hv⟩) | rfl
  · rfl
  · exact F64.zero_add_zero
  · have h0 : HasVal (fin v h) v := F64.hasVal_fin h
    have := F64.HasVal.zero_add F64.hasVal_zero' h0
    exact pos_eq this.1 h0.1 (by rw [this.2]; exact hv.ne') (this.2.trans h0.2.symm)
  · rfl

theorem uns_add_zero {x : F64} (hx : Uns x) : x + (0 : F64) = x := by
  rw [F64.add_comm', uns_zero_add hx]

/-- The sum of three squares. -/
theorem uns_three (a b c : F64) : Uns (a * a + b * b + c * c) :=
  uns_add (uns_add (uns_sq a) (uns_sq b)) (uns_sq c)

theorem magSq_promote64 (t : Ty) (x : t.D F64) : magSq (promote t x) = magSqTy t x := by
  cases t <;> simp only [promote, engabra, magSqTy, zero_mul_zero, F64.zero_add_zero] <;>
    simp only [uns_add_zero (uns_sq _), uns_zero_add (uns_sq _), uns_zero_add (uns_three _ _ _),
      uns_add_zero (uns_three _ _ _), uns_add_zero (uns_add (uns_sq _) (uns_three _ _ _)),
      uns_add_zero (uns_add (uns_three _ _ _) (uns_three _ _ _))]

/-- **C92.** The reference for `magnitude` is the result of `magnitude`, bit for bit, for every type
and every value, NaN and infinities included. -/
theorem C92_magnitude (t : Ty) (x : t.D F64) : refMag t x = magnitudeTy t x := by
  unfold refMag magnitude magnitudeTy
  rw [magSq_promote64]

/-! ## `amplitude` -/

theorem zmul {c : F64} (h : c.Finite) (s : Bool) : zero s * c = zero (s ^^ c.signbit) := by
  rw [F64.mul_def]
  cases c with
  | nan => exact absurd h id
  | inf s => exact absurd h id
  | zero t => simp [F64.mul, F64.mulFin, F64.value, F64.signbit]
  | fin v hv => simp [F64.mul, F64.mulFin, F64.value, F64.signbit]

theorem mulz {c : F64} (h : c.Finite) (s : Bool) : c * zero s = zero (s ^^ c.signbit) := by
  rw [F64.mul_comm', zmul h]

theorem zadd (s t : Bool) : zero s + zero t = zero (s && t) := by
  rw [F64.add_def]; simp [F64.add, F64.addFin, F64.value, F64.signbit]

theorem zneg (s : Bool) : -(zero s) = zero (!s) := rfl

theorem zsub (s t : Bool) : zero s - zero t = zero (s && !t) := by
  rw [show zero s - zero t = zero s + -(zero t) from rfl, zneg, zadd]

theorem signbit_neg64 {c : F64} (h : c.Finite) : (-c).signbit = !c.signbit := by
  cases c with
  | nan => exact absurd h id
  | inf s => exact absurd h id
  | zero t => rfl
  | fin v hv =>
    have h0 : v ≠ 0 := hv.1
    show decide (-v < 0) = !decide (v < 0)
    rcases lt_or_gt_of_ne h0 with k | k
    · simp [k, k.le]
    · simp [k, k.le]

theorem neg_fin {c : F64} (h : c.Finite) : (-c).Finite := (HasVal.of h).neg.1

theorem ne_nan_of {t : Ty} {x : t.D F64} (hf : FiniteTy t x) {c : F64} (hc : c ∈ comps t x) :
    c ≠ nan := by
  suffices h : c.Finite by rintro rfl; exact h
  have h0 := hf 0
  have h1 := hf 1
  have h2 := hf 2
  have h3 := hf 3
  have h4 := hf 4
  have h5 := hf 5
  have h6 := hf 6
  have h7 := hf 7
  cases t <;> simp only [comps, List.mem_cons, List.not_mem_nil, or_false, List.append_assoc,
    List.cons_append, List.nil_append] at hc <;> rcases hc with rfl | rfl | rfl | rfl | rfl | rfl | rfl | rfl <;> assumption

/-- A sum of squares has no sign. -/
theorem uns_magSq (t : Ty) (x : t.D F64) : Uns (magSqTy t x) := by
  cases t <;> simp only [engabra, magSqTy] <;>
    (repeat first | exact uns_sq _ | exact uns_zero | refine uns_add ?_ ?_)

theorem magSq_nn (t : Ty) (x : t.D F64) (hm : (magSqTy t x).Finite) : NN (magSqTy t x) := by
  rcases uns_magSq t x with h | h
  · exact h
  · rw [h] at hm; exact absurd hm id

/-- The square root on the negative real axis, on either side of the cut. -/
theorem csqrt_neg [LibM F64] {ε : ℝ} (hl : LibcSqrtOk ε) {x m : F64} (hx : Sz x (-m)) (hm : NN m)
    (hf : m.Finite) (s : Bool) :
    ComPlex.from (LibM.csqrt (x, zero s))
      = (⟨⟨⟨0⟩⟩, ⟨⟨if s then -Dbl.sqrt m else Dbl.sqrt m⟩⟩⟩ : ComPlex F64) := by
  have h1 : LibM.csqrt (x, (0 : F64)) = (0, Dbl.sqrt m) ∧ x.Finite := by
    rcases hx with rfl | ⟨a, b, rfl, hb⟩
    · exact ⟨(hl.real m hm).2, neg_fin hf⟩
    · have hm0 : m = 0 := by
        rcases hm with rfl | rfl | ⟨v, h, rfl, hv⟩
        · exact absurd hf id
        · rfl
        · cases hb
      subst hm0
      refine ⟨?_, trivial⟩
      have hs : Dbl.sqrt (0 : F64) = 0 := rfl
      cases a
      · have := (hl.real 0 F64.nn_zero).1
        rw [hs] at this ⊢
        exact this
      · exact (hl.real 0 F64.nn_zero).2
  cases s
  · rw [show (zero false : F64) = 0 from rfl, h1.1]; rfl
  · rw [show (zero true : F64) = -0 from rfl, hl.conj x 0 h1.2 F64.hasVal_zero'.1, h1.1]; rfl

/-- The square root on the positive real axis: the imaginary part is a zero. -/
theorem csqrt_pos [LibM F64] {ε : ℝ} (hl : LibcSqrtOk ε) {x m : F64} (hx : Sz x m) (hm : NN m)
    (hf : m.Finite) (s : Bool) : ∃ s' : Bool,
    ComPlex.from (LibM.csqrt (x, zero s)) = (⟨⟨⟨Dbl.sqrt m⟩⟩, ⟨⟨zero s'⟩⟩⟩ : ComPlex F64) := by
  have h1 : LibM.csqrt (x, (0 : F64)) = (Dbl.sqrt m, 0) ∧ x.Finite := by
    rcases hx with rfl | ⟨a, b, rfl, rfl⟩
    · exact ⟨(hl.real x hm).1, hf⟩
    · have hb : (zero b : F64) = 0 := by
        rcases hm with h | h | ⟨v, h, h', hv⟩
        · cases h
        · exact h
        · cases h'
      rw [hb]
      refine ⟨?_, trivial⟩
      have hs : Dbl.sqrt (0 : F64) = 0 := rfl
      cases a
      · exact (hl.real 0 F64.nn_zero).1
      · have := (hl.real 0 F64.nn_zero).2
        rw [hs] at this ⊢
        exact this
  cases s
  · exact ⟨false, by rw [show (zero false : F64) = 0 from rfl, h1.1]; rfl⟩
  · exact ⟨true, by
      rw [show (zero true : F64) = -0 from rfl, hl.conj x 0 h1.2 F64.hasVal_zero'.1, h1.1]; rfl⟩

/-- Values of four variables. -/
def env4 (a b c d : F64) : Nat → F64
  | 0 => a
  | 1 => b
  | 2 => c
  | _ => d

theorem env4_fin {a b c d : F64} (ha : a.Finite) (hb : b.Finite) (hc : c.Finite) (hd : d.Finite)
    (n : Nat) : (env4 a b c d n).Finite := by
  match n with
  | 0 => exact ha
  | 1 => exact hb
  | 2 => exact hc
  | _ + 3 => exact hd

/-- The operands with variables for components. -/
def symSca : MultiVector T := promote .sca (⟨⟨.var 0⟩⟩ : Scalar T)
def symTri : MultiVector T := promote .tri (⟨⟨.var 0⟩⟩ : TriVector T)
def symVec : MultiVector T := promote .vec (⟨⟨.var 0, .var 1, .var 2⟩⟩ : Vector T)
def symBiv : MultiVector T := promote .biv (⟨⟨.var 0, .var 1, .var 2⟩⟩ : BiVector T)
def symSpin : MultiVector T :=
  promote .spin (⟨⟨⟨.var 3⟩⟩, ⟨⟨.var 0, .var 1, .var 2⟩⟩⟩ : Spinor T)
def symIm : MultiVector T :=
  promote .imsp (⟨⟨⟨.var 0, .var 1, .var 2⟩⟩, ⟨⟨.var 3⟩⟩⟩ : ImSpin T)

/-- The scalar and the trivector component of the reference's product. -/
noncomputable def refRe (mv : MultiVector F64) : F64 := (mv * dirverse mv).theSca.theData.d0
noncomputable def refIm (mv : MultiVector F64) : F64 := (mv * dirverse mv).theTri.theData.d0

/-- The scalar component of `ampSq(MultiVector)`. -/
def libRe {α : Type} [Zero α] [Add α] [Sub α] [Mul α] [Neg α] (mv : MultiVector α) : α :=
  magSq mv.theSca - magSq mv.theVec - -magSq mv.theBiv + -magSq mv.theTri

theorem refAmp_eq [LibM F64] (mv : MultiVector F64) :
    refAmp mv = ComPlex.from (LibM.csqrt (refRe mv, refIm mv)) := rfl

theorem libAmp_eq [LibM F64] (mv : MultiVector F64) :
    amplitude mv = ComPlex.from (LibM.csqrt (libRe mv, (ampSq mv).theTri.theData.d0)) := rfl

theorem ref_tri (x : TriVector F64) (hf : FiniteTy .tri x) :
    Sz (refRe (promote .tri x)) (-magSq x) :=
  T.sound (env4 (cf (promote .tri x) 7) 0 0 0)
    (symTri * dirverse symTri).theSca.theData.d0 (.neg (magSq (⟨⟨.var 0⟩⟩ : TriVector T)))
    (fun _ => env4_fin (hf 7) trivial trivial trivial) (by decide) (by decide)

theorem lib_tri (x : TriVector F64) (hf : FiniteTy .tri x) :
    Sz (libRe (promote .tri x)) (-magSq x) :=
  T.sound (env4 (cf (promote .tri x) 7) 0 0 0)
    (libRe symTri) (.neg (magSq (⟨⟨.var 0⟩⟩ : TriVector T)))
    (fun _ => env4_fin (hf 7) trivial trivial trivial) (by decide) (by decide)

theorem ref_sca (x : Scalar F64) (hf : FiniteTy .sca x) :
    Sz (refRe (promote .sca x)) (magSq x) :=
  T.sound (env4 (cf (promote .sca x) 0) 0 0 0)
    (symSca * dirverse symSca).theSca.theData.d0 (magSq (⟨⟨.var 0⟩⟩ : Scalar T))
    (fun _ => env4_fin (hf 0) trivial trivial trivial) (by decide) (by decide)

theorem lib_sca (x : Scalar F64) (hf : FiniteTy .sca x) :
    Sz (libRe (promote .sca x)) (magSq x) :=
  T.sound (env4 (cf (promote .sca x) 0) 0 0 0)
    (libRe symSca) (magSq (⟨⟨.var 0⟩⟩ : Scalar T))
    (fun _ => env4_fin (hf 0) trivial trivial trivial) (by decide) (by decide)

theorem ref_vec (x : Vector F64) (hf : FiniteTy .vec x) :
    Sz (refRe (promote .vec x)) (-magSq x) :=
  T.sound (env4 (cf (promote .vec x) 1) (cf (promote .vec x) 2) (cf (promote .vec x) 3) 0)
    (symVec * dirverse symVec).theSca.theData.d0 (.neg (magSq (⟨⟨.var 0, .var 1, .var 2⟩⟩ : Vector T)))
    (fun _ => env4_fin (hf 1) (hf 2) (hf 3) trivial) (by decide) (by decide)

theorem lib_vec (x : Vector F64) (hf : FiniteTy .vec x) :
    Sz (libRe (promote .vec x)) (-magSq x) :=
  T.sound (env4 (cf (promote .vec x) 1) (cf (promote .vec x) 2) (cf (promote .vec x) 3) 0)
    (libRe symVec) (.neg (magSq (⟨⟨.var 0, .var 1, .var 2⟩⟩ : Vector T)))
    (fun _ => env4_fin (hf 1) (hf 2) (hf 3) trivial) (by decide) (by decide)

theorem ref_biv (x : BiVector F64) (hf : FiniteTy .biv x) :
    Sz (refRe (promote .biv x)) (magSq x) :=
  T.sound (env4 (cf (promote .biv x) 4) (cf (promote .biv x) 5) (cf (promote .biv x) 6) 0)
    (symBiv * dirverse symBiv).theSca.theData.d0 (magSq (⟨⟨.var 0, .var 1, .var 2⟩⟩ : BiVector T))
    (fun _ => env4_fin (hf 4) (hf 5) (hf 6) trivial) (by decide) (by decide)

theorem lib_biv (x : BiVector F64) (hf : FiniteTy .biv x) :
    Sz (libRe (promote .biv x)) (magSq x) :=
  T.sound (env4 (cf (promote .biv x) 4) (cf (promote .biv x) 5) (cf (promote .biv x) 6) 0)
    (libRe symBiv) (magSq (⟨⟨.var 0, .var 1, .var 2⟩⟩ : BiVector T))
    (fun _ => env4_fin (hf 4) (hf 5) (hf 6) trivial) (by decide) (by decide)

theorem ref_spin (x : Spinor F64) (hf : FiniteTy .spin x) :
    Sz (refRe (promote .spin x)) (magSq x) :=
  T.sound (env4 (cf (promote .spin x) 4) (cf (promote .spin x) 5) (cf (promote .spin x) 6) (cf (promote .spin x) 0))
    (symSpin * dirverse symSpin).theSca.theData.d0 (magSq (⟨⟨⟨.var 3⟩⟩, ⟨⟨.var 0, .var 1, .var 2⟩⟩⟩ : Spinor T))
    (fun _ => env4_fin (hf 4) (hf 5) (hf 6) (hf 0)) (by decide) (by decide)

theorem lib_spin (x : Spinor F64) (hf : FiniteTy .spin x) :
    Sz (libRe (promote .spin x)) (magSq x) :=
  T.sound (env4 (cf (promote .spin x) 4) (cf (promote .spin x) 5) (cf (promote .spin x) 6) (cf (promote .spin x) 0))
    (libRe symSpin) (magSq (⟨⟨⟨.var 3⟩⟩, ⟨⟨.var 0, .var 1, .var 2⟩⟩⟩ : Spinor T))
    (fun _ => env4_fin (hf 4) (hf 5) (hf 6) (hf 0)) (by decide) (by decide)

theorem ref_imsp (x : ImSpin F64) (hf : FiniteTy .imsp x) :
    Sz (refRe (promote .imsp x)) (-magSq x) :=
  T.sound (env4 (cf (promote .imsp x) 1) (cf (promote .imsp x) 2) (cf (promote .imsp x) 3) (cf (promote .imsp x) 7))
    (symIm * dirverse symIm).theSca.theData.d0 (.neg (magSq (⟨⟨⟨.var 0, .var 1, .var 2⟩⟩, ⟨⟨.var 3⟩⟩⟩ : ImSpin T)))
    (fun _ => env4_fin (hf 1) (hf 2) (hf 3) (hf 7)) (by decide) (by decide)

theorem lib_imsp (x : ImSpin F64) (hf : FiniteTy .imsp x) :
    Sz (libRe (promote .imsp x)) (-magSq x) :=
  T.sound (env4 (cf (promote .imsp x) 1) (cf (promote .imsp x) 2) (cf (promote .imsp x) 3) (cf (promote .imsp x) 7))
    (libRe symIm) (.neg (magSq (⟨⟨⟨.var 0, .var 1, .var 2⟩⟩, ⟨⟨.var 3⟩⟩⟩ : ImSpin T)))
    (fun _ => env4_fin (hf 1) (hf 2) (hf 3) (hf 7)) (by decide) (by decide)

theorem z0 : (0 : F64) = zero false := rfl

theorem zsign (s : Bool) : (zero s : F64).signbit = s := rfl

/-- The trivector component of the reference's product when the even or the odd part is absent. -/
theorem refIm_tri (x : TriVector F64) (hf : FiniteTy .tri x) :
    refIm (promote .tri x) = zero x.theData.d0.signbit := by
  have h : x.theData.d0.Finite := hf 7
  simp only [refIm, promote, engabra, z0, zneg, zmul h, mulz h, zmul (neg_fin h), mulz (neg_fin h),
    signbit_neg64 h]
  simp only [zmul (c := zero _) trivial, zsign, zadd]
  cases x.theData.d0.signbit <;> rfl

theorem refIm_imsp (x : ImSpin F64) (hf : FiniteTy .imsp x) :
    refIm (promote .imsp x) = zero (x.theTri.theData.d0.signbit && !x.theVec.theData.d0.signbit
      && !x.theVec.theData.d1.signbit && !x.theVec.theData.d2.signbit) := by
  have h : x.theTri.theData.d0.Finite := hf 7
  have h0 : x.theVec.theData.d0.Finite := hf 1
  have h1 : x.theVec.theData.d1.Finite := hf 2
  have h2 : x.theVec.theData.d2.Finite := hf 3
  simp only [refIm, promote, engabra, z0, zneg, zmul h, mulz h, zmul (neg_fin h), mulz (neg_fin h),
    zmul h0, mulz h0, zmul (neg_fin h0), mulz (neg_fin h0),
    zmul h1, mulz h1, zmul (neg_fin h1), mulz (neg_fin h1),
    zmul h2, mulz h2, zmul (neg_fin h2), mulz (neg_fin h2),
    signbit_neg64 h, signbit_neg64 h0, signbit_neg64 h1, signbit_neg64 h2, zadd]
  cases x.theTri.theData.d0.signbit <;> cases x.theVec.theData.d0.signbit <;>
    cases x.theVec.theData.d1.signbit <;> cases x.theVec.theData.d2.signbit <;> rfl

theorem refIm_vec (x : Vector F64) (hf : FiniteTy .vec x) : refIm (promote .vec x) = 0 := by
  have h0 : x.theData.d0.Finite := hf 1
  have h1 : x.theData.d1.Finite := hf 2
  have h2 : x.theData.d2.Finite := hf 3
  simp only [refIm, promote, engabra, z0, zneg, 
    zmul h0, mulz h0, zmul (neg_fin h0), mulz (neg_fin h0),
    zmul h1, mulz h1, zmul (neg_fin h1), mulz (neg_fin h1),
    zmul h2, mulz h2, zmul (neg_fin h2), mulz (neg_fin h2),
    signbit_neg64 h0, signbit_neg64 h1, signbit_neg64 h2, zadd, zmul (c := zero _) trivial, zsign]
  cases x.theData.d0.signbit <;>
    cases x.theData.d1.signbit <;> cases x.theData.d2.signbit <;> rfl

theorem refIm_spin (x : Spinor F64) (hf : FiniteTy .spin x) : ∃ s, refIm (promote .spin x) = zero s := by
  have h : x.theSca.theData.d0.Finite := hf 0
  have h0 : x.theBiv.theData.d0.Finite := hf 4
  have h1 : x.theBiv.theData.d1.Finite := hf 5
  have h2 : x.theBiv.theData.d2.Finite := hf 6
  simp only [refIm, promote, engabra, z0, zneg, zmul h, mulz h, zmul (neg_fin h), mulz (neg_fin h),
    zmul h0, mulz h0, zmul (neg_fin h0), mulz (neg_fin h0),
    zmul h1, mulz h1, zmul (neg_fin h1), mulz (neg_fin h1),
    zmul h2, mulz h2, zmul (neg_fin h2), mulz (neg_fin h2),
    signbit_neg64 h, signbit_neg64 h0, signbit_neg64 h1, signbit_neg64 h2, zadd]
  exact ⟨_, rfl⟩

theorem refIm_sca (x : Scalar F64) (hf : FiniteTy .sca x) : ∃ s, refIm (promote .sca x) = zero s := by
  have h : x.theData.d0.Finite := hf 0
  simp only [refIm, promote, engabra, z0, zneg, zmul h, mulz h, zmul (neg_fin h), mulz (neg_fin h),
    signbit_neg64 h, zmul (c := zero _) trivial, zsign, zadd]
  exact ⟨_, rfl⟩

theorem refIm_biv (x : BiVector F64) (hf : FiniteTy .biv x) : ∃ s, refIm (promote .biv x) = zero s := by
  have h0 : x.theData.d0.Finite := hf 4
  have h1 : x.theData.d1.Finite := hf 5
  have h2 : x.theData.d2.Finite := hf 6
  simp only [refIm, promote, engabra, z0, zneg, 
    zmul h0, mulz h0, zmul (neg_fin h0), mulz (neg_fin h0),
    zmul h1, mulz h1, zmul (neg_fin h1), mulz (neg_fin h1),
    zmul h2, mulz h2, zmul (neg_fin h2), mulz (neg_fin h2),
    signbit_neg64 h0, signbit_neg64 h1, signbit_neg64 h2, zadd, zmul (c := zero _) trivial, zsign]
  exact ⟨_, rfl⟩

/-- The trivector component of `ampSq(MultiVector)` when the even or the odd part is absent. -/
theorem libIm (mv : MultiVector F64) (hf : ∀ k, (cf mv k).Finite)
    (h : (mv.theVec.theData = ⟨0, 0, 0⟩ ∧ mv.theTri.theData.d0 = 0) ∨
      (mv.theBiv.theData = ⟨0, 0, 0⟩ ∧ mv.theSca.theData.d0 = 0)) :
    (ampSq mv).theTri.theData.d0
      = zero (mv.theSca.theData.d0.signbit ^^ mv.theTri.theData.d0.signbit) := by
  have hs : mv.theSca.theData.d0.Finite := hf 0
  have ht : mv.theTri.theData.d0.Finite := hf 7
  have hv0 : mv.theVec.theData.d0.Finite := hf 1
  have hv1 : mv.theVec.theData.d1.Finite := hf 2
  have hv2 : mv.theVec.theData.d2.Finite := hf 3
  have hb0 : mv.theBiv.theData.d0.Finite := hf 4
  have hb1 : mv.theBiv.theData.d1.Finite := hf 5
  have hb2 : mv.theBiv.theData.d2.Finite := hf 6
  have h2 : (2 : F64).signbit = false := sign_pos (by rw [two_hasVal.2]; norm_num)
  rcases h with ⟨e1, e2⟩ | ⟨e1, e2⟩
  · simp only [engabra, e1, e2]
    simp only [z0, zmul hb0, zmul hb1, zmul hb2, mulz hs, zadd, zsub, mulz two_hasVal.1, h2, zsign]
    cases mv.theSca.theData.d0.signbit <;> rfl
  · simp only [engabra, e1, e2]
    simp only [z0, mulz hv0, mulz hv1, mulz hv2, zmul ht, zadd, zsub, mulz two_hasVal.1, h2, zsign]
    cases mv.theTri.theData.d0.signbit <;> rfl

/-- **C92.** The reference for `amplitude` over the reals: it is `amplitude` of the argument, for
every type. -/
theorem C92_real (t : Ty) (ht : t ≠ .dub) (x : t.D ℝ) :
    amplitudeTy t (lift t x) = some (refAmp (promote t (lift t x))) := by
  obtain ⟨z, h1, h2, -⟩ := C15_ampSq t ht x
  rw [amplitudeTy_eq, ampSq_lift, h1]
  have h3 : promote t (lift t x) * dirverse (promote t (lift t x)) = lift .mv (toMV z) := by
    rw [h2]; cases t <;> rfl
  unfold refAmp
  rw [h3]; rfl

/-- **C92.** A vector has the same amplitude as itself, as a `MultiVector` and by the reference. -/
theorem C92_vector [LibM F64] (ε : ℝ) (hl : LibcSqrtOk ε) (x : Vector F64) (hf : FiniteTy .vec x)
    (hm : (magSq x).Finite) :
    amplitude x = ⟨⟨⟨0⟩⟩, ⟨⟨magnitude x⟩⟩⟩ ∧ amplitude (promote .vec x) = ⟨⟨⟨0⟩⟩, ⟨⟨magnitude x⟩⟩⟩ ∧
    refAmp (promote .vec x) = ⟨⟨⟨0⟩⟩, ⟨⟨magnitude x⟩⟩⟩ := by
  have hn := magSq_nn .vec x hm
  refine ⟨?_, ?_, ?_⟩
  · exact (C61_axis ε hl).2.2.2.1 x (fun c hc => ne_nan_of hf hc)
  · rw [libAmp_eq, libIm _ hf (.inr ⟨rfl, rfl⟩)]
    exact csqrt_neg hl (lib_vec x hf) hn hm false
  · rw [refAmp_eq, refIm_vec x hf]
    exact csqrt_neg hl (ref_vec x hf) hn hm false

/-- **C92.** A trivector: its own amplitude is `+|h| e123`; as a `MultiVector`, and by the reference,
the sign is that of `h`. -/
theorem C92_trivector [LibM F64] (ε : ℝ) (hl : LibcSqrtOk ε) (x : TriVector F64)
    (hf : FiniteTy .tri x) (hm : (magSq x).Finite) :
    amplitude x = ⟨⟨⟨0⟩⟩, ⟨⟨magnitude x⟩⟩⟩ ∧
    amplitude (promote .tri x)
      = ⟨⟨⟨0⟩⟩, ⟨⟨if x.theData.d0.signbit then -magnitude x else magnitude x⟩⟩⟩ ∧
    refAmp (promote .tri x)
      = ⟨⟨⟨0⟩⟩, ⟨⟨if x.theData.d0.signbit then -magnitude x else magnitude x⟩⟩⟩ := by
  have hn := magSq_nn .tri x hm
  refine ⟨?_, ?_, ?_⟩
  · exact (C61_axis ε hl).2.2.2.2.1 x (fun c hc => ne_nan_of hf hc)
  · rw [libAmp_eq, libIm _ hf (.inr ⟨rfl, rfl⟩)]
    refine (csqrt_neg hl (lib_tri x hf) hn hm _).trans ?_
    rw [show ((promote .tri x).theSca.theData.d0.signbit ^^ (promote .tri x).theTri.theData.d0.signbit)
      = x.theData.d0.signbit from Bool.false_xor _]; rfl
  · rw [refAmp_eq, refIm_tri x hf]
    exact csqrt_neg hl (ref_tri x hf) hn hm _

/-- **C92.** An imaginary spinor: its own amplitude is `+|x| e123`; as a `MultiVector` the sign is
that of the trivector component; by the reference it is negative only when moreover no component of
the vector part has its sign bit set. -/
theorem C92_imspin [LibM F64] (ε : ℝ) (hl : LibcSqrtOk ε) (x : ImSpin F64)
    (hf : FiniteTy .imsp x) (hm : (magSq x).Finite) :
    amplitude x = ⟨⟨⟨0⟩⟩, ⟨⟨magnitude x⟩⟩⟩ ∧
    amplitude (promote .imsp x)
      = ⟨⟨⟨0⟩⟩, ⟨⟨if x.theTri.theData.d0.signbit then -magnitude x else magnitude x⟩⟩⟩ ∧
    refAmp (promote .imsp x)
      = ⟨⟨⟨0⟩⟩, ⟨⟨if (x.theTri.theData.d0.signbit && !x.theVec.theData.d0.signbit
          && !x.theVec.theData.d1.signbit && !x.theVec.theData.d2.signbit)
        then -magnitude x else magnitude x⟩⟩⟩ := by
  have hn := magSq_nn .imsp x hm
  refine ⟨?_, ?_, ?_⟩
  · exact (C61_axis ε hl).2.2.2.2.2 x (fun c hc => ne_nan_of hf hc)
  · rw [libAmp_eq, libIm _ hf (.inr ⟨rfl, rfl⟩)]
    refine (csqrt_neg hl (lib_imsp x hf) hn hm _).trans ?_
    rw [show ((promote .imsp x).theSca.theData.d0.signbit ^^ (promote .imsp x).theTri.theData.d0.signbit)
      = x.theTri.theData.d0.signbit from Bool.false_xor _]; rfl
  · rw [refAmp_eq, refIm_imsp x hf]
    exact csqrt_neg hl (ref_imsp x hf) hn hm _

/-- Specification: equal to `c + 0 e123`, up to the sign of that zero. -/
def RealCplx (z : ComPlex F64) (c : F64) : Prop :=
  z.theSca.theData.d0 = c ∧ ∃ s : Bool, z.theTri.theData.d0 = zero s

theorem real_of {z : ComPlex F64} {c : F64}
    (h : ∃ s : Bool, z = (⟨⟨⟨c⟩⟩, ⟨⟨zero s⟩⟩⟩ : ComPlex F64)) : RealCplx z c := by
  obtain ⟨s, rfl⟩ := h; exact ⟨rfl, s, rfl⟩

/-- **C92.** The even types: the amplitude of the argument, that of the argument as a `MultiVector`
and the reference are the magnitude, up to the sign of the zero beside it. -/
theorem C92_even [LibM F64] (ε : ℝ) (hl : LibcSqrtOk ε) :
    (∀ x : Scalar F64, FiniteTy .sca x → (magSq x).Finite →
      RealCplx (amplitude x) (magnitude x) ∧ RealCplx (amplitude (promote .sca x)) (magnitude x) ∧
      RealCplx (refAmp (promote .sca x)) (magnitude x)) ∧
    (∀ x : BiVector F64, FiniteTy .biv x → (magSq x).Finite →
      RealCplx (amplitude x) (magnitude x) ∧ RealCplx (amplitude (promote .biv x)) (magnitude x) ∧
      RealCplx (refAmp (promote .biv x)) (magnitude x)) ∧
    (∀ x : Spinor F64, FiniteTy .spin x → (magSq x).Finite →
      RealCplx (amplitude x) (magnitude x) ∧ RealCplx (amplitude (promote .spin x)) (magnitude x) ∧
      RealCplx (refAmp (promote .spin x)) (magnitude x)) := by
  refine ⟨fun x hf hm => ⟨real_of ⟨false, ?_⟩, real_of ?_, real_of ?_⟩,
    fun x hf hm => ⟨real_of ⟨false, ?_⟩, real_of ?_, real_of ?_⟩,
    fun x hf hm => ⟨real_of ⟨false, ?_⟩, real_of ?_, real_of ?_⟩⟩
  · exact (C61_axis ε hl).1 x (fun c hc => ne_nan_of hf hc)
  · rw [libAmp_eq, libIm _ hf (.inl ⟨rfl, rfl⟩)]
    exact csqrt_pos hl (lib_sca x hf) (magSq_nn .sca x hm) hm _
  · obtain ⟨s, hs⟩ := refIm_sca x hf
    rw [refAmp_eq, hs]
    exact csqrt_pos hl (ref_sca x hf) (magSq_nn .sca x hm) hm _
  · exact (C61_axis ε hl).2.1 x (fun c hc => ne_nan_of hf hc)
  · rw [libAmp_eq, libIm _ hf (.inl ⟨rfl, rfl⟩)]
    exact csqrt_pos hl (lib_biv x hf) (magSq_nn .biv x hm) hm _
  · obtain ⟨s, hs⟩ := refIm_biv x hf
    rw [refAmp_eq, hs]
    exact csqrt_pos hl (ref_biv x hf) (magSq_nn .biv x hm) hm _
  · exact (C61_axis ε hl).2.2.1 x (fun c hc => ne_nan_of hf hc)
  · rw [libAmp_eq, libIm _ hf (.inl ⟨rfl, rfl⟩)]
    exact csqrt_pos hl (lib_spin x hf) (magSq_nn .spin x hm) hm _
  · obtain ⟨s, hs⟩ := refIm_spin x hf
    rw [refAmp_eq, hs]
    exact csqrt_pos hl (ref_spin x hf) (magSq_nn .spin x hm) hm _

theorem sign_neg64 {x : F64} (h : x.value < 0) : x.signbit = true := by
  cases x with
  | nan => exact absurd h (lt_irrefl _)
  | inf _ => exact absurd h (lt_irrefl _)
  | zero _ => exact absurd h (lt_irrefl _)
  | fin v hv => exact decide_eq_true h

/-- **C92.** The consequence for the test program: `nearlyEquals` rejects the amplitude of a negative
trivector of ordinary size against the reference, at every tolerance from `2^-60` to 1. -/
theorem C92_rejects [LibM F64] (ε : ℝ) (hl : LibcSqrtOk ε) (x : TriVector F64) (tol : F64)
    (hf : FiniteTy .tri x) (h1 : x.theData.d0.value ≤ -(2 : ℚ) ^ (-400 : ℤ))
    (h2 : -(2 : ℚ) ^ (400 : ℤ) ≤ x.theData.d0.value)
    (ht : tol.Finite) (ht1 : (2 : ℚ) ^ (-60 : ℤ) ≤ tol.value) (ht2 : tol.value ≤ 1) :
    nearlyEqualsTy .cplx (amplitude x) (refAmp (promote .tri x)) tol ≠ .ok true := by
  have hx : x.theData.d0.Finite := hf 7
  have hp : (0 : ℚ) < 2 ^ (-400 : ℤ) := by positivity
  have hneg : x.theData.d0.value < 0 := by linarith
  have habs : |x.theData.d0.value| = -x.theData.d0.value := abs_of_neg hneg
  have hd : Dominant .tri x x.theData.d0 := by
    refine ⟨⟨hx, ?_, ?_⟩, [], [], rfl, by simp⟩
    · rw [habs]
      exact le_trans (zpow_le_zpow_right₀ (by norm_num) (by norm_num)) (le_neg_of_le_neg h1)
    · rw [habs]
      exact le_trans (neg_le.mp h2) (zpow_le_zpow_right₀ (by norm_num) (by norm_num))
  have hm : (magSq x).Finite := (magSq_dominant hd).1
  have hmag : magnitude x = Dbl.abs x.theData.d0 := C52_magnitude .tri x _ hd
  have hv : HasVal (magnitude x) (-x.theData.d0.value) := by
    rw [hmag, ← habs]; exact F64.HasVal.abs (HasVal.of hx)
  have hs : x.theData.d0.signbit = true := sign_neg64 hneg
  obtain ⟨e1, -, e2⟩ := C92_trivector ε hl x hf hm
  rw [e1, e2, hs, if_pos rfl]
  have hval : isValidDub (magnitude x) = true := by
    refine valid_of_normal hv.1 ?_
    rw [hv.2, abs_neg, habs]
    exact le_trans (zpow_le_zpow_right₀ (by norm_num) (by norm_num)) (le_neg_of_le_neg h1)
  have hb : |(magnitude x).value| ≤ 2 ^ (500 : ℤ) := by
    rw [hv.2, abs_neg]; exact hd.1.2.2
  intro h
  have key := (C27_type_accepted_partial .cplx (by decide) _ _ tol ?_ ?_ ht ht1 h
    ([magnitude x], [-magnitude x]) (by simp [gradeLists])).1 ?_
  · have hvn : (-magnitude x).value = x.theData.d0.value := by
      rw [hv.neg.2, neg_neg]
    have hr : (x.theData.d0.value : ℝ) < 0 := by exact_mod_cast hneg
    have hd1 : listDist (vals [magnitude x]) (vals [-magnitude x]) = -2 * x.theData.d0.value := by
      unfold listDist listNorm vals
      simp only [List.map_cons, List.map_nil, List.zipWith_cons_cons, List.zipWith_nil_left, List.sum_cons,
        List.sum_nil, add_zero, hv.2, hvn, Rat.cast_neg]
      rw [Real.sqrt_mul_self (by linarith)]; ring
    have hn1 : listNorm (vals [-magnitude x]) = -x.theData.d0.value := by
      unfold listNorm vals
      simp only [List.map_cons, List.map_nil, List.sum_cons, List.sum_nil, add_zero, hvn]
      rw [← neg_mul_neg, Real.sqrt_mul_self (by linarith)]
    rw [hd1, hn1] at key
    have ht3 : (tol.value : ℝ) ≤ 1 := by exact_mod_cast ht2
    have hk : (tol.value : ℝ) * (1 + 12 * 2 ^ (-53 : ℤ)) ≤ 3 / 2 := by
      have : (2 : ℝ) ^ (-53 : ℤ) ≤ 1 / 24 := by norm_num
      have h0 : (0 : ℝ) < 2 ^ (-53 : ℤ) := by positivity
      generalize (2 : ℝ) ^ (-53 : ℤ) = u at *
      nlinarith
    have := key.trans (mul_le_mul_of_nonneg_right hk (neg_nonneg.2 hr.le))
    linarith
  · intro c hc
    rcases List.mem_cons.1 hc with rfl | hc
    · exact ⟨isValidDub_zero false, by rw [F64.hasVal_zero'.2, abs_zero]; positivity⟩
    · rw [List.mem_singleton] at hc
      subst hc
      exact ⟨hval, hb⟩
  · intro c hc
    rcases List.mem_cons.1 hc with rfl | hc
    · exact ⟨isValidDub_zero false, by rw [F64.hasVal_zero'.2, abs_zero]; positivity⟩
    · rw [List.mem_singleton] at hc
      subst hc
      exact ⟨valid_of_normal hv.neg.1 (by
        rw [hv.neg.2, neg_neg, habs]
        exact le_trans (zpow_le_zpow_right₀ (by norm_num) (by norm_num)) (le_neg_of_le_neg h1)),
        by rw [F64.value_neg, abs_neg]; exact hb⟩
  · have hn1 : listNorm (vals [-magnitude x]) = -x.theData.d0.value := by
      have hr : (x.theData.d0.value : ℝ) < 0 := by exact_mod_cast hneg
      unfold listNorm vals
      simp only [List.map_cons, List.map_nil, List.sum_cons, List.sum_nil, add_zero, hv.neg.2, neg_neg]
      rw [← neg_mul_neg, Real.sqrt_mul_self (by linarith)]
    rw [hn1]
    refine le_trans (zpow_le_zpow_right₀ (by norm_num) (by norm_num : (-440 : ℤ) ≤ -400)) ?_
    have := le_neg_of_le_neg h1
    rw [← cast_zpow, ← Rat.cast_neg]
    exact_mod_cast this

/-! ## The hypotheses are met -/

/-- The trivector -23. -/
noncomputable def tri23 : TriVector F64 := ⟨⟨intDub (-23)⟩⟩

theorem tri23_val : HasVal tri23.theData.d0 (-23) :=
  hasVal_congr (x := intDub (-23)) (intDub_val (-23) (by norm_num)) (by norm_num)

example : letI := refLibS
    nearlyEqualsTy .cplx (amplitude tri23) (refAmp (promote .tri tri23)) (intDub 1) ≠ .ok true := by
  have h1 := intDub_val 1 (by norm_num)
  refine @C92_rejects refLibS _ refLibS_ok tri23 (intDub 1) (finiteTy_of _ _ ?_) ?_ ?_ h1.1 ?_ ?_
  · simp only [comps, List.mem_singleton]; rintro c rfl; exact tri23_val.1
  · rw [tri23_val.2]
    have : (2 : ℚ) ^ (-400 : ℤ) ≤ 2 ^ (0 : ℤ) := zpow_le_zpow_right₀ (by norm_num) (by norm_num)
    rw [zpow_zero] at this; generalize (2 : ℚ) ^ (-400 : ℤ) = u at *; linarith
  · rw [tri23_val.2]
    have : (2 : ℚ) ^ (5 : ℤ) ≤ 2 ^ (400 : ℤ) := zpow_le_zpow_right₀ (by norm_num) (by norm_num)
    generalize (2 : ℚ) ^ (400 : ℤ) = u at *; norm_num at this; linarith
  · rw [h1.2]; exact (zpow_le_zpow_right₀ (by norm_num) (by norm_num : (-60 : ℤ) ≤ 0)).trans (by norm_num)
  · rw [h1.2]; norm_num

/-- The imaginary spinor `-e1 - 2^40 e123`. -/
noncomputable def imNeg : ImSpin F64 := ⟨⟨⟨intDub (-1), 0, 0⟩⟩, ⟨⟨intDub (-2 ^ 40)⟩⟩⟩

theorem imNeg_spec : HasVal (intDub (-1)) (-1) ∧ HasVal (intDub (-2 ^ 40)) (-2 ^ 40) ∧
    FiniteTy .imsp imNeg ∧ Dominant .imsp imNeg (intDub (-2 ^ 40)) := by
  have h1 := hasVal_congr (intDub_val (-1) (by norm_num)) (by norm_num : ((-1 : ℤ) : ℚ) = -1)
  have h2 := hasVal_congr (intDub_val (-2 ^ 40) (by norm_num)) (by norm_num : ((-2 ^ 40 : ℤ) : ℚ) = -2 ^ 40)
  have ha : |(intDub (-2 ^ 40)).value| = 2 ^ (40 : ℤ) := by rw [h2.2, abs_neg]; norm_num
  refine ⟨h1, h2, ?_, ⟨h2.1, ?_, ?_⟩, [intDub (-1), 0, 0], [], rfl, ?_⟩
  · refine finiteTy_of _ _ ?_
    simp only [comps, imNeg, List.mem_cons, List.not_mem_nil, or_false, List.cons_append, List.nil_append]
    rintro c (rfl | rfl | rfl | rfl)
    exacts [h1.1, trivial, trivial, h2.1]
  · rw [ha]; exact zpow_le_zpow_right₀ (by norm_num) (by norm_num)
  · rw [ha]; exact zpow_le_zpow_right₀ (by norm_num) (by norm_num)
  · simp only [List.append_nil, List.mem_cons, List.not_mem_nil, or_false]
    rw [ha]
    rintro c (rfl | rfl | rfl)
    · refine ⟨h1.1, ?_⟩; rw [h1.2]; norm_num
    all_goals exact ⟨trivial, by rw [F64.hasVal_zero'.2]; norm_num⟩

/-- **C92.** The reference and the library also differ on one and the same `MultiVector`: for
`-e1 - 2^40 e123` the library's amplitude is `-2^40 e123` and the reference's is `+2^40 e123`. -/
theorem C92_differ [LibM F64] (ε : ℝ) (hl : LibcSqrtOk ε) :
    HasVal (amplitude (promote .imsp imNeg)).theTri.theData.d0 (-2 ^ 40) ∧
    HasVal (refAmp (promote .imsp imNeg)).theTri.theData.d0 (2 ^ 40) := by
  obtain ⟨h1, h2, hf, hd⟩ := imNeg_spec
  have e1 : imNeg.theVec.theData.d0.signbit = true := by
    show (intDub (-1)).signbit = true
    exact sign_neg64 (by rw [h1.2]; norm_num)
  have e2 : imNeg.theTri.theData.d0.signbit = true := by
    show (intDub (-2 ^ 40)).signbit = true
    exact sign_neg64 (by rw [h2.2]; norm_num)
  have hm : HasVal (magnitude imNeg) (2 ^ 40) := by
    have h3 : magnitude imNeg = Dbl.abs (intDub (-2 ^ 40)) := C52_magnitude .imsp imNeg _ hd
    rw [h3]
    exact hasVal_congr (F64.HasVal.abs h2) (by norm_num)
  obtain ⟨-, a2, a3⟩ := C92_imspin ε hl imNeg hf (magSq_dominant hd).1
  rw [e2] at a2
  rw [e2, e1] at a3
  rw [a2, a3]
  exact ⟨hm.neg, hm⟩

/-- The hypotheses of `C92_vector`, `C92_trivector`, `C92_imspin` and `C92_even` are met by all finite
operands with components of ordinary size, and `LibcSqrtOk` by `refLibS`. -/
example (x : Vector F64) (h : Central .vec x) : letI := refLibS
    amplitude x = refAmp (promote .vec x) := by
  have hf : FiniteTy .vec x := finiteTy_of _ _ fun c hc => (h.1 c hc).1
  have hm : (magSq x).Finite := (central_magSq_pos h).1
  have := @C92_vector refLibS _ refLibS_ok x hf hm
  exact this.1.trans this.2.2.symm

end Engabra
