import Verif.Props.C25_C28_Compare

/-! # C32: symmetries that hold bit for bit in IEEE arithmetic

Equality of `F64` data is equality of bits (with a single NaN).  `Sz x y` is equality up to the
sign of a zero. -/

namespace Engabra

open F64 (nan inf zero fin IsFin Finite HasVal)

/-- Equal data, or two zeros. -/
def Sz (x y : F64) : Prop := x = y ∨ ∃ s t, x = zero s ∧ y = zero t

theorem Sz.refl (x : F64) : Sz x x := Or.inl rfl

namespace F64

theorem decide_neg_lt {v : ℚ} (hx : v ≠ 0) : decide (-v < 0) = !decide (v < 0) := by
  rcases lt_or_gt_of_ne hx with h | h
  · have : ¬ (-v < 0) := by linarith
    rw [decide_eq_false this, decide_eq_true h]; rfl
  · have h1 : -v < 0 := by linarith
    have h2 : ¬ (v < 0) := by linarith
    rw [decide_eq_true h1, decide_eq_false h2]; rfl

theorem roundTo_neg {x : ℚ} (hx : x ≠ 0) : roundTo (-x) = neg (roundTo x) := by
  have hx' : -x ≠ 0 := neg_ne_zero.2 hx
  have hs := decide_neg_lt hx
  unfold roundTo
  rw [dif_neg hx, dif_neg hx', hs]
  by_cases h0 : rnVal x = 0
  · rw [dif_pos h0, dif_pos (by rw [rnVal_neg, h0, neg_zero])]; rfl
  · rw [dif_neg h0, dif_neg (by rw [rnVal_neg]; exact neg_ne_zero.2 h0)]
    by_cases h1 : |rnVal x| < 2 ^ 1024
    · rw [dif_pos h1, dif_pos (by rw [rnVal_neg, abs_neg]; exact h1)]
      simp only [neg, rnVal_neg]
    · rw [dif_neg h1, dif_neg (by rw [rnVal_neg, abs_neg]; exact h1)]; rfl

/-- `-(x+y)` and `(-x)+(-y)` agree up to the sign of a zero. -/
theorem neg_add' (x y : F64) : Sz (-(x + y)) (-x + -y) := by
  rw [neg_def, neg_def, neg_def, add_def, add_def]
  cases x with
  | nan => exact Or.inl rfl
  | inf s =>
    cases y with
    | inf t => left; cases s <;> cases t <;> rfl
    | _ => exact Or.inl rfl
  | zero s =>
    cases y with
    | nan => exact Or.inl rfl
    | inf t => exact Or.inl rfl
    | zero t => exact Or.inr ⟨_, _, congrArg neg (if_pos (add_zero _)), if_pos (add_zero _)⟩
    | fin w hw =>
      left
      have h1 : add (zero s) (fin w hw) = roundTo (0 + w) := if_neg (by change ¬ (0 + w = 0); rw [zero_add]; exact hw.1)
      have h2 : add (neg (zero s)) (neg (fin w hw)) = roundTo (0 + -w) :=
        if_neg (by change ¬ (0 + -w = 0); rw [zero_add]; exact neg_ne_zero.2 hw.1)
      rw [h1, h2, zero_add, zero_add, roundTo_neg hw.1]
  | fin v hv =>
    cases y with
    | nan => exact Or.inl rfl
    | inf t => exact Or.inl rfl
    | zero t =>
      left
      have h1 : add (fin v hv) (zero t) = roundTo (v + 0) := if_neg (by change ¬ (v + 0 = 0); rw [add_zero]; exact hv.1)
      have h2 : add (neg (fin v hv)) (neg (zero t)) = roundTo (-v + 0) :=
        if_neg (by change ¬ (-v + 0 = 0); rw [add_zero]; exact neg_ne_zero.2 hv.1)
      rw [h1, h2, add_zero, add_zero, roundTo_neg hv.1]
    | fin w hw =>
      by_cases h0 : v + w = 0
      · right
        refine ⟨_, _, congrArg neg (if_pos h0), if_pos ?_⟩
        change -v + -w = 0; linarith
      · left
        have h1 : add (fin v hv) (fin w hw) = roundTo (v + w) := if_neg h0
        have h2 : add (neg (fin v hv)) (neg (fin w hw)) = roundTo (-v + -w) :=
          if_neg (by change ¬ (-v + -w = 0); intro h; apply h0; linarith)
        rw [h1, h2, ← neg_add, roundTo_neg h0]

theorem neg_neg'' (x : F64) : -(-x) = x := neg_neg' x

theorem sub_anti (x y : F64) : Sz (x - y) (-(y - x)) := by
  have h := neg_add' y (-x)
  rw [neg_neg''] at h
  have e1 : -y + x = x - y := by rw [add_comm']; rfl
  have e2 : y + -x = y - x := rfl
  rw [e1, e2] at h
  rcases h with h | ⟨s, t, h1, h2⟩
  · exact Or.inl h.symm
  · exact Or.inr ⟨t, s, h2, h1⟩

theorem neg_mul' (x y : F64) : (-x) * y = -(x * y) := by
  rw [neg_def, neg_def, mul_def, mul_def]
  cases x with
  | nan => rfl
  | inf s =>
    cases y with
    | nan => rfl
    | inf t => simp [mul, neg, signbit]
    | zero t => rfl
    | fin w hw => simp [mul, neg]
  | zero s =>
    cases y with
    | nan => rfl
    | inf t => rfl
    | zero t => simp [mul, mulFin, neg, value, signbit]
    | fin w hw => simp [mul, mulFin, neg, value, signbit]
  | fin v hv =>
    cases y with
    | nan => rfl
    | inf t => simp only [mul, neg, signbit, decide_neg_lt hv.1, Bool.not_xor]
    | zero t =>
      have h1 : mul (fin v hv) (zero t) = zero (xor (decide (v < 0)) t) := if_pos (mul_zero _)
      have h2 : mul (neg (fin v hv)) (zero t) = zero (xor (decide (-v < 0)) t) := if_pos (mul_zero _)
      rw [h1, h2, decide_neg_lt hv.1, Bool.not_xor]; rfl
    | fin w hw =>
      have h1 : mul (fin v hv) (fin w hw) = roundTo (v * w) := fin_mul_fin hv hw
      have h2 : mul (neg (fin v hv)) (fin w hw) = roundTo (-v * w) := fin_mul_fin _ hw
      rw [h1, h2, neg_mul, roundTo_neg (mul_ne_zero hv.1 hw.1)]

theorem mul_neg' (x y : F64) : x * (-y) = -(x * y) := by
  rw [mul_comm', neg_mul', mul_comm']

end F64

/-- **C32.** `a + b = b + a` bit for bit, for all typed sums (and both orders exist or neither). -/
theorem C32_add_comm (s t : Ty) (a : s.D F64) (b : t.D F64) : addTy s t a b = addTy t s b a := by
  cases s <;> cases t <;>
    first
    | rfl
    | simp only [addTy, engabra, F64.add_comm']

/-- **C32.** `-(-a) = a` bit for bit. -/
theorem C32_neg_neg (t : Ty) (a : t.D F64) : negTy t (negTy t a) = a := by
  cases t <;> simp [negTy, engabra, F64.neg_neg'']

/-- **C32.** The involutions are involutions bit for bit. -/
theorem C32_involutions (t : Ty) (a : t.D F64) :
    reverseTy t (reverseTy t a) = a ∧ oddverseTy t (oddverseTy t a) = a ∧
    dirverseTy t (dirverseTy t a) = a := by
  cases t <;> simp [reverseTy, oddverseTy, dirverseTy, engabra, F64.neg_neg'']

/-- **C32.** `double`, `Scalar`, `TriVector` factors commute with every type bit for bit. -/
theorem C32_central_comm (s t : Ty) (hs : s = .dub ∨ s = .sca ∨ s = .tri) (a : s.D F64)
    (b : t.D F64) :
    (⟨_, mulTy s t a b⟩ : Sigma fun r : Ty => r.D F64) = ⟨_, mulTy t s b a⟩ := by
  rcases hs with rfl | rfl | rfl <;> cases t <;>
    first
    | (simp only [mulTy, mulRes, engabra, F64.mul_comm']; done)
    | simp only [mulTy, mulRes, engabra, F64.mul_neg', F64.mul_comm']

/-- **C32.** A `ComPlex` factor commutes with every type bit for bit. -/
theorem C32_complex_comm (t : Ty) (a : ComPlex F64) (b : t.D F64) :
    (⟨_, mulTy .cplx t a b⟩ : Sigma fun r : Ty => r.D F64) = ⟨_, mulTy t .cplx b a⟩ := by
  cases t <;>
    first
    | (simp only [mulTy, mulRes, engabra, F64.mul_comm']; done)
    | simp only [mulTy, mulRes, engabra, F64.mul_comm', F64.add_comm']

/-- Equal component by component, up to the signs of zeros. -/
def SzTy (t : Ty) (x y : t.D F64) : Prop := List.Forall₂ Sz (comps t x) (comps t y)

/-- **C32.** `a - b = -(b - a)` for two values of the same type, up to the sign of a zero. -/
theorem C32_sub_anti (t : Ty) (a b : t.D F64) :
    ∃ c d, subTy t t a b = some ⟨t, c⟩ ∧ subTy t t b a = some ⟨t, d⟩ ∧ SzTy t c (negTy t d) := by
  cases t <;>
    refine ⟨_, _, rfl, rfl, ?_⟩ <;>
    simp [SzTy, comps, negTy, engabra, F64.sub_anti]

/-- **C32.** The three involutions and negation distribute over sums of two values of the same
type, up to the sign of a zero. -/
theorem C32_distribute (t : Ty) (a b : t.D F64) :
    ∃ c, addTy t t a b = some ⟨t, c⟩ ∧
    (∃ d, addTy t t (negTy t a) (negTy t b) = some ⟨t, d⟩ ∧ SzTy t (negTy t c) d) ∧
    (∃ d, addTy t t (reverseTy t a) (reverseTy t b) = some ⟨t, d⟩ ∧ SzTy t (reverseTy t c) d) ∧
    (∃ d, addTy t t (oddverseTy t a) (oddverseTy t b) = some ⟨t, d⟩ ∧ SzTy t (oddverseTy t c) d) ∧
    (∃ d, addTy t t (dirverseTy t a) (dirverseTy t b) = some ⟨t, d⟩ ∧ SzTy t (dirverseTy t c) d) := by
  cases t <;>
    refine ⟨_, rfl, ⟨_, rfl, ?_⟩, ⟨_, rfl, ?_⟩, ⟨_, rfl, ?_⟩, ⟨_, rfl, ?_⟩⟩ <;>
    simp [SzTy, comps, negTy, reverseTy, oddverseTy, dirverseTy, engabra, F64.neg_add', Sz.refl]

/-- Not bit for bit: `reverse(a + b)` and `reverse(a) + reverse(b)` can differ in the sign of a
zero. -/
theorem C32_fails_distribute_bitwise :
    ∃ a b : BiVector F64, reverseBiv (a + b) ≠ reverseBiv a + reverseBiv b := by
  refine ⟨⟨⟨1, 0, 0⟩⟩, ⟨⟨-1, 0, 0⟩⟩, fun h => ?_⟩
  have h0 := congrArg (fun b : BiVector F64 => b.theData.d0) h
  simp only [engabra, F64.neg_neg''] at h0
  have e1 : (1 : F64) + -1 = 0 := F64.sub_self' F64.hasVal_one.1
  have e2 : (-1 : F64) + 1 = 0 := by rw [F64.add_comm']; exact e1
  rw [e1, e2, F64.neg_def, F64.zero_def] at h0
  simp [F64.neg] at h0

/-- **C32.** Multiplication by `-1` or negation of a factor is exact: `(-a) * b = -(a * b)` for
doubles. -/
theorem C32_neg_mul (x y : F64) : (-x) * y = -(x * y) ∧ x * (-y) = -(x * y) :=
  ⟨F64.neg_mul' x y, F64.mul_neg' x y⟩

example : addTy .vec .mv (⟨⟨1, inf true, zero true⟩⟩ : Vector F64) gone
    = addTy .mv .vec gone (⟨⟨1, inf true, zero true⟩⟩ : Vector F64) := C32_add_comm _ _ _ _

end Engabra
