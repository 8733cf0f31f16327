import Verif.Model.Template
import Verif.Lemmas.F64Ops
import Verif.Lemmas.Tactic
import Verif.Props.C09_Access

/-! # C10: null, zero and one; C11: validity; C12: propagation of null

`F64` is IEEE binary64.  `comps t x` is the list of components of `x` (see `C09`). -/

namespace Engabra

open F64 (nan inf zero fin IsFin Finite)

/-! ## C11 -/

/-- **C11.** `isValid(double)` in IEEE arithmetic: exactly the zeros and the normal numbers;
not NaN, not an infinity, not a subnormal number. -/
theorem C11_double (x : F64) :
    isValidDub x = true ↔
      (∃ s, x = zero s) ∨ (∃ v h, x = fin v h ∧ (1 : ℚ) / 2 ^ 1022 ≤ |v|) := by
  unfold isValidDub
  rw [F64.isnormal_def, F64.feq_def, F64.zero_def]
  cases x with
  | nan => simp [F64.isnormal, F64.feq]
  | inf s => simp [F64.isnormal, F64.feq]
  | zero s => simp [F64.isnormal, F64.feq, F64.value]
  | fin v h =>
    have h0 := h.1
    simp only [F64.isnormal, F64.feq, F64.value, Bool.or_eq_true, decide_eq_true_eq,
      reduceCtorEq, exists_false, false_or, F64.fin.injEq]
    constructor
    · rintro (h' | h')
      · exact ⟨v, h, rfl, h'⟩
      · exact absurd (of_decide_eq_true h').symm h0
    · rintro ⟨w, _, rfl, h'⟩
      exact Or.inl h'

theorem isValidDub_nan : isValidDub (nan : F64) = false := by
  rw [Bool.eq_false_iff, Ne, C11_double]; simp

theorem isValidDub_inf (s : Bool) : isValidDub (inf s : F64) = false := by
  rw [Bool.eq_false_iff, Ne, C11_double]; simp

theorem isValidDub_zero (s : Bool) : isValidDub (zero s : F64) = true :=
  (C11_double _).2 (Or.inl ⟨s, rfl⟩)

theorem isValidDub_one : isValidDub (1 : F64) = true := by
  rw [F64.one_eq, C11_double]
  refine Or.inr ⟨1, _, rfl, ?_⟩
  rw [abs_one, div_le_one (by positivity)]
  exact one_le_pow₀ (by norm_num)

section
variable {α : Type} [Dbl α]

theorem isValidLoop_eq (b : Bool) (xs : List α) :
    isValidLoop b xs = (b && xs.all isValidDub) := by
  induction xs generalizing b with
  | nil => simp [isValidLoop]
  | cons x xs ih => simp [isValidLoop, ih, Bool.and_assoc]

/-- **C11.** `isValid(std::array)`, for every length: true iff every element is valid.  (For
length zero the code reads element 0, which is undefined behaviour.) -/
theorem C11_array (xs : List α) :
    isValidArr xs = if xs = [] then .ub else .ok (xs.all isValidDub) := by
  cases xs with
  | nil => rfl
  | cons x xs => simp [isValidArr, isValidLoop_eq]

/-- The components `isValid` looks at. -/
def firstComps : (t : Ty) → t.D α → List α
  | .dub, x => [x]
  | .sca, x => [x.theData.d0]
  | .vec, x => [x.theData.d0]
  | .biv, x => [x.theData.d0]
  | .tri, x => [x.theData.d0]
  | .spin, x => [x.theSca.theData.d0, x.theBiv.theData.d0]
  | .imsp, x => [x.theVec.theData.d0, x.theTri.theData.d0]
  | .cplx, x => [x.theSca.theData.d0, x.theTri.theData.d0]
  | .dplx, x => [x.theVec.theData.d0, x.theBiv.theData.d0]
  | .mv, x => [x.theSca.theData.d0, x.theVec.theData.d0, x.theBiv.theData.d0, x.theTri.theData.d0]

/-- **C11**, what the code does: `isValid` is true iff the *first* component of every blade is
valid. -/
theorem C11_first_components (t : Ty) (x : t.D α) :
    isValidTy t x = (firstComps t x).all isValidDub := by
  cases t <;> simp [isValidTy, isValid, firstComps, Bool.and_assoc]

/-- **C11** (the half of the property that holds for every type): an object all of whose
components are valid is reported valid.  Missing: the converse, which fails for every type
containing a vector or a bivector (`C11_fails`) and holds for the others
(`C11_scalar_types`). -/
theorem C11_valid_partial (t : Ty) (x : t.D α) (h : ∀ c ∈ comps t x, isValidDub c = true) :
    isValidTy t x = true := by
  rw [C11_first_components]
  cases t <;> simp_all [firstComps, comps]

/-- **C11.** `isValid = false` implies that some component is invalid. -/
theorem C11_invalid_sound (t : Ty) (x : t.D α) (h : isValidTy t x = false) :
    ∃ c ∈ comps t x, isValidDub c = false := by
  by_contra hc
  push Not at hc
  rw [C11_valid_partial t x (fun c hm => by simpa using hc c hm)] at h
  exact absurd h (by decide)

/-- **C11.** For the types without a three-component blade the property holds. -/
theorem C11_scalar_types (t : Ty) (ht : t = .dub ∨ t = .sca ∨ t = .tri ∨ t = .cplx) (x : t.D α) :
    isValidTy t x = true ↔ ∀ c ∈ comps t x, isValidDub c = true := by
  rw [C11_first_components]
  rcases ht with rfl | rfl | rfl | rfl <;> simp [firstComps, comps]
end

/-- **C11 is violated**: for each of the six types containing a vector or bivector there is a
value which is reported valid although one of its components is NaN. -/
theorem C11_fails (t : Ty) (ht : t ∈ [Ty.vec, .biv, .spin, .imsp, .dplx, .mv]) :
    ∃ x : t.D F64, nan ∈ comps t x ∧ isValidTy t x = true := by
  have hz := isValidDub_zero false
  cases t <;> first | (simp at ht; done) | skip
  · exact ⟨⟨⟨zero false, nan, zero false⟩⟩, by simp [comps], by rw [C11_first_components]; simp [firstComps, hz]⟩
  · exact ⟨⟨⟨zero false, zero false, nan⟩⟩, by simp [comps], by rw [C11_first_components]; simp [firstComps, hz]⟩
  · exact ⟨⟨⟨⟨zero false⟩⟩, ⟨⟨zero false, nan, zero false⟩⟩⟩, by simp [comps],
      by rw [C11_first_components]; simp [firstComps, hz]⟩
  · exact ⟨⟨⟨⟨zero false, nan, zero false⟩⟩, ⟨⟨zero false⟩⟩⟩, by simp [comps],
      by rw [C11_first_components]; simp [firstComps, hz]⟩
  · exact ⟨⟨⟨⟨zero false, nan, zero false⟩⟩, ⟨⟨zero false, nan, zero false⟩⟩⟩, by simp [comps],
      by rw [C11_first_components]; simp [firstComps, hz]⟩
  · exact ⟨⟨⟨⟨zero false⟩⟩, ⟨⟨zero false, nan, zero false⟩⟩, ⟨⟨zero false, nan, zero false⟩⟩,
      ⟨⟨zero false⟩⟩⟩, by simp [comps], by rw [C11_first_components]; simp [firstComps, hz]⟩

/-- The verdict on a vector does not depend on components 1 and 2 at all. -/
theorem C11_fails_vector (x y z y' z' : F64) :
    isValid (⟨⟨x, y, z⟩⟩ : Vector F64) = isValid (⟨⟨x, y', z'⟩⟩ : Vector F64) := rfl

/-! ## C10 -/

/-- **C10.** `null<T>()` is invalid for every type. -/
theorem C10_null_invalid (t : Ty) : isValidTy t (gnullTy (Dbl.nan : F64) t) = false := by
  rw [C11_first_components]
  cases t <;> simp [firstComps, gnullTy, gnull, mvOfDub, F64.nan_def, isValidDub_nan]

/-- **C10.** `zero<T>()` is valid for every type. -/
theorem C10_zero_valid (t : Ty) : isValidTy t (gzeroTy (α := F64) t) = true := by
  rw [C11_first_components]
  cases t <;> simp [firstComps, gzeroTy, gzero, F64.zero_def, isValidDub_zero]

/-- **C10.** `one<T>()` is valid for every type. -/
theorem C10_one_valid (t : Ty) : isValidTy t (goneTy (α := F64) t) = true := by
  rw [C11_first_components]
  cases t <;> simp [firstComps, goneTy, gone, gzero, F64.zero_def, isValidDub_zero, isValidDub_one]

/-- **C10.** Every component of `null<T>()` is NaN, for every type but `MultiVector`. -/
theorem C10_null_comps {β : Type} [Zero β] (n : β) (t : Ty) (ht : t ≠ .mv) :
    ∀ c ∈ comps t (gnullTy n t), c = n := by
  cases t <;> first | exact absurd rfl ht | simp [comps, gnullTy, gnull]

/-- `null<MultiVector>()` has only one NaN component, the scalar. -/
theorem C10_null_mv {β : Type} [Zero β] (n : β) :
    comps .mv (gnullTy n .mv) = [n, 0, 0, 0, 0, 0, 0, 0] := rfl

/-- **C10.** All components of `zero<T>()` are zero. -/
theorem C10_zero_comps {β : Type} [Zero β] (t : Ty) : ∀ c ∈ comps t (gzeroTy (α := β) t), c = 0 := by
  cases t <;> simp [comps, gzeroTy, gzero]

/-- **C10**, exact arithmetic: `x + zero<T>() = x = zero<T>() + x`, `x - zero<T>() = x`. -/
theorem C10_add_zero {α : Type} [CommRing α] (t : Ty) (x : t.D α) :
    addTy t t x (gzeroTy t) = some ⟨t, x⟩ ∧ addTy t t (gzeroTy t) x = some ⟨t, x⟩ ∧
    subTy t t x (gzeroTy t) = some ⟨t, x⟩ := by
  cases t <;> simp [addTy, subTy, gzeroTy, engabra]

/-- **C10**, exact arithmetic: `one<T>()` is the unit of the product of `T` with itself for
`double`, `Scalar`, `Spinor`, `ComPlex` and `MultiVector`. -/
theorem C10_one_mul {α : Type} [CommRing α] :
    (∀ x : α, mulTy .dub .dub (goneTy .dub) x = x ∧ mulTy .dub .dub x (goneTy .dub) = x) ∧
    (∀ x : Scalar α, (gone : Scalar α) * x = x ∧ x * (gone : Scalar α) = x) ∧
    (∀ x : Spinor α, (gone : Spinor α) * x = x ∧ x * (gone : Spinor α) = x) ∧
    (∀ x : ComPlex α, (gone : ComPlex α) * x = x ∧ x * (gone : ComPlex α) = x) ∧
    (∀ x : MultiVector α, (gone : MultiVector α) * x = x ∧ x * (gone : MultiVector α) = x) := by
  refine ⟨fun x => ⟨?_, ?_⟩, fun x => ⟨?_, ?_⟩, fun x => ⟨?_, ?_⟩, fun x => ⟨?_, ?_⟩,
    fun x => ⟨?_, ?_⟩⟩
  · simp [mulTy, goneTy]
  · simp [mulTy, goneTy]
  all_goals mv_ring

/-- **C10.** `one<T>()` of the odd types: zero for `Vector` and `BiVector`, `e1` for `ImSpin` and
`DirPlex`, `e123` for `TriVector`. -/
theorem C10_one_odd {α : Type} [Zero α] [One α] :
    (gone : Vector α) = gzero ∧ (gone : BiVector α) = gzero ∧
    (gone : ImSpin α) = ⟨e1, gzero⟩ ∧ (gone : DirPlex α) = ⟨e1, gzero⟩ ∧
    (gone : TriVector α) = e123 := ⟨rfl, rfl, rfl, rfl, rfl⟩

theorem F64.add_zero' (x : F64) (h : x ≠ zero true) : x + 0 = x := by
  rw [F64.add_def, F64.zero_def]
  cases x with
  | nan => rfl
  | inf s => rfl
  | zero s =>
    cases s
    · simp [F64.add, F64.addFin, F64.value, F64.signbit]
    · exact absurd rfl h
  | fin v hv =>
    simp only [F64.add, F64.addFin, F64.value, _root_.add_zero, if_neg hv.1]
    exact F64.roundTo_fin hv

/-- **C10**, IEEE: adding `zero<T>()` returns the same bits, for every value without a negative
zero component (NaN and infinities included). -/
theorem C10_add_zero_ieee (t : Ty) (x : t.D F64) (h : ∀ c ∈ comps t x, c ≠ zero true) :
    addTy t t x (gzeroTy t) = some ⟨t, x⟩ ∧ addTy t t (gzeroTy t) x = some ⟨t, x⟩ := by
  have hl : ∀ c : F64, c ≠ zero true → 0 + c = c := fun c hc => by
    rw [F64.add_comm', F64.add_zero' c hc]
  have hr := F64.add_zero'
  cases t <;> simp_all [comps, addTy, gzeroTy, engabra]

/-- A negative zero becomes a positive zero. -/
theorem C10_add_zero_negzero : (zero true : F64) + 0 = zero false := by
  rw [F64.add_def, F64.zero_def]
  simp [F64.add, F64.addFin, F64.value, F64.signbit]

theorem F64.one_mul' (x : F64) : 1 * x = x := by
  rw [F64.one_eq, F64.mul_def]
  cases x with
  | nan => rfl
  | inf s => simp [F64.mul, F64.signbit, not_lt.2 (zero_le_one (α := ℚ))]
  | zero s => simp [F64.mul, F64.mulFin, F64.signbit, F64.value, not_lt.2 (zero_le_one (α := ℚ))]
  | fin v hv =>
    simp only [F64.mul, F64.mulFin, F64.value, _root_.one_mul, if_neg hv.1]
    exact F64.roundTo_fin hv

/-- **C10**, IEEE: `1. * x` returns the same bits for every value of every type. -/
theorem C10_one_scale_ieee (t : Ty) (x : t.D F64) : smulTy t (1 : F64) x = x := by
  have h := F64.one_mul'
  cases t <;> simp [smulTy, engabra, h]

/-- Helper of `hval`. -/
syntax "hval_aux" : tactic
open F64 in
macro_rules
  | `(tactic| hval_aux) => `(tactic| with_reducible first
    | exact hasVal_zero'
    | exact hasVal_one
    | assumption
    | (refine hasVal_zero_mul ?_; assumption)
    | (refine hasVal_mul_zero ?_; assumption)
    | (refine HasVal.one_mul hasVal_one ?_; assumption)
    | (refine HasVal.mul_one ?_ hasVal_one; assumption)
    | (refine HasVal.sub_zero ?_ ?_ <;> hval_aux; done)
    | (refine HasVal.add_zero ?_ ?_ <;> hval_aux; done)
    | (refine HasVal.zero_add ?_ ?_ <;> hval_aux; done)
    | (refine HasVal.zero_sub ?_ ?_ <;> hval_aux; done))

/-- Discharge `HasVal e p` where `e` is a sum of products with at most one non-zero product. -/
macro "hval" : tactic => `(tactic| exact (by hval_aux))

open F64 in
/-- **C10**, IEEE: `one<MultiVector>() * x` and `x * one<MultiVector>()` compare equal to `x`,
for every `x` with finite components. -/
theorem C10_one_mul_ieee (x : MultiVector F64) (h : ∀ c ∈ comps .mv x, c.Finite) :
    geq ((gone : MultiVector F64) * x) x = true ∧ geq (x * (gone : MultiVector F64)) x = true := by
  obtain ⟨⟨⟨s⟩⟩, ⟨⟨v0, v1, v2⟩⟩, ⟨⟨b0, b1, b2⟩⟩, ⟨⟨t⟩⟩⟩ := x
  simp only [comps, List.mem_cons, List.not_mem_nil, or_false, forall_eq_or_imp, forall_eq] at h
  obtain ⟨hs, hv0, hv1, hv2, hb0, hb1, hb2, ht⟩ := h
  have Hs := HasVal.of hs
  have Hv0 := HasVal.of hv0
  have Hv1 := HasVal.of hv1
  have Hv2 := HasVal.of hv2
  have Hb0 := HasVal.of hb0
  have Hb1 := HasVal.of hb1
  have Hb2 := HasVal.of hb2
  have Ht := HasVal.of ht
  have fin : ∀ {x y : F64} {p : ℚ}, HasVal x p → HasVal y p → Dbl.feq x y = true := by
    intro x y p hx hy; rw [hx.feq hy]; simp
  simp only [geq, eqArr3, engabra, Bool.and_eq_true]
  repeat' constructor
  all_goals
    refine fin ?_ (by assumption)
    hval

open F64 in
/-- **C10**, IEEE: the same for `Scalar` (bit for bit), `Spinor` and `ComPlex`. -/
theorem C10_one_mul_ieee_even :
    (∀ x : Scalar F64, (gone : Scalar F64) * x = x ∧ x * (gone : Scalar F64) = x) ∧
    (∀ x : Spinor F64, (∀ c ∈ comps .spin x, c.Finite) →
      geq ((gone : Spinor F64) * x) x = true ∧ geq (x * (gone : Spinor F64)) x = true) ∧
    (∀ x : ComPlex F64, (∀ c ∈ comps .cplx x, c.Finite) →
      (geq ((gone : ComPlex F64) * x).theSca x.theSca && geq ((gone : ComPlex F64) * x).theTri x.theTri)
        = true ∧
      (geq (x * (gone : ComPlex F64)).theSca x.theSca && geq (x * (gone : ComPlex F64)).theTri x.theTri)
        = true) := by
  have fin : ∀ {x y : F64} {p : ℚ}, HasVal x p → HasVal y p → Dbl.feq x y = true := by
    intro x y p hx hy; rw [hx.feq hy]; simp
  refine ⟨fun x => ⟨?_, ?_⟩, fun x h => ?_, fun x h => ?_⟩
  · simp [engabra, F64.one_mul']
  · simp [engabra, F64.mul_comm' _ 1, F64.one_mul']
  · obtain ⟨⟨⟨s⟩⟩, ⟨⟨b0, b1, b2⟩⟩⟩ := x
    simp only [comps, List.mem_cons, List.not_mem_nil, or_false, forall_eq_or_imp, forall_eq] at h
    obtain ⟨hs, hb0, hb1, hb2⟩ := h
    have Hs := HasVal.of hs
    have Hb0 := HasVal.of hb0
    have Hb1 := HasVal.of hb1
    have Hb2 := HasVal.of hb2
    simp only [geq, eqArr3, engabra, Bool.and_eq_true]
    repeat' constructor
    all_goals
      refine fin ?_ (by assumption)
      hval
  · obtain ⟨⟨⟨s⟩⟩, ⟨⟨t⟩⟩⟩ := x
    simp only [comps, List.mem_cons, List.not_mem_nil, or_false, forall_eq_or_imp, forall_eq] at h
    obtain ⟨hs, ht⟩ := h
    have Hs := HasVal.of hs
    have Ht := HasVal.of ht
    simp only [geq, engabra, Bool.and_eq_true]
    repeat' constructor
    all_goals
      refine fin ?_ (by assumption)
      hval

/-! ## C12 -/

attribute [local simp] F64.nan_add F64.add_nan F64.nan_sub F64.sub_nan F64.nan_mul F64.mul_nan
  F64.neg_nan

/-- **C12.** If any component of either factor is NaN, every component of the full product is
NaN, whatever the other components are (infinities included). -/
theorem C12_product (A B : MultiVector F64) (h : nan ∈ comps .mv A ∨ nan ∈ comps .mv B) :
    ∀ c ∈ comps .mv (A * B), c = nan := by
  obtain ⟨⟨⟨a0⟩⟩, ⟨⟨a1, a2, a3⟩⟩, ⟨⟨a4, a5, a6⟩⟩, ⟨⟨a7⟩⟩⟩ := A
  obtain ⟨⟨⟨b0⟩⟩, ⟨⟨b1, b2, b3⟩⟩, ⟨⟨b4, b5, b6⟩⟩, ⟨⟨b7⟩⟩⟩ := B
  simp only [comps, List.mem_cons, List.not_mem_nil, or_false] at h
  rcases h with (h | h | h | h | h | h | h | h) | (h | h | h | h | h | h | h | h) <;> subst h <;>
    simp [comps, engabra]

/-- **C12.** So a null factor gives an invalid product. -/
theorem C12_product_invalid (A B : MultiVector F64) (h : nan ∈ comps .mv A ∨ nan ∈ comps .mv B) :
    isValid (A * B) = false := by
  have h0 := C12_product A B h (A * B).theSca.theData.d0 (by simp [comps])
  simp [isValid, h0, isValidDub_nan]

/-- **C12.** For each of the hundred typed products: a NaN in either factor gives a NaN in the
result. -/
theorem C12_typed_product (s t : Ty) (a : s.D F64) (b : t.D F64)
    (h : nan ∈ comps s a ∨ nan ∈ comps t b) : nan ∈ comps _ (mulTy s t a b) := by
  cases s <;> cases t <;>
    simp only [comps, List.mem_cons, List.not_mem_nil, or_false] at h <;>
    simp only [mulTy, comps, engabra, List.mem_cons, List.not_mem_nil, or_false]
  all_goals
    casesm* _ ∨ _
    all_goals simp [← h]

/-- Component `k` of a value, numbered as in a multivector, is NaN. -/
def NaNAt (t : Ty) (x : t.D F64) (k : Nat) : Prop := (comps .mv (promote t x))[k]? = some nan

theorem zero_ne_nan : (0 : F64) ≠ nan := by rw [F64.zero_def]; simp

set_option maxHeartbeats 1000000 in
/-- **C12.** A NaN in component `k` of either operand gives a NaN in component `k` of the sum. -/
theorem C12_sum (s t : Ty) (a : s.D F64) (b : t.D F64) (r : Ty) (c : r.D F64)
    (hc : addTy s t a b = some ⟨r, c⟩) (k : Nat) (h : NaNAt s a k ∨ NaNAt t b k) : NaNAt r c k := by
  unfold NaNAt at *
  cases s <;> cases t <;> simp only [addTy, reduceCtorEq, Option.some.injEq] at hc <;> cases hc <;>
    rcases k with _ | _ | _ | _ | _ | _ | _ | _ | k <;>
    simp [comps, promote, engabra, zero_ne_nan] at h ⊢ <;>
    first | simp [h] | (rcases h with h | h <;> simp [h])

set_option maxHeartbeats 1000000 in
/-- **C12.** The same for differences. -/
theorem C12_difference (s t : Ty) (a : s.D F64) (b : t.D F64) (r : Ty) (c : r.D F64)
    (hc : subTy s t a b = some ⟨r, c⟩) (k : Nat) (h : NaNAt s a k ∨ NaNAt t b k) : NaNAt r c k := by
  unfold NaNAt at *
  cases s <;> cases t <;> simp only [subTy, reduceCtorEq, Option.some.injEq] at hc <;> cases hc <;>
    rcases k with _ | _ | _ | _ | _ | _ | _ | _ | k <;>
    simp [comps, promote, engabra, zero_ne_nan] at h ⊢ <;>
    first | simp [h] | (rcases h with h | h <;> simp [h])

/-- **C12.** Negation and the three involutions keep NaN exactly where it is. -/
theorem C12_unary (t : Ty) (x : t.D F64) (k : Nat) :
    (NaNAt t (negTy t x) k ↔ NaNAt t x k) ∧ (NaNAt t (reverseTy t x) k ↔ NaNAt t x k) ∧
    (NaNAt t (oddverseTy t x) k ↔ NaNAt t x k) ∧ (NaNAt t (dirverseTy t x) k ↔ NaNAt t x k) := by
  have hn : ∀ c : F64, -c = nan ↔ c = nan := by
    intro c; rw [F64.neg_def]; cases c <;> simp [F64.neg]
  unfold NaNAt
  cases t <;>
    rcases k with _ | _ | _ | _ | _ | _ | _ | _ | k <;>
    simp [comps, promote, engabra, negTy, reverseTy, oddverseTy, dirverseTy, hn]

/-- **C12** does not make typed results *invalid*: because `isValid` looks only at first
components (C11), a vector with a NaN times a trivector is reported valid. -/
theorem C12_fails_typed_validity :
    ∃ (v : Vector F64) (t : TriVector F64), nan ∈ comps .vec v ∧ nan ∈ comps .biv (v * t) ∧
      isValid (v * t) = true := by
  refine ⟨⟨⟨zero false, nan, zero false⟩⟩, ⟨⟨zero false⟩⟩, by simp [comps],
    C12_typed_product .vec .tri _ _ (Or.inl (by simp [comps])), ?_⟩
  have : (zero false : F64) * zero false = zero false := by
    rw [F64.mul_def]; simp [F64.mul, F64.mulFin, F64.value, F64.signbit]
  simp [isValid, engabra, this, isValidDub_zero]

/-- The hypotheses are met: a product with one NaN, infinities elsewhere. -/
example : ∀ c ∈ comps .mv ((⟨⟨⟨inf false⟩⟩, ⟨⟨zero true, inf true, 1⟩⟩, ⟨⟨1, 1, nan⟩⟩, ⟨⟨0⟩⟩⟩ :
    MultiVector F64) * gone), c = nan := C12_product _ _ (Or.inl (by simp [comps]))
example : nan ∈ comps _ (mulTy .vec .biv (⟨⟨1, inf true, nan⟩⟩ : Vector F64) gzero) :=
  C12_typed_product .vec .biv _ _ (Or.inl (by simp [comps]))
/-- `C10_one_mul_ieee` applies to a value with a negative zero and a subnormal number. -/
example : geq ((gone : MultiVector F64) * ⟨⟨⟨zero true⟩⟩, ⟨⟨1, 1, 0⟩⟩, ⟨⟨1, zero true, 1⟩⟩, ⟨⟨1⟩⟩⟩)
    ⟨⟨⟨zero true⟩⟩, ⟨⟨1, 1, 0⟩⟩, ⟨⟨1, zero true, 1⟩⟩, ⟨⟨1⟩⟩⟩ = true := by
  refine (C10_one_mul_ieee _ ?_).1
  have h1 : (1 : F64).Finite := F64.hasVal_one.1
  have h0 : (0 : F64).Finite := F64.hasVal_zero'.1
  have hz : (zero true : F64).Finite := (F64.hasVal_zero true).1
  intro c hc
  simp only [comps, List.mem_cons, List.not_mem_nil, or_false] at hc
  rcases hc with rfl | rfl | rfl | rfl | rfl | rfl | rfl | rfl <;> assumption

/-- `C11_valid_partial` and `C11_invalid_sound`: a valid spinor, and one invalid by its first
bivector component. -/
example : isValidTy .spin (⟨⟨⟨1⟩⟩, ⟨⟨0, 1, zero true⟩⟩⟩ : Spinor F64) = true ∧
    isValidTy .spin (⟨⟨⟨1⟩⟩, ⟨⟨inf false, 1, 0⟩⟩⟩ : Spinor F64) = false := by
  refine ⟨C11_valid_partial _ _ ?_, by decide +kernel⟩
  intro c hc
  simp only [comps, List.mem_cons, List.not_mem_nil, or_false] at hc
  rcases hc with rfl | rfl | rfl | rfl <;> decide +kernel

/-- `C12_sum` for a scalar and a bivector with one NaN component: it is the same component of the
sum. -/
example : ∃ r c, addTy .sca .biv (⟨⟨1⟩⟩ : Scalar F64) (⟨⟨0, nan, 1⟩⟩ : BiVector F64) = some ⟨r, c⟩ ∧
    NaNAt .biv (⟨⟨0, nan, 1⟩⟩ : BiVector F64) 5 ∧ NaNAt r c 5 := by
  have h : NaNAt .biv (⟨⟨0, nan, 1⟩⟩ : BiVector F64) 5 := rfl
  exact ⟨_, _, rfl, h, C12_sum .sca .biv _ _ _ _ rfl 5 (Or.inr h)⟩

end Engabra
