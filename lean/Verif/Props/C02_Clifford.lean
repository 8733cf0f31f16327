import Verif.Props.C01_Product
import Verif.Spec.Clifford
import Mathlib.Tactic.Module
import Mathlib.Tactic.NoncommRing
import Mathlib.LinearAlgebra.CliffordAlgebra.Conjugation

/-! # C02: the MultiVector product is the Clifford algebra of Euclidean 3-space -/

namespace Engabra

variable {α : Type} [CommRing α]

/-- `Vector{ v0, v1, v2 }` as a multivector. -/
def vecMV (v : Fin 3 → α) : MultiVector α := toMV (⟨⟨v 0, v 1, v 2⟩⟩ : Vector α)

/-- Vectors square to their squared Euclidean length. -/
theorem C02_vec_sq (v : Vector α) :
    toMV v * toMV v = mvOfDub (v.theData.d0 ^ 2 + v.theData.d1 ^ 2 + v.theData.d2 ^ 2) := by
  mv_ring

/-- `u v + v u = 2 (u . v)`. -/
theorem C02_vec_anticomm (u v : Vector α) :
    toMV u * toMV v + toMV v * toMV u
      = mvOfDub (2 * (u.theData.d0 * v.theData.d0 + u.theData.d1 * v.theData.d1
          + u.theData.d2 * v.theData.d2)) := by
  mv_ring

/-- The linear map `Vector{..}` into multivectors. -/
def vecLin : (Fin 3 → α) →ₗ[α] MultiVector α where
  toFun := vecMV
  map_add' u v := by unfold vecMV; simp only [Pi.add_apply]; mv_ring
  map_smul' r v := by
    show vecMV (r • v) = r * vecMV v
    unfold vecMV; simp only [Pi.smul_apply, smul_eq_mul]; mv_ring

theorem vecLin_sq (v : Fin 3 → α) :
    vecLin v * vecLin v = algebraMap α (MultiVector α) (Spec.euclid α v) := by
  rw [algebraMap_def, Spec.euclid_apply]
  show vecMV v * vecMV v = _
  unfold vecMV; mv_ring

/-- The homomorphism from the universal Clifford algebra to the code's multivectors. -/
noncomputable def fromCl : Spec.Cl3 α →ₐ[α] MultiVector α :=
  CliffordAlgebra.lift (Spec.euclid α) ⟨vecLin, vecLin_sq⟩

theorem fromCl_gen (v : Fin 3 → α) : fromCl (Spec.gen v) = vecMV v :=
  CliffordAlgebra.lift_ι_apply (Q := Spec.euclid α) vecLin vecLin_sq v

section inverse

/-- The three generators. -/
noncomputable def E (i : Fin 3) : Spec.Cl3 α := Spec.gen (Pi.single i 1)

theorem E_sq (i : Fin 3) : (E i : Spec.Cl3 α) * E i = 1 := by
  unfold E Spec.gen
  rw [CliffordAlgebra.ι_sq_scalar, Spec.euclid_apply]
  fin_cases i <;> simp

theorem E_anti (i j : Fin 3) (h : i ≠ j) : (E i : Spec.Cl3 α) * E j = -(E j * E i) := by
  unfold E Spec.gen
  rw [eq_neg_iff_add_eq_zero, CliffordAlgebra.ι_mul_ι_add_swap]
  have : QuadraticMap.polar (Spec.euclid α) (Pi.single i 1) (Pi.single j 1) = 0 := by
    simp only [QuadraticMap.polar, Spec.euclid_apply]
    fin_cases i <;> fin_cases j <;> first | exact absurd rfl h | simp
  rw [this, map_zero]

theorem gen_eq (v : Fin 3 → α) : Spec.gen v = v 0 • E 0 + v 1 • E 1 + v 2 • (E 2 : Spec.Cl3 α) := by
  have : v = v 0 • Pi.single 0 1 + v 1 • Pi.single 1 1 + v 2 • (Pi.single 2 1 : Fin 3 → α) := by
    funext i; fin_cases i <;> simp
  conv_lhs => rw [this]
  simp only [E, Spec.gen, map_add, map_smul]

/-- Component-wise inverse map: the blades `e23 = e2 e3`, `e31 = e3 e1`, `e12 = e1 e2`,
`e123 = e1 e2 e3`. -/
noncomputable def toCl (A : MultiVector α) : Spec.Cl3 α :=
  A.theSca.theData.d0 • 1
  + A.theVec.theData.d0 • E 0 + A.theVec.theData.d1 • E 1 + A.theVec.theData.d2 • E 2
  + A.theBiv.theData.d0 • (E 1 * E 2) + A.theBiv.theData.d1 • (E 2 * E 0)
  + A.theBiv.theData.d2 • (E 0 * E 1)
  + A.theTri.theData.d0 • (E 0 * (E 1 * E 2))

private theorem r10 : (E 1 : Spec.Cl3 α) * E 0 = -(E 0 * E 1) := E_anti 1 0 (by decide)
private theorem r20 : (E 2 : Spec.Cl3 α) * E 0 = -(E 0 * E 2) := E_anti 2 0 (by decide)
private theorem r21 : (E 2 : Spec.Cl3 α) * E 1 = -(E 1 * E 2) := E_anti 2 1 (by decide)
private theorem s10 (x : Spec.Cl3 α) : E 1 * (E 0 * x) = -(E 0 * (E 1 * x)) := by
  rw [← mul_assoc, r10, neg_mul, mul_assoc]
private theorem s20 (x : Spec.Cl3 α) : E 2 * (E 0 * x) = -(E 0 * (E 2 * x)) := by
  rw [← mul_assoc, r20, neg_mul, mul_assoc]
private theorem s21 (x : Spec.Cl3 α) : E 2 * (E 1 * x) = -(E 1 * (E 2 * x)) := by
  rw [← mul_assoc, r21, neg_mul, mul_assoc]
private theorem q (i : Fin 3) (x : Spec.Cl3 α) : E i * (E i * x) = x := by
  rw [← mul_assoc, E_sq, one_mul]

theorem gen_mul_toCl (v : Fin 3 → α) (A : MultiVector α) :
    Spec.gen v * toCl A = toCl (vecMV v * A) := by
  rw [gen_eq]
  simp only [toCl, vecMV, engabra]
  simp only [mul_add, add_mul, smul_mul_assoc, mul_smul_comm, mul_one, r10, r20, r21, s10, s20, s21,
    q, E_sq, smul_neg, mul_neg, neg_neg]
  module

theorem toCl_add (A B : MultiVector α) : toCl (A + B) = toCl A + toCl B := by
  simp only [toCl, engabra]
  module

theorem toCl_algebraMap (r : α) : toCl (algebraMap α (MultiVector α) r) = algebraMap α _ r := by
  rw [algebraMap_def, Algebra.algebraMap_eq_smul_one]
  simp only [toCl, engabra]
  module

theorem toCl_fromCl (x : Spec.Cl3 α) : toCl (fromCl x) = x := by
  induction x using CliffordAlgebra.left_induction with
  | algebraMap r => rw [AlgHom.commutes, toCl_algebraMap]
  | add x y hx hy => rw [map_add, toCl_add, hx, hy]
  | ι_mul x m hx =>
    rw [map_mul]
    change toCl (fromCl (Spec.gen m) * fromCl x) = Spec.gen m * x
    rw [fromCl_gen, ← gen_mul_toCl, hx]

theorem fromCl_E (i : Fin 3) : fromCl (E i) = vecMV (Pi.single i 1 : Fin 3 → α) := fromCl_gen _

theorem fromCl_toCl (A : MultiVector α) : fromCl (toCl A) = A := by
  simp only [toCl, map_add, map_smul, map_mul, map_one, fromCl_E, vecMV]
  ext <;> simp only [engabra] <;> simp

end inverse

/-- **C02.** The library's `MultiVector` with its `+`, `*` and scaling is isomorphic, as an
algebra, to the Clifford algebra of Euclidean 3-space. -/
noncomputable def C02_equiv : MultiVector α ≃ₐ[α] Spec.Cl3 α :=
  (AlgEquiv.ofBijective fromCl
    ⟨fun x y h => by rw [← toCl_fromCl x, ← toCl_fromCl y, h],
     fun A => ⟨toCl A, fromCl_toCl A⟩⟩).symm

theorem C02_equiv_apply (A : MultiVector α) : C02_equiv A = toCl A := by
  apply C02_equiv.symm.injective
  rw [AlgEquiv.symm_apply_apply]
  exact (fromCl_toCl A).symm

/-- The isomorphism sends `Vector{v0,v1,v2}` to the Clifford generator of `(v0,v1,v2)`. -/
theorem C02_equiv_vector (v : Fin 3 → α) :
    C02_equiv (toMV (⟨⟨v 0, v 1, v 2⟩⟩ : Vector α)) = Spec.gen v := by
  apply C02_equiv.symm.injective
  rw [AlgEquiv.symm_apply_apply]
  exact (fromCl_gen v).symm

/-- Universal property transported to the code: any linear map `f` from vectors to an algebra
with `f(v)² = |v|²` extends to exactly one algebra homomorphism from the code's
multivectors. -/
theorem C02_universal {A : Type} [Ring A] [Algebra α A] (f : (Fin 3 → α) →ₗ[α] A)
    (hf : ∀ v, f v * f v = algebraMap α A (v 0 * v 0 + v 1 * v 1 + v 2 * v 2)) :
    ∃! F : MultiVector α →ₐ[α] A, ∀ v, F (toMV (⟨⟨v 0, v 1, v 2⟩⟩ : Vector α)) = f v := by
  have hf' : ∀ v, f v * f v = algebraMap α A (Spec.euclid α v) := by
    intro v; rw [hf, Spec.euclid_apply]
  refine ⟨(CliffordAlgebra.lift (Spec.euclid α) ⟨f, hf'⟩).comp C02_equiv.toAlgHom, ?_, ?_⟩
  · intro v
    show CliffordAlgebra.lift (Spec.euclid α) ⟨f, hf'⟩ (C02_equiv _) = _
    rw [C02_equiv_vector]
    exact CliffordAlgebra.lift_ι_apply (Q := Spec.euclid α) f hf' v
  · intro G hG
    have : G.comp C02_equiv.symm.toAlgHom = CliffordAlgebra.lift (Spec.euclid α) ⟨f, hf'⟩ := by
      apply CliffordAlgebra.hom_ext
      ext v
      simp only [LinearMap.comp_apply, AlgHom.toLinearMap_apply, AlgHom.comp_apply]
      have h1 : C02_equiv.symm.toAlgHom (CliffordAlgebra.ι (Spec.euclid α) (Pi.single v 1))
          = toMV (⟨⟨(Pi.single v 1 : Fin 3 → α) 0, (Pi.single v 1 : Fin 3 → α) 1,
              (Pi.single v 1 : Fin 3 → α) 2⟩⟩ : Vector α) := by
        apply C02_equiv.injective
        rw [C02_equiv_vector]
        exact AlgEquiv.apply_symm_apply C02_equiv _
      simp only [LinearMap.single_apply]
      rw [h1, hG, CliffordAlgebra.lift_ι_apply]
    rw [← this]
    ext x
    simp

/-! ## Blade table -/

/-- Coefficients of a multivector on the eight basis blades with *increasing* factor order,
indexed by bit mask; `e31 = - e1 e3` has mask `5`. -/
def coeffs (A : MultiVector α) : Fin 8 → α
  | 0 => A.theSca.theData.d0
  | 1 => A.theVec.theData.d0
  | 2 => A.theVec.theData.d1
  | 3 => A.theBiv.theData.d2
  | 4 => A.theVec.theData.d2
  | 5 => -A.theBiv.theData.d1
  | 6 => A.theBiv.theData.d0
  | 7 => A.theTri.theData.d0

theorem coeffs_injective : Function.Injective (coeffs : MultiVector α → Fin 8 → α) := by
  intro A B h
  have h0 := congrFun h 0; have h1 := congrFun h 1; have h2 := congrFun h 2
  have h3 := congrFun h 3; have h4 := congrFun h 4; have h5 := congrFun h 5
  have h6 := congrFun h 6; have h7 := congrFun h 7
  simp only [coeffs, neg_inj] at h0 h1 h2 h3 h4 h5 h6 h7
  ext <;> assumption

/-- **C02 (blade rule).** Every coefficient of the library product is the sum given by the
basis blade rule: symmetric difference of factors with the permutation sign. -/
theorem C02_blade_rule (A B : MultiVector α) (m : Fin 8) :
    coeffs (A * B) m = Spec.bladeMul (coeffs A) (coeffs B) m := by
  fin_cases m <;> simp only [Spec.bladeMul, Fin.sum_univ_eight] <;>
    simp [coeffs, engabra, Spec.bladeSign, Spec.swaps, List.range, List.range.loop,
      Nat.testBit] <;> ring

/-! ## The named basis constants multiply as documented -/

theorem C02_e1_e2 : (e1 : Vector α) * (e2 : Vector α) = (⟨gzero, e12⟩ : Spinor α) := by mv_ring
theorem C02_e2_e3 : (e2 : Vector α) * (e3 : Vector α) = (⟨gzero, e23⟩ : Spinor α) := by mv_ring
theorem C02_e3_e1 : (e3 : Vector α) * (e1 : Vector α) = (⟨gzero, e31⟩ : Spinor α) := by mv_ring
theorem C02_e1_e2_e3 : toMV (e1 : Vector α) * toMV (e2 : Vector α) * toMV (e3 : Vector α)
    = toMV (e123 : TriVector α) := by mv_ring
theorem C02_e123_sq : (e123 : TriVector α) * (e123 : TriVector α) = (-e0 : Scalar α) := by mv_ring

/-! ## The grade involutions are those of the Clifford algebra -/

/-- `reverse` is the Clifford algebra reversal. -/
theorem C02_reverse_is_reversal (A : MultiVector α) :
    C02_equiv (reverse A) = CliffordAlgebra.reverse (C02_equiv A) := by
  have hE : ∀ i, CliffordAlgebra.reverse (E i : Spec.Cl3 α) = E i := fun i =>
    CliffordAlgebra.reverse_ι _
  simp only [C02_equiv_apply, toCl, map_add, map_smul, CliffordAlgebra.reverse.map_mul,
    CliffordAlgebra.reverse.map_one, hE]
  simp only [engabra]
  simp only [mul_assoc, r10, r20, r21, s10, smul_neg, mul_neg, neg_mul, neg_neg]
  module

/-- `oddverse` is the Clifford grade involution. -/
theorem C02_oddverse_is_involute (A : MultiVector α) :
    C02_equiv (oddverse A) = CliffordAlgebra.involute (C02_equiv A) := by
  have hE : ∀ i, CliffordAlgebra.involute (E i : Spec.Cl3 α) = - E i := fun i =>
    CliffordAlgebra.involute_ι _
  simp only [C02_equiv_apply, toCl, map_add, map_smul, map_mul, map_one, hE]
  simp only [engabra]
  simp only [smul_neg, mul_neg, neg_mul, neg_neg]
  module

/-- `dirverse` is Clifford conjugation. -/
theorem C02_dirverse_is_conjugation (A : MultiVector α) :
    C02_equiv (dirverse A) = CliffordAlgebra.reverse (CliffordAlgebra.involute (C02_equiv A)) := by
  rw [← C02_oddverse_is_involute, ← C02_reverse_is_reversal]
  congr 1
  mv_ring

/-- `C02_universal` for the map that reads the components of a vector in reverse order: it extends to
one homomorphism of the multivectors. -/
example : ∃! F : MultiVector ℚ →ₐ[ℚ] MultiVector ℚ, ∀ v : Fin 3 → ℚ,
    F (toMV (⟨⟨v 0, v 1, v 2⟩⟩ : Vector ℚ)) = toMV (⟨⟨v 2, v 1, v 0⟩⟩ : Vector ℚ) := by
  refine C02_universal
    { toFun := fun v => toMV (⟨⟨v 2, v 1, v 0⟩⟩ : Vector ℚ)
      map_add' := fun v w => ?_
      map_smul' := fun r v => ?_ } fun v => ?_
  · simp only [Pi.add_apply]; mv_ring
  · simp only [Pi.smul_apply, smul_eq_mul, RingHom.id_apply]; mv_ring
  · rw [algebraMap_def]
    change toMV (⟨⟨v 2, v 1, v 0⟩⟩ : Vector ℚ) * toMV (⟨⟨v 2, v 1, v 0⟩⟩ : Vector ℚ) = _
    mv_ring

end Engabra
