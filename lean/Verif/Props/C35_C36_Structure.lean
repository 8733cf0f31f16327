import Verif.Lemmas.Func
import Verif.Spec.Euclid
import Verif.Props.C22_Rotation
import Verif.Props.C03_TypedProducts
import Verif.Props.C04_C05_SumsDifferences

/-! # C35: the vector product; C36: centre and grades -/

namespace Engabra
open Spec

section
variable {α : Type} [CommRing α]
attribute [local engabra] Vector.xyz dot cross det Spec.add smul

/-- **C35.** `a*b` = dot product + dual of the cross product. -/
theorem C35_split (a b : Vector α) :
    a * b = (⟨⟨⟨dot a.xyz b.xyz⟩⟩,
      (dual (⟨⟨(cross a.xyz b.xyz).x, (cross a.xyz b.xyz).y, (cross a.xyz b.xyz).z⟩⟩ : Vector α)
        : BiVector α)⟩ : Spinor α) := by
  mv_ring

/-- **C35.** The scalar part is symmetric, the bivector part antisymmetric. -/
theorem C35_symm (a b : Vector α) : (a * b : Spinor α).theSca = (b * a : Spinor α).theSca := by
  mv_ring
theorem C35_antisymm (a b : Vector α) :
    (a * b : Spinor α).theBiv = -(b * a : Spinor α).theBiv := by mv_ring

/-- **C35.** Lagrange's identity. -/
theorem C35_lagrange (a b : Vector α) :
    magSq (a * b : Spinor α).theSca + magSq (a * b : Spinor α).theBiv = magSq a * magSq b := by
  simp only [engabra]; ring
end

section
variable {α : Type} [Field α] [CharZero α]
attribute [local engabra] Vector.xyz dot cross det Spec.add smul

/-- **C35.** `a*b = -(b*a)` exactly when `a` and `b` are orthogonal. -/
theorem C35_anticommute_iff (a b : Vector α) :
    (a * b : Spinor α) = -(b * a : Spinor α) ↔ dot a.xyz b.xyz = 0 := by
  constructor
  · intro h
    have h1 := congrArg (fun s : Spinor α => s.theSca.theData.d0) h
    simp only [engabra] at h1 ⊢
    have : (2 : α) ≠ 0 := two_ne_zero
    have h3 : (2 : α) * (a.theData.d0 * b.theData.d0 + a.theData.d1 * b.theData.d1
        + a.theData.d2 * b.theData.d2) = 0 := by linear_combination h1
    exact (mul_eq_zero.1 h3).resolve_left this
  · intro h
    simp only [engabra] at h
    ext <;> simp only [engabra]
    · linear_combination 2 * h
    all_goals ring

/-- **C35.** `a*b = b*a` exactly when `a` and `b` are linearly dependent. -/
theorem C35_commute_iff (a b : Vector α) :
    (a * b : Spinor α) = (b * a : Spinor α) ↔ Parallel a.xyz b.xyz := by
  have two : (2 : α) ≠ 0 := two_ne_zero
  have key : (a * b : Spinor α) = (b * a : Spinor α) ↔ cross a.xyz b.xyz = Spec.zero := by
    constructor
    · intro h
      have h1 := congrArg (fun s : Spinor α => s.theBiv.theData.d0) h
      have h2 := congrArg (fun s : Spinor α => s.theBiv.theData.d1) h
      have h3 := congrArg (fun s : Spinor α => s.theBiv.theData.d2) h
      simp only [engabra] at h1 h2 h3
      simp only [engabra, Spec.zero, V3.mk.injEq]
      refine ⟨?_, ?_, ?_⟩
      · exact (mul_eq_zero.1 (show (2 : α) * _ = 0 by linear_combination h1)).resolve_left two
      · exact (mul_eq_zero.1 (show (2 : α) * _ = 0 by linear_combination h2)).resolve_left two
      · exact (mul_eq_zero.1 (show (2 : α) * _ = 0 by linear_combination h3)).resolve_left two
    · intro h
      simp only [engabra, Spec.zero, V3.mk.injEq] at h
      obtain ⟨h1, h2, h3⟩ := h
      ext <;> simp only [engabra]
      · ring
      · linear_combination 2 * h1
      · linear_combination 2 * h2
      · linear_combination 2 * h3
  rw [key]
  obtain ⟨⟨a0, a1, a2⟩⟩ := a
  obtain ⟨⟨b0, b1, b2⟩⟩ := b
  simp only [engabra, Spec.zero, V3.mk.injEq, Parallel]
  constructor
  · rintro ⟨h0, h1, h2⟩
    by_cases z0 : b0 = 0
    · by_cases z1 : b1 = 0
      · by_cases z2 : b2 = 0
        · exact ⟨0, 1, Or.inr one_ne_zero, by simp [z0], by simp [z1], by simp [z2]⟩
        · exact ⟨b2, a2, Or.inl z2, by linear_combination -h1, by linear_combination h0, by ring⟩
      · exact ⟨b1, a1, Or.inl z1, by linear_combination h2, by ring, by linear_combination -h0⟩
    · exact ⟨b0, a0, Or.inl z0, by ring, by linear_combination -h2, by linear_combination h1⟩
  · rintro ⟨s, t, hst, h0, h1, h2⟩
    rcases hst with hs | ht
    · refine ⟨?_, ?_, ?_⟩ <;> apply (mul_eq_zero.1 (?_ : s * _ = 0)).resolve_left hs
      · linear_combination b2 * h1 - b1 * h2
      · linear_combination b0 * h2 - b2 * h0
      · linear_combination b1 * h0 - b0 * h1
    · refine ⟨?_, ?_, ?_⟩ <;> apply (mul_eq_zero.1 (?_ : t * _ = 0)).resolve_left ht
      · linear_combination a2 * h1 - a1 * h2
      · linear_combination a0 * h2 - a2 * h0
      · linear_combination a1 * h0 - a0 * h1

/-- **C36.** The centre is exactly the `ComPlex` elements. -/
theorem C36_centre (A : MultiVector α) :
    (∀ B : MultiVector α, A * B = B * A) ↔ ∃ z : ComPlex α, A = toMV z := by
  constructor
  · intro h
    have two : (2 : α) ≠ 0 := two_ne_zero
    refine ⟨⟨A.theSca, A.theTri⟩, ?_⟩
    have h1 := h (toMV (e1 : Vector α))
    have h2 := h (toMV (e2 : Vector α))
    have z : ∀ x : α, x = -x → x = 0 := by
      intro x hx
      exact (mul_eq_zero.1 (show (2 : α) * x = 0 by linear_combination hx)).resolve_left two
    have c14 := congrArg (fun m : MultiVector α => m.theVec.theData.d1) h1
    have c15 := congrArg (fun m : MultiVector α => m.theVec.theData.d2) h1
    have c16 := congrArg (fun m : MultiVector α => m.theBiv.theData.d1) h1
    have c17 := congrArg (fun m : MultiVector α => m.theBiv.theData.d2) h1
    have c24 := congrArg (fun m : MultiVector α => m.theVec.theData.d2) h2
    have c26 := congrArg (fun m : MultiVector α => m.theBiv.theData.d2) h2
    simp only [engabra, mul_zero, zero_mul, mul_one, one_mul, add_zero, zero_add, sub_zero,
      zero_sub] at c14 c15 c16 c17 c24 c26
    ext <;> simp only [engabra]
    · exact z _ c26
    · exact z _ c17.symm
    · exact z _ c16
    · exact z _ c24.symm
    · exact z _ c15
    · exact z _ c14.symm
  · rintro ⟨z, rfl⟩ B
    mv_ring
end

section
variable {α : Type} [CommRing α]

/-- Specification: only even (scalar, bivector) components. -/
def IsEven (A : MultiVector α) : Prop := A.theVec = gzero ∧ A.theTri = gzero
/-- Specification: only odd (vector, trivector) components. -/
def IsOdd (A : MultiVector α) : Prop := A.theSca = gzero ∧ A.theBiv = gzero

theorem isEven_iff (A : MultiVector α) : IsEven A ↔ ∃ s : Spinor α, A = toMV s := by
  constructor
  · rintro ⟨h1, h2⟩
    refine ⟨⟨A.theSca, A.theBiv⟩, ?_⟩
    obtain ⟨s, v, b, t⟩ := A
    simp only at h1 h2
    rw [h1, h2]; rfl
  · rintro ⟨s, rfl⟩; exact ⟨rfl, rfl⟩

theorem isOdd_iff (A : MultiVector α) : IsOdd A ↔ ∃ s : ImSpin α, A = toMV s := by
  constructor
  · rintro ⟨h1, h2⟩
    refine ⟨⟨A.theVec, A.theTri⟩, ?_⟩
    obtain ⟨s, v, b, t⟩ := A
    simp only at h1 h2
    rw [h1, h2]; rfl
  · rintro ⟨s, rfl⟩; exact ⟨rfl, rfl⟩

/-- **C36.** Parity of products. -/
theorem C36_even_even (A B : MultiVector α) (hA : IsEven A) (hB : IsEven B) : IsEven (A * B) := by
  rw [isEven_iff] at *
  obtain ⟨a, rfl⟩ := hA; obtain ⟨b, rfl⟩ := hB
  exact ⟨a * b, (C03_typed_product_agrees .spin .spin a b).symm⟩
theorem C36_odd_odd (A B : MultiVector α) (hA : IsOdd A) (hB : IsOdd B) : IsEven (A * B) := by
  rw [isOdd_iff] at hA hB; rw [isEven_iff]
  obtain ⟨a, rfl⟩ := hA; obtain ⟨b, rfl⟩ := hB
  exact ⟨a * b, (C03_typed_product_agrees .imsp .imsp a b).symm⟩
theorem C36_even_odd (A B : MultiVector α) (hA : IsEven A) (hB : IsOdd B) : IsOdd (A * B) := by
  rw [isEven_iff] at hA; rw [isOdd_iff] at *
  obtain ⟨a, rfl⟩ := hA; obtain ⟨b, rfl⟩ := hB
  exact ⟨a * b, (C03_typed_product_agrees .spin .imsp a b).symm⟩
theorem C36_odd_even (A B : MultiVector α) (hA : IsOdd A) (hB : IsEven B) : IsOdd (A * B) := by
  rw [isEven_iff] at hB; rw [isOdd_iff] at *
  obtain ⟨a, rfl⟩ := hA; obtain ⟨b, rfl⟩ := hB
  exact ⟨a * b, (C03_typed_product_agrees .imsp .spin a b).symm⟩

/-- **C36.** Every multivector is the sum of its grades, of its even and odd parts, and of its
complex and directed parts. -/
theorem C36_decompose (A : MultiVector α) :
    A = toMV A.theSca + toMV A.theVec + toMV A.theBiv + toMV A.theTri ∧
    A = toMV (⟨A.theSca, A.theBiv⟩ : Spinor α) + toMV (⟨A.theVec, A.theTri⟩ : ImSpin α) ∧
    A = toMV (⟨A.theSca, A.theTri⟩ : ComPlex α) + toMV (⟨A.theVec, A.theBiv⟩ : DirPlex α) ∧
    A = mvOfCplxDplx ⟨A.theSca, A.theTri⟩ ⟨A.theVec, A.theBiv⟩ := by
  refine ⟨?_, ?_, ?_, ?_⟩ <;> mv_ring

example : IsEven (mvOf8 1 0 0 0 2 3 4 0 : MultiVector Int) ∧ IsOdd (mvOf8 0 1 2 3 0 0 0 4 : MultiVector Int) :=
  ⟨⟨rfl, rfl⟩, ⟨rfl, rfl⟩⟩
end

end Engabra
