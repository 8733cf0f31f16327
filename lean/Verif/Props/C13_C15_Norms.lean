import Verif.Lemmas.Func
import Verif.Props.C03_TypedProducts
import Verif.Props.C06_C08_Unary
import Verif.Props.C09_Access
import Mathlib.Tactic.Linarith
import Mathlib.Tactic.Positivity
import Mathlib.Algebra.Order.Ring.Defs
import Mathlib.Tactic.NormNum

/-! # C13 (ring part), C14, C15 (ring part): squared magnitude, squared amplitude -/

set_option linter.unusedSectionVars false

namespace Engabra

section
variable {α : Type} [CommRing α]

/-- **C13.** `magSq(x)` is the sum of the squares of the components of `x`. -/
theorem C13_magSq_sum_of_squares (t : Ty) (x : t.D α) :
    magSqTy t x = ((comps t x).map fun c => c ^ 2).sum := by
  cases t <;> simp only [engabra, comps, List.map_cons, List.map_nil, List.sum_cons,
    List.sum_nil] <;> ring

/-- **C13.** `magSq(x)` is the scalar part of `x * reverse(x)` and of `reverse(x) * x`. -/
theorem C13_magSq_scalar_part (t : Ty) (x : t.D α) :
    (promote t x * reverse (promote t x)).theSca = ⟨⟨magSqTy t x⟩⟩ ∧
    (reverse (promote t x) * promote t x).theSca = ⟨⟨magSqTy t x⟩⟩ := by
  constructor <;> cases t <;> (ext; simp only [engabra]; ring)

/-- **C13.** Magnitude is invariant under the involutions, negation and dual. -/
theorem C13_magSq_unary (t : Ty) (x : t.D α) :
    magSqTy t (reverseTy t x) = magSqTy t x ∧ magSqTy t (oddverseTy t x) = magSqTy t x ∧
    magSqTy t (dirverseTy t x) = magSqTy t x ∧ magSqTy t (negTy t x) = magSqTy t x ∧
    magSqTy _ (dualTy t x) = magSqTy t x := by
  refine ⟨?_, ?_, ?_, ?_, ?_⟩ <;> cases t <;> simp only [engabra] <;> ring

/-- `magSq` of a scaled value. -/
theorem C13_magSq_smul (t : Ty) (s : α) (x : t.D α) :
    magSqTy _ (mulTy .dub t s x) = s ^ 2 * magSqTy t x := by
  cases t <;> simp only [engabra] <;> ring

/-! ## C14 -/

/-- Types whose values are multiples of versors, or complex. -/
def Ty.versor : Ty → Bool
  | .dplx => false
  | .mv => false
  | _ => true

theorem magSq_promote (t : Ty) (x : t.D α) : magSq (promote t x) = magSqTy t x := by
  cases t <;> simp only [engabra] <;> ring

/-- Left factor: for a versor type, `rev(a) * a` is the scalar `magSq(a)`. -/
theorem rev_mul_self (s : Ty) (hs : s.versor = true) (a : s.D α) :
    reverse (promote s a) * promote s a = mvOfDub (magSqTy s a) ∧
    promote s a * reverse (promote s a) = mvOfDub (magSqTy s a) := by
  cases s <;> first
    | (exfalso; revert hs; decide)
    | (constructor <;> mv_ring)

/-- The scalar part of a product does not depend on the order of the factors. -/
theorem scalar_part_comm (A B : MultiVector α) : (A * B).theSca = (B * A).theSca := by
  ext; simp only [engabra]; ring

theorem mvOfDub_mul (s : α) (A : MultiVector α) : mvOfDub s * A = s * A := by mv_ring

/-- **C14.** `magSq(a*b) = magSq(a) * magSq(b)` when *either* factor is a double, Scalar, Vector,
BiVector, TriVector, Spinor, ImSpin or ComPlex; the other may be anything. -/
theorem C14_magSq_mul (s t : Ty) (h : s.versor = true ∨ t.versor = true)
    (a : s.D α) (b : t.D α) :
    magSqTy _ (mulTy s t a b) = magSqTy s a * magSqTy t b := by
  have key : ∀ A : MultiVector α, (A * reverse A).theSca = ⟨⟨magSq A⟩⟩ :=
    fun A => (C13_magSq_scalar_part .mv A).1
  have key' : ∀ A : MultiVector α, (reverse A * A).theSca = ⟨⟨magSq A⟩⟩ :=
    fun A => (C13_magSq_scalar_part .mv A).2
  rw [← magSq_promote, C03_typed_product_agrees, ← magSq_promote t b]
  generalize hB : promote t b = B at *
  rcases h with h | h
  · obtain ⟨h1, -⟩ := rev_mul_self s h a
    generalize hA : promote s a = A at *
    have e : (reverse (A * B) * (A * B)).theSca = ⟨⟨magSqTy s a * magSq B⟩⟩ := by
      rw [C07_mv_reverse_mul, mul_assoc, ← mul_assoc (reverse A), h1, mvOfDub_mul, C01_mul_smul]
      have := key' B
      ext
      have h3 := congrArg (fun z : Scalar α => z.theData.d0) this
      simp only at h3
      rw [← h3]; simp only [engabra]
    rw [key'] at e
    exact congrArg (fun z : Scalar α => z.theData.d0) e
  · obtain ⟨-, h1⟩ := rev_mul_self t h b
    rw [hB] at h1
    have hb : magSqTy t b = magSq B := by rw [← hB, magSq_promote]
    rw [← magSq_promote s a]
    generalize hA : promote s a = A at *
    have e : ((A * B) * reverse (A * B)).theSca = ⟨⟨magSq A * magSq B⟩⟩ := by
      rw [C07_mv_reverse_mul, mul_assoc, ← mul_assoc B, h1, mvOfDub_mul, C01_mul_smul]
      have := key A
      ext
      have h3 := congrArg (fun z : Scalar α => z.theData.d0) this
      simp only at h3
      rw [← h3, hb, mul_comm]; simp only [engabra]
    rw [key] at e
    exact congrArg (fun z : Scalar α => z.theData.d0) e

/-- The hypothesis of C14 cannot be dropped, for either excluded type. -/
theorem C14_not_for_all :
    (∃ A : MultiVector Int, magSq (A * A) ≠ magSq A * magSq A) ∧
    (∃ A : DirPlex Int, magSqTy _ (mulTy .dplx .dplx A A) ≠ magSq A * magSq A) :=
  ⟨⟨mvOf8 1 1 0 0 0 0 0 0, by decide⟩, ⟨⟨⟨⟨1, 0, 0⟩⟩, ⟨⟨0, 1, 0⟩⟩⟩, by decide⟩⟩

example : magSqTy _ (mulTy .spin .mv (⟨⟨⟨1⟩⟩, ⟨⟨2, 0, 1⟩⟩⟩ : Spinor Int) (mvOf8 1 1 0 2 3 0 0 5))
    = 6 * 40 := by decide

/-! ## C15 -/

/-- **C15.** `ampSq(x)` is `x * dirverse(x)` and `dirverse(x) * x`, for every type that has it
(all nine structs). -/
theorem C15_ampSq (t : Ty) (ht : t ≠ .dub) (x : t.D α) :
    ∃ z : ComPlex α, ampSqTy t x = some z ∧
      toMV z = promote t x * dirverse (promote t x) ∧
      toMV z = dirverse (promote t x) * promote t x := by
  cases t <;> first
    | exact absurd rfl ht
    | (refine ⟨_, rfl, ?_, ?_⟩ <;> mv_ring)

/-- **C15.** `ampSq` commutes with everything (it is in the centre). -/
theorem C15_ampSq_central (z : ComPlex α) (A : MultiVector α) : toMV z * A = A * toMV z := by
  mv_ring

/-- **C15.** `ampSq(A*B) = ampSq(A)*ampSq(B)`. -/
theorem C15_ampSq_mul (A B : MultiVector α) : ampSq (A * B) = ampSq A * ampSq B := by
  have hA := C15_ampSq (α := α) .mv (by decide) A
  have hB := C15_ampSq (α := α) .mv (by decide) B
  have hAB := C15_ampSq (α := α) .mv (by decide) (A * B)
  obtain ⟨_, h1, ha, -⟩ := hA; obtain rfl := Option.some.inj h1
  obtain ⟨_, h1, hb, -⟩ := hB; obtain rfl := Option.some.inj h1
  obtain ⟨_, h1, hab, -⟩ := hAB; obtain rfl := Option.some.inj h1
  have inj : ∀ z w : ComPlex α, toMV z = toMV w → z = w := by
    intro z w h; exact promote_injective .cplx h
  apply inj
  have e : toMV (ampSq A * ampSq B) = toMV (ampSq A) * toMV (ampSq B) := by mv_ring
  rw [e, hab, ha]
  simp only [promote]
  have hb' : toMV (ampSq B) = B * dirverse B := hb
  have ha' : toMV (ampSq A) = A * dirverse A := ha
  have hc := C15_ampSq_central (ampSq B)
  change (A * B) * dirverse (A * B) = (A * dirverse A) * toMV (ampSq B)
  rw [C07_mv_dirverse_mul, mul_assoc, ← mul_assoc B, ← hb', hc, ← mul_assoc]

example : ampSq (mvOf8 1 2 0 0 0 3 0 1 : MultiVector Int) = ⟨⟨⟨5⟩⟩, ⟨⟨2⟩⟩⟩ := by decide
end

section Ordered
variable {α : Type} [CommRing α] [LinearOrder α] [IsStrictOrderedRing α]

/-- **C13.** `magSq(x) ≥ 0`. -/
theorem C13_magSq_nonneg (t : Ty) (x : t.D α) : 0 ≤ magSqTy t x := by
  rw [C13_magSq_sum_of_squares]
  apply List.sum_nonneg
  intro y hy
  obtain ⟨c, -, rfl⟩ := List.mem_map.1 hy
  positivity

/-- **C13.** `magSq(x) = 0` only when every component is zero. -/
theorem C13_magSq_eq_zero_iff (t : Ty) (x : t.D α) :
    magSqTy t x = 0 ↔ ∀ c ∈ comps t x, c = 0 := by
  rw [C13_magSq_sum_of_squares]
  generalize comps t x = l
  induction l with
  | nil => simp
  | cons a l ih =>
    have h1 : 0 ≤ (l.map fun c => c ^ 2).sum :=
      List.sum_nonneg (by intro y hy; obtain ⟨c, -, rfl⟩ := List.mem_map.1 hy; positivity)
    simp only [List.map_cons, List.sum_cons, List.mem_cons, forall_eq_or_imp]
    rw [add_eq_zero_iff_of_nonneg (by positivity) h1, ih]
    simp
end Ordered

end Engabra
