import Verif.Props.C03_TypedProducts
import Verif.Props.C04_C05_SumsDifferences

/-! # C06, C07, C08: reverse, oddverse, dirverse, dual -/

set_option linter.unusedSectionVars false

namespace Engabra

/-! ## C06: commuting involutions

Stated over *any* number type whose negation is an involution: over the reals, and over
IEEE doubles (where negation flips the sign bit), so bit for bit. -/

section C06
variable {β : Type} [Add β] [Sub β] [Mul β] [Neg β] [Zero β]

attribute [engabra] reverseTy oddverseTy dirverseTy negTy dualTy

/-- Component-wise comparison of results of unary operators. -/
local macro "uni" : tactic => `(tactic| (
  intro t x; cases t <;> first | rfl | (ext <;> simp only [engabra, *])))

theorem C06_reverse_reverse (hneg : ∀ x : β, - -x = x) :
    ∀ (t : Ty) (x : t.D β), reverseTy t (reverseTy t x) = x := by uni

theorem C06_oddverse_oddverse (hneg : ∀ x : β, - -x = x) :
    ∀ (t : Ty) (x : t.D β), oddverseTy t (oddverseTy t x) = x := by uni

theorem C06_dirverse_dirverse (hneg : ∀ x : β, - -x = x) :
    ∀ (t : Ty) (x : t.D β), dirverseTy t (dirverseTy t x) = x := by uni

theorem C06_reverse_oddverse (hneg : ∀ x : β, - -x = x) :
    ∀ (t : Ty) (x : t.D β), reverseTy t (oddverseTy t x) = dirverseTy t x := by uni

theorem C06_oddverse_reverse (hneg : ∀ x : β, - -x = x) :
    ∀ (t : Ty) (x : t.D β), oddverseTy t (reverseTy t x) = dirverseTy t x := by uni

theorem C06_reverse_dirverse (hneg : ∀ x : β, - -x = x) :
    ∀ (t : Ty) (x : t.D β), reverseTy t (dirverseTy t x) = oddverseTy t x := by uni

theorem C06_dirverse_reverse (hneg : ∀ x : β, - -x = x) :
    ∀ (t : Ty) (x : t.D β), dirverseTy t (reverseTy t x) = oddverseTy t x := by uni

theorem C06_oddverse_dirverse (hneg : ∀ x : β, - -x = x) :
    ∀ (t : Ty) (x : t.D β), oddverseTy t (dirverseTy t x) = reverseTy t x := by uni

theorem C06_dirverse_oddverse (hneg : ∀ x : β, - -x = x) :
    ∀ (t : Ty) (x : t.D β), dirverseTy t (oddverseTy t x) = reverseTy t x := by uni

/-- Non-triviality: the three operations are pairwise different and none is the identity. -/
example : reverseTy .mv (mvOf8 1 2 3 4 5 6 7 8 : MultiVector Int) = mvOf8 1 2 3 4 (-5) (-6) (-7) (-8)
    ∧ oddverseTy .mv (mvOf8 1 2 3 4 5 6 7 8 : MultiVector Int)
        = mvOf8 1 (-2) (-3) (-4) 5 6 7 (-8)
    ∧ dirverseTy .mv (mvOf8 1 2 3 4 5 6 7 8 : MultiVector Int)
        = mvOf8 1 (-2) (-3) (-4) (-5) (-6) (-7) 8 := by decide
end C06

/-! ## C07: (anti-)automorphisms, for every typed product -/

section C07
variable {α : Type} [CommRing α]

theorem promote_reverse (t : Ty) (x : t.D α) :
    promote t (reverseTy t x) = reverse (promote t x) := by
  cases t <;> mv_ring

theorem promote_oddverse (t : Ty) (x : t.D α) :
    promote t (oddverseTy t x) = oddverse (promote t x) := by
  cases t <;> mv_ring

theorem promote_dirverse (t : Ty) (x : t.D α) :
    promote t (dirverseTy t x) = dirverse (promote t x) := by
  cases t <;> mv_ring

theorem promote_neg (t : Ty) (x : t.D α) : promote t (negTy t x) = - promote t x := by
  cases t <;> mv_ring

theorem C07_mv_reverse_mul (A B : MultiVector α) : reverse (A * B) = reverse B * reverse A := by
  mv_ring
theorem C07_mv_oddverse_mul (A B : MultiVector α) :
    oddverse (A * B) = oddverse A * oddverse B := by mv_ring
theorem C07_mv_dirverse_mul (A B : MultiVector α) :
    dirverse (A * B) = dirverse B * dirverse A := by mv_ring

/-- **C07.** `reverse(a*b)` is `reverse(b)*reverse(a)` for every pair of operand types. -/
theorem C07_reverse_mul (s t : Ty) (a : s.D α) (b : t.D α) :
    promote _ (reverseTy _ (mulTy s t a b))
      = promote _ (mulTy t s (reverseTy t b) (reverseTy s a)) := by
  rw [promote_reverse, C03_typed_product_agrees, C03_typed_product_agrees, promote_reverse,
    promote_reverse, C07_mv_reverse_mul]

/-- **C07.** `oddverse(a*b)` is `oddverse(a)*oddverse(b)` for every pair of operand types,
as values of the same result type. -/
theorem C07_oddverse_mul (s t : Ty) (a : s.D α) (b : t.D α) :
    promote _ (oddverseTy _ (mulTy s t a b))
      = promote _ (mulTy s t (oddverseTy s a) (oddverseTy t b)) := by
  rw [promote_oddverse, C03_typed_product_agrees, C03_typed_product_agrees, promote_oddverse,
    promote_oddverse, C07_mv_oddverse_mul]

/-- **C07.** `dirverse(a*b)` is `dirverse(b)*dirverse(a)` for every pair of operand types. -/
theorem C07_dirverse_mul (s t : Ty) (a : s.D α) (b : t.D α) :
    promote _ (dirverseTy _ (mulTy s t a b))
      = promote _ (mulTy t s (dirverseTy t b) (dirverseTy s a)) := by
  rw [promote_dirverse, C03_typed_product_agrees, C03_typed_product_agrees, promote_dirverse,
    promote_dirverse, C07_mv_dirverse_mul]

/-- The result type of a product does not depend on operand order (so the two sides above
have the same C++ type). -/
theorem C07_mulRes_comm (s t : Ty) : mulRes s t = mulRes t s := by
  cases s <;> cases t <;> rfl

/-- Promotion loses nothing, so equality of promotions is equality of values. -/
theorem promote_injective (t : Ty) : Function.Injective (promote t : t.D α → MultiVector α) := by
  intro x y h
  have h0 := congrArg (fun m : MultiVector α => m.theSca.theData.d0) h
  have h1 := congrArg (fun m : MultiVector α => m.theVec.theData.d0) h
  have h2 := congrArg (fun m : MultiVector α => m.theVec.theData.d1) h
  have h3 := congrArg (fun m : MultiVector α => m.theVec.theData.d2) h
  have h4 := congrArg (fun m : MultiVector α => m.theBiv.theData.d0) h
  have h5 := congrArg (fun m : MultiVector α => m.theBiv.theData.d1) h
  have h6 := congrArg (fun m : MultiVector α => m.theBiv.theData.d2) h
  have h7 := congrArg (fun m : MultiVector α => m.theTri.theData.d0) h
  cases t <;> simp only [engabra] at h0 h1 h2 h3 h4 h5 h6 h7 <;>
    first | exact h0 | (ext <;> assumption)

theorem C07_reverse_add (A B : MultiVector α) : reverse (A + B) = reverse A + reverse B := by
  mv_ring
theorem C07_oddverse_add (A B : MultiVector α) : oddverse (A + B) = oddverse A + oddverse B := by
  mv_ring
theorem C07_dirverse_add (A B : MultiVector α) : dirverse (A + B) = dirverse A + dirverse B := by
  mv_ring
theorem C07_reverse_smul (s : α) (A : MultiVector α) : reverse (s * A) = s * reverse A := by mv_ring
theorem C07_oddverse_smul (s : α) (A : MultiVector α) : oddverse (s * A) = s * oddverse A := by
  mv_ring
theorem C07_dirverse_smul (s : α) (A : MultiVector α) : dirverse (s * A) = s * dirverse A := by
  mv_ring

/-- Non-triviality: the order reversal in C07 matters. -/
example : ∃ A B : MultiVector Int, reverse (A * B) ≠ reverse A * reverse B :=
  ⟨toMV (e1 : Vector Int), toMV (e2 : Vector Int), by decide⟩
end C07

/-! ## C08: dual -/

section C08
variable {α : Type} [CommRing α]

/-- **C08.** `dual(x) = e123 * x` for all ten argument types. -/
theorem C08_dual_eq_left (t : Ty) (x : t.D α) :
    promote _ (dualTy t x) = toMV (e123 : TriVector α) * promote t x := by
  cases t <;> mv_ring

/-- **C08.** `dual(x) = x * e123`. -/
theorem C08_dual_eq_right (t : Ty) (x : t.D α) :
    promote _ (dualTy t x) = promote t x * toMV (e123 : TriVector α) := by
  cases t <;> mv_ring

/-- **C08.** `dual(dual(x)) = -x`. -/
theorem C08_dual_dual (t : Ty) (x : t.D α) :
    promote _ (dualTy _ (dualTy t x)) = - promote t x := by
  cases t <;> mv_ring

/-- `dual(dual(x)) = -x` exactly, for the nine structs and in every number type with
`-x` as negation (bit for bit on doubles): no identity of real arithmetic is used. -/
theorem C08_dual_dual_exact {β : Type} [Add β] [Sub β] [Mul β] [Neg β] [Zero β] :
    (∀ x : Scalar β, dual (dual x) = -x) ∧ (∀ x : Vector β, dual (dual x) = -x) ∧
    (∀ x : BiVector β, dual (dual x) = -x) ∧ (∀ x : TriVector β, dual (dual x) = -x) ∧
    (∀ x : Spinor β, dual (dual x) = -x) ∧ (∀ x : ImSpin β, dual (dual x) = -x) ∧
    (∀ x : ComPlex β, dual (dual x) = -x) ∧ (∀ x : DirPlex β, dual (dual x) = -x) ∧
    (∀ x : MultiVector β, dual (dual x) = -x) := by
  refine ⟨?_, ?_, ?_, ?_, ?_, ?_, ?_, ?_, ?_⟩ <;> intro x <;> rfl

/-- **C08.** The dual can be moved across any typed product. -/
theorem C08_dual_mul (s t : Ty) (a : s.D α) (b : t.D α) :
    promote _ (dualTy _ (mulTy s t a b)) = promote _ (mulTy _ t (dualTy s a) b)
    ∧ promote _ (dualTy _ (mulTy s t a b)) = promote _ (mulTy s _ a (dualTy t b)) := by
  constructor
  · rw [C08_dual_eq_left, C03_typed_product_agrees, C03_typed_product_agrees, C08_dual_eq_left,
      mul_assoc]
  · rw [C08_dual_eq_right, C03_typed_product_agrees, C03_typed_product_agrees, C08_dual_eq_right,
      mul_assoc]

/-- The documented dual types: scalar/trivector, vector/bivector, spinor/imspin are exchanged,
complex, directed complex and multivector stay. -/
theorem C08_dual_types : dualRes .sca = .tri ∧ dualRes .tri = .sca ∧ dualRes .vec = .biv ∧
    dualRes .biv = .vec ∧ dualRes .spin = .imsp ∧ dualRes .imsp = .spin ∧
    dualRes .cplx = .cplx ∧ dualRes .dplx = .dplx ∧ dualRes .mv = .mv := by decide

example : dual (⟨⟨1, 2, 3⟩⟩ : BiVector Int) = (⟨⟨-1, -2, -3⟩⟩ : Vector Int) := rfl
end C08

end Engabra
