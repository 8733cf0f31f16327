import Verif.Lemmas.Tactic

/-! # C09: construction, promotion, component access

No arithmetic is involved, so everything here holds for every number type, in particular
bit for bit for doubles. -/

set_option linter.unusedSectionVars false

namespace Engabra

section
variable {β : Type}

/-- Specification: the components of a value in declaration order. -/
def comps : (t : Ty) → t.D β → List β
  | .dub, x => [x]
  | .sca, x => [x.theData.d0]
  | .vec, x => [x.theData.d0, x.theData.d1, x.theData.d2]
  | .biv, x => [x.theData.d0, x.theData.d1, x.theData.d2]
  | .tri, x => [x.theData.d0]
  | .spin, x => [x.theSca.theData.d0, x.theBiv.theData.d0, x.theBiv.theData.d1, x.theBiv.theData.d2]
  | .imsp, x => [x.theVec.theData.d0, x.theVec.theData.d1, x.theVec.theData.d2, x.theTri.theData.d0]
  | .cplx, x => [x.theSca.theData.d0, x.theTri.theData.d0]
  | .dplx, x => [x.theVec.theData.d0, x.theVec.theData.d1, x.theVec.theData.d2,
      x.theBiv.theData.d0, x.theBiv.theData.d1, x.theBiv.theData.d2]
  | .mv, x => [x.theSca.theData.d0, x.theVec.theData.d0, x.theVec.theData.d1, x.theVec.theData.d2,
      x.theBiv.theData.d0, x.theBiv.theData.d1, x.theBiv.theData.d2, x.theTri.theData.d0]

/-- `operator[]` selected by type (`double` has none; it is treated as its only component). -/
def indexTy (nan : β) : (t : Ty) → t.D β → Nat → Option β
  | .dub, x, n => if n < 1 then some x else some nan
  | .sca, x, n => x.index nan n
  | .vec, x, n => x.index nan n
  | .biv, x, n => x.index nan n
  | .tri, x, n => x.index nan n
  | .spin, x, n => x.index nan n
  | .imsp, x, n => x.index nan n
  | .cplx, x, n => x.index nan n
  | .dplx, x, n => x.index nan n
  | .mv, x, n => x.index n

/-- **C09.** For every type except `MultiVector`: `x[n]` is the n-th component in declaration
order, and NaN for every out of range index.  Access never touches memory outside the object
(the model outcome is never `none`). -/
theorem C09_index (nan : β) (t : Ty) (ht : t ≠ .mv) (x : t.D β) (n : Nat) :
    indexTy nan t x n = some ((comps t x).getD n nan) := by
  cases t <;> first | exact absurd rfl ht | skip
  all_goals
    rcases n with _ | _ | _ | _ | _ | _ | n <;>
      simp [indexTy, comps, Scalar.index, Vector.index, BiVector.index, TriVector.index,
        Spinor.index, ImSpin.index, ComPlex.index, DirPlex.index, A3.at?, List.getD]

/-- **C09.** For `MultiVector` every index from 7 up reads the trivector component; there is
no NaN result. -/
theorem C09_mv_index (x : MultiVector β) (n : Nat) :
    x.index n = (comps .mv x)[min n 7]? := by
  rcases n with _ | _ | _ | _ | _ | _ | _ | n <;>
    simp [MultiVector.index, comps, A3.at?]

/-- **C09.** Writing through `mv[n]` changes component `min n 7` and nothing else. -/
theorem C09_mv_assign (x : MultiVector β) (n : Nat) (v : β) :
    ∃ y, x.assign n v = some y ∧ comps .mv y = (comps .mv x).set (min n 7) v := by
  rcases n with _ | _ | _ | _ | _ | _ | _ | n <;>
    simp [MultiVector.assign, comps, A3.set?]

/-- Read back after write. -/
theorem C09_mv_assign_index (x y : MultiVector β) (n m : Nat) (v : β)
    (h : x.assign n v = some y) :
    y.index m = if min m 7 = min n 7 then some v else x.index m := by
  obtain ⟨y', hy', hc⟩ := C09_mv_assign x n v
  rw [h] at hy'
  obtain rfl : y = y' := by simpa using hy'
  rw [C09_mv_index, C09_mv_index, hc, List.getElem?_set]
  have hl : (comps .mv x).length = 8 := by simp [comps]
  split_ifs with h1 h2 h3 <;> first | rfl | omega

/-- The out of range behaviours differ between types: `Vector` gives NaN, `MultiVector` gives
(and overwrites) the trivector. -/
example (nan : Int) : (⟨⟨1, 2, 3⟩⟩ : Vector Int).index nan 9 = some nan
    ∧ (mvOf8 1 2 3 4 5 6 7 8 : MultiVector Int).index 99 = some 8
    ∧ (mvOf8 1 2 3 4 5 6 7 8 : MultiVector Int).assign 99 0 = some (mvOf8 1 2 3 4 5 6 7 0) :=
  ⟨rfl, rfl, rfl⟩

end

section
variable {β : Type} [Add β] [Sub β] [Mul β] [Neg β] [Zero β]

/-- **C09.** Promotion keeps the components of each grade and zero-fills the others. -/
theorem C09_promote_comps :
    (∀ x : β, comps .mv (promote .dub x) = [x, 0, 0, 0, 0, 0, 0, 0]) ∧
    (∀ x : Scalar β, comps .mv (toMV x) = comps .sca x ++ [0, 0, 0, 0, 0, 0, 0]) ∧
    (∀ x : Vector β, comps .mv (toMV x) = 0 :: comps .vec x ++ [0, 0, 0, 0]) ∧
    (∀ x : BiVector β, comps .mv (toMV x) = [0, 0, 0, 0] ++ comps .biv x ++ [0]) ∧
    (∀ x : TriVector β, comps .mv (toMV x) = [0, 0, 0, 0, 0, 0, 0] ++ comps .tri x) ∧
    (∀ x : Spinor β, comps .mv (toMV x)
      = comps .sca x.theSca ++ [0, 0, 0] ++ comps .biv x.theBiv ++ [0]) ∧
    (∀ x : ImSpin β, comps .mv (toMV x)
      = 0 :: comps .vec x.theVec ++ [0, 0, 0] ++ comps .tri x.theTri) ∧
    (∀ x : ComPlex β, comps .mv (toMV x)
      = comps .sca x.theSca ++ [0, 0, 0, 0, 0, 0] ++ comps .tri x.theTri) ∧
    (∀ x : DirPlex β, comps .mv (toMV x) = 0 :: comps .vec x.theVec ++ comps .biv x.theBiv ++ [0]) := by
  refine ⟨?_, ?_, ?_, ?_, ?_, ?_, ?_, ?_, ?_⟩ <;> intro x <;> rfl

/-- **C09.** The component-wise and the complex/directed constructors. -/
theorem C09_ctor8 (s v0 v1 v2 b0 b1 b2 t : β) :
    comps .mv (mvOf8 s v0 v1 v2 b0 b1 b2 t) = [s, v0, v1, v2, b0, b1, b2, t] := rfl

theorem C09_ctor_cplx_dplx (z : ComPlex β) (d : DirPlex β) :
    comps .mv (mvOfCplxDplx z d)
      = comps .sca z.theSca ++ comps .dplx d ++ comps .tri z.theTri := by
  simp [comps, mvOfCplxDplx]

/-- **C09.** Values are determined by their components. -/
theorem C09_comps_injective (t : Ty) : Function.Injective (comps t : t.D β → List β) := by
  intro x y h
  cases t <;> simp [comps] at h
  case dub => exact h
  case sca => ext; exact h
  case tri => ext; exact h
  all_goals ext <;> simp_all
end

end Engabra
