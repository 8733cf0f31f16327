import Verif.Spec.Grades
import Verif.Model.Traits
import Verif.Props.C03_TypedProducts
import Verif.Props.C33_Rounding
import Verif.Model.Template
import Mathlib.Tactic.LinearCombination

/-! # C55: the types of values, products, sums and differences -/

namespace Engabra

open Spec

set_option linter.unusedSectionVars false

section
variable {α : Type} [CommRing α]

/-- **C55.** A type holds exactly the multivectors whose components lie in its grades. -/
theorem C55_type_holds_its_grades (t : Ty) (A : MultiVector α) :
    (∃ x : t.D α, promote t x = A) ↔ ∀ k, gradeOf k ∉ gradesOf t → cf A k = 0 := by
  obtain ⟨⟨⟨s⟩⟩, ⟨⟨v0, v1, v2⟩⟩, ⟨⟨b0, b1, b2⟩⟩, ⟨⟨p⟩⟩⟩ := A
  constructor
  · rintro ⟨x, hx⟩ k hk
    rw [← hx]
    revert k hk
    cases t <;> (apply forall_fin8) <;> intro hk <;>
      first
      | (exfalso; revert hk; decide)
      | rfl
  · intro h
    have h0 := h 0; have h1 := h 1; have h2 := h 2; have h3 := h 3
    have h4 := h 4; have h5 := h 5; have h6 := h 6; have h7 := h 7
    simp only [cf_0, cf_1, cf_2, cf_3, cf_4, cf_5, cf_6, cf_7] at h0 h1 h2 h3 h4 h5 h6 h7
    cases t <;>
      simp only [gradesOf, gradeOf, List.mem_cons, List.not_mem_nil] at h0 h1 h2 h3 h4 h5 h6 h7 <;>
      norm_num at h0 h1 h2 h3 h4 h5 h6 h7
    · exact ⟨s, by simp only [*]; rfl⟩
    · exact ⟨⟨⟨s⟩⟩, by simp only [*]; rfl⟩
    · exact ⟨⟨⟨v0, v1, v2⟩⟩, by simp only [*]; rfl⟩
    · exact ⟨⟨⟨b0, b1, b2⟩⟩, by simp only [*]; rfl⟩
    · exact ⟨⟨⟨p⟩⟩, by simp only [*]; rfl⟩
    · exact ⟨⟨⟨⟨s⟩⟩, ⟨⟨b0, b1, b2⟩⟩⟩, by simp only [*]; rfl⟩
    · exact ⟨⟨⟨⟨v0, v1, v2⟩⟩, ⟨⟨p⟩⟩⟩, by simp only [*]; rfl⟩
    · exact ⟨⟨⟨⟨s⟩⟩, ⟨⟨p⟩⟩⟩, by simp only [*]; rfl⟩
    · exact ⟨⟨⟨⟨v0, v1, v2⟩⟩, ⟨⟨b0, b1, b2⟩⟩⟩, by simp only [*]; rfl⟩
    · exact ⟨⟨⟨⟨s⟩⟩, ⟨⟨v0, v1, v2⟩⟩, ⟨⟨b0, b1, b2⟩⟩, ⟨⟨p⟩⟩⟩, rfl⟩

end

/-- A value of each type, with distinct components, to show that no component of a product type
is always zero. -/
def sampleTy (n : ℤ) : (t : Ty) → t.D ℤ
  | .dub => (n : ℤ)
  | .sca => ⟨⟨n⟩⟩
  | .vec => ⟨⟨n + 1, 2 * n + 3, 5 * n⟩⟩
  | .biv => ⟨⟨7 * n, 11 * n + 1, n + 13⟩⟩
  | .tri => ⟨⟨17 * n⟩⟩
  | .spin => ⟨⟨⟨n⟩⟩, ⟨⟨7 * n, 11 * n + 1, n + 13⟩⟩⟩
  | .imsp => ⟨⟨⟨n + 1, 2 * n + 3, 5 * n⟩⟩, ⟨⟨17 * n⟩⟩⟩
  | .cplx => ⟨⟨⟨n⟩⟩, ⟨⟨17 * n⟩⟩⟩
  | .dplx => ⟨⟨⟨n + 1, 2 * n + 3, 5 * n⟩⟩, ⟨⟨7 * n, 11 * n + 1, n + 13⟩⟩⟩
  | .mv => ⟨⟨⟨n⟩⟩, ⟨⟨n + 1, 2 * n + 3, 5 * n⟩⟩, ⟨⟨7 * n, 11 * n + 1, n + 13⟩⟩, ⟨⟨17 * n⟩⟩⟩

theorem sample_product (s t : Ty) (k : Fin 8) (h : gradeOf k ∈ gradesOf (mulRes s t)) :
    cf (promote s (sampleTy 2 s) * promote t (sampleTy 3 t)) k ≠ 0 := by
  revert k
  cases s <;> cases t <;> decide +kernel

theorem promote_mapTy {β : Type} [Zero β] {α : Type} [Zero α] (f : β → α) (hf : f 0 = 0) (t : Ty)
    (x : t.D β) : promote t (mapTy f t x) = mapTy f .mv (promote t x) := by
  cases t <;> simp only [promote, mapTy, mvOfDub, toMV, hf]


theorem mul_mapMV (A B : MultiVector ℤ) (k : Fin 8) :
    cf ((mapTy (fun n : ℤ => (n : ℝ)) .mv A : MultiVector ℝ)
      * (mapTy (fun n : ℤ => (n : ℝ)) .mv B : MultiVector ℝ)) k = ((cf (A * B) k : ℤ) : ℝ) := by
  revert k
  apply forall_fin8 <;> simp only [cf_0, cf_1, cf_2, cf_3, cf_4, cf_5, cf_6, cf_7, mapTy, engabra] <;>
    push_cast <;> ring

/-- **C55.** The declared type of a product `a * b` is as small as it can be: it holds exactly the
components which are not zero in every product of such operands. -/
theorem C55_product_type_exact (s t : Ty) (k : Fin 8) :
    gradeOf k ∈ gradesOf (mulRes s t)
      ↔ ∃ (a : s.D ℝ) (b : t.D ℝ), cf (promote s a * promote t b) k ≠ 0 := by
  constructor
  · intro h
    refine ⟨mapTy (fun n : ℤ => (n : ℝ)) s (sampleTy 2 s),
      mapTy (fun n : ℤ => (n : ℝ)) t (sampleTy 3 t), ?_⟩
    rw [promote_mapTy _ Int.cast_zero, promote_mapTy _ Int.cast_zero]
    refine fun e => sample_product s t k h ?_
    exact_mod_cast (mul_mapMV _ _ k).symm.trans e
  · rintro ⟨a, b, h⟩
    by_contra hk
    refine h ?_
    rw [← C03_typed_product_agrees]
    exact (C55_type_holds_its_grades (mulRes s t) _).1 ⟨_, rfl⟩ k hk

/-- `r` has exactly the grades of `s` and of `t`. -/
def Covers (r s t : Ty) : Prop := ∀ g, g ∈ gradesOf r ↔ g ∈ gradesOf s ∨ g ∈ gradesOf t

theorem covers_iff (r s t : Ty) : Covers r s t ↔
    (∀ g ∈ gradesOf r, g ∈ gradesOf s ∨ g ∈ gradesOf t) ∧ (∀ g ∈ gradesOf s, g ∈ gradesOf r)
      ∧ ∀ g ∈ gradesOf t, g ∈ gradesOf r :=
  ⟨fun h => ⟨fun g hg => (h g).1 hg, fun g hg => (h g).2 (Or.inl hg),
    fun g hg => (h g).2 (Or.inr hg)⟩,
   fun h g => ⟨h.1 g, fun hg => hg.elim (h.2.1 g) (h.2.2 g)⟩⟩

instance (r s t : Ty) : Decidable (Covers r s t) := decidable_of_iff' _ (covers_iff r s t)

/-- the type of `s + t`, if any -/
def addRes (s t : Ty) : Option Ty := (addTy s t (sampleTy 1 s) (sampleTy 1 t)).map Sigma.fst

/-- the type of `s - t`, if any -/
def subRes (s t : Ty) : Option Ty := (subTy s t (sampleTy 1 s) (sampleTy 1 t)).map Sigma.fst

theorem addRes_eq (s t : Ty) (a : s.D ℝ) (b : t.D ℝ) :
    (addTy s t a b).map Sigma.fst = addRes s t := by cases s <;> cases t <;> rfl

theorem subRes_eq (s t : Ty) (a : s.D ℝ) (b : t.D ℝ) :
    (subTy s t a b).map Sigma.fst = subRes s t := by cases s <;> cases t <;> rfl

theorem res_exact {s t : Ty} {o : Option Ty} {q : Option (Sigma fun r : Ty => r.D ℝ)}
    (hq : q.map Sigma.fst = o) (h : ∀ r, o = some r → r ≠ .dub ∧ Covers r s t)
    (h' : o = none → ∀ r, ¬ Covers r s t) :
    ((∃ r c, q = some ⟨r, c⟩) ↔ ∃ r, Covers r s t)
    ∧ ∀ r c, q = some ⟨r, c⟩ → r ≠ .dub ∧ Covers r s t := by
  subst hq
  refine ⟨⟨?_, ?_⟩, ?_⟩
  · rintro ⟨r, c, rfl⟩; exact ⟨r, (h r rfl).2⟩
  · rintro ⟨r, hr⟩
    cases q with
    | none => exact absurd hr (h' rfl r)
    | some x => exact ⟨x.1, x.2, rfl⟩
  · rintro r c rfl; exact h r rfl

/-- **C55.** `s + t` is declared for two library types exactly when some library type has the
grades of both, and then the result has exactly those grades. -/
theorem C55_sum_type_exact (s t : Ty) (hs : s ≠ .dub) (ht : t ≠ .dub) (a : s.D ℝ) (b : t.D ℝ) :
    ((∃ r c, addTy s t a b = some ⟨r, c⟩)
      ↔ ∃ r, ∀ g, g ∈ gradesOf r ↔ g ∈ gradesOf s ∨ g ∈ gradesOf t)
    ∧ ∀ r c, addTy s t a b = some ⟨r, c⟩ →
        r ≠ .dub ∧ ∀ g, g ∈ gradesOf r ↔ g ∈ gradesOf s ∨ g ∈ gradesOf t := by
  refine res_exact (addRes_eq s t a b) (fun r hr => ?_) (fun hn r => ?_)
  · revert hs ht hr; revert r; clear a b
    cases s <;> cases t <;> intro r <;> cases r <;> decide
  · revert hs ht hn; clear a b
    cases s <;> cases t <;> cases r <;> decide

/-- **C55.** The same for `s - t`. -/
theorem C55_difference_type_exact (s t : Ty) (hs : s ≠ .dub) (ht : t ≠ .dub) (a : s.D ℝ)
    (b : t.D ℝ) :
    ((∃ r c, subTy s t a b = some ⟨r, c⟩)
      ↔ ∃ r, ∀ g, g ∈ gradesOf r ↔ g ∈ gradesOf s ∨ g ∈ gradesOf t)
    ∧ ∀ r c, subTy s t a b = some ⟨r, c⟩ →
        r ≠ .dub ∧ ∀ g, g ∈ gradesOf r ↔ g ∈ gradesOf s ∨ g ∈ gradesOf t := by
  refine res_exact (subRes_eq s t a b) (fun r hr => ?_) (fun hn r => ?_)
  · revert hs ht hr; revert r; clear a b
    cases s <;> cases t <;> intro r <;> cases r <;> decide
  · revert hs ht hn; clear a b
    cases s <;> cases t <;> cases r <;> decide

/-- **C55.** A plain `double` can be added to or subtracted from a `double` only. -/
theorem C55_double_sums (t : Ty) (x : ℝ) (y : t.D ℝ) :
    ((addTy .dub t x y).isSome ↔ t = .dub) ∧ ((addTy t .dub y x).isSome ↔ t = .dub)
      ∧ ((subTy .dub t x y).isSome ↔ t = .dub) ∧ ((subTy t .dub y x).isSome ↔ t = .dub) := by
  cases t <;> refine ⟨?_, ?_, ?_, ?_⟩ <;> constructor <;> intro h <;>
    first
    | rfl
    | cases h

/-- **C55.** The dual of a type with grades `g` has exactly the grades `3 - g`. -/
theorem C55_dual_type_exact (t : Ty) (g : Nat) :
    g ∈ gradesOf (dualRes t) ↔ g ≤ 3 ∧ 3 - g ∈ gradesOf t := by
  match g with
  | 0 | 1 | 2 | 3 => cases t <;> decide
  | n + 4 => cases t <;> simp [gradesOf]

/-- Sum and difference of a spinor and an odd element are multivectors; scalar plus vector has no
type. -/
example : (∃ r, ∀ g, g ∈ gradesOf r ↔ g ∈ gradesOf .spin ∨ g ∈ gradesOf .imsp)
    ∧ ¬ ∃ r, ∀ g, g ∈ gradesOf r ↔ g ∈ gradesOf .sca ∨ g ∈ gradesOf .vec := by
  refine ⟨⟨.mv, (by decide : Covers .mv .spin .imsp)⟩, ?_⟩
  rintro ⟨r, hr⟩
  have : ¬ Covers r .sca .vec := by cases r <;> decide
  exact this hr

/-- The product of a vector and a bivector fills every component of its type. -/
example : mulRes .vec .biv = .imsp ∧ gradeOf 7 ∈ gradesOf .imsp ∧ gradeOf 0 ∉ gradesOf .imsp := by
  decide

/-! ## blades -/

theorem dot_mul (a b : V3 ℝ) (h : dot a b = 0) : vecMV a * vecMV b
    = ⟨⟨⟨0⟩⟩, ⟨⟨0, 0, 0⟩⟩, ⟨⟨a.y * b.z - a.z * b.y, a.z * b.x - a.x * b.z, a.x * b.y - a.y * b.x⟩⟩,
        ⟨⟨0⟩⟩⟩ := by
  simp only [dot] at h
  have h' : a.x * b.x = - (a.y * b.y) - a.z * b.z := by linear_combination h
  simp only [vecMV, engabra]
  simp only [h', MultiVector.mk.injEq, Scalar.mk.injEq, Vector.mk.injEq, BiVector.mk.injEq,
    TriVector.mk.injEq, A1.mk.injEq, A3.mk.injEq]
  refine ⟨?_, ⟨?_, ?_, ?_⟩, ⟨?_, ?_, ?_⟩, ?_⟩ <;> ring

/-- A blade of grade `g` has no component of another grade. -/
theorem blade_grade (g : Nat) (A : MultiVector ℝ) (h : IsBlade g A) (k : Fin 8)
    (hk : gradeOf k ≠ g) : cf A k = 0 := by
  match g, h with
  | 0, ⟨c, h⟩ =>
    subst h; revert k; apply forall_fin8 <;> intro hk <;> first | exact absurd rfl hk | rfl
  | 1, ⟨a, h⟩ =>
    subst h; revert k; apply forall_fin8 <;> intro hk <;> first | exact absurd rfl hk | rfl
  | 2, ⟨a, b, hab, h⟩ =>
    rw [h, dot_mul a b hab]
    revert k; apply forall_fin8 <;> intro hk <;> first | exact absurd rfl hk | rfl
  | 3, ⟨a, b, c, hab, hac, hbc, h⟩ =>
    rw [h, dot_mul a b hab]
    simp only [dot] at hab hac hbc
    revert k; apply forall_fin8 <;> intro hk <;>
      first
      | exact absurd rfl hk
      | (simp only [cf_0, cf_1, cf_2, cf_3, cf_4, cf_5, cf_6, vecMV, engabra]
         first
         | ring1
         | linear_combination a.x * hbc - b.x * hac
         | linear_combination b.x * hac - a.x * hbc
         | linear_combination a.y * hbc - b.y * hac
         | linear_combination b.y * hac - a.y * hbc
         | linear_combination a.z * hbc - b.z * hac)

/-- Every bivector is a product of two orthogonal vectors. -/
theorem bivector_blade (p q r : ℝ) :
    IsBlade 2 ⟨⟨⟨0⟩⟩, ⟨⟨0, 0, 0⟩⟩, ⟨⟨p, q, r⟩⟩, ⟨⟨0⟩⟩⟩ := by
  by_cases h : p ^ 2 + q ^ 2 = 0
  · have hp : p = 0 := by nlinarith [sq_nonneg p, sq_nonneg q]
    have hq : q = 0 := by nlinarith [sq_nonneg p, sq_nonneg q]
    have d : dot (⟨1, 0, 0⟩ : V3 ℝ) ⟨0, r, 0⟩ = 0 := by simp [dot]
    refine ⟨_, _, d, ?_⟩
    rw [dot_mul _ _ d]
    simp [hp, hq]
  · set n := p ^ 2 + q ^ 2 with hn
    have d : dot (⟨-q, p, 0⟩ : V3 ℝ) ⟨-(p * r) / n, -(q * r) / n, (p ^ 2 + q ^ 2) / n⟩ = 0 := by
      simp only [dot]; ring
    refine ⟨_, _, d, ?_⟩
    rw [dot_mul _ _ d]
    simp only [MultiVector.mk.injEq, BiVector.mk.injEq, A3.mk.injEq, true_and, and_true]
    refine ⟨?_, ?_, ?_⟩
    · rw [← hn, div_self h]; ring
    · rw [← hn, div_self h]; ring
    · field_simp; rw [hn]; ring

theorem trivector_blade (p : ℝ) : IsBlade 3 ⟨⟨⟨0⟩⟩, ⟨⟨0, 0, 0⟩⟩, ⟨⟨0, 0, 0⟩⟩, ⟨⟨p⟩⟩⟩ := by
  refine ⟨⟨p, 0, 0⟩, ⟨0, 1, 0⟩, ⟨0, 0, 1⟩, by simp [dot], by simp [dot], by simp [dot], ?_⟩
  rw [dot_mul _ _ (by simp [dot])]
  simp [vecMV, engabra]

/-- **C55.** `is::blade<T>` is true of a library type exactly when every value of the type is a
blade; in particular every `BiVector` is a product of two orthogonal vectors, and the five
composite types hold values which are not blades. -/
theorem C55_blade_trait (t : Ty) (ht : t ≠ .dub) :
    isBladeTy t = true ↔ ∃ g, ∀ x : t.D ℝ, IsBlade g (promote t x) := by
  constructor
  · intro h
    cases t <;> first | exact absurd rfl ht | cases h
    · exact ⟨0, fun x => ⟨x.theData.d0, rfl⟩⟩
    · exact ⟨1, fun x => ⟨⟨x.theData.d0, x.theData.d1, x.theData.d2⟩, rfl⟩⟩
    · exact ⟨2, fun x => bivector_blade _ _ _⟩
    · exact ⟨3, fun x => trivector_blade _⟩
  · rintro ⟨g, hg⟩
    have two : ∀ (x : t.D ℝ) (k l : Fin 8), gradeOf k ≠ gradeOf l → cf (promote t x) k = 0
        ∨ cf (promote t x) l = 0 := fun x k l hkl => by
      by_cases e : gradeOf k = g
      · exact Or.inr (blade_grade g _ (hg x) l (fun e' => hkl (e.trans e'.symm)))
      · exact Or.inl (blade_grade g _ (hg x) k e)
    cases t
    case dub => exact absurd rfl ht
    case sca | vec | biv | tri => rfl
    case spin =>
      have := two ⟨⟨⟨1⟩⟩, ⟨⟨1, 0, 0⟩⟩⟩ 0 4 (by decide)
      simp [promote, toMV, cf_0, cf_4] at this
    case imsp =>
      have := two ⟨⟨⟨1, 0, 0⟩⟩, ⟨⟨1⟩⟩⟩ 1 7 (by decide)
      simp [promote, toMV, cf_1, cf_7] at this
    case cplx =>
      have := two ⟨⟨⟨1⟩⟩, ⟨⟨1⟩⟩⟩ 0 7 (by decide)
      simp [promote, toMV, cf_0, cf_7] at this
    case dplx =>
      have := two ⟨⟨⟨1, 0, 0⟩⟩, ⟨⟨1, 0, 0⟩⟩⟩ 1 4 (by decide)
      simp [promote, toMV, cf_1, cf_4] at this
    case mv =>
      have := two ⟨⟨⟨1⟩⟩, ⟨⟨1, 0, 0⟩⟩, ⟨⟨0, 0, 0⟩⟩, ⟨⟨0⟩⟩⟩ 0 1 (by decide)
      simp [promote, cf_0, cf_1] at this

/-- **C55.** Although every `double` is a blade of grade 0, `is::blade<double>` is false. -/
theorem C55_double_not_blade :
    isBladeTy .dub = false ∧ ∀ x : Ty.D ℝ .dub, IsBlade 0 (promote .dub x) :=
  ⟨rfl, fun x => ⟨x, rfl⟩⟩

def mvOfFun (f : Fin 8 → ℝ) : MultiVector ℝ :=
  ⟨⟨⟨f 0⟩⟩, ⟨⟨f 1, f 2, f 3⟩⟩, ⟨⟨f 4, f 5, f 6⟩⟩, ⟨⟨f 7⟩⟩⟩

theorem cf_mvOfFun (f : Fin 8 → ℝ) : ∀ k, cf (mvOfFun f) k = f k := by
  apply forall_fin8 <;> rfl

/-- **C55.** The test `is::N<T>` is true exactly when `T` is a library type with the same values as
the type `N` it is named after. -/
theorem C55_named_tests (n t : Ty) (test : Ty → Bool) (h : namedTestTy n = some test) :
    test t = true ↔ t ≠ .dub ∧
      ∀ A : MultiVector ℝ, (∃ x : t.D ℝ, promote t x = A) ↔ ∃ y : n.D ℝ, promote n y = A := by
  have key : test t = true ↔ t ≠ .dub ∧ ∀ k, gradeOf k ∈ gradesOf t ↔ gradeOf k ∈ gradesOf n := by
    cases n <;> cases h <;> cases t <;> decide
  rw [key]
  refine and_congr_right fun _ => ⟨fun h A => ?_, fun h k => ?_⟩
  · rw [C55_type_holds_its_grades, C55_type_holds_its_grades]
    simp only [h]
  · have hk : ∀ s : Ty, (∃ x : s.D ℝ, promote s x = mvOfFun fun l => if l = k then 1 else 0)
        ↔ gradeOf k ∈ gradesOf s := fun s => by
      rw [C55_type_holds_its_grades]
      constructor
      · intro h
        by_contra hc
        have := h k hc
        rw [cf_mvOfFun, if_pos rfl] at this
        exact one_ne_zero this
      · intro hm l hl
        rw [cf_mvOfFun, if_neg]
        rintro rfl
        exact hl hm
    rw [← hk t, ← hk n, h]

example : namedTestTy .spin = some isSpinorTy ∧ isSpinorTy .spin = true ∧ isSpinorTy .mv = false :=
  ⟨rfl, rfl, rfl⟩

/-- Exactly one named test is true of each library type, none of `double`. -/
theorem C55_named_tests_exclusive (t : Ty) :
    ([isScalarTy t, isVectorTy t, isBiVectorTy t, isTriVectorTy t, isSpinorTy t, isImSpinTy t,
      isComPlexTy t, isDirPlexTy t, isMultiVectorTy t].count true) = if t = .dub then 0 else 1 := by
  cases t <;> rfl

end Engabra
