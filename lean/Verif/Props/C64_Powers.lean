import Verif.Model.Power
import Verif.Props.C55_Types
import Verif.Props.C19_Isomorphisms
import Verif.Props.C20_Exp
import Verif.Props.C32_ProductSigns
import Mathlib.Analysis.Complex.Polynomial.Basic

/-! # C64: `sq` and `cube`

Which arguments they accept, what they return, and which values they can return. -/

namespace Engabra

open Spec

attribute [local engabra] sq cube sqTy cubeTy

section
variable {α : Type} [CommRing α]

/-- **C64.** `sq(x)` is `x*x` and `cube(x)` is `x*x*x` in the algebra, whenever they compile. -/
theorem C64_value (t : Ty) (x y : t.D α) :
    (sqTy t x = some y → promote t y = promote t x * promote t x) ∧
    (cubeTy t x = some y → promote t y = promote t x * promote t x * promote t x) := by
  constructor <;> cases t <;> intro h <;> simp only [sqTy, cubeTy, reduceCtorEq, Option.some.injEq] at h <;>
    subst h <;> mv_ring

/-- **C64.** The cube of a value of any of the ten types is again a value of that type, also for
the types for which `cube` does not compile. -/
theorem C64_cube_fits (t : Ty) (x : t.D α) :
    ∃ y : t.D α, promote t y = promote t x * promote t x * promote t x := by
  cases t
  case vec => exact ⟨magSqTy .vec x * x, by simp only [magSqTy]; mv_ring⟩
  case biv => exact ⟨-(magSqTy .biv x) * x, by simp only [magSqTy]; mv_ring⟩
  case dplx =>
    refine ⟨⟨(promote .dplx x * promote .dplx x * promote .dplx x).theVec,
      (promote .dplx x * promote .dplx x * promote .dplx x).theBiv⟩, ?_⟩
    mv_ring
  all_goals exact ⟨_, (C64_value _ x _).2 rfl⟩

end

/-! ## Which calls compile -/

theorem promote_of_eq {s t : Ty} (h : s = t) (y : s.D ℝ) :
    ∃ c : t.D ℝ, promote t c = promote s y := by
  subst h; exact ⟨y, rfl⟩

/-- **C64.** `sq` compiles exactly for the types which are closed under products: the product of
any two values of the type is a value of the type. -/
theorem C64_sq_compiles (t : Ty) (x : t.D ℝ) :
    (sqTy t x).isSome = true ↔ ∀ a b : t.D ℝ, ∃ c : t.D ℝ, promote t c = promote t a * promote t b := by
  constructor
  · intro h a b
    have : mulRes t t = t := by
      cases t <;> first | rfl | (simp [sqTy] at h)
    rw [← C03_typed_product_agrees t t a b]
    exact promote_of_eq this _
  · intro h
    have hg : ∀ k, gradeOf k ∈ gradesOf (mulRes t t) → gradeOf k ∈ gradesOf t := by
      intro k hk
      obtain ⟨a, b, hab⟩ := (C55_product_type_exact t t k).1 hk
      obtain ⟨c, hc⟩ := h a b
      by_contra hn
      exact hab (hc ▸ (C55_type_holds_its_grades t _).1 ⟨c, rfl⟩ k hn)
    cases t <;> first | rfl | (exfalso; revert hg; decide)

/-- **C64.** `cube` compiles exactly for the types which are closed under products of three. -/
theorem C64_cube_compiles (t : Ty) (x : t.D ℝ) :
    (cubeTy t x).isSome = true ↔
      ∀ a b c : t.D ℝ, ∃ d : t.D ℝ, promote t d = promote t a * promote t b * promote t c := by
  constructor
  · intro h a b c
    have : mulRes (mulRes t t) t = t := by
      cases t <;> first | rfl | (simp [cubeTy] at h)
    rw [← C03_typed_product_agrees t t a b, ← C03_typed_product_agrees (mulRes t t) t _ c]
    exact promote_of_eq this _
  · intro h
    have no : ∀ (u v w : t.D ℝ) (k : Fin 8), gradeOf k ∉ gradesOf t →
        cf (promote t u * promote t v * promote t w) k = 0 := by
      intro u v w k hk
      obtain ⟨d, hd⟩ := h u v w
      exact hd ▸ (C55_type_holds_its_grades t _).1 ⟨d, rfl⟩ k hk
    cases t
    case vec =>
      have := no e1 e2 e3 7 (by decide)
      simp [engabra, cf_7] at this
    case biv =>
      have := no e23 e31 e12 0 (by decide)
      simp [engabra, cf_0] at this
    case dplx =>
      have := no ⟨e1, gzero⟩ ⟨e2, gzero⟩ ⟨e3, gzero⟩ 7 (by decide)
      simp [engabra, cf_7] at this
    all_goals rfl

/-! ## Magnitudes -/

/-- **C64.** The magnitude of a square is the square of the magnitude, and of a cube the cube, for
every type except `MultiVector`. -/
theorem C64_magnitude (t : Ty) (ht : t ≠ .mv) (x y : t.D ℝ) :
    (sqTy t x = some y → length t y = length t x ^ 2) ∧
    (cubeTy t x = some y → length t y = length t x ^ 3) := by
  have h0 : 0 ≤ length t x := length_nonneg t x
  constructor
  · intro h
    have : magSqTy t y = (length t x ^ 2) ^ 2 := by
      rw [length_sq]
      cases t <;> simp only [sqTy, reduceCtorEq, Option.some.injEq] at h <;> subst h
      case mv => exact absurd rfl ht
      all_goals (simp only [magSqTy, engabra]; ring)
    rw [length_eq, this, Real.sqrt_sq (by positivity)]
  · intro h
    have : magSqTy t y = (length t x ^ 3) ^ 2 := by
      have e : (length t x ^ 3) ^ 2 = (length t x ^ 2) ^ 3 := by ring
      rw [e, length_sq]
      cases t <;> simp only [cubeTy, reduceCtorEq, Option.some.injEq] at h <;> subst h
      case mv => exact absurd rfl ht
      all_goals (simp only [magSqTy, engabra]; ring)
    rw [length_eq, this, Real.sqrt_sq (by positivity)]

/-! ## Rotations and exponentials -/

/-- **C64.** Turning with `sq(S)` is turning twice with `S`, with `cube(S)` three times. -/
theorem C64_turns {α : Type} [CommRing α] (S : Spinor α) (v : Vector α) :
    sandwich (sq S) v = sandwich S (sandwich S v) ∧
    sandwich (cube S) v = sandwich S (sandwich S (sandwich S v)) := by
  unfold sq cube
  rw [C22_comp, C22_comp, C22_comp]
  exact ⟨rfl, rfl⟩

/-- **C64.** De Moivre: `sq(exp(S)) = exp(2*S)` and `cube(exp(S)) = exp(3*S)`. -/
theorem C64_de_moivre (s : ℝ) (B : BiVector ℝ) (h : ExpOk B) :
    (ExpOk ((2 : ℝ) * B) → sq (expSpin (lift .spin ⟨⟨⟨s⟩⟩, B⟩))
      = expSpin (lift .spin ((2 : ℝ) * (⟨⟨⟨s⟩⟩, B⟩ : Spinor ℝ)))) ∧
    (ExpOk ((3 : ℝ) * B) → cube (expSpin (lift .spin ⟨⟨⟨s⟩⟩, B⟩))
      = expSpin (lift .spin ((3 : ℝ) * (⟨⟨⟨s⟩⟩, B⟩ : Spinor ℝ)))) := by
  have one : ((1 : ℝ) * B : BiVector ℝ) = B := by mv_ring
  have e2 : expR s B * expR s B = expR (2 * s) ((2 : ℝ) * B) := by
    have := expR_mul_plane s s 1 1 B
    rwa [one, show (1 : ℝ) + 1 = 2 by norm_num, show s + s = 2 * s by ring] at this
  have e3 : expR s B * expR s B * expR s B = expR (3 * s) ((3 : ℝ) * B) := by
    have := expR_mul_plane (2 * s) s 2 1 B
    rwa [one, ← e2, show (2 : ℝ) + 1 = 3 by norm_num, show 2 * s + s = 3 * s by ring] at this
  constructor
  · intro h2
    have := expSpin_ok (2 * s) _ h2
    unfold sq
    rw [expSpin_ok _ _ h]
    refine (mul_lift .spin .spin (expR s B) (expR s B)).trans ?_
    refine Eq.trans ?_ this.symm
    congr 1
  · intro h3
    have := expSpin_ok (3 * s) _ h3
    unfold cube
    rw [expSpin_ok _ _ h]
    refine Eq.trans ?_ this.symm
    exact congrArg (lift .spin) e3

theorem expOk_e12 {a : ℝ} (h : 1 ≤ a) : ExpOk (a * (e12 : BiVector ℝ)) := by
  have hB : (a * (e12 : BiVector ℝ)) = ⟨⟨0, 0, a⟩⟩ := by simp [engabra]
  have hl : length .biv (⟨⟨0, 0, a⟩⟩ : BiVector ℝ) = a := by
    rw [length_eq]
    have : magSqTy .biv (⟨⟨0, 0, a⟩⟩ : BiVector ℝ) = a ^ 2 := by
      simp only [magSqTy, engabra]; ring
    rw [this, Real.sqrt_sq (by linarith)]
  rw [hB]
  exact expOk_of _ (by rw [hl]; linarith [tiny_lt_one]) (Or.inl rfl)

/-- The hypotheses of `C64_de_moivre` at `B = e12`. -/
example : ExpOk (e12 : BiVector ℝ) ∧ ExpOk ((2 : ℝ) * (e12 : BiVector ℝ)) ∧
    ExpOk ((3 : ℝ) * (e12 : BiVector ℝ)) := by
  have h := expOk_e12 le_rfl
  rw [show ((1 : ℝ) * (e12 : BiVector ℝ)) = e12 by mv_ring] at h
  exact ⟨h, expOk_e12 (by norm_num), expOk_e12 (by norm_num)⟩

/-! ## Roots -/

/-- **C64.** Every `ComPlex` is the square of a `ComPlex` and the cube of one. -/
theorem C64_complex_roots (z : ComPlex ℝ) :
    (∃ w : ComPlex ℝ, sq w = z) ∧ (∃ w : ComPlex ℝ, cube w = z) := by
  obtain ⟨a, ha⟩ := IsAlgClosed.exists_pow_nat_eq (C19_complex z) (n := 2) (by norm_num)
  obtain ⟨b, hb⟩ := IsAlgClosed.exists_pow_nat_eq (C19_complex z) (n := 3) (by norm_num)
  refine ⟨⟨C19_complex.symm a, ?_⟩, ⟨C19_complex.symm b, ?_⟩⟩ <;>
    apply C19_complex.injective <;> simp only [sq, cube, map_mul, RingEquiv.apply_symm_apply]
  · rw [← ha]; ring
  · rw [← hb]; ring

/-- The complex plane spanned by `1` and a unit bivector. -/
def inPlane (u : BiVector ℝ) (w : ℂ) : Spinor ℝ := ⟨⟨⟨w.re⟩⟩, w.im * u⟩

theorem inPlane_mul (u : BiVector ℝ) (hu : magSq u = 1) (w z : ℂ) :
    inPlane u w * inPlane u z = inPlane u (w * z) := by
  simp only [engabra] at hu
  ext <;> simp only [inPlane, Complex.mul_re, Complex.mul_im, engabra]
  · linear_combination (-(w.im * z.im)) * hu
  all_goals ring

theorem exists_inPlane (S : Spinor ℝ) : ∃ u : BiVector ℝ, magSq u = 1 ∧ ∃ w, inPlane u w = S := by
  by_cases h : length .biv S.theBiv = 0
  · refine ⟨e23, by simp [engabra], ⟨S.theSca.theData.d0, 0⟩, ?_⟩
    have := length_eq_zero_biv h
    ext <;> simp [inPlane, engabra, this]
  · have hl : magSqTy .biv S.theBiv = length .biv S.theBiv ^ 2 := (length_sq .biv S.theBiv).symm
    refine ⟨(1 / length .biv S.theBiv : ℝ) * S.theBiv, ?_,
      ⟨S.theSca.theData.d0, length .biv S.theBiv⟩, ?_⟩
    · generalize length .biv S.theBiv = r at *
      simp only [magSqTy, engabra] at hl ⊢
      field_simp
      linarith
    · generalize length .biv S.theBiv = r at *
      ext <;> simp only [inPlane, engabra] <;> field_simp

/-- **C64.** Every `Spinor` is the square of a `Spinor` and the cube of one. -/
theorem C64_spinor_roots (S : Spinor ℝ) :
    (∃ R : Spinor ℝ, sq R = S) ∧ (∃ R : Spinor ℝ, cube R = S) := by
  obtain ⟨u, hu, w, rfl⟩ := exists_inPlane S
  obtain ⟨a, ha⟩ := IsAlgClosed.exists_pow_nat_eq w (n := 2) (by norm_num)
  obtain ⟨b, hb⟩ := IsAlgClosed.exists_pow_nat_eq w (n := 3) (by norm_num)
  refine ⟨⟨inPlane u a, ?_⟩, ⟨inPlane u b, ?_⟩⟩
  · unfold sq; rw [inPlane_mul u hu, ← ha]; congr 1; ring
  · unfold cube; rw [inPlane_mul u hu, inPlane_mul u hu, ← hb]; congr 1; ring

/-- A multivector as four complex numbers: its complex part and three directed parts. -/
def ofC4 (z x y w : ℂ) : MultiVector ℝ :=
  ⟨⟨⟨z.re⟩⟩, ⟨⟨x.re, y.re, w.re⟩⟩, ⟨⟨x.im, y.im, w.im⟩⟩, ⟨⟨z.im⟩⟩⟩

theorem ofC4_surj (A : MultiVector ℝ) : ∃ z x y w, A = ofC4 z x y w :=
  ⟨⟨A.theSca.theData.d0, A.theTri.theData.d0⟩, ⟨A.theVec.theData.d0, A.theBiv.theData.d0⟩,
    ⟨A.theVec.theData.d1, A.theBiv.theData.d1⟩, ⟨A.theVec.theData.d2, A.theBiv.theData.d2⟩, rfl⟩

theorem ofC4_inj {z x y w z' x' y' w' : ℂ} :
    ofC4 z x y w = ofC4 z' x' y' w' ↔ z = z' ∧ x = x' ∧ y = y' ∧ w = w' := by
  constructor
  · intro h
    simp only [ofC4, MultiVector.mk.injEq, Scalar.mk.injEq, Vector.mk.injEq, BiVector.mk.injEq,
      TriVector.mk.injEq, A1.mk.injEq, A3.mk.injEq] at h
    obtain ⟨h1, ⟨h2, h3, h4⟩, ⟨h5, h6, h7⟩, h8⟩ := h
    exact ⟨Complex.ext h1 h8, Complex.ext h2 h5, Complex.ext h3 h6, Complex.ext h4 h7⟩
  · rintro ⟨rfl, rfl, rfl, rfl⟩; rfl

theorem ofC4_zero : ofC4 0 0 0 0 = gzero := rfl

theorem ofC4_mul (z x y w z' x' y' w' : ℂ) : ofC4 z x y w * ofC4 z' x' y' w'
    = ofC4 (z * z' + (x * x' + y * y' + w * w'))
        (z * x' + x * z' + Complex.I * (y * w' - w * y'))
        (z * y' + y * z' + Complex.I * (w * x' - x * w'))
        (z * w' + w * z' + Complex.I * (x * y' - y * x')) := by
  ext <;> simp [ofC4, engabra] <;> ring

theorem ofC4_sq (z x y w : ℂ) : sq (ofC4 z x y w)
    = ofC4 (z ^ 2 + (x ^ 2 + y ^ 2 + w ^ 2)) (2 * z * x) (2 * z * y) (2 * z * w) := by
  unfold sq
  rw [ofC4_mul, ofC4_inj]
  refine ⟨?_, ?_, ?_, ?_⟩ <;> ring

theorem ofC4_cube (z x y w : ℂ) : cube (ofC4 z x y w)
    = ofC4 (z ^ 3 + 3 * z * (x ^ 2 + y ^ 2 + w ^ 2)) ((3 * z ^ 2 + (x ^ 2 + y ^ 2 + w ^ 2)) * x)
        ((3 * z ^ 2 + (x ^ 2 + y ^ 2 + w ^ 2)) * y) ((3 * z ^ 2 + (x ^ 2 + y ^ 2 + w ^ 2)) * w) := by
  have : cube (ofC4 z x y w) = sq (ofC4 z x y w) * ofC4 z x y w := rfl
  rw [this, ofC4_sq, ofC4_mul, ofC4_inj]
  refine ⟨?_, ?_, ?_, ?_⟩ <;> ring

/-- Not nilpotent, in complex numbers. -/
theorem ofC4_nilpotent (a p q r : ℂ) : ofC4 a p q r * ofC4 a p q r = gzero
    ↔ a = 0 ∧ p ^ 2 + q ^ 2 + r ^ 2 = 0 := by
  have e : ofC4 a p q r * ofC4 a p q r = sq (ofC4 a p q r) := rfl
  rw [e, ofC4_sq, ← ofC4_zero, ofC4_inj]
  constructor
  · rintro ⟨h0, h1, h2, h3⟩
    have : a = 0 := by
      by_contra ha
      have ha2 : 2 * a ≠ 0 := mul_ne_zero two_ne_zero ha
      have h1 := (mul_eq_zero.1 h1).resolve_left ha2
      have h2 := (mul_eq_zero.1 h2).resolve_left ha2
      have h3 := (mul_eq_zero.1 h3).resolve_left ha2
      subst h1 h2 h3
      exact ha (by simpa using h0)
    subst this
    exact ⟨rfl, by simpa using h0⟩
  · rintro ⟨rfl, h⟩
    simp [h]

/-- **C64.** The multivectors which are squares: all but the non zero ones whose own square is
zero. -/
theorem C64_mv_square_iff (A : MultiVector ℝ) :
    (∃ X : MultiVector ℝ, sq X = A) ↔ (A = gzero ∨ A * A ≠ gzero) := by
  obtain ⟨a, p, q, r, rfl⟩ := ofC4_surj A
  constructor
  · rintro ⟨X, hX⟩
    by_cases h : ofC4 a p q r * ofC4 a p q r = gzero
    · left
      obtain ⟨z, x, y, w, rfl⟩ := ofC4_surj X
      rw [ofC4_nilpotent] at h
      obtain ⟨rfl, hn⟩ := h
      rw [ofC4_sq, ofC4_inj] at hX
      obtain ⟨h0, rfl, rfl, rfl⟩ := hX
      have hz : z = 0 := by
        have : z ^ 4 = 0 := by linear_combination (z ^ 2) * h0 - hn / 4
        exact pow_eq_zero_iff (by norm_num) |>.1 this
      subst hz
      rw [← ofC4_zero, ofC4_inj]; simp
    · exact Or.inr h
  · intro h
    by_cases hn : a = 0 ∧ p ^ 2 + q ^ 2 + r ^ 2 = 0
    · rcases h with h | h
      · exact ⟨ofC4 0 0 0 0, by rw [h, ofC4_sq, ← ofC4_zero, ofC4_inj]; simp⟩
      · exact absurd ((ofC4_nilpotent a p q r).2 hn) h
    · obtain ⟨d, hd⟩ := IsAlgClosed.exists_pow_nat_eq (a ^ 2 - (p ^ 2 + q ^ 2 + r ^ 2)) (n := 2)
        (by norm_num)
      have key : ∃ e : ℂ, e ^ 2 = a ^ 2 - (p ^ 2 + q ^ 2 + r ^ 2) ∧ a + e ≠ 0 := by
        by_cases hs : a + d = 0
        · refine ⟨-d, by rw [neg_sq, hd], fun hs' => hn ?_⟩
          have ha : a = 0 := by linear_combination (hs + hs') / 2
          have hd0 : d = 0 := by linear_combination (hs - hs') / 2
          subst ha hd0
          exact ⟨rfl, by linear_combination hd⟩
        · exact ⟨d, hd, hs⟩
      obtain ⟨e, he, hs⟩ := key
      obtain ⟨z, hz⟩ := IsAlgClosed.exists_pow_nat_eq ((a + e) / 2) (n := 2) (by norm_num)
      have hz0 : z ≠ 0 := by
        rintro rfl
        apply hs
        linear_combination -2 * hz
      refine ⟨ofC4 z (p / (2 * z)) (q / (2 * z)) (r / (2 * z)), ?_⟩
      rw [ofC4_sq, ofC4_inj]
      refine ⟨?_, by field_simp, by field_simp, by field_simp⟩
      have hz4 : 4 * z ^ 4 = 4 * a * z ^ 2 - (p ^ 2 + q ^ 2 + r ^ 2) := by
        have : z ^ 4 = ((a + e) / 2) ^ 2 := by rw [← hz]; ring
        rw [this, hz]
        linear_combination he
      field_simp
      linear_combination hz4

/-- **C64.** The multivectors which are cubes: the same ones. -/
theorem C64_mv_cube_iff (A : MultiVector ℝ) :
    (∃ X : MultiVector ℝ, cube X = A) ↔ (A = gzero ∨ A * A ≠ gzero) := by
  obtain ⟨a, p, q, r, rfl⟩ := ofC4_surj A
  constructor
  · rintro ⟨X, hX⟩
    by_cases h : ofC4 a p q r * ofC4 a p q r = gzero
    · left
      obtain ⟨z, x, y, w, rfl⟩ := ofC4_surj X
      rw [ofC4_nilpotent] at h
      obtain ⟨rfl, hn⟩ := h
      rw [ofC4_cube, ofC4_inj] at hX
      obtain ⟨h0, rfl, rfl, rfl⟩ := hX
      generalize hQ : x ^ 2 + y ^ 2 + w ^ 2 = Q at *
      have h1 : (3 * z ^ 2 + Q) ^ 2 * Q = 0 := by rw [← hn, ← hQ]; ring
      have h2 : 3 * z ^ 2 + Q = 0 := by
        rcases mul_eq_zero.1 h1 with h | h
        · exact pow_eq_zero_iff (by norm_num) |>.1 h
        · subst h
          have : z = 0 := pow_eq_zero_iff (n := 3) (by norm_num) |>.1 (by linear_combination h0)
          subst this; simp
      rw [h2, ← ofC4_zero, ofC4_inj]; simp
    · exact Or.inr h
  · intro h
    by_cases hn : a = 0 ∧ p ^ 2 + q ^ 2 + r ^ 2 = 0
    · rcases h with h | h
      · exact ⟨ofC4 0 0 0 0, by rw [h, ofC4_cube, ← ofC4_zero, ofC4_inj]; simp⟩
      · exact absurd ((ofC4_nilpotent a p q r).2 hn) h
    · by_cases hb : p ^ 2 + q ^ 2 + r ^ 2 = 0
      · have ha : a ≠ 0 := fun ha => hn ⟨ha, hb⟩
        obtain ⟨z, hz⟩ := IsAlgClosed.exists_pow_nat_eq a (n := 3) (by norm_num)
        have hz0 : z ≠ 0 := by rintro rfl; exact ha (by rw [← hz]; simp)
        have hq : (p / (3 * z ^ 2)) ^ 2 + (q / (3 * z ^ 2)) ^ 2 + (r / (3 * z ^ 2)) ^ 2 = 0 := by
          rw [div_pow, div_pow, div_pow, ← add_div, ← add_div, hb, zero_div]
        refine ⟨ofC4 z (p / (3 * z ^ 2)) (q / (3 * z ^ 2)) (r / (3 * z ^ 2)), ?_⟩
        rw [ofC4_cube, hq, ofC4_inj]
        refine ⟨by rw [← hz]; ring, ?_, ?_, ?_⟩ <;> (rw [add_zero]; field_simp)
      · obtain ⟨σ, hσ⟩ := IsAlgClosed.exists_pow_nat_eq (p ^ 2 + q ^ 2 + r ^ 2) (n := 2) (by norm_num)
        have hσ0 : σ ≠ 0 := by rintro rfl; exact hb (by rw [← hσ]; simp)
        obtain ⟨m, hm⟩ := IsAlgClosed.exists_pow_nat_eq (a + σ) (n := 3) (by norm_num)
        obtain ⟨n, hn'⟩ := IsAlgClosed.exists_pow_nat_eq (a - σ) (n := 3) (by norm_num)
        obtain ⟨z, hz⟩ : ∃ z, z = (m + n) / 2 := ⟨_, rfl⟩
        obtain ⟨e, he⟩ : ∃ e, e = (m - n) / 2 := ⟨_, rfl⟩
        have h1 : z ^ 3 + 3 * z * e ^ 2 = a := by
          rw [hz, he]; linear_combination (hm + hn') / 2
        have h2 : 3 * z ^ 2 * e + e ^ 3 = σ := by
          rw [hz, he]; linear_combination (hm - hn') / 2
        have hq : (e / σ * p) ^ 2 + (e / σ * q) ^ 2 + (e / σ * r) ^ 2 = e ^ 2 := by
          have : (e / σ * p) ^ 2 + (e / σ * q) ^ 2 + (e / σ * r) ^ 2
            = (e / σ) ^ 2 * (p ^ 2 + q ^ 2 + r ^ 2) := by ring
          rw [this, ← hσ]; field_simp
        have h3 : (3 * z ^ 2 + e ^ 2) * (e / σ) = 1 := by
          rw [← mul_div_assoc, div_eq_one_iff_eq hσ0]; linear_combination h2
        refine ⟨ofC4 z (e / σ * p) (e / σ * q) (e / σ * r), ?_⟩
        rw [ofC4_cube, hq, ofC4_inj]
        refine ⟨h1, ?_, ?_, ?_⟩ <;> (rw [← mul_assoc, h3, one_mul])

/-- A multivector without square or cube root: `e1 + e12`. -/
example : ¬ ∃ X : MultiVector ℝ, sq X = mvOf8 0 1 0 0 0 0 1 0 := by
  rw [C64_mv_square_iff]
  rintro (h | h)
  · have := congrArg (fun A : MultiVector ℝ => A.theVec.theData.d0) h
    simp [engabra, mvOf8] at this
  · exact h (by ext <;> simp [engabra, mvOf8])

theorem norm_le_sum (x y w : ℂ) : ‖x ^ 2 + y ^ 2 + w ^ 2‖ ≤ ‖x‖ ^ 2 + ‖y‖ ^ 2 + ‖w‖ ^ 2 := by
  refine (norm_add_le _ _).trans ?_
  refine (add_le_add_left (norm_add_le _ _) _).trans ?_
  rw [norm_pow, norm_pow, norm_pow]

theorem magSq_ofC4 (z x y w : ℂ) :
    magSqTy .mv (ofC4 z x y w) = ‖z‖ ^ 2 + (‖x‖ ^ 2 + ‖y‖ ^ 2 + ‖w‖ ^ 2) := by
  rw [← Complex.normSq_eq_norm_sq, ← Complex.normSq_eq_norm_sq, ← Complex.normSq_eq_norm_sq,
    ← Complex.normSq_eq_norm_sq]
  simp only [magSqTy, engabra, ofC4, Complex.normSq_apply]
  ring

/-- **C64.** The magnitude of the square of a multivector is at most `√2` times the square of its
magnitude; `1 + e1` attains the bound. -/
theorem C64_mv_magnitude (A : MultiVector ℝ) :
    length .mv (sq A) ≤ √2 * length .mv A ^ 2 ∧
    length .mv (sq (mvOf8 1 1 0 0 0 0 0 0)) = √2 * length .mv (mvOf8 1 1 0 0 0 0 0 0 : MultiVector ℝ) ^ 2 := by
  constructor
  · obtain ⟨z, x, y, w, rfl⟩ := ofC4_surj A
    rw [length_sq, length_eq]
    refine Real.sqrt_le_iff.2 ⟨mul_nonneg (Real.sqrt_nonneg _) ?_, ?_⟩
    · rw [← length_sq]; positivity
    rw [mul_pow, Real.sq_sqrt (by norm_num : (0 : ℝ) ≤ 2), ofC4_sq, magSq_ofC4, magSq_ofC4]
    have h1 := (norm_add_le (z ^ 2) (x ^ 2 + y ^ 2 + w ^ 2)).trans
      (add_le_add_right (norm_le_sum x y w) _)
    rw [norm_pow] at h1
    simp only [norm_mul, Complex.norm_ofNat]
    have := norm_nonneg z; have := norm_nonneg x; have := norm_nonneg y; have := norm_nonneg w
    have h0 := norm_nonneg (z ^ 2 + (x ^ 2 + y ^ 2 + w ^ 2))
    generalize ‖z ^ 2 + (x ^ 2 + y ^ 2 + w ^ 2)‖ = N at *
    generalize ‖z‖ = a at *
    have h2 : N ^ 2 ≤ (a ^ 2 + (‖x‖ ^ 2 + ‖y‖ ^ 2 + ‖w‖ ^ 2)) ^ 2 := pow_le_pow_left₀ h0 h1 2
    generalize ‖x‖ = b at *
    generalize ‖y‖ = c at *
    generalize ‖w‖ = d at *
    nlinarith [sq_nonneg (a ^ 2 - (b ^ 2 + c ^ 2 + d ^ 2))]
  · rw [length_sq, length_eq]
    have e1 : magSqTy .mv (sq (mvOf8 1 1 0 0 0 0 0 0) : MultiVector ℝ) = 2 * 2 ^ 2 := by
      simp [magSqTy, engabra, mvOf8]; norm_num
    have e2 : magSqTy .mv (mvOf8 1 1 0 0 0 0 0 0 : MultiVector ℝ) = 2 := by
      simp [magSqTy, engabra, mvOf8]; norm_num
    rw [e1, e2, Real.sqrt_mul (by norm_num), Real.sqrt_sq (by norm_num)]

/-! ## In binary64 -/

/-- **C64.** `sq(-x)` and `sq(x)` are the same bits. -/
theorem C64_even (t : Ty) (x : t.D F64) : sqTy t (negTy t x) = sqTy t x := by
  cases t <;> simp only [sqTy, negTy, engabra, F64.neg_mul', F64.mul_neg', F64.neg_neg'']

/-- **C64.** `cube(-x)` is `-cube(x)` up to the signs of zeros. -/
theorem C64_odd (t : Ty) (x y : t.D F64) (h : cubeTy t x = some y) :
    ∃ z, cubeTy t (negTy t x) = some z ∧ SzTy t z (negTy t y) := by
  have key : mulTy t t (negTy t x) (negTy t x) = mulTy t t x x := by
    cases t <;> simp only [negTy, engabra, F64.neg_mul', F64.mul_neg', F64.neg_neg'']
  have := (C32_product_signs (mulRes t t) t (mulTy t t x x) x).1
  have e : mulTy (mulRes t t) t (mulTy t t (negTy t x) (negTy t x)) (negTy t x)
      = mulTy (mulRes t t) t (mulTy t t x x) (negTy t x) := by rw [key]
  rw [← e] at this
  cases t <;> simp only [cubeTy, reduceCtorEq, Option.some.injEq] at h ⊢ <;> subst h
  all_goals exact ⟨_, rfl, this⟩

example : sqTy .spin (⟨⟨⟨3⟩⟩, ⟨⟨1, 2, 2⟩⟩⟩ : Spinor ℤ) = some ⟨⟨⟨0⟩⟩, ⟨⟨6, 12, 12⟩⟩⟩ := by decide
example : cubeTy .imsp (⟨⟨⟨1, 2, 2⟩⟩, ⟨⟨3⟩⟩⟩ : ImSpin ℤ) = some ⟨⟨⟨-18, -36, -36⟩⟩, ⟨⟨54⟩⟩⟩ := by decide
example : sqTy .vec (e1 : Vector ℤ) = none := rfl

end Engabra
