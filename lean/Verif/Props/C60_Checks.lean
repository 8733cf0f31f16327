import Verif.Props.C27_Range
import Verif.Props.C39_C40_Symmetry
import Verif.Props.C50_Promotion

/-! # C60: `nearlyEquals`, `operator==` and promotion

`nearlyEquals` cannot tell apart values that `operator==` takes as equal, accepts them, and gives the
same answer after promotion to `MultiVector`. -/

namespace Engabra

open F64 (nan inf zero fin IsFin Finite HasVal)

namespace F64

theorem sz_div_left {x y : F64} (z : F64) (h : Sz x y) : Sz (x / z) (y / z) := by
  rcases h with rfl | ⟨s, t, rfl, rfl⟩
  · exact Sz.refl _
  · rw [div_def, div_def]
    cases z with
    | nan => exact Or.inl rfl
    | inf u => exact Or.inr ⟨_, _, rfl, rfl⟩
    | zero u => exact Or.inl rfl
    | fin w hw => exact Or.inr ⟨_, _, rfl, rfl⟩

theorem isValidDub_Sz {x y : F64} (h : Sz x y) : isValidDub x = isValidDub y := by
  rcases h with rfl | ⟨s, t, rfl, rfl⟩
  · rfl
  · rw [isValidDub_zero, isValidDub_zero]

theorem isSmallAbsDiff_Sz {x x' y y' : F64} (h : Sz x x') (k : Sz y y') (tol : F64) :
    isSmallAbsDiff x y tol = isSmallAbsDiff x' y' tol := by
  unfold isSmallAbsDiff isSmallAbs
  rw [abs_Sz (h.sub k)]

end F64

theorem nearlyEqualsAbs_Sz {x x' y y' : F64} (h : Sz x x') (k : Sz y y') (tol : F64) :
    nearlyEqualsAbs x y tol = nearlyEqualsAbs x' y' tol := by
  unfold nearlyEqualsAbs bothAreValid
  rw [F64.isValidDub_Sz h, F64.isValidDub_Sz k, F64.isSmallAbsDiff_Sz h k]

theorem nearlyEqualsRel_Sz {x x' y y' : F64} (h : Sz x x') (k : Sz y y') (tol : F64) :
    nearlyEqualsRel x y tol = nearlyEqualsRel x' y' tol := by
  unfold nearlyEqualsRel bothAreValid
  dsimp only
  rw [F64.isValidDub_Sz h, F64.isValidDub_Sz k, F64.isSmallAbsDiff_Sz h k, F64.abs_Sz k]
  congr 1
  split_ifs with hs
  · rfl
  · rcases k with rfl | ⟨s, t, rfl, rfl⟩
    · exact F64.isSmallAbsDiff_Sz (F64.sz_div_left _ h) (Sz.refl _) tol
    · exfalso
      apply hs
      rw [(F64.hasVal_zero t).abs.flt F64.tolToZero_val, abs_zero]
      exact decide_eq_true (F64.two_zpow_pos _)

theorem all_valid_Sz {xs xs' : List F64} (h : List.Forall₂ Sz xs xs') :
    xs.all isValidDub = xs'.all isValidDub := by
  induction h with
  | nil => rfl
  | cons h _ ih => rw [List.all_cons, List.all_cons, F64.isValidDub_Sz h, ih]

theorem innerProduct_Sz {xs xs' : List F64} (h : List.Forall₂ Sz xs xs') (a : F64) :
    innerProduct a xs = innerProduct a xs' := by
  induction h generalizing a with
  | nil => rfl
  | cons h _ ih => simp only [innerProduct, F64.Sz_mul_self h, ih]

theorem difLoop_Sz {xs xs' ys ys' : List F64} (h : List.Forall₂ Sz xs xs')
    (k : List.Forall₂ Sz ys ys') (a : F64) : difLoop a xs ys = difLoop a xs' ys' := by
  induction h generalizing a ys ys' with
  | nil => cases k <;> rfl
  | cons h _ ih =>
    cases k with
    | nil => rfl
    | cons k ks => simp only [difLoop, F64.Sz_mul_self (h.sub k), ih ks]

theorem small_Sz {xs xs' ys ys' : List F64} (h : List.Forall₂ Sz xs xs')
    (k : List.Forall₂ Sz ys ys') (tol : F64) :
    (List.zipWith (fun x y => isSmallAbsDiff x y tol) xs ys).all id
      = (List.zipWith (fun x y => isSmallAbsDiff x y tol) xs' ys').all id := by
  induction h generalizing ys ys' with
  | nil => cases k <;> rfl
  | cons h _ ih =>
    cases k with
    | nil => rfl
    | cons k ks =>
      simp only [List.zipWith_cons_cons, List.all_cons, F64.isSmallAbsDiff_Sz h k, ih ks]

/-- **C60**, arrays of any length: values that `==` takes as equal are interchangeable in both
arguments of the array comparison. -/
theorem C60_array {xs xs' ys ys' : List F64} (h : List.Forall₂ Sz xs xs')
    (k : List.Forall₂ Sz ys ys') (hl : xs.length = ys.length) (tol : F64) :
    nearlyEqualsArr xs ys tol = nearlyEqualsArr xs' ys' tol := by
  cases h with
  | nil =>
    cases k with
    | nil => rfl
    | cons => simp at hl
  | cons h hs =>
    cases k with
    | nil => simp at hl
    | cons k ks =>
      rw [nearlyEqualsArr_eq, nearlyEqualsArr_eq, all_valid_Sz (.cons h hs),
        all_valid_Sz (.cons k ks), innerProduct_Sz (.cons k ks), difLoop_Sz (.cons h hs) (.cons k ks),
        small_Sz (.cons h hs) (.cons k ks)]

/-- **C60.**  The answer of `nearlyEquals` does not depend on the signs of zeros, in either
argument, for every type. -/
theorem C60_zero_signs (t : Ty) (x x' y y' : t.D F64) (h : SzTy t x x') (k : SzTy t y y')
    (tol : F64) : nearlyEqualsTy t x y tol = nearlyEqualsTy t x' y' tol := by
  have h1 : ∀ {a a' b b' : F64}, Sz a a' → Sz b b' →
      nearlyEqualsArr [a] [b] tol = nearlyEqualsArr [a'] [b'] tol := fun p q =>
    C60_array (.cons p .nil) (.cons q .nil) rfl tol
  have h3 : ∀ {a a' b b' c c' d d' e e' f f' : F64}, Sz a a' → Sz b b' → Sz c c' → Sz d d' →
      Sz e e' → Sz f f' →
      nearlyEqualsArr [a, b, c] [d, e, f] tol = nearlyEqualsArr [a', b', c'] [d', e', f'] tol :=
    fun p q r s u v => C60_array (.cons p (.cons q (.cons r .nil)))
      (.cons s (.cons u (.cons v .nil))) rfl tol
  cases t <;> simp only [SzTy, comps, List.forall₂_cons, List.Forall₂.nil, and_true] at h k <;>
    simp only [nearlyEqualsTy, nearlyEquals, A1.toList, A3.toList]
  · rw [nearlyEqualsDub, nearlyEqualsDub, nearlyEqualsRel_Sz h k]
  · exact h1 h k
  · exact h3 h.1 h.2.1 h.2.2 k.1 k.2.1 k.2.2
  · exact h3 h.1 h.2.1 h.2.2 k.1 k.2.1 k.2.2
  · exact h1 h k
  · rw [h1 h.1 k.1, h3 h.2.1 h.2.2.1 h.2.2.2 k.2.1 k.2.2.1 k.2.2.2]
  · rw [h3 h.1 h.2.1 h.2.2.1 k.1 k.2.1 k.2.2.1, h1 h.2.2.2 k.2.2.2]
  · rw [h1 h.1 k.1, h1 h.2 k.2]
  · rw [h3 h.1 h.2.1 h.2.2.1 k.1 k.2.1 k.2.2.1,
      h3 h.2.2.2.1 h.2.2.2.2.1 h.2.2.2.2.2 k.2.2.2.1 k.2.2.2.2.1 k.2.2.2.2.2]
  · obtain ⟨a0, a1, a2, a3, a4, a5, a6, a7⟩ := h
    obtain ⟨b0, b1, b2, b3, b4, b5, b6, b7⟩ := k
    rw [h1 a0 b0, h3 a1 a2 a3 b1 b2 b3, h3 a4 a5 a6 b4 b5 b6, h1 a7 b7]

theorem sz_of_feq {x y : F64} (h : Dbl.feq x y = true) : Sz x y := ((C28_double x y).1 h).2

/-- What `operator==` says about the components. -/
theorem szTy_of_geq (t : Ty) (x y : t.D F64) (h : geqTy t x y = some true) : SzTy t x y := by
  have ht : t ≠ .cplx ∧ t ≠ .dplx := by cases t <;> simp [geqTy] at h ⊢
  rw [C28_componentwise t ht, Option.some.injEq] at h
  unfold SzTy
  have hl : (comps t x).length = (comps t y).length := by cases t <;> rfl
  generalize comps t x = xs at *
  generalize comps t y = ys at *
  induction xs generalizing ys with
  | nil => cases ys <;> simp_all
  | cons a xs ih =>
    cases ys with
    | nil => simp at hl
    | cons b ys =>
      simp only [List.zipWith_cons_cons, List.all_cons, Bool.and_eq_true, id] at h
      exact .cons (sz_of_feq h.1) (ih ys h.2 (by simpa using hl))

/-- **C60.**  Values that `operator==` takes as equal are interchangeable in `nearlyEquals`. -/
theorem C60_equal_args (t : Ty) (x x' y y' : t.D F64) (h : geqTy t x x' = some true)
    (k : geqTy t y y' = some true) (tol : F64) :
    nearlyEqualsTy t x y tol = nearlyEqualsTy t x' y' tol :=
  C60_zero_signs t x x' y y' (szTy_of_geq t x x' h) (szTy_of_geq t y y' k) tol

/-- **C60.**  `a == b` implies `nearlyEquals(a, b, tol)`, for valid data and every tolerance greater
than zero. -/
theorem C60_equal_accepts (t : Ty) (x y : t.D F64) (hx : ∀ c ∈ comps t x, isValidDub c = true)
    (h : geqTy t x y = some true) (tol : F64) (ht : Dbl.lt 0 tol = true) :
    nearlyEqualsTy t x y tol = .ok true := by
  rw [← C60_zero_signs t x x x y (by unfold SzTy; exact List.forall₂_same.2 fun c _ => Sz.refl c)
    (szTy_of_geq t x y h) tol]
  exact C26_reflexive t x tol hx ht

/-- The comparison of zeros. -/
theorem nearly_zero1 {tol : F64} (ht : Dbl.lt 0 tol = true) : nearlyEqualsArr [0] [0] tol = .ok true :=
  C26_array [0] tol (by simp) (by
    intro c hc
    rw [List.mem_singleton.1 hc]
    exact isValidDub_zero false) ht

theorem nearly_zero3 {tol : F64} (ht : Dbl.lt 0 tol = true) :
    nearlyEqualsArr [0, 0, 0] [0, 0, 0] tol = .ok true :=
  C26_array [0, 0, 0] tol (by simp) (by
    intro c hc
    simp only [List.mem_cons, List.not_mem_nil, or_false, or_self] at hc
    rw [hc]
    exact isValidDub_zero false) ht

/-- **C60.**  The answer of `nearlyEquals` is the same after promotion of both arguments to
`MultiVector`, for every type but `double` (which is compared by another rule) and all data. -/
theorem C60_promote (t : Ty) (htd : t ≠ .dub) (x y : t.D F64) (tol : F64) :
    nearlyEqualsTy .mv (promote t x) (promote t y) tol = nearlyEqualsTy t x y tol := by
  obtain ⟨b, hb⟩ := C25_defined .mv (promote t x) (promote t y) tol
  obtain ⟨c, hc⟩ := C25_defined t x y tol
  rw [hb, hc, Run.ok.injEq, Bool.eq_iff_iff]
  constructor
  · rintro rfl
    rw [nearly_grades .mv (by simp)] at hb
    have : nearlyEqualsTy t x y tol = .ok true := by
      rw [nearly_grades t htd]
      cases t <;>
        simp_all [gradeLists, promote, engabra]
    rw [this] at hc
    exact (Run.ok.inj hc).symm
  · rintro rfl
    have ht := C25_tolerance t x y tol hc
    have h1 := nearly_zero1 ht
    have h3 := nearly_zero3 ht
    rw [nearly_grades t htd] at hc
    have : nearlyEqualsTy .mv (promote t x) (promote t y) tol = .ok true := by
      rw [nearly_grades .mv (by simp)]
      cases t <;>
        simp_all [gradeLists, promote, engabra]
    rw [this] at hb
    exact (Run.ok.inj hb).symm

end Engabra
