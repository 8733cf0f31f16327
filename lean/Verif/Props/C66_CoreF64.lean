import Verif.Props.C65_SolveF64
import Verif.Props.C66_Geometry

/-! # C66 in binary64: products with `inverse(a)` on the right -/

namespace Engabra

open F64 (Finite HasVal)

/-- The arithmetic of the bounds. -/
theorem mirror_num {u A B Y c p P d t q : ℝ} (hu : 0 ≤ u) (hu1 : u ≤ 1 / 1000000)
    (hA : 0 ≤ A) (hB : 0 ≤ B) (hc : 0 ≤ c) (hY0 : 0 ≤ Y) (hAB : A * B = 1)
    (hY : Y ≤ (1 + 12 * u) * B) (hP : P ≤ A * c) (hd : d ≤ 27 * u * (A * c) + t) (hp : p ≤ d + P)
    (hq : q ≤ 27 * u * (p * Y) + t) (ht : t * (Y + 1) ≤ u / 1000 * c) (ht0 : 0 ≤ t) :
    q + d * Y + P * (12 * u * B) ≤ 67 * u * c := by
  have hAY : A * Y ≤ 1 + 12 * u := by
    have := mul_le_mul_of_nonneg_left hY hA
    have e : A * ((1 + 12 * u) * B) = (1 + 12 * u) * (A * B) := by ring
    rwa [e, hAB, mul_one] at this
  have h1 : d * Y ≤ 27 * u * c * (A * Y) + t * Y := by
    have := mul_le_mul_of_nonneg_right hd hY0
    linarith only [this]
  have h2 : P * Y ≤ c * (A * Y) := by
    have := mul_le_mul_of_nonneg_right hP hY0
    linarith only [this]
  have h3 : P * (12 * u * B) ≤ 12 * u * c := by
    have := mul_le_mul_of_nonneg_right hP (by positivity : 0 ≤ 12 * u * B)
    have e : A * c * (12 * u * B) = 12 * u * c * (A * B) := by ring
    rwa [e, hAB, mul_one] at this
  have h4 : p * Y ≤ d * Y + P * Y := by
    have := mul_le_mul_of_nonneg_right hp hY0
    linarith only [this]
  have h5 : c * (A * Y) ≤ c * (1 + 12 * u) := mul_le_mul_of_nonneg_left hAY hc
  have h6 : 27 * u * c * (A * Y) ≤ 27 * u * (c * (1 + 12 * u)) := by
    have := mul_le_mul_of_nonneg_left h5 (by positivity : 0 ≤ 27 * u)
    linarith only [this]
  have h7 : 27 * u * (p * Y) ≤ 27 * u * (27 * u * (c * (1 + 12 * u)) + t * Y + c * (1 + 12 * u)) :=
    mul_le_mul_of_nonneg_left (by linarith only [h4, h1, h2, h5, h6]) (by positivity)
  have h8 : t * Y ≤ u / 1000 * c := by nlinarith only [ht, ht0]
  have h9 : t ≤ u / 1000 * c := by nlinarith only [ht, ht0, mul_nonneg ht0 hY0]
  have huc := mul_nonneg hu hc
  have hu2 : u * (u * c) ≤ 1 / 1000000 * (u * c) := mul_le_mul_of_nonneg_right hu1 huc
  have hu3 : u * (u * (u * c)) ≤ 1 / 1000000 * (u * c) := by
    have := mul_le_mul_of_nonneg_left hu2 hu
    nlinarith only [this, hu2, huc]
  have h10 : 27 * u * (t * Y) ≤ u / 1000 * c := by
    have := mul_le_mul_of_nonneg_left h8 (by positivity : 0 ≤ 27 * u)
    nlinarith only [this, hu2, huc]
  nlinarith only [hq, h1, h3, h6, h7, h8, h9, h10, hu2, hu3, huc]

/-- A computed value `p` near `P`, times the computed inverse of `a`: near the `w` with
`w*a = P`. -/
theorem over_blade (s t : Ty) (hs : s = .sca ∨ s = .vec ∨ s = .biv ∨ s = .tri)
    (a : s.D F64) (h : Central s a) (p : t.D F64) (fp : FiniteTy t p) (P : MultiVector ℚ) (c : ℝ)
    (hc1 : (2 : ℝ) ^ (-400 : ℤ) ≤ c) (hc2 : c ≤ 2 ^ (400 : ℤ))
    (hP : len P ≤ len (exactObj ⟨s, a⟩) * c)
    (hp : len (exactObj ⟨t, p⟩ - P)
      ≤ 27 * 2 ^ (-53 : ℤ) * (len (exactObj ⟨s, a⟩) * c) + 2 ^ (-1057 : ℤ)) :
    ∃ y : s.D F64, inverseTy s a = some y ∧ FiniteTy _ (mulTy t s p y) ∧
      ∀ w : MultiVector ℚ, w * exactObj ⟨s, a⟩ = P →
        len (exactObj ⟨_, mulTy t s p y⟩ - w) ≤ 67 * 2 ^ (-53 : ℤ) * c := by
  obtain ⟨y, hy, fy, hd, hAB, hlo, hhi⟩ := inverse_len s hs a h
  have hm : magSqTy s (valTy s a) ≠ 0 := by
    rw [magSq_val]; exact ((F64.two_zpow_pos _).trans_le (central_sqSum h).1).ne'
  obtain ⟨i1, i2⟩ := bladeInv_mul s hs (valTy s a) hm
  obtain ⟨z, hz⟩ := promote_sub s (valTy s y) (bladeInv s (valTy s a))
  have hv : s.versor = true := by rcases hs with rfl | rfl | rfl | rfl <;> rfl
  generalize bladeInv s (valTy s a) = B at *
  have hA0 := len_nonneg (exactObj ⟨s, a⟩)
  have hB0 := len_nonneg (promote s B)
  have hY0 := len_nonneg (exactObj ⟨s, y⟩)
  have hc0 : 0 ≤ c := (F64.two_zpow_pos _).le.trans hc1
  have hYl : len (exactObj ⟨s, y⟩) ≤ (1 + 12 * 2 ^ (-53 : ℤ)) * len (promote s B) := by
    have := len_sub_add (exactObj ⟨s, y⟩) (promote s B)
    linarith only [this, hd]
  have hBhi : len (promote s B) ≤ 2 ^ (500 : ℤ) := by
    have e := mul_le_mul_of_nonneg_right hlo hB0
    rw [hAB] at e
    have e2 := mul_le_mul_of_nonneg_left e (F64.two_zpow_pos 500).le (α := ℝ)
    rw [← mul_assoc, ← zpow_add₀ two_ne_zero, mul_one] at e2
    simpa using e2
  have hYhi : len (exactObj ⟨s, y⟩) ≤ 2 ^ (501 : ℤ) := by
    refine hYl.trans ?_
    have h2 : (1 + 12 * (2 : ℝ) ^ (-53 : ℤ)) ≤ 2 := by norm_num
    refine (mul_le_mul h2 hBhi hB0 (by norm_num)).trans ?_
    rw [← zpow_one_add₀ two_ne_zero]; norm_num only; exact le_rfl
  have htiny : (2 : ℝ) ^ (-1057 : ℤ) * (len (exactObj ⟨s, y⟩) + 1) ≤ 2 ^ (-53 : ℤ) / 1000 * c := by
    have h1 : len (exactObj ⟨s, y⟩) + 1 ≤ 2 ^ (502 : ℤ) := by
      have e1 : (1 : ℝ) ≤ 2 ^ (501 : ℤ) := one_le_zpow₀ one_le_two (by norm_num)
      have e2 : (2 : ℝ) ^ (502 : ℤ) = 2 ^ (501 : ℤ) * 2 := by
        rw [← zpow_add_one₀ two_ne_zero]; norm_num only
      rw [e2]
      generalize (2 : ℝ) ^ (501 : ℤ) = b at *
      linarith only [hYhi, e1]
    calc (2 : ℝ) ^ (-1057 : ℤ) * (len (exactObj ⟨s, y⟩) + 1) ≤ 2 ^ (-1057 : ℤ) * 2 ^ (502 : ℤ) :=
          mul_le_mul_of_nonneg_left h1 (F64.two_zpow_pos _).le
      _ = 2 ^ (-555 : ℤ) := by rw [← zpow_add₀ two_ne_zero]; norm_num only
      _ ≤ 2 ^ (-53 + -10 + -400 : ℤ) := zpow_le_zpow_right₀ one_le_two (by norm_num)
      _ = 2 ^ (-53 : ℤ) * 2 ^ (-10 : ℤ) * 2 ^ (-400 : ℤ) := by
          rw [zpow_add₀ two_ne_zero, zpow_add₀ two_ne_zero]
      _ ≤ 2 ^ (-53 : ℤ) * (1 / 1000) * c := by
          refine mul_le_mul ?_ hc1 (F64.two_zpow_pos _).le (by positivity)
          exact mul_le_mul_of_nonneg_left (by norm_num) (F64.two_zpow_pos _).le
      _ = _ := by ring
  have hpl := len_sub_add (exactObj ⟨t, p⟩) P
  have hbig : len (exactObj ⟨t, p⟩) * len (exactObj ⟨s, y⟩) ≤ 2 ^ 1022 := by
    have h1 : len (exactObj ⟨t, p⟩) * len (exactObj ⟨s, y⟩) ≤ 4 * c := by
      have hAY : len (exactObj ⟨s, a⟩) * len (exactObj ⟨s, y⟩) ≤ 1 + 12 * 2 ^ (-53 : ℤ) := by
        have := mul_le_mul_of_nonneg_left hYl hA0
        have e : len (exactObj ⟨s, a⟩) * ((1 + 12 * (2 : ℝ) ^ (-53 : ℤ)) * len (promote s B))
          = (1 + 12 * (2 : ℝ) ^ (-53 : ℤ)) * (len (exactObj ⟨s, a⟩) * len (promote s B)) := by ring
        rwa [e, hAB, mul_one] at this
      have hl : len (exactObj ⟨t, p⟩) ≤ (1 + 27 * 2 ^ (-53 : ℤ)) * (len (exactObj ⟨s, a⟩) * c)
          + 2 ^ (-1057 : ℤ) := by linarith only [hpl, hp, hP]
      have h3 := mul_le_mul_of_nonneg_right hl hY0
      have h4 := mul_le_mul_of_nonneg_left hAY hc0
      have hu := small_u
      have hu0 : (0 : ℝ) ≤ 2 ^ (-53 : ℤ) := (F64.two_zpow_pos _).le
      have ht0 : (0 : ℝ) ≤ 2 ^ (-1057 : ℤ) := (F64.two_zpow_pos _).le
      generalize (2 : ℝ) ^ (-53 : ℤ) = u at *
      generalize (2 : ℝ) ^ (-1057 : ℤ) = τ at *
      generalize len (exactObj ⟨s, y⟩) = Y at *
      generalize len (exactObj ⟨s, a⟩) = A at *
      have h5 := mul_le_mul_of_nonneg_left h4 (by positivity : 0 ≤ 1 + 27 * u)
      have huc : u * c ≤ 1 / 1000000 * c := mul_le_mul_of_nonneg_right hu hc0
      have huuc : u * (u * c) ≤ 1 / 1000000 * c := by
        have := mul_le_mul_of_nonneg_left huc hu0
        nlinarith only [this, huc, hc0]
      nlinarith only [h3, h5, htiny, ht0, huc, huuc, hc0]
    refine h1.trans ((mul_le_mul_of_nonneg_left hc2 (by norm_num)).trans ?_)
    rw [show (4 : ℝ) = 2 ^ (2 : ℤ) by norm_num, ← zpow_add₀ two_ne_zero, ← zpow_natCast]
    exact zpow_le_zpow_right₀ one_le_two (by norm_num)
  obtain ⟨fq, hq⟩ := product_len t s p y fp fy hbig
  refine ⟨y, hy, fq, fun w hw => ?_⟩
  replace hz : promote s z = exactObj ⟨s, y⟩ - promote s B := hz
  have hwB : w = P * promote s B :=
    (solve_of_inverse (exactObj ⟨s, a⟩) _ P i1 i2).2.2.2 w hw
  have e : exactObj ⟨_, mulTy t s p y⟩ - w
      = ((exactObj ⟨_, mulTy t s p y⟩ - exactObj ⟨t, p⟩ * exactObj ⟨s, y⟩)
        + (exactObj ⟨t, p⟩ - P) * exactObj ⟨s, y⟩) + P * promote s z := by
    rw [hz, ← sub_mul_mv, ← tele, ← mul_sub_mv, ← tele, hwB]
  rw [e]
  refine ((len_add_le _ _).trans (add_le_add (len_add_le _ _) le_rfl)).trans ?_
  rw [len_obj_right _ ⟨s, y⟩ hv, len_mul_right _ s hv]
  refine (add_le_add le_rfl (mul_le_mul_of_nonneg_left (hz ▸ hd :) (len_nonneg P))).trans ?_
  exact mirror_num (F64.two_zpow_pos _).le small_u hA0 hB0 hc0 hY0 hAB hYl hP hp hpl hq htiny
    (F64.two_zpow_pos _).le

/-- **C66.** In binary64, for a blade `a` in the central range and an object `b` of any type:
`a*b*inverse(a)` is finite and within `67 u` of the exact `w` with `w*a = a*b`, relative to the
length of `b`, which is also the length of `w`. -/
theorem C66_turn_binary64 (s t : Ty) (hs : s = .sca ∨ s = .vec ∨ s = .biv ∨ s = .tri)
    (a : s.D F64) (h : Central s a) (b : t.D F64) (hb : ∀ c ∈ comps t b, c.Finite)
    (hb1 : (2 : ℝ) ^ (-400 : ℤ) ≤ len (exactObj ⟨t, b⟩))
    (hb2 : len (exactObj ⟨t, b⟩) ≤ 2 ^ (400 : ℤ)) :
    ∃ y : s.D F64, inverseTy s a = some y ∧ FiniteTy _ (mulTy _ s (mulTy s t a b) y) ∧
      ∀ w : MultiVector ℚ, w * exactObj ⟨s, a⟩ = exactObj ⟨s, a⟩ * exactObj ⟨t, b⟩ →
        len w = len (exactObj ⟨t, b⟩) ∧
        len (exactObj ⟨_, mulTy _ s (mulTy s t a b) y⟩ - w)
          ≤ 67 * 2 ^ (-53 : ℤ) * len (exactObj ⟨t, b⟩) := by
  have hv : s.versor = true := by rcases hs with rfl | rfl | rfl | rfl <;> rfl
  obtain ⟨-, -, -, -, -, hlo, hhi⟩ := inverse_len s hs a h
  have hb0 := len_nonneg (exactObj ⟨t, b⟩)
  have hbig : len (exactObj ⟨s, a⟩) * len (exactObj ⟨t, b⟩) ≤ 2 ^ 1022 := by
    refine (mul_le_mul hhi hb2 hb0 (F64.two_zpow_pos _).le).trans ?_
    rw [← zpow_add₀ two_ne_zero, ← zpow_natCast]
    exact zpow_le_zpow_right₀ one_le_two (by norm_num)
  obtain ⟨fp, hp⟩ := product_len s t a b (finiteTy_of _ _ fun c hc => (h.1 c hc).1)
    (finiteTy_of _ _ hb) hbig
  obtain ⟨y, hy, fq, hq⟩ := over_blade s _ hs a h (mulTy s t a b) fp _ _ hb1 hb2
    (by rw [len_obj_left _ ⟨s, a⟩ hv, mul_comm]) hp
  refine ⟨y, hy, fq, fun w hw => ⟨?_, hq w hw⟩⟩
  have e := congrArg len hw
  rw [len_obj_right _ ⟨s, a⟩ hv, len_obj_left _ ⟨s, a⟩ hv] at e
  exact mul_right_cancel₀ ((F64.two_zpow_pos _).trans_le hlo).ne' e

/-- The point with the values of a computed vector as coordinates. -/
noncomputable def ptVal (v : Vector F64) : E3 := !₂[(v.theData.d0.value : ℝ), v.theData.d1.value, v.theData.d2.value]
/-- The normal of the plane of a computed bivector. -/
noncomputable def normalVal (v : BiVector F64) : E3 := !₂[(v.theData.d0.value : ℝ), v.theData.d1.value, v.theData.d2.value]

/-- The vector part of a multivector as a point. -/
noncomputable def ptQ (m : MultiVector ℚ) : E3 := !₂[((cf m 1 : ℚ) : ℝ), (cf m 2 : ℚ), (cf m 3 : ℚ)]

theorem ptQ_le (x y : MultiVector ℚ) {ε : ℝ} (h : len (x - y) ≤ ε) : ‖ptQ x - ptQ y‖ ≤ ε := by
  refine le_trans ?_ h
  refine (pow_le_pow_iff_left₀ (norm_nonneg _) (len_nonneg _) two_ne_zero).1 ?_
  rw [normSq_E3, len_sq, Fin.sum_univ_eight]
  simp only [cf_sub]
  push_cast
  simp [ptQ]
  nlinarith only [sq_nonneg (((cf x 0 : ℚ) : ℝ) - (cf y 0 : ℚ)), sq_nonneg (((cf x 4 : ℚ) : ℝ) - (cf y 4 : ℚ)),
    sq_nonneg (((cf x 5 : ℚ) : ℝ) - (cf y 5 : ℚ)), sq_nonneg (((cf x 6 : ℚ) : ℝ) - (cf y 6 : ℚ)), sq_nonneg (((cf x 7 : ℚ) : ℝ) - (cf y 7 : ℚ))]

/-- Three vectors of the rationals. -/
def lineQ (a v : A3 ℚ) : A3 ℚ :=
  let r := (a.d0 * v.d0 + a.d1 * v.d1 + a.d2 * v.d2) * (1 / (a.d0 * a.d0 + a.d1 * a.d1 + a.d2 * a.d2))
  ⟨r * a.d0, r * a.d1, r * a.d2⟩
def restQ (a v : A3 ℚ) : A3 ℚ :=
  ⟨v.d0 - (lineQ a v).d0, v.d1 - (lineQ a v).d1, v.d2 - (lineQ a v).d2⟩
def turnQ (a v : A3 ℚ) : A3 ℚ :=
  ⟨2 * (lineQ a v).d0 - v.d0, 2 * (lineQ a v).d1 - v.d1, 2 * (lineQ a v).d2 - v.d2⟩

noncomputable def ptA (a : A3 ℚ) : E3 := !₂[(a.d0 : ℝ), a.d1, a.d2]

theorem ptA_line (a v : A3 ℚ) : ptA (lineQ a v) = (Submodule.span ℝ {ptA a}).starProjection (ptA v) := by
  rw [proj_E3]
  ext i; fin_cases i <;> simp [ptA, lineQ]
theorem ptA_rest (a v : A3 ℚ) : ptA (restQ a v) = (Submodule.span ℝ {ptA a})ᗮ.starProjection (ptA v) := by
  rw [orth_E3]
  ext i; fin_cases i <;> simp [ptA, lineQ, restQ]
theorem ptA_turn (a v : A3 ℚ) : ptA (turnQ a v) = (Submodule.span ℝ {ptA a}).reflection (ptA v) := by
  rw [refl_E3]
  ext i; fin_cases i <;> simp [ptA, lineQ, turnQ] <;> ring

theorem len_vec (v : Vector F64) : len (exactObj ⟨.vec, v⟩) = ‖ptVal v‖ := by
  rw [← Real.sqrt_sq (norm_nonneg (ptVal v)), normSq_E3]
  unfold len
  refine congrArg Real.sqrt ?_
  rw [Fin.sum_univ_eight]
  simp [exactObj, cf_0, cf_1, cf_2, cf_3, cf_4, cf_5, cf_6, cf_7, engabra, valTy, mapTy, ptVal]
  ring

theorem ptQ_imsp (q : ImSpin F64) : ptQ (exactObj ⟨.imsp, q⟩) = ptVal q.theVec := by
  simp only [ptQ, ptVal, exactObj, cf_1, cf_2, cf_3, engabra, valTy, mapTy]
theorem ptQ_vec (q : Vector F64) : ptQ (exactObj ⟨.vec, q⟩) = ptVal q := by
  simp only [ptQ, ptVal, exactObj, cf_1, cf_2, cf_3, engabra, valTy, mapTy]
theorem ptQ_toMV (w : A3 ℚ) : ptQ (toMV (⟨w⟩ : Vector ℚ)) = ptA w := by
  simp only [ptQ, ptA, cf_1, cf_2, cf_3, engabra]

/-- Reading a bound on an `ImSpin` or a `Vector`. -/
theorem read_imsp (q : ImSpin F64) (w : A3 ℚ) {ε : ℝ}
    (h : len (exactObj ⟨.imsp, q⟩ - toMV (⟨w⟩ : Vector ℚ)) ≤ ε) :
    ‖ptVal q.theVec - ptA w‖ ≤ ε ∧ |(q.theTri.theData.d0.value : ℝ)| ≤ ε := by
  refine ⟨?_, ?_⟩
  · have := ptQ_le _ _ h
    rwa [ptQ_imsp, ptQ_toMV] at this
  · have := (cf_le_len _ 7).trans h
    rw [cf_sub] at this
    simpa only [cf_7, engabra, exactObj, valTy, mapTy, sub_zero] using this

theorem read_vec (q : Vector F64) (w : A3 ℚ) {ε : ℝ}
    (h : len (exactObj ⟨.vec, q⟩ - toMV (⟨w⟩ : Vector ℚ)) ≤ ε) : ‖ptVal q - ptA w‖ ≤ ε := by
  have := ptQ_le _ _ h
  rwa [ptQ_vec, ptQ_toMV] at this

/-- The exact identities, over the rationals. -/
theorem unitQ {a : A3 ℚ} (h : a.d0 * a.d0 + a.d1 * a.d1 + a.d2 * a.d2 ≠ 0) :
    (a.d0 * a.d0 + a.d1 * a.d1 + a.d2 * a.d2) * (1 / (a.d0 * a.d0 + a.d1 * a.d1 + a.d2 * a.d2)) = 1 :=
  mul_one_div_cancel h

theorem turnQ_vec (a v : A3 ℚ) (h : a.d0 * a.d0 + a.d1 * a.d1 + a.d2 * a.d2 ≠ 0) :
    toMV (⟨turnQ a v⟩ : Vector ℚ) * toMV (⟨a⟩ : Vector ℚ) = toMV (⟨a⟩ : Vector ℚ) * toMV (⟨v⟩ : Vector ℚ) := by
  have hu := unitQ h
  obtain ⟨a0, a1, a2⟩ := a
  obtain ⟨v0, v1, v2⟩ := v
  simp only [turnQ, lineQ] at *
  generalize 1 / (a0 * a0 + a1 * a1 + a2 * a2) = r at *
  ext <;> simp only [engabra]
  · linear_combination 2 * (a0 * v0 + a1 * v1 + a2 * v2) * hu
  all_goals ring

theorem turnQ_biv (a v : A3 ℚ) (h : a.d0 * a.d0 + a.d1 * a.d1 + a.d2 * a.d2 ≠ 0) :
    toMV (⟨turnQ a v⟩ : Vector ℚ) * toMV (⟨a⟩ : BiVector ℚ) = toMV (⟨a⟩ : BiVector ℚ) * toMV (⟨v⟩ : Vector ℚ) := by
  have hu := unitQ h
  obtain ⟨a0, a1, a2⟩ := a
  obtain ⟨v0, v1, v2⟩ := v
  simp only [turnQ, lineQ] at *
  generalize 1 / (a0 * a0 + a1 * a1 + a2 * a2) = r at *
  ext <;> simp only [engabra]
  all_goals first | ring1 | linear_combination 2 * (a0 * v0 + a1 * v1 + a2 * v2) * hu

theorem lineQ_vec (a v : A3 ℚ) (h : a.d0 * a.d0 + a.d1 * a.d1 + a.d2 * a.d2 ≠ 0) :
    toMV (⟨lineQ a v⟩ : Vector ℚ) * toMV (⟨a⟩ : Vector ℚ)
      = toMV (toMV (⟨v⟩ : Vector ℚ) * toMV (⟨a⟩ : Vector ℚ)).theSca := by
  have hu := unitQ h
  obtain ⟨a0, a1, a2⟩ := a
  obtain ⟨v0, v1, v2⟩ := v
  simp only [lineQ] at *
  generalize 1 / (a0 * a0 + a1 * a1 + a2 * a2) = r at *
  ext <;> simp only [engabra]
  all_goals first | ring1 | linear_combination (a0 * v0 + a1 * v1 + a2 * v2) * hu

theorem restQ_vec (a v : A3 ℚ) (h : a.d0 * a.d0 + a.d1 * a.d1 + a.d2 * a.d2 ≠ 0) :
    toMV (⟨restQ a v⟩ : Vector ℚ) * toMV (⟨a⟩ : Vector ℚ)
      = toMV (toMV (⟨v⟩ : Vector ℚ) * toMV (⟨a⟩ : Vector ℚ)).theBiv := by
  have hu := unitQ h
  obtain ⟨a0, a1, a2⟩ := a
  obtain ⟨v0, v1, v2⟩ := v
  simp only [restQ, lineQ] at *
  generalize 1 / (a0 * a0 + a1 * a1 + a2 * a2) = r at *
  ext <;> simp only [engabra]
  all_goals first | ring1 | linear_combination -(a0 * v0 + a1 * v1 + a2 * v2) * hu

theorem lineQ_biv (a v : A3 ℚ) (h : a.d0 * a.d0 + a.d1 * a.d1 + a.d2 * a.d2 ≠ 0) :
    toMV (⟨lineQ a v⟩ : Vector ℚ) * toMV (⟨a⟩ : BiVector ℚ)
      = toMV (toMV (⟨v⟩ : Vector ℚ) * toMV (⟨a⟩ : BiVector ℚ)).theTri := by
  have hu := unitQ h
  obtain ⟨a0, a1, a2⟩ := a
  obtain ⟨v0, v1, v2⟩ := v
  simp only [lineQ] at *
  generalize 1 / (a0 * a0 + a1 * a1 + a2 * a2) = r at *
  ext <;> simp only [engabra]
  all_goals first | ring1 | linear_combination (a0 * v0 + a1 * v1 + a2 * v2) * hu

theorem restQ_biv (a v : A3 ℚ) (h : a.d0 * a.d0 + a.d1 * a.d1 + a.d2 * a.d2 ≠ 0) :
    toMV (⟨restQ a v⟩ : Vector ℚ) * toMV (⟨a⟩ : BiVector ℚ)
      = toMV (toMV (⟨v⟩ : Vector ℚ) * toMV (⟨a⟩ : BiVector ℚ)).theVec := by
  have hu := unitQ h
  obtain ⟨a0, a1, a2⟩ := a
  obtain ⟨v0, v1, v2⟩ := v
  simp only [restQ, lineQ] at *
  generalize 1 / (a0 * a0 + a1 * a1 + a2 * a2) = r at *
  ext <;> simp only [engabra]
  all_goals first | ring1 | linear_combination -(a0 * v0 + a1 * v1 + a2 * v2) * hu

/-- Values of the components. -/
def valA (a : A3 F64) : A3 ℚ := ⟨a.d0.value, a.d1.value, a.d2.value⟩

theorem valA_vec (a : Vector F64) (h : Central .vec a) :
    (valA a.theData).d0 * (valA a.theData).d0 + (valA a.theData).d1 * (valA a.theData).d1
      + (valA a.theData).d2 * (valA a.theData).d2 ≠ 0 := by
  have := ((F64.two_zpow_pos _).trans_le (central_sqSum h).1).ne'
  simpa [sqSum, comps, valA, add_assoc] using this

theorem valA_biv (a : BiVector F64) (h : Central .biv a) :
    (valA a.theData).d0 * (valA a.theData).d0 + (valA a.theData).d1 * (valA a.theData).d1
      + (valA a.theData).d2 * (valA a.theData).d2 ≠ 0 := by
  have := ((F64.two_zpow_pos _).trans_le (central_sqSum h).1).ne'
  simpa [sqSum, comps, valA, add_assoc] using this


/-- Taking one grade of a product with a blade, and multiplying by the inverse of the blade. -/
theorem grade_core (s t : Ty) (hs : s = .vec ∨ s = .biv) (a : s.D F64) (h : Central s a)
    (v : Vector F64) (hv : ∀ c ∈ comps .vec v, c.Finite)
    (h1 : (2 : ℝ) ^ (-400 : ℤ) ≤ ‖ptVal v‖) (h2 : ‖ptVal v‖ ≤ 2 ^ (400 : ℤ))
    (part : MultiVector ℚ → MultiVector ℚ) (hpart : ∀ x, len (part x) ≤ len x)
    (hsub : ∀ x y, part x - part y = part (x - y)) (p : t.D F64)
    (fp : FiniteTy _ (mulTy .vec s v a) → FiniteTy t p)
    (hp : exactObj ⟨t, p⟩ = part (exactObj ⟨_, mulTy .vec s v a⟩)) :
    ∃ y : s.D F64, inverseTy s a = some y ∧ FiniteTy _ (mulTy t s p y) ∧
      ∀ w : MultiVector ℚ, w * exactObj ⟨s, a⟩ = part (exactObj ⟨.vec, v⟩ * exactObj ⟨s, a⟩) →
        len (exactObj ⟨_, mulTy t s p y⟩ - w) ≤ 67 * 2 ^ (-53 : ℤ) * ‖ptVal v‖ := by
  have hs' : s = .sca ∨ s = .vec ∨ s = .biv ∨ s = .tri := by tauto
  have hver : s.versor = true := by rcases hs with rfl | rfl <;> rfl
  obtain ⟨-, -, -, -, -, hlo, hhi⟩ := inverse_len s hs' a h
  have hb0 := norm_nonneg (ptVal v)
  have hbig : len (exactObj ⟨.vec, v⟩) * len (exactObj ⟨s, a⟩) ≤ 2 ^ 1022 := by
    rw [len_vec, mul_comm]
    refine (mul_le_mul hhi h2 hb0 (F64.two_zpow_pos _).le).trans ?_
    rw [← zpow_add₀ two_ne_zero, ← zpow_natCast]
    exact zpow_le_zpow_right₀ one_le_two (by norm_num)
  obtain ⟨f, hq⟩ := product_len .vec s v a (finiteTy_of _ _ hv)
    (finiteTy_of _ _ fun c hc => (h.1 c hc).1) hbig
  have e : len (exactObj ⟨.vec, v⟩) * len (exactObj ⟨s, a⟩) = len (exactObj ⟨s, a⟩) * ‖ptVal v‖ := by
    rw [len_vec, mul_comm]
  refine over_blade s t hs' a h p (fp f) _ _ h1 h2 ?_ ?_
  · refine (hpart _).trans (le_of_eq ?_)
    rw [len_obj_right _ ⟨s, a⟩ hver, e]
  · rw [hp, hsub]
    refine (hpart _).trans ?_
    rw [← e]
    exact hq

theorem len_part {x y : MultiVector ℚ} (h : ∀ k, cf x k = cf y k ∨ cf x k = 0) : len x ≤ len y := by
  refine Real.sqrt_le_sqrt (Finset.sum_le_sum fun k _ => ?_)
  rcases h k with e | e <;> rw [e]
  simp; positivity

theorem value_neg_imsp (q : ImSpin F64) : exactObj ⟨.imsp, -q⟩ = - exactObj ⟨.imsp, q⟩ := by
  ext <;> simp only [exactObj, engabra, valTy, mapTy, F64.value_neg, neg_zero]

/-- Finite vectors with a length from `2^-400` to `2^400`. -/
def MidVec (v : Vector F64) : Prop :=
  (∀ c ∈ comps .vec v, c.Finite) ∧ (2 : ℝ) ^ (-400 : ℤ) ≤ ‖ptVal v‖ ∧ ‖ptVal v‖ ≤ 2 ^ (400 : ℤ)

theorem ptA_valA (v : Vector F64) : ptA (valA v.theData) = ptVal v := rfl
theorem ptA_valB (v : BiVector F64) : ptA (valA v.theData) = normalVal v := rfl

theorem neg_read {q : ImSpin F64} {p w : E3} {ε : ℝ} (hw : w = -p)
    (h : ‖ptVal q.theVec - p‖ ≤ ε ∧ |(q.theTri.theData.d0.value : ℝ)| ≤ ε) :
    ‖ptVal (-q).theVec - w‖ ≤ ε ∧ |((-q).theTri.theData.d0.value : ℝ)| ≤ ε := by
  have e : ptVal (-q).theVec = -ptVal q.theVec := by
    ext i; fin_cases i <;> simp [ptVal, engabra, F64.value_neg]
  have e2 : ((-q).theTri.theData.d0.value : ℝ) = -(q.theTri.theData.d0.value : ℝ) := by
    simp [engabra, F64.value_neg]
  rw [e, e2, abs_neg, hw, neg_sub_neg, norm_sub_rev]
  exact h

theorem finite_imsp {q : ImSpin F64} (h : FiniteTy .imsp q) : ∀ c ∈ comps .imsp q, c.Finite := by
  intro c hc
  simp only [comps, List.mem_cons, List.not_mem_nil, or_false] at hc
  rcases hc with rfl | rfl | rfl | rfl
  exacts [h 1, h 2, h 3, h 7]

theorem finite_vec {q : Vector F64} (h : FiniteTy .vec q) : ∀ c ∈ comps .vec q, c.Finite := by
  intro c hc
  simp only [comps, List.mem_cons, List.not_mem_nil, or_false] at hc
  rcases hc with rfl | rfl | rfl
  exacts [h 1, h 2, h 3]

theorem finite_neg {q : ImSpin F64} (h : ∀ c ∈ comps .imsp q, c.Finite) :
    ∀ c ∈ comps .imsp (-q), c.Finite := by
  intro c hc
  have : -c ∈ comps .imsp q ∨ ∃ d ∈ comps .imsp q, c = -d := by
    right
    simp only [comps, List.mem_cons, List.not_mem_nil, or_false, exists_eq_or_imp, exists_eq_left] at hc ⊢
    rcases hc with rfl | rfl | rfl | rfl
    · exact Or.inl rfl
    · exact Or.inr (Or.inl rfl)
    · exact Or.inr (Or.inr (Or.inl rfl))
    · exact Or.inr (Or.inr (Or.inr rfl))
  rcases this with h1 | ⟨d, hd, rfl⟩
  · exact F64.neg_finite_iff.1 (h _ h1)
  · exact F64.neg_finite_iff.2 (h d hd)

/-- The four grades. -/
def part0 (m : MultiVector ℚ) : MultiVector ℚ := toMV m.theSca
def part1 (m : MultiVector ℚ) : MultiVector ℚ := toMV m.theVec
def part2 (m : MultiVector ℚ) : MultiVector ℚ := toMV m.theBiv
def part3 (m : MultiVector ℚ) : MultiVector ℚ := toMV m.theTri

theorem part0_len (m : MultiVector ℚ) : len (part0 m) ≤ len m := by
  apply len_part
  apply forall_fin8 <;>
    simp only [part0, cf_0, cf_1, cf_2, cf_3, cf_4, cf_5, cf_6, cf_7, engabra, true_or, or_true]
theorem part1_len (m : MultiVector ℚ) : len (part1 m) ≤ len m := by
  apply len_part
  apply forall_fin8 <;>
    simp only [part1, cf_0, cf_1, cf_2, cf_3, cf_4, cf_5, cf_6, cf_7, engabra, true_or, or_true]
theorem part2_len (m : MultiVector ℚ) : len (part2 m) ≤ len m := by
  apply len_part
  apply forall_fin8 <;>
    simp only [part2, cf_0, cf_1, cf_2, cf_3, cf_4, cf_5, cf_6, cf_7, engabra, true_or, or_true]
theorem part3_len (m : MultiVector ℚ) : len (part3 m) ≤ len m := by
  apply len_part
  apply forall_fin8 <;>
    simp only [part3, cf_0, cf_1, cf_2, cf_3, cf_4, cf_5, cf_6, cf_7, engabra, true_or, or_true]

theorem part0_sub (x y : MultiVector ℚ) : part0 x - part0 y = part0 (x - y) := by
  ext <;> simp only [part0, engabra, sub_zero]
theorem part1_sub (x y : MultiVector ℚ) : part1 x - part1 y = part1 (x - y) := by
  ext <;> simp only [part1, engabra, sub_zero]
theorem part2_sub (x y : MultiVector ℚ) : part2 x - part2 y = part2 (x - y) := by
  ext <;> simp only [part2, engabra, sub_zero]
theorem part3_sub (x y : MultiVector ℚ) : part3 x - part3 y = part3 (x - y) := by
  ext <;> simp only [part3, engabra, sub_zero]

theorem grade_sca (p : Spinor F64) : exactObj ⟨.sca, p.theSca⟩ = part0 (exactObj ⟨.spin, p⟩) := by
  ext <;> simp only [part0, exactObj, engabra, valTy, mapTy]
theorem grade_biv (p : Spinor F64) : exactObj ⟨.biv, p.theBiv⟩ = part2 (exactObj ⟨.spin, p⟩) := by
  ext <;> simp only [part2, exactObj, engabra, valTy, mapTy]
theorem grade_vec (p : ImSpin F64) : exactObj ⟨.vec, p.theVec⟩ = part1 (exactObj ⟨.imsp, p⟩) := by
  ext <;> simp only [part1, exactObj, engabra, valTy, mapTy]
theorem grade_tri (p : ImSpin F64) : exactObj ⟨.tri, p.theTri⟩ = part3 (exactObj ⟨.imsp, p⟩) := by
  ext <;> simp only [part3, exactObj, engabra, valTy, mapTy]

theorem fin_sca {p : Spinor F64} (f : FiniteTy .spin p) : FiniteTy .sca p.theSca := by
  refine finiteTy_of _ _ fun c hc => ?_
  simp only [comps, List.mem_cons, List.not_mem_nil, or_false] at hc
  rcases hc with rfl
  exact f 0
theorem fin_biv {p : Spinor F64} (f : FiniteTy .spin p) : FiniteTy .biv p.theBiv := by
  refine finiteTy_of _ _ fun c hc => ?_
  simp only [comps, List.mem_cons, List.not_mem_nil, or_false] at hc
  rcases hc with rfl | rfl | rfl
  exacts [f 4, f 5, f 6]
theorem fin_vec {p : ImSpin F64} (f : FiniteTy .imsp p) : FiniteTy .vec p.theVec := by
  refine finiteTy_of _ _ fun c hc => ?_
  simp only [comps, List.mem_cons, List.not_mem_nil, or_false] at hc
  rcases hc with rfl | rfl | rfl
  exacts [f 1, f 2, f 3]
theorem fin_tri {p : ImSpin F64} (f : FiniteTy .imsp p) : FiniteTy .tri p.theTri := by
  refine finiteTy_of _ _ fun c hc => ?_
  simp only [comps, List.mem_cons, List.not_mem_nil, or_false] at hc
  rcases hc with rfl
  exact f 7
end Engabra
