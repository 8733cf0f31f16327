import Verif.Lemmas.InverseEst

/-! # C48: the inverse of a blade in binary64

`Central` and `sqSum` (the exact sum of the squared components) are those of `C34_Direction`. -/

namespace Engabra
open F64

/-- **C48.**  `inverse` of a blade in the central range is finite and each component is within
eleven units roundoff (plus underflow) of the component of the reverse divided by the exact
squared magnitude. -/
theorem C48_inverse (t : Ty) (ht : t = .sca ∨ t = .vec ∨ t = .biv ∨ t = .tri) (x : t.D F64)
    (h : Central t x) : ∃ y : t.D F64, inverseTy t x = some y ∧
      ∃ f : F64 → F64, comps t y = (comps t (reverseTy t x)).map f ∧
        ∀ c ∈ comps t (reverseTy t x), (f c).Finite ∧
          |(f c).value - c.value / sqSum t x|
            ≤ 11 * 2 ^ (-53 : ℤ) * |c.value / sqSum t x| + 2 ^ (-1075 : ℤ) :=
  inverse_est t ht x h

/-- **C48.**  The product of a blade and its inverse, in both orders, is one up to
`21 · 2^-53` in every component. -/
theorem C48_product (t : Ty) (ht : t = .sca ∨ t = .vec ∨ t = .biv ∨ t = .tri) (x : t.D F64)
    (h : Central t x) : ∃ y : t.D F64, inverseTy t x = some y ∧ ∀ k : Fin 8,
      ((cf (promote _ (mulTy t t x y)) k).Finite ∧
        |(cf (promote _ (mulTy t t x y)) k).value - (if k = 0 then 1 else 0)| ≤ 21 * 2 ^ (-53 : ℤ)) ∧
      ((cf (promote _ (mulTy t t y x)) k).Finite ∧
        |(cf (promote _ (mulTy t t y x)) k).value - (if k = 0 then 1 else 0)| ≤ 21 * 2 ^ (-53 : ℤ)) := by
  obtain ⟨y, hy, hc⟩ := inverse_cf t ht x h
  refine ⟨y, hy, fun k => ?_⟩
  obtain ⟨hS1, hS2⟩ := central_sqSum h
  have hS : 0 < sqSum t x := (F64.two_zpow_pos _).trans_le hS1
  have hu0 : (0 : ℚ) ≤ 2 ^ (-53 : ℤ) := (F64.two_zpow_pos _).le
  have hη0 : (0 : ℚ) ≤ 2 ^ (-1075 : ℤ) := (F64.two_zpow_pos _).le
  have hxf : ∀ i, (cf (promote t x) i).Finite := fun i => by
    rcases cf_promote_mem t x ht i with e | e
    · rw [e]; trivial
    · exact (h.1 _ e).1
  have hxb : ∀ i, |cf (promote t (valTy t x)) i| ≤ 2 ^ (500 : ℤ) := fun i => by
    rw [cf_val]
    rcases cf_promote_mem t x ht i with e | e
    · rw [e, show (0 : F64).value = 0 from rfl, abs_zero]; exact (F64.two_zpow_pos _).le
    · exact (h.1 _ e).2
  -- the exact inverse
  obtain ⟨Z, hZ⟩ : ∃ Z : MultiVector ℚ,
      ∀ i, cf Z i = revSign t * cf (promote t (valTy t x)) i / sqSum t x :=
    ⟨⟨⟨⟨revSign t * cf (promote t (valTy t x)) 0 / sqSum t x⟩⟩,
      ⟨⟨revSign t * cf (promote t (valTy t x)) 1 / sqSum t x,
        revSign t * cf (promote t (valTy t x)) 2 / sqSum t x,
        revSign t * cf (promote t (valTy t x)) 3 / sqSum t x⟩⟩,
      ⟨⟨revSign t * cf (promote t (valTy t x)) 4 / sqSum t x,
        revSign t * cf (promote t (valTy t x)) 5 / sqSum t x,
        revSign t * cf (promote t (valTy t x)) 6 / sqSum t x⟩⟩,
      ⟨⟨revSign t * cf (promote t (valTy t x)) 7 / sqSum t x⟩⟩⟩, by apply forall_fin8 <;> rfl⟩
  have hone := sq_one t ht x (sqSum t x) hS.ne' rfl Z hZ k
  have hsgn : |revSign t| = 1 := by
    rcases ht with rfl | rfl | rfl | rfl <;> simp [revSign]
  have hsq := (absMul_self_le (cf (promote t (valTy t x))) k).trans_eq (sqSum_cf t x).symm
  have hl1 : ∑ i, |cf (promote t (valTy t x)) i| ≤ 2 ^ (503 : ℤ) := by
    refine (Finset.sum_le_sum fun i _ => hxb i).trans_eq ?_
    rw [Finset.sum_const, Finset.card_univ, Fintype.card_fin, nsmul_eq_mul,
      show (503 : ℤ) = 3 + 500 by norm_num only, zpow_add₀ (by norm_num)]
    norm_num only [Nat.cast_ofNat]
  have hl0 : 0 ≤ ∑ i, |cf (promote t (valTy t x)) i| := Finset.sum_nonneg fun i _ => abs_nonneg _
  have hηl : 2 ^ (-1075 : ℤ) * ∑ i, |cf (promote t (valTy t x)) i| ≤ 1 / 100 * 2 ^ (-53 : ℤ) := by
    calc (2 : ℚ) ^ (-1075 : ℤ) * ∑ i, |cf (promote t (valTy t x)) i|
        ≤ 2 ^ (-1075 : ℤ) * 2 ^ (503 : ℤ) := mul_le_mul_of_nonneg_left hl1 hη0
      _ ≤ 2 ^ (-7 : ℤ) * 2 ^ (-53 : ℤ) := by
          rw [← zpow_add₀ (by norm_num), ← zpow_add₀ (by norm_num)]
          exact zpow_le_zpow_right₀ (by norm_num) (by norm_num)
      _ ≤ _ := mul_le_mul_of_nonneg_right (by norm_num) hu0
  have hη : (2 : ℚ) ^ (-1059 : ℤ) ≤ 1 / 100 * 2 ^ (-53 : ℤ) := by
    calc (2 : ℚ) ^ (-1059 : ℤ) ≤ 2 ^ (-7 : ℤ) * 2 ^ (-53 : ℤ) := by
          rw [← zpow_add₀ (by norm_num)]
          exact zpow_le_zpow_right₀ (by norm_num) (by norm_num)
      _ ≤ _ := mul_le_mul_of_nonneg_right (by norm_num) hu0
  have hus : (2 : ℚ) ^ (-53 : ℤ) ≤ 1 / 1000000 := by norm_num
  have hnx : ∀ i, Near (cf (promote t (valTy t x)) i) (cf (promote t (valTy t x)) i)
      |cf (promote t (valTy t x)) i| |cf (promote t (valTy t x)) i| := fun i =>
    ⟨by simp, le_rfl⟩
  generalize hSd : sqSum t x = S at *
  generalize hu : (2 : ℚ) ^ (-53 : ℤ) = u at *
  generalize hηd : (2 : ℚ) ^ (-1075 : ℤ) = η at *
  have hny : ∀ i, Near (cf (promote t (valTy t y)) i) (cf Z i)
      ((1 + 11 * u) / S * |cf (promote t (valTy t x)) i| + η)
      (1 / S * |cf (promote t (valTy t x)) i| + 0) := fun i => by
    refine ⟨?_, ?_⟩
    · rw [hZ]
      refine (hc i).2.trans (le_of_eq ?_)
      rw [abs_div, abs_of_pos hS]
      ring
    · rw [hZ, abs_div, abs_mul, hsgn, abs_of_pos hS]
      exact le_of_eq (by ring)
  have ha1 := absMul_affine (cf (promote t (valTy t x))) (cf (promote t (valTy t x)))
    ((1 + 11 * u) / S) η (by positivity) hη0 k
  have ha2 := absMul_affine (cf (promote t (valTy t x))) (cf (promote t (valTy t x)))
    (1 / S) 0 (by positivity) le_rfl k
  have habs : ∀ (V : Fin 8 → ℚ), absMul (fun i => |cf (promote t (valTy t x)) i|) V k
      = absMul (cf (promote t (valTy t x))) V k := fun V => by
    unfold absMul; simp only [abs_abs]
  have hn1 := near_mul hnx hny k
  have hn2 := near_mul hny hnx k
  rw [absMul_comm' _ (fun i => |cf (promote t (valTy t x)) i|),
    absMul_comm' _ (fun i => |cf (promote t (valTy t x)) i|)] at hn2
  rw [habs, habs, ha1, ha2] at hn1 hn2
  rw [zero_mul, add_zero] at hn1 hn2
  have hq : 1 / S * absMul (cf (promote t (valTy t x))) (cf (promote t (valTy t x))) k ≤ 1 := by
    rw [one_div, inv_mul_le_iff₀ hS, mul_one]; exact hsq
  have e1 : (1 + 11 * u) / S * absMul (cf (promote t (valTy t x))) (cf (promote t (valTy t x))) k
      = (1 + 11 * u) * (1 / S * absMul (cf (promote t (valTy t x))) (cf (promote t (valTy t x))) k) := by
    ring
  have hq0 : 0 ≤ 1 / S * absMul (cf (promote t (valTy t x))) (cf (promote t (valTy t x))) k :=
    mul_nonneg (by positivity) (absMul_nonneg _ _ _)
  rw [e1] at hn1 hn2
  have hY : absMul (cf (promote t (valTy t x))) (cf (promote t (valTy t y))) k
      ≤ (1 + 11 * u) * (1 / S * absMul (cf (promote t (valTy t x))) (cf (promote t (valTy t x))) k)
        + η * ∑ i, |cf (promote t (valTy t x)) i| := by
    rw [← e1, ← ha1]
    refine absMul_mono (fun i => le_rfl) (fun i => ((hny i).abs_le).trans (le_abs_self _)) k
  generalize 1 / S * absMul (cf (promote t (valTy t x))) (cf (promote t (valTy t x))) k = q at *
  generalize η * ∑ i, |cf (promote t (valTy t x)) i| = r at *
  have hY2 : absMul (cf (promote t (valTy t x))) (cf (promote t (valTy t y))) k ≤ 1 + 12 * u := by
    have := mul_le_mul_of_nonneg_left hq (by linarith : 0 ≤ 1 + 11 * u)
    linarith
  have hsafe : absMul (cf (promote t (valTy t x))) (cf (promote t (valTy t y))) k ≤ 2 ^ 1022 := by
    refine hY2.trans (le_trans (by linarith : _ ≤ (2 : ℚ)) ?_)
    exact le_self_pow₀ (by norm_num) (by norm_num)
  have hyf : ∀ i, (cf (promote t y) i).Finite := fun i => (hc i).1
  have p1 := C33_product t t x y hxf hyf k hsafe
  have p2 := C33_product t t y x hyf hxf k (by rw [absMul_comm']; exact hsafe)
  rw [absMul_comm'] at p2
  rw [hu] at p1 p2
  rw [hone.1] at hn1
  rw [hone.2] at hn2
  have hfin : ∀ a b c : ℚ, |a - b| ≤ 9 * u * absMul (cf (promote t (valTy t x)))
        (cf (promote t (valTy t y))) k + 2 ^ (-1059 : ℤ) →
      |b - c| ≤ (1 + 11 * u) * q + r - q → |a - c| ≤ 21 * u := by
    intro a b c h1 h2
    have h3 := abs_sub_le a b c
    have h4 := mul_le_mul_of_nonneg_left hY2 (by linarith : 0 ≤ 9 * u)
    have h5 := mul_le_mul_of_nonneg_left hq (by linarith : 0 ≤ 11 * u)
    have h6 : u * u ≤ 1 / 1000000 * u := mul_le_mul_of_nonneg_right hus hu0
    generalize (2 : ℚ) ^ (-1059 : ℤ) = z at *
    linarith
  exact ⟨⟨p1.1, hfin _ _ _ p1.2 hn1.1⟩, ⟨p2.1, hfin _ _ _ p2.2 hn2.1⟩⟩

/-- **C48.**  For a blade whose non-zero components lie between `2^-200` and `2^200`,
`nearlyEquals` accepts the product with the inverse as equal to one, in both orders, for every
tolerance of at least `2^-48` (sixteen times the default). -/
theorem C48_nearly (t : Ty) (ht : t = .sca ∨ t = .vec ∨ t = .biv ∨ t = .tri) (x : t.D F64)
    (hx : ∀ c ∈ comps t x, c.Finite ∧
      (c.value = 0 ∨ (2 : ℚ) ^ (-200 : ℤ) ≤ |c.value| ∧ |c.value| ≤ 2 ^ (200 : ℤ)))
    (hne : ∃ c ∈ comps t x, c.value ≠ 0) (tol : F64) (htf : tol.Finite)
    (ht1 : (2 : ℚ) ^ (-48 : ℤ) ≤ tol.value) (ht2 : tol.value ≤ 2 ^ (500 : ℤ)) :
    ∃ y : t.D F64, inverseTy t x = some y ∧
      nearlyEqualsTy _ (mulTy t t x y) (goneTy _) tol = .ok true ∧
      nearlyEqualsTy _ (mulTy t t y x) (goneTy _) tol = .ok true := by
  have hC : Central t x := by
    refine ⟨fun c hc => ⟨(hx c hc).1, ?_⟩, ?_⟩
    · rcases (hx c hc).2 with h | h
      · rw [h, abs_zero]; exact (F64.two_zpow_pos _).le
      · exact h.2.trans (zpow_le_zpow_right₀ (by norm_num) (by norm_num))
    · obtain ⟨c, hc, h0⟩ := hne
      exact ⟨c, hc, (zpow_le_zpow_right₀ (by norm_num) (by norm_num)).trans
        ((hx c hc).2.resolve_left h0).1⟩
  obtain ⟨y, hy, hp⟩ := C48_product t ht x hC
  obtain ⟨y', hy', hi⟩ := inverse_cf t ht x hC
  obtain rfl : y = y' := Option.some.inj (hy.symm.trans hy')
  refine ⟨y, hy, ?_⟩
  -- sizes of the components
  have zx : ∀ k, (cf (promote t x) k).value = 0 ∨ (2 : ℚ) ^ (-200 : ℤ) ≤ |(cf (promote t x) k).value| := by
    intro k
    rcases cf_promote_mem t x ht k with h | h
    · left; rw [h]; rfl
    · exact (hx _ h).2.imp id And.left
  have hSb : sqSum t x ≤ 2 ^ (403 : ℤ) := by
    have h1 := list_sum_le (comps t x) (2 ^ (400 : ℤ)) (fun c hc => by
      rw [← abs_mul_abs_self]
      have h2 : |c.value| ≤ 2 ^ (200 : ℤ) := by
        rcases (hx c hc).2 with h | h
        · rw [h, abs_zero]; exact (F64.two_zpow_pos _).le
        · exact h.2
      rw [show (400 : ℤ) = 200 + 200 by norm_num only, zpow_add₀ (by norm_num)]
      exact mul_le_mul h2 h2 (abs_nonneg _) (F64.two_zpow_pos _).le)
    refine h1.trans ?_
    rw [show (403 : ℤ) = 3 + 400 by norm_num only, zpow_add₀ (by norm_num)]
    refine mul_le_mul_of_nonneg_right ?_ (F64.two_zpow_pos _).le
    have h3 : ((comps t x).length : ℚ) ≤ 8 := by exact_mod_cast comps_length t x
    exact h3.trans (by norm_num)
  have hS0 : 0 < sqSum t x := (F64.two_zpow_pos _).trans_le (central_sqSum hC).1
  have zy : ∀ k, (cf (promote t y) k).value = 0 ∨ (2 : ℚ) ^ (-605 : ℤ) ≤ |(cf (promote t y) k).value| := by
    intro k
    have hk := (hi k).2
    rw [cf_val, cf_val] at hk
    rcases zx k with h | h
    · left
      rw [h, mul_zero, zero_div, abs_zero, mul_zero, zero_add, sub_zero] at hk
      by_contra hne0
      have h1 : (2 : ℚ) ^ (-1074 : ℤ) ≤ |(cf (promote t y) k).value| := by
        obtain ⟨m, e, hm, he, hv⟩ := F64.value_rep (x := cf (promote t y) k)
        exact F64.rep_pos_le ⟨|m|, e, by rwa [abs_abs], he, by
          rw [hv, abs_mul, abs_of_pos (F64.two_zpow_pos (K := ℚ) e), Int.cast_abs]⟩
          (abs_pos.2 hne0)
      have h2 : (2 : ℚ) ^ (-1075 : ℤ) < 2 ^ (-1074 : ℤ) :=
        zpow_lt_zpow_right₀ (by norm_num) (by norm_num)
      exact absurd (h1.trans hk) (not_le.2 h2)
    · right
      have hq : (2 : ℚ) ^ (-603 : ℤ) ≤ |(cf (promote t x) k).value / sqSum t x| := by
        rw [abs_div, abs_of_pos hS0, le_div_iff₀ hS0]
        calc (2 : ℚ) ^ (-603 : ℤ) * sqSum t x ≤ 2 ^ (-603 : ℤ) * 2 ^ (403 : ℤ) :=
              mul_le_mul_of_nonneg_left hSb (F64.two_zpow_pos _).le
          _ = 2 ^ (-200 : ℤ) := by rw [← zpow_add₀ (by norm_num)]; norm_num only
          _ ≤ _ := h
      have hsg : |revSign t * (cf (promote t x) k).value / sqSum t x|
          = |(cf (promote t x) k).value / sqSum t x| := by
        rw [mul_div_assoc, abs_mul]
        rcases ht with rfl | rfl | rfl | rfl <;> simp [revSign]
      have h3 := abs_sub_abs_le_abs_sub (revSign t * (cf (promote t x) k).value / sqSum t x)
        (cf (promote t y) k).value
      rw [abs_sub_comm] at h3
      rw [hsg] at h3
      have h4 : 11 * (2 : ℚ) ^ (-53 : ℤ) * |(cf (promote t x) k).value / sqSum t x|
          ≤ 1 / 4 * |(cf (promote t x) k).value / sqSum t x| :=
        mul_le_mul_of_nonneg_right (by norm_num) (abs_nonneg _)
      have h5 : (2 : ℚ) ^ (-1075 : ℤ) ≤ 2 ^ (-605 : ℤ) :=
        zpow_le_zpow_right₀ (by norm_num) (by norm_num)
      have h6 : (2 : ℚ) ^ (-603 : ℤ) = 4 * 2 ^ (-605 : ℤ) := by
        rw [show (-603 : ℤ) = 2 + -605 by norm_num only, zpow_add₀ (by norm_num)]; norm_num only
      rw [h6] at hq
      have h7 := F64.two_zpow_pos (K := ℚ) (-605)
      generalize (2 : ℚ) ^ (-605 : ℤ) = z at *
      generalize (2 : ℚ) ^ (-1075 : ℤ) = w at *
      generalize |(cf (promote t x) k).value / sqSum t x| = q at *
      generalize 11 * (2 : ℚ) ^ (-53 : ℤ) * q = r at *
      linarith only [hq, h3, h4, h5, hk, h7]
  have hsm : ∀ c : ℚ, |c - 0| ≤ 21 * 2 ^ (-53 : ℤ) → |c| < tol.value := by
    intro c hc
    rw [sub_zero] at hc
    refine lt_of_lt_of_le (lt_of_le_of_lt hc ?_) ht1
    norm_num
  have p0 := hp 0; have p4 := hp 4; have p5 := hp 5; have p6 := hp 6
  rw [if_pos rfl] at p0
  rw [if_neg (by decide)] at p4 p5 p6
  have x1 := zx 1; have x2 := zx 2; have x3 := zx 3
  have x4 := zx 4; have x5 := zx 5; have x6 := zx 6
  have y1 := zy 1; have y2 := zy 2; have y3 := zy 3
  have y4 := zy 4; have y5 := zy 5; have y6 := zy 6
  rcases ht with rfl | rfl | rfl | rfl
  · exact ⟨accept_one p0.1.1 p0.1.2 htf ht1 ht2, accept_one p0.2.1 p0.2.2 htf ht1 ht2⟩
  · constructor
    · change Run.and (nearlyEqualsArr [_] [1] tol) (nearlyEqualsArr [_, _, _] [0, 0, 0] tol) = _
      exact Run.and_true_iff.2 ⟨accept_one p0.1.1 p0.1.2 htf ht1 ht2, accept_zero htf
        (F64.cross_valid (by norm_num) x2 y3 x3 y2 p4.1.1)
        (F64.cross_valid (by norm_num) x3 y1 x1 y3 p5.1.1)
        (F64.cross_valid (by norm_num) x1 y2 x2 y1 p6.1.1)
        (hsm _ p4.1.2) (hsm _ p5.1.2) (hsm _ p6.1.2)⟩
    · change Run.and (nearlyEqualsArr [_] [1] tol) (nearlyEqualsArr [_, _, _] [0, 0, 0] tol) = _
      exact Run.and_true_iff.2 ⟨accept_one p0.2.1 p0.2.2 htf ht1 ht2, accept_zero htf
        (F64.cross_valid (by norm_num) y2 x3 y3 x2 p4.2.1)
        (F64.cross_valid (by norm_num) y3 x1 y1 x3 p5.2.1)
        (F64.cross_valid (by norm_num) y1 x2 y2 x1 p6.2.1)
        (hsm _ p4.2.2) (hsm _ p5.2.2) (hsm _ p6.2.2)⟩
  · have hv : ∀ {a b c d : F64} {e f : ℤ}, -860 ≤ e + f →
        (a.value = 0 ∨ (2 : ℚ) ^ e ≤ |a.value|) → (b.value = 0 ∨ (2 : ℚ) ^ f ≤ |b.value|) →
        (c.value = 0 ∨ (2 : ℚ) ^ e ≤ |c.value|) → (d.value = 0 ∨ (2 : ℚ) ^ f ≤ |d.value|) →
        (-(a * b - c * d)).Finite → isValidDub (-(a * b - c * d)) = true := by
      intro a b c d e f h ha hb hc hd hf
      rw [F64.isValidDub_neg]
      refine F64.cross_valid h ha hb hc hd ?_
      have := F64.neg_finite hf
      rwa [F64.neg_def, F64.neg_neg'] at this
    constructor
    · change Run.and (nearlyEqualsArr [_] [1] tol) (nearlyEqualsArr [_, _, _] [0, 0, 0] tol) = _
      exact Run.and_true_iff.2 ⟨accept_one p0.1.1 p0.1.2 htf ht1 ht2, accept_zero htf
        (hv (by norm_num) x5 y6 x6 y5 p4.1.1)
        (hv (by norm_num) x6 y4 x4 y6 p5.1.1)
        (hv (by norm_num) x4 y5 x5 y4 p6.1.1)
        (hsm _ p4.1.2) (hsm _ p5.1.2) (hsm _ p6.1.2)⟩
    · change Run.and (nearlyEqualsArr [_] [1] tol) (nearlyEqualsArr [_, _, _] [0, 0, 0] tol) = _
      exact Run.and_true_iff.2 ⟨accept_one p0.2.1 p0.2.2 htf ht1 ht2, accept_zero htf
        (hv (by norm_num) y5 x6 y6 x5 p4.2.1)
        (hv (by norm_num) y6 x4 y4 x6 p5.2.1)
        (hv (by norm_num) y4 x5 y5 x4 p6.2.1)
        (hsm _ p4.2.2) (hsm _ p5.2.2) (hsm _ p6.2.2)⟩
  · exact ⟨accept_one p0.1.1 p0.1.2 htf ht1 ht2, accept_one p0.2.1 p0.2.2 htf ht1 ht2⟩


/-- The scalar 31. -/
noncomputable def thirtyOne : Scalar F64 := ⟨⟨Dbl.lit 31⟩⟩

theorem lit31 : F64.HasVal (Dbl.lit 31 : F64) 31 := by
  have h : F64.IsFin 31 := ⟨by norm_num, 31, 0, by norm_num, by norm_num, by norm_num, by norm_num⟩
  rw [F64.lit_def, F64.roundTo_fin h]
  exact F64.hasVal_fin h

/-- The tolerance of `C48_nearly` cannot be lowered to the default: with `epsilon` as tolerance
`nearlyEquals(x * inverse(x), one)` is false for the scalar 31. -/
theorem C48_fails_default : ∃ y, inverseTy .sca thirtyOne = some y ∧
    nearlyEqualsTy _ (mulTy .sca .sca thirtyOne y) (goneTy _) (Dbl.epsilon F64) = .ok false := by
  refine ⟨inverseBlade thirtyOne, rfl, ?_⟩
  have h := lit31
  have h1 : F64.HasVal (Dbl.lit 31 * Dbl.lit 31 : F64) 961 :=
    h.mulR h (by rw [show (31 : ℚ) * 31 = 961 by norm_num]; exact (F64.rnVal_exact
      (F64.rep_int 961 (by norm_num)))) (by norm_num)
  have h2 : F64.HasVal (1 / (Dbl.lit 31 * Dbl.lit 31) : F64) ((4798840810018094 : ℤ) * (2 : ℚ) ^ (-62 : ℤ)) :=
    F64.hasVal_one.divR h1 (by norm_num) (rnVal_of (by norm_num) (by norm_num) (by norm_num)
      (by rw [abs_lt]; norm_num)) (by rw [abs_le]; norm_num)
  have h3 : F64.HasVal (1 / (Dbl.lit 31 * Dbl.lit 31) * Dbl.lit 31 : F64)
      ((4648877034705029 : ℤ) * (2 : ℚ) ^ (-57 : ℤ)) :=
    h2.mulR h (rnVal_of (by norm_num) (by norm_num) (by norm_num)
      (by rw [abs_lt]; norm_num)) (by rw [abs_le]; norm_num)
  have h4 : F64.HasVal (Dbl.lit 31 * (1 / (Dbl.lit 31 * Dbl.lit 31) * Dbl.lit 31) : F64)
      ((4503599627370497 : ℤ) * (2 : ℚ) ^ (-52 : ℤ)) :=
    h.mulR h3 (rnVal_of (by norm_num) (by norm_num) (by norm_num)
      (by rw [abs_lt]; norm_num)) (by rw [abs_le]; norm_num)
  change nearlyEqualsArr [Dbl.lit 31 * (1 / (Dbl.lit 31 * Dbl.lit 31) * Dbl.lit 31)] [1]
    (Dbl.epsilon F64) = _
  generalize (Dbl.lit 31 * (1 / (Dbl.lit 31 * Dbl.lit 31) * Dbl.lit 31) : F64) = c at h4
  have h5 : F64.HasVal (c - 1) ((2 : ℚ) ^ (-52 : ℤ)) :=
    h4.subR F64.hasVal_one (by
      rw [show ((4503599627370497 : ℤ) : ℚ) * 2 ^ (-52 : ℤ) - 1 = 2 ^ (-52 : ℤ) by norm_num]
      exact F64.rnVal_exact (F64.rep_pow _ (by norm_num))) (by rw [abs_le]; norm_num)
  have h6 : F64.HasVal ((c - 1) * (c - 1)) ((2 : ℚ) ^ (-104 : ℤ)) :=
    h5.mulR h5 (by
      rw [← zpow_add₀ (by norm_num)]
      exact F64.rnVal_exact (F64.rep_pow _ (by norm_num))) (by rw [abs_le]; norm_num)
  have h7 : F64.HasVal (1 * 1 : F64) 1 := F64.hasVal_one.one_mul F64.hasVal_one
  have h8 := F64.HasVal.zero_add F64.hasVal_zero' h6
  have h9 := F64.HasVal.zero_add F64.hasVal_zero' h7
  have h10 : F64.HasVal ((0 + (c - 1) * (c - 1)) / (0 + 1 * 1)) ((2 : ℚ) ^ (-104 : ℤ)) :=
    h8.divR h9 one_ne_zero (by
      rw [div_one]
      exact F64.rnVal_exact (F64.rep_pow _ (by norm_num))) (by rw [abs_le]; norm_num)
  have hsq : √(((2 : ℚ) ^ (-104 : ℤ) : ℚ) : ℝ) = 2 ^ (-52 : ℤ) := by
    rw [Real.sqrt_eq_iff_mul_self_eq (by norm_num) (by norm_num)]
    norm_num
  have h11 : F64.HasVal (Dbl.sqrt ((0 + (c - 1) * (c - 1)) / (0 + 1 * 1))) ((2 : ℚ) ^ (-52 : ℤ)) := by
    have h := F64.sqrt_spec h10.1 (by rw [h10.2]; norm_num)
      (by rw [h10.2, hsq]
          exact (zpow_le_one_of_nonpos₀ (by norm_num) (by norm_num)).trans (one_le_pow₀ (by norm_num)))
    refine ⟨h.1, ?_⟩
    rw [h.2, h10.2, hsq]
    rw [rnVal_of (e := -104) (n := 2 ^ 52) (by norm_num) (by norm_num) (by norm_num)
      (by rw [abs_lt]; norm_num)]
    norm_num
  rw [nearlyEqualsArr_eq]
  congr 1
  rw [Bool.and_eq_false_iff]
  right
  rw [if_neg]
  · change isSmallAbs (Dbl.sqrt ((0 + (c - 1) * (c - 1)) / (0 + 1 * 1))) _ = false
    rw [Bool.eq_false_iff]
    intro hlt
    have := (F64.abs_lt_iff h11.1 F64.epsilon_val.1).1 hlt
    rw [h11.2, F64.epsilon_val.2] at this
    exact absurd this (by norm_num)
  · intro hlt
    have e : Dbl.sqrt (innerProduct 0 [(1 : F64)]) = Dbl.sqrt (0 + 1 * 1) := rfl
    have hs1 : √((1 : ℚ) : ℝ) = ((1 : ℚ) : ℝ) := by norm_num
    have h := F64.sqrt_spec h9.1 (by rw [h9.2]; norm_num) (by rw [h9.2, hs1, Rat.cast_one]; exact one_le_pow₀ (by norm_num))
    have hv : F64.HasVal (Dbl.sqrt (0 + 1 * 1 : F64)) 1 := by
      refine ⟨h.1, ?_⟩
      rw [h.2, h9.2, hs1, rnVal_of (e := -52) (n := 2 ^ 52) (by norm_num) (by norm_num)
        (by norm_num) (by rw [abs_lt]; norm_num)]
      norm_num
    rw [e, hv.flt F64.minDub_val, decide_eq_true_iff] at hlt
    exact absurd hlt (not_lt.2 (zpow_le_one_of_nonpos₀ (by norm_num) (by norm_num)))

/-! ## The hypotheses are met -/

/-- The vector `(8, 1, 0)` meets the hypotheses of `C48_nearly` and is in the central range. -/
theorem sample_blade : (∀ c ∈ comps .vec (⟨⟨pow2 3, pow2 0, 0⟩⟩ : Vector F64), c.Finite ∧
      (c.value = 0 ∨ (2 : ℚ) ^ (-200 : ℤ) ≤ |c.value| ∧ |c.value| ≤ 2 ^ (200 : ℤ))) ∧
    (∃ c ∈ comps .vec (⟨⟨pow2 3, pow2 0, 0⟩⟩ : Vector F64), c.value ≠ 0) ∧
    Central .vec (⟨⟨pow2 3, pow2 0, 0⟩⟩ : Vector F64) := by
  have ha := F64.pow2_val (e := 3) (by norm_num) (by norm_num)
  have hb := F64.pow2_val (e := 0) (by norm_num) (by norm_num)
  have habs : |(pow2 3).value| = (2 : ℚ) ^ (3 : ℤ) := by
    rw [ha.2]; exact abs_of_pos (F64.two_zpow_pos _)
  have hbabs : |(pow2 0).value| = (2 : ℚ) ^ (0 : ℤ) := by
    rw [hb.2]; exact abs_of_pos (F64.two_zpow_pos _)
  have h0abs : |(0 : F64).value| = 0 := by rw [F64.hasVal_zero'.2, abs_zero]
  generalize pow2 3 = a at *
  generalize pow2 0 = b at *
  refine ⟨?_, ⟨a, List.mem_cons_self, ?_⟩, ?_, ⟨a, List.mem_cons_self, ?_⟩⟩
  · intro c hc
    simp only [comps, List.mem_cons, List.not_mem_nil, or_false] at hc
    rcases hc with rfl | rfl | rfl
    · exact ⟨ha.1, Or.inr (by
        rw [habs]
        exact ⟨zpow_le_zpow_right₀ (by norm_num) (by norm_num),
          zpow_le_zpow_right₀ (by norm_num) (by norm_num)⟩)⟩
    · exact ⟨hb.1, Or.inr (by
        rw [hbabs]
        exact ⟨zpow_le_zpow_right₀ (by norm_num) (by norm_num),
          zpow_le_zpow_right₀ (by norm_num) (by norm_num)⟩)⟩
    · exact ⟨trivial, Or.inl rfl⟩
  · rw [ha.2]; exact (F64.two_zpow_pos _).ne'
  · intro c hc
    simp only [comps, List.mem_cons, List.not_mem_nil, or_false] at hc
    rcases hc with rfl | rfl | rfl
    · exact ⟨ha.1, by rw [habs]; exact zpow_le_zpow_right₀ (by norm_num) (by norm_num)⟩
    · exact ⟨hb.1, by rw [hbabs]; exact zpow_le_zpow_right₀ (by norm_num) (by norm_num)⟩
    · exact ⟨trivial, by rw [h0abs]; exact (F64.two_zpow_pos _).le⟩
  · rw [habs]; exact zpow_le_zpow_right₀ (by norm_num) (by norm_num)

/-- Squared norm 65: no component of the inverse is exact.  The tolerance is `2^-40`. -/
example : ∃ y : Vector F64, inverseTy .vec (⟨⟨pow2 3, pow2 0, 0⟩⟩ : Vector F64) = some y ∧
    nearlyEqualsTy .spin (mulTy .vec .vec (⟨⟨pow2 3, pow2 0, 0⟩⟩ : Vector F64) y) (goneTy .spin)
      (pow2 (-40)) = .ok true := by
  have ht := F64.pow2_val (e := -40) (by norm_num) (by norm_num)
  obtain ⟨y, h1, h2, -⟩ := C48_nearly .vec (by simp) _ sample_blade.1 sample_blade.2.1 (pow2 (-40)) ht.1
    (by rw [ht.2]; exact zpow_le_zpow_right₀ (by norm_num) (by norm_num))
    (by rw [ht.2]; exact zpow_le_zpow_right₀ (by norm_num) (by norm_num))
  exact ⟨y, h1, h2⟩

end Engabra
