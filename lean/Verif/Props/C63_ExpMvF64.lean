import Verif.Lemmas.ExpMvF64
import Mathlib.Analysis.Complex.ExponentialBounds

/-! # C63: `exp(MultiVector)` in binary64

IEEE arithmetic and a mathematical library of stated accuracy.  The result is compared with the
exponential series in the algebra whose unit vectors square to `-1` (C47), which is the series of
the library's own algebra when there is neither a vector nor a trivector part. -/

namespace Engabra

open F64 (Finite HasVal)
open Spec

theorem triangle3 (a b c x y z : ℝ) : √((a + x) ^ 2 + ((b + y) ^ 2 + (c + z) ^ 2))
    ≤ √(a ^ 2 + (b ^ 2 + c ^ 2)) + √(x ^ 2 + (y ^ 2 + z ^ 2)) := by
  have e : ∀ a b c : ℝ, √(a ^ 2 + (b ^ 2 + c ^ 2)) = ‖(!₂[a, b, c] : EuclideanSpace ℝ (Fin 3))‖ := by
    intro a b c
    rw [EuclideanSpace.norm_eq]
    congr 1
    simp [Fin.sum_univ_three]; ring
  rw [e, e, e]
  refine (le_of_eq (congrArg norm ?_)).trans (norm_add_le _ _)
  ext i; fin_cases i <;> simp

theorem half_exp [LibM F64] {ε s : ℝ} {e : F64} (hε : ε ≤ 1 / 100)
    (h : NearExp e (Real.exp s) ε) :
    (Dbl.lit (1 / 2) * e : F64).Finite ∧ |((Dbl.lit (1 / 2) * e : F64).value : ℝ) - Real.exp s / 2|
      ≤ (ε + 102 / 100 * uR) * (Real.exp s / 2) := by
  have hX := h.pos
  have ht := h.tiny
  obtain ⟨fe, -, h2, he⟩ := h
  have hl : HasVal (Dbl.lit (1 / 2) : F64) (1 / 2) := litval
    ⟨1, -1, by norm_num, by norm_num, by norm_num⟩ (by norm_num)
  generalize Real.exp s = X at *
  have heX : |(e.value : ℝ)| ≤ 101 / 100 * X := by
    have h1 := abs_sub_abs_le_abs_sub (e.value : ℝ) X
    rw [abs_of_pos hX] at h1
    have := mul_le_mul_of_nonneg_right hε hX.le
    linarith only [h1, this, he]
  have hv : ((Dbl.lit (1 / 2) : F64).value : ℝ) = 1 / 2 := by rw [hl.2]; push_cast; rfl
  have hp : |((Dbl.lit (1 / 2) : F64).value : ℝ) * e.value| ≤ 101 / 200 * X := by
    rw [hv, abs_mul, abs_of_pos (by norm_num)]
    linarith only [heX]
  obtain ⟨f, k⟩ := mul_real hl.1 fe (hp.trans (by
    refine (mul_le_mul_of_nonneg_left h2 (by norm_num)).trans ?_
    calc (101 / 200 : ℝ) * 2 ^ (500 : ℤ) ≤ 2 ^ (522 : ℤ) * 2 ^ (500 : ℤ) :=
          mul_le_mul_of_nonneg_right ((by norm_num : (101 / 200 : ℝ) ≤ 2 ^ (1 : ℤ)).trans
            (zpow_le_zpow_right₀ (by norm_num) (by norm_num))) (F64.two_zpow_pos _).le
      _ = 2 ^ 1022 := by rw [← zpow_add₀ (by norm_num), ← zpow_natCast]; norm_num only))
  refine ⟨f, ?_⟩
  change _ ≤ uR * _ + _ at k
  have h5 := mul_le_mul_of_nonneg_left hp uR_nonneg
  have t0 : (0 : ℝ) < 2 ^ (-1075 : ℤ) := F64.two_zpow_pos _
  have h6 : 0 ≤ X * uR := mul_nonneg hX.le uR_nonneg
  rw [hv] at k h5
  have h7 : |1 / 2 * (e.value : ℝ) - X / 2| ≤ ε * (X / 2) := by
    rw [show 1 / 2 * (e.value : ℝ) - X / 2 = 1 / 2 * (e.value - X) by ring, abs_mul,
      abs_of_pos (by norm_num)]
    linarith only [he]
  refine (abs_sub_le _ (1 / 2 * (e.value : ℝ)) _).trans ?_
  generalize (2 : ℝ) ^ (-1075 : ℤ) = t at *
  generalize uR = u at *
  linarith only [k, h5, h7, ht, t0, h6]

theorem diff_near {a b : F64} (fa : a.Finite) (fb : b.Finite) (ha : |a.value| ≤ 2 ^ 500)
    (hb : |b.value| ≤ 2 ^ 500) :
    ((a - b).Finite ∧ |((a - b).value : ℝ) - (a.value - b.value)| ≤ uR * |(a.value : ℝ) - b.value| ∧
      |(a.value : ℝ) - b.value| ≤ 2 ^ 501) ∧
    ((a + b).Finite ∧ |((a + b).value : ℝ) - (a.value + b.value)| ≤ uR * |(a.value : ℝ) + b.value| ∧
      |(a.value : ℝ) + b.value| ≤ 2 ^ 501) := by
  have ha' : |(a.value : ℝ)| ≤ 2 ^ 500 := by
    have := (Rat.cast_le (K := ℝ)).2 ha
    rwa [Rat.cast_abs, Rat.cast_pow, Rat.cast_ofNat] at this
  have hb' : |(b.value : ℝ)| ≤ 2 ^ 500 := by
    have := (Rat.cast_le (K := ℝ)).2 hb
    rwa [Rat.cast_abs, Rat.cast_pow, Rat.cast_ofNat] at this
  have hP : (2 : ℝ) ^ 501 = 2 ^ 500 + 2 ^ 500 := by rw [pow_succ, mul_two]
  have h1 : |(a.value : ℝ) - b.value| ≤ 2 ^ 501 := (abs_sub _ _).trans ((add_le_add ha' hb').trans_eq hP.symm)
  have h2 : |(a.value : ℝ) + b.value| ≤ 2 ^ 501 := (abs_add_le _ _).trans ((add_le_add ha' hb').trans_eq hP.symm)
  have hbig : (2 : ℝ) ^ 501 ≤ 2 ^ 1022 := pow_le_pow_right₀ (by norm_num) (by norm_num)
  obtain ⟨f1, k1⟩ := sub_real fa fb (h1.trans hbig)
  obtain ⟨f2, k2⟩ := add_real fa fb (h2.trans hbig)
  exact ⟨⟨f1, k1, h1⟩, f2, k2, h2⟩

theorem expMv_near [LibM F64] {ε : ℝ} (hexp : LibmExpOk ε) {s : F64} (hs : s.Finite)
    (h1 : (2 : ℝ) ^ (-500 : ℤ) ≤ Real.exp s.value) (h2 : Real.exp s.value ≤ 2 ^ (500 : ℤ)) :
    NearExp (LibM.exp s) (Real.exp s.value) ε := by
  obtain ⟨f, k⟩ := hexp s hs ((zpow_le_zpow_right₀ (by norm_num) (by norm_num)).trans h1)
    (h2.trans (zpow_le_zpow_right₀ (by norm_num) (by norm_num)))
  exact ⟨f, h1, h2, k⟩

theorem expMv_near_neg [LibM F64] {ε : ℝ} (hexp : LibmExpOk ε) {s : F64} (hs : s.Finite)
    (h1 : (2 : ℝ) ^ (-500 : ℤ) ≤ Real.exp s.value) (h2 : Real.exp s.value ≤ 2 ^ (500 : ℤ)) :
    NearExp (LibM.exp (-s)) (Real.exp (-(s.value : ℝ))) ε := by
  have e : ((-s : F64).value : ℝ) = -(s.value : ℝ) := by rw [F64.value_neg, Rat.cast_neg]
  rw [← e]
  refine expMv_near hexp (F64.neg_finite_iff.2 hs) ?_ ?_
  · rw [e, Real.exp_neg, zpow_neg]
    exact inv_anti₀ (Real.exp_pos _) h2
  · rw [e, Real.exp_neg]
    have := inv_anti₀ (F64.two_zpow_pos _) h1
    rwa [zpow_neg, inv_inv] at this

/-- The value of the code, component by component. -/
theorem expMv_comps [LibM F64] (s t v0 v1 v2 w0 w1 w2 : F64)
    (hv : isValid (⟨⟨⟨s⟩⟩, ⟨⟨v0, v1, v2⟩⟩, ⟨⟨w0, w1, w2⟩⟩, ⟨⟨t⟩⟩⟩ : MultiVector F64) = true)
    {h e n x0 x1 x2 y0 y1 y2 ap an cp cn sp sn : F64}
    (hh : h = Dbl.lit (1 / 2) * LibM.exp s) (he : e = LibM.exp t) (hn : n = LibM.exp (-t))
    (hx0 : x0 = v0 - w0) (hx1 : x1 = v1 - w1) (hx2 : x2 = v2 - w2)
    (hy0 : y0 = v0 + w0) (hy1 : y1 = v1 + w1) (hy2 : y2 = v2 + w2)
    (hap : ap = Dbl.sqrt (sq x2 + sq x1 + sq x0)) (han : an = Dbl.sqrt (sq y2 + sq y1 + sq y0))
    (hcp : cp = LibM.cos ap) (hcn : cn = LibM.cos an) (hsp : sp = sync ap) (hsn : sn = sync an) :
    comps .mv (expMv (⟨⟨⟨s⟩⟩, ⟨⟨v0, v1, v2⟩⟩, ⟨⟨w0, w1, w2⟩⟩, ⟨⟨t⟩⟩⟩ : MultiVector F64))
      = [h * (e * cp + n * cn),
         h * (e * x0 * sp + n * y0 * sn), h * (e * x1 * sp + n * y1 * sn), h * (e * x2 * sp + n * y2 * sn),
         h * (-(e * x0 * sp) + n * y0 * sn), -(h * (e * x1 * sp + -(n * y1 * sn))),
         h * (-(e * x2 * sp) + n * y2 * sn), h * (e * cp + -(n * cn))] := by
  have e1 : v1 + -w1 = v1 - w1 := rfl
  have e2 : v1 - -w1 = v1 + w1 := by rw [F64.sub_def, ← F64.neg_def, F64.neg_neg'']; rfl
  unfold expMv expMvIO
  rw [if_pos hv]
  simp only [e1, e2, ← hx0, ← hx1, ← hx2, ← hy0, ← hy1, ← hy2, ← hap, ← han, ← hcp, ← hcn, ← hsp,
    ← hsn, ← hh, ← he, ← hn, F64.neg_mul']
  change [_, _, _, _, _, h * -(e * x1 * sp - n * y1 * sn), _, _] = _
  rw [F64.mul_neg']
  rfl

theorem len_minus (s t v0 v1 v2 w0 w1 w2 : F64) : length .vec (vecMinus (realTy .mv (⟨⟨⟨s⟩⟩, ⟨⟨v0, v1, v2⟩⟩, ⟨⟨w0, w1, w2⟩⟩, ⟨⟨t⟩⟩⟩ : MultiVector F64)))
    = √(((v2.value : ℝ) - w2.value) ^ 2 + (((v1.value : ℝ) - w1.value) ^ 2 + ((v0.value : ℝ) - w0.value) ^ 2)) := by
  simp only [vecMinus, realTy, mapTy]; rw [length3]; congr 1; ring

theorem len_plus (s t v0 v1 v2 w0 w1 w2 : F64) : length .vec (vecPlus (realTy .mv (⟨⟨⟨s⟩⟩, ⟨⟨v0, v1, v2⟩⟩, ⟨⟨w0, w1, w2⟩⟩, ⟨⟨t⟩⟩⟩ : MultiVector F64)))
    = √(((v2.value : ℝ) + w2.value) ^ 2 + (((v1.value : ℝ) + w1.value) ^ 2 + ((v0.value : ℝ) + w0.value) ^ 2)) := by
  simp only [vecPlus, realTy, mapTy]; rw [length3]; congr 1; ring

theorem len_both (v0 v1 v2 w0 w1 w2 : F64) : euclid .vec (⟨⟨v0, v1, v2⟩⟩ : Vector F64) + euclid .biv (⟨⟨w0, w1, w2⟩⟩ : BiVector F64)
    = √((v2.value : ℝ) ^ 2 + ((v1.value : ℝ) ^ 2 + (v0.value : ℝ) ^ 2))
        + √((w2.value : ℝ) ^ 2 + ((w1.value : ℝ) ^ 2 + (w0.value : ℝ) ^ 2)) := by
  simp only [euclid, sqSum, comps, List.map_cons, List.map_nil, List.sum_cons, List.sum_nil]
  congr 2 <;> push_cast <;> ring

/-- **C63.**  `exp(A)` of a multivector `A = s + v + B + t`, every component finite, the vector and
bivector components at most `2^500` in size, `e^s` and `e^t` between `2^-500` and `2^500`, and the
first component of every grade valid.  With a library whose sine and cosine are within `ε` and whose
`exp` has relative error at most `ε`, all eight components of the result are finite and each is
within `e^s cosh t (3.3 ε + (12 + 19 (|v| + |B|)) 2^-53)` of the exponential series of `A` in the
algebra whose unit vectors square to `-1`. -/
theorem C63_exp_mv [LibM F64] (ε : ℝ) (hε0 : 0 ≤ ε) (hε : ε ≤ 1 / 100) (hlib : LibmOk ε)
    (hexp : LibmExpOk ε) (A : MultiVector F64) (hv : isValid A = true)
    (hf : ∀ c ∈ comps .mv A, c.Finite)
    (hb : ∀ c ∈ comps .vec A.theVec ++ comps .biv A.theBiv, |c.value| ≤ 2 ^ 500)
    (hs1 : (2 : ℝ) ^ (-500 : ℤ) ≤ Real.exp A.theSca.theData.d0.value)
    (hs2 : Real.exp A.theSca.theData.d0.value ≤ 2 ^ (500 : ℤ))
    (ht1 : (2 : ℝ) ^ (-500 : ℤ) ≤ Real.exp A.theTri.theData.d0.value)
    (ht2 : Real.exp A.theTri.theData.d0.value ≤ 2 ^ (500 : ℤ)) :
    ∃ F : MultiVector ℝ, IsExpN (realTy .mv A) F ∧
      List.Forall₂ (fun c y => c.Finite ∧ |(c.value : ℝ) - y|
          ≤ Real.exp A.theSca.theData.d0.value * Real.cosh A.theTri.theData.d0.value
            * (33 / 10 * ε + (12 + 19 * (euclid .vec A.theVec + euclid .biv A.theBiv)) * 2 ^ (-53 : ℤ)))
        (comps .mv (expMv A)) (comps .mv F) := by
  obtain ⟨⟨⟨s⟩⟩, ⟨⟨v0, v1, v2⟩⟩, ⟨⟨w0, w1, w2⟩⟩, ⟨⟨t⟩⟩⟩ := A
  refine ⟨_, formula_exp _, ?_⟩
  rw [expMv_comps s t v0 v1 v2 w0 w1 w2 hv rfl rfl rfl rfl rfl rfl rfl rfl rfl rfl rfl rfl rfl rfl rfl]
  simp only [comps, List.mem_cons, List.not_mem_nil, or_false, forall_eq_or_imp, forall_eq,
    List.cons_append, List.nil_append] at hf hb hs1 hs2 ht1 ht2 ⊢
  obtain ⟨fs, fv0, fv1, fv2, fw0, fw1, fw2, ft⟩ := hf
  obtain ⟨bv0, bv1, bv2, bw0, bw1, bw2⟩ := hb
  have nS := expMv_near hexp fs hs1 hs2
  have nT := expMv_near hexp ft ht1 ht2
  have nN := expMv_near_neg hexp ft ht1 ht2
  obtain ⟨fh, kh⟩ := half_exp hε nS
  obtain ⟨⟨f0, k0, b0⟩, g0, l0, c0⟩ := diff_near fv0 fw0 bv0 bw0
  obtain ⟨⟨f1, k1, b1⟩, g1, l1, c1⟩ := diff_near fv1 fw1 bv1 bw1
  obtain ⟨⟨f2, k2, b2⟩, g2, l2, c2⟩ := diff_near fv2 fw2 bv2 bw2
  have nP := len_near f2 f1 f0 k2 k1 k0 b2 b1 b0
  have nQ := len_near g2 g1 g0 l2 l1 l0 c2 c1 c0
  have eP := len_minus s t v0 v1 v2 w0 w1 w2
  have eQ := len_plus s t v0 v1 v2 w0 w1 w2
  have eL := len_both v0 v1 v2 w0 w1 w2
  have LQ := triangle3 (v2.value : ℝ) v1.value v0.value w2.value w1.value w0.value
  have LP := triangle3 (v2.value : ℝ) v1.value v0.value (-w2.value) (-w1.value) (-w0.value)
  simp only [neg_sq, ← sub_eq_add_neg] at LP
  rw [← eL] at LP LQ
  rw [← eP] at nP LP
  rw [← eQ] at nQ LQ
  have sP := sync_near hε0 hε hlib nP
  have sQ := sync_near hε0 hε hlib nQ
  have cP := cos_near hε0 hε hlib nT nP
  have cQ := cos_near hε0 hε hlib nN nQ
  have mP := im_le (qp (realTy .mv (⟨⟨⟨s⟩⟩, ⟨⟨v0, v1, v2⟩⟩, ⟨⟨w0, w1, w2⟩⟩, ⟨⟨t⟩⟩⟩ : MultiVector F64)))
  have mQ := im_le (qn (realTy .mv (⟨⟨⟨s⟩⟩, ⟨⟨v0, v1, v2⟩⟩, ⟨⟨w0, w1, w2⟩⟩, ⟨⟨t⟩⟩⟩ : MultiVector F64)))
  rw [norm_qp] at mP
  rw [norm_qn] at mQ
  simp only [formula, ofQ]
  generalize length .vec (vecMinus (realTy .mv (⟨⟨⟨s⟩⟩, ⟨⟨v0, v1, v2⟩⟩, ⟨⟨w0, w1, w2⟩⟩, ⟨⟨t⟩⟩⟩ : MultiVector F64))) = E at *
  generalize length .vec (vecPlus (realTy .mv (⟨⟨⟨s⟩⟩, ⟨⟨v0, v1, v2⟩⟩, ⟨⟨w0, w1, w2⟩⟩, ⟨⟨t⟩⟩⟩ : MultiVector F64))) = D at *
  generalize euclid .vec (⟨⟨v0, v1, v2⟩⟩ : Vector F64) + euclid .biv (⟨⟨w0, w1, w2⟩⟩ : BiVector F64) = L at *
  simp only [qp, qn, realTy, mapTy, abs_neg] at mP mQ ⊢
  have tP : ∀ {x : F64} {ξ : ℝ}, x.Finite → |(x.value : ℝ) - ξ| ≤ uR * |ξ| → |ξ| ≤ E →
      TermOk (LibM.exp t * x * sync (Dbl.sqrt (sq (v2 - w2) + sq (v1 - w1) + sq (v0 - w0))))
        (Real.exp t.value) (Real.sin E / E * ξ) L ε := fun fx hx hξ =>
    TermOk.mono (term_near hε0 hε nT fx hx hξ nP.2.2.2.1 sP) nT.pos.le LP
  have tQ : ∀ {x : F64} {ξ : ℝ}, x.Finite → |(x.value : ℝ) - ξ| ≤ uR * |ξ| → |ξ| ≤ D →
      TermOk (LibM.exp (-t) * x * sync (Dbl.sqrt (sq (v2 + w2) + sq (v1 + w1) + sq (v0 + w0))))
        (Real.exp (-(t.value : ℝ))) (Real.sin D / D * ξ) L ε := fun fx hx hξ =>
    TermOk.mono (term_near hε0 hε nN fx hx hξ nQ.2.2.2.1 sQ) nN.pos.le LQ
  have p0 := tP f0 k0 mP.1
  have p1 := tP f1 k1 mP.2.1
  have p2 := tP f2 k2 mP.2.2
  have q0 := tQ g0 l0 mQ.1
  have q1 := tQ g1 l1 mQ.2.1
  have q2 := tQ g2 l2 mQ.2.2
  have cP := cP.mono nT.pos.le LP
  have cQ := cQ.mono nN.pos.le LQ
  have hXY : 1 ≤ Real.exp (t.value : ℝ) ∨ 1 ≤ Real.exp (-(t.value : ℝ)) := by
    rcases le_total 0 (t.value : ℝ) with h | h
    · exact Or.inl (Real.one_le_exp h)
    · exact Or.inr (Real.one_le_exp (by linarith))
  have hH1 : (2 : ℝ) ^ (-501 : ℤ) ≤ Real.exp (s.value : ℝ) / 2 := by
    rw [show (-501 : ℤ) = -500 + -1 from by norm_num only, zpow_add₀ (by norm_num), zpow_neg_one,
      ← div_eq_mul_inv]
    exact div_le_div_of_nonneg_right hs1 (by norm_num)
  have hH2 : Real.exp (s.value : ℝ) / 2 ≤ 2 ^ 500 :=
    (half_le_self (Real.exp_pos _).le).trans (hs2.trans_eq (zpow_natCast 2 500))
  have fin : ∀ {p q : F64} {S T y : ℝ}, TermOk p (Real.exp (t.value : ℝ)) S L ε →
      TermOk q (Real.exp (-(t.value : ℝ))) T L ε →
      y = Real.exp s.value / 2 * (Real.exp t.value * S + Real.exp (-(t.value : ℝ)) * T) →
      (Dbl.lit (1 / 2) * LibM.exp s * (p + q) : F64).Finite ∧
      |((Dbl.lit (1 / 2) * LibM.exp s * (p + q) : F64).value : ℝ) - y|
        ≤ Real.exp s.value * Real.cosh t.value * (33 / 10 * ε + (12 + 19 * L) * uR) := by
    intro p q S T y hp hq hy
    obtain ⟨f, k⟩ := sum_near hε0 hε fh (half_pos nS.pos) hH2 hH1 kh hXY nT.pos nN.pos nT.2.2.1
      nN.2.2.1 hp hq
    refine ⟨f, ?_⟩
    rw [hy]
    refine k.trans (le_of_eq ?_)
    rw [Real.cosh_eq]; ring
  have e1 : Real.exp ((s.value : ℝ) + t.value) = Real.exp s.value * Real.exp t.value := Real.exp_add _ _
  have e2 : Real.exp ((s.value : ℝ) - t.value) = Real.exp s.value * Real.exp (-(t.value : ℝ)) := by
    rw [sub_eq_add_neg, Real.exp_add]
  simp only [List.forall₂_cons, List.forall₂_nil_left_iff, and_true, e1, e2]
  refine ⟨fin cP cQ (by ring), fin p0 q0 (by ring), fin p1 q1 (by ring), fin p2 q2 (by ring),
    fin p0.neg q0 (by ring), ?_, fin p2.neg q2 (by ring), fin cP cQ.neg (by ring)⟩
  obtain ⟨f, k⟩ := fin p1 q1.neg rfl
  refine ⟨F64.neg_finite_iff.2 f, ?_⟩
  rw [F64.value_neg, Rat.cast_neg, ← abs_neg]
  refine (le_of_eq (congrArg abs ?_)).trans k
  ring

/-! ## Spinor-valued arguments -/

theorem formula_spin (s : ℝ) (B : BiVector ℝ) {A : MultiVector ℝ} (hA : A = toMV (⟨⟨⟨s⟩⟩, B⟩ : Spinor ℝ)) :
    formula A (Real.sin (length .vec (vecMinus A)) / length .vec (vecMinus A))
      (Real.sin (length .vec (vecPlus A)) / length .vec (vecPlus A)) = toMV (expR s B) := by
  subst hA
  obtain ⟨⟨x, y, w⟩⟩ := B
  have h0 : length .biv (⟨⟨x, y, w⟩⟩ : BiVector ℝ) = √(x ^ 2 + (y ^ 2 + w ^ 2)) := length3 x y w
  have h1 : length .vec (vecMinus (toMV (⟨⟨⟨s⟩⟩, ⟨⟨x, y, w⟩⟩⟩ : Spinor ℝ)))
      = length .biv (⟨⟨x, y, w⟩⟩ : BiVector ℝ) := by
    rw [h0]; simp only [vecMinus, htoMvSpin, engabra, zero_sub]; rw [length3]; simp only [neg_sq]
  have h2 : length .vec (vecPlus (toMV (⟨⟨⟨s⟩⟩, ⟨⟨x, y, w⟩⟩⟩ : Spinor ℝ)))
      = length .biv (⟨⟨x, y, w⟩⟩ : BiVector ℝ) := by
    rw [h0]; simp only [vecPlus, htoMvSpin, engabra, zero_add]; rw [length3]
  simp only [formula, h1, h2, qp, qn, ofQ, expR]
  generalize length .biv (⟨⟨x, y, w⟩⟩ : BiVector ℝ) = r
  ext <;> simp [htoMvSpin, engabra] <;> ring

theorem realTy_spin (S : Spinor F64) : realTy .mv (toMV S : MultiVector F64)
    = toMV (⟨⟨⟨(S.theSca.theData.d0.value : ℝ)⟩⟩, realTy .biv S.theBiv⟩ : Spinor ℝ) := by
  have h0 : ((0 : F64).value : ℝ) = 0 := by rw [F64.hasVal_zero'.2, Rat.cast_zero]
  simp only [realTy, mapTy, htoMvSpin, engabra, h0]

theorem valid_toMV {S : Spinor F64} (h : isValid S = true) : isValid (toMV S : MultiVector F64) = true := by
  have hz := isValidDub_zero'
  change (isValidDub _ && isValidDub _) = true at h
  change (isValidDub S.theSca.theData.d0 && isValidDub (0 : F64) && isValidDub S.theBiv.theData.d0
    && isValidDub (0 : F64)) = true
  rw [Bool.and_eq_true] at h
  rw [h.1, h.2, hz]
  rfl

theorem euclid_zero : euclid .vec (⟨⟨0, 0, 0⟩⟩ : Vector F64) = 0 := by
  unfold euclid sqSum
  simp [comps, F64.hasVal_zero'.2]

/-- **C63.**  A multivector with scalar and bivector parts only: the result is as close to the
exponential series of the library's own algebra, with `|v| = 0` and `t = 0` in the bound.  Every
bivector with components up to `2^500` is covered, including those shorter than `1e-4`, where the
code uses a polynomial in place of `sin x / x`. -/
theorem C63_spinor_valued [LibM F64] (ε : ℝ) (hε0 : 0 ≤ ε) (hε : ε ≤ 1 / 100) (hlib : LibmOk ε)
    (hexp : LibmExpOk ε) (S : Spinor F64) (hv : isValid S = true)
    (hf : ∀ c ∈ comps .spin S, c.Finite) (hb : ∀ c ∈ comps .biv S.theBiv, |c.value| ≤ 2 ^ 500)
    (hs1 : (2 : ℝ) ^ (-500 : ℤ) ≤ Real.exp S.theSca.theData.d0.value)
    (hs2 : Real.exp S.theSca.theData.d0.value ≤ 2 ^ (500 : ℤ)) :
    ∃ Y : Spinor ℝ, IsExp (toMV (realTy .spin S : Spinor ℝ)) (toMV Y) ∧
      List.Forall₂ (fun c y => c.Finite ∧ |(c.value : ℝ) - y|
          ≤ Real.exp S.theSca.theData.d0.value
            * (33 / 10 * ε + (12 + 19 * euclid .biv S.theBiv) * 2 ^ (-53 : ℤ)))
        (comps .mv (expMv (toMV S : MultiVector F64))) (comps .mv (toMV Y)) := by
  have h0 : ((0 : F64).value : ℝ) = 0 := by rw [F64.hasVal_zero'.2, Rat.cast_zero]
  have h0q : |(0 : F64).value| ≤ 2 ^ 500 := by
    rw [F64.hasVal_zero'.2, abs_zero]; exact pow_nonneg (by norm_num) _
  have h1 : (2 : ℝ) ^ (-500 : ℤ) ≤ 1 := zpow_le_one_of_nonpos₀ one_le_two (by norm_num)
  have h2 : (1 : ℝ) ≤ 2 ^ (500 : ℤ) := one_le_zpow₀ one_le_two (by norm_num)
  obtain ⟨F, hF, hk⟩ := C63_exp_mv ε hε0 hε hlib hexp (toMV S) (valid_toMV hv)
    (by
      have hz : (0 : F64).Finite := F64.hasVal_zero'.1
      simp only [comps, htoMvSpin, engabra, List.mem_cons, List.not_mem_nil, or_false,
        forall_eq_or_imp, forall_eq] at hf ⊢
      exact ⟨hf.1, hz, hz, hz, hf.2.1, hf.2.2.1, hf.2.2.2, hz⟩)
    (by
      simp only [comps, htoMvSpin, engabra, List.mem_cons, List.not_mem_nil, or_false,
        forall_eq_or_imp, forall_eq, List.cons_append, List.nil_append] at hb ⊢
      exact ⟨h0q, h0q, h0q, hb⟩)
    hs1 hs2
    (by change _ ≤ Real.exp ((0 : F64).value : ℝ); rw [h0, Real.exp_zero]; exact h1)
    (by change Real.exp ((0 : F64).value : ℝ) ≤ _; rw [h0, Real.exp_zero]; exact h2)
  refine ⟨expR S.theSca.theData.d0.value (realTy .biv S.theBiv), isExp_expR _ _, ?_⟩
  rw [isExpN_unique hF (formula_exp _), formula_spin _ _ (realTy_spin S)] at hk
  refine hk.imp fun c y h => ⟨h.1, h.2.trans (le_of_eq ?_)⟩
  change Real.exp S.theSca.theData.d0.value * Real.cosh ((0 : F64).value : ℝ)
    * (33 / 10 * ε + (12 + 19 * (euclid .vec (⟨⟨0, 0, 0⟩⟩ : Vector F64) + euclid .biv S.theBiv)) * 2 ^ (-53 : ℤ)) = _
  rw [h0, Real.cosh_zero, mul_one, euclid_zero, zero_add]

/-- The scalar and bivector components of a multivector, in the order of a spinor's. -/
def evenComps (M : MultiVector F64) : List F64 :=
  [M.theSca.theData.d0, M.theBiv.theData.d0, M.theBiv.theData.d1, M.theBiv.theData.d2]

/-- **C63.**  The two exponentials of a spinor agree: `exp` of `S` as a multivector and `exp(S)`
differ by at most `e^s (5.5 ε + (24 + 25 |B|) 2^-53)` in every scalar and bivector component. -/
theorem C63_two_exps [LibM F64] (ε : ℝ) (hε0 : 0 ≤ ε) (hε : ε ≤ 1 / 100) (hlib : LibmOk ε)
    (hexp : LibmExpOk ε) (S : Spinor F64) (hv : isValid S = true)
    (hs : S.theSca.theData.d0.Finite)
    (hs1 : (2 : ℝ) ^ (-500 : ℤ) ≤ Real.exp S.theSca.theData.d0.value)
    (hs2 : Real.exp S.theSca.theData.d0.value ≤ 2 ^ (500 : ℤ)) (h : Central .biv S.theBiv)
    (hc : S.theBiv.theData.d0.value = 0 ∨ (2 : ℚ) ^ (-400 : ℤ) ≤ |S.theBiv.theData.d0.value|)
    (hb : ∀ c ∈ comps .biv S.theBiv, |c.value| ≤ 2 ^ 500) :
    List.Forall₂ (fun c d => c.Finite ∧ d.Finite ∧ |(c.value : ℝ) - d.value|
        ≤ Real.exp S.theSca.theData.d0.value
          * (55 / 10 * ε + (24 + 25 * euclid .biv S.theBiv) * 2 ^ (-53 : ℤ)) + 2 ^ (-1075 : ℤ))
      (evenComps (expMv (toMV S : MultiVector F64))) (comps .spin (expSpin S)) := by
  obtain ⟨Y, hY, kY⟩ := C46_exp_spinor ε hε0 hε hlib hexp S hs
    ((zpow_le_zpow_right₀ (by norm_num) (by norm_num)).trans hs1)
    (hs2.trans (zpow_le_zpow_right₀ (by norm_num) (by norm_num))) h hc
  obtain ⟨Z, hZ, kZ⟩ := C63_spinor_valued ε hε0 hε hlib hexp S hv (by
    intro c hcm
    rcases List.mem_cons.1 hcm with rfl | hcm
    · exact hs
    · exact (h.1 c hcm).1) hb hs1 hs2
  have e : (toMV Y : MultiVector ℝ) = toMV Z := isExp_unique hY hZ
  rw [← e] at kZ
  generalize expMv (toMV S : MultiVector F64) = M at *
  generalize expSpin S = T at *
  obtain ⟨⟨⟨m⟩⟩, ⟨⟨m1, m2, m3⟩⟩, ⟨⟨n0, n1, n2⟩⟩, ⟨⟨q⟩⟩⟩ := M
  obtain ⟨⟨⟨t⟩⟩, ⟨⟨t0, t1, t2⟩⟩⟩ := T
  obtain ⟨⟨⟨y⟩⟩, ⟨⟨y0, y1, y2⟩⟩⟩ := Y
  simp only [comps, htoMvSpin, engabra, List.forall₂_cons, List.forall₂_nil_left_iff, and_true,
    evenComps] at kY kZ ⊢
  obtain ⟨a1, -, -, -, a2, a3, a4, -⟩ := kZ
  obtain ⟨b1, b2, b3, b4⟩ := kY
  have key : ∀ {c d : F64} {y : ℝ}, (c.Finite ∧ |(c.value : ℝ) - y| ≤ Real.exp S.theSca.theData.d0.value
            * (33 / 10 * ε + (12 + 19 * euclid .biv S.theBiv) * 2 ^ (-53 : ℤ))) →
      (d.Finite ∧ |(d.value : ℝ) - y| ≤ Real.exp S.theSca.theData.d0.value
              * (22 / 10 * ε + (12 + 6 * euclid .biv S.theBiv) * 2 ^ (-53 : ℤ)) + 2 ^ (-1075 : ℤ)) →
      c.Finite ∧ d.Finite ∧ |(c.value : ℝ) - d.value| ≤ Real.exp S.theSca.theData.d0.value
          * (55 / 10 * ε + (24 + 25 * euclid .biv S.theBiv) * 2 ^ (-53 : ℤ)) + 2 ^ (-1075 : ℤ) := by
    intro c d y hc hd
    refine ⟨hc.1, hd.1, (abs_sub_le _ y _).trans ?_⟩
    rw [abs_sub_comm y]
    refine (add_le_add hc.2 hd.2).trans (le_of_eq ?_)
    ring
  exact ⟨key a1 b1, key a2 b2, key a3 b3, key a4 b4⟩

theorem zero_sub_cases {b : F64} (hb : b.Finite) :
    ((0 : F64) - b = -b ∧ (0 : F64) + b = b) ∨ ((0 : F64) - b = 0 ∧ (0 : F64) + b = 0) := by
  cases b with
  | nan => exact absurd hb id
  | inf _ => exact absurd hb id
  | zero s =>
    right
    rw [F64.sub_def, F64.add_def, F64.zero_def]
    cases s <;> simp [F64.neg, F64.add, F64.addFin, F64.value, F64.signbit]
  | fin v hv =>
    left
    refine ⟨?_, ?_⟩
    · change (0 : F64) + -(F64.fin v hv) = _
      rw [F64.add_comm', F64.add_zero']
      exact fun h => by cases h
    · rw [F64.add_comm', F64.add_zero']
      exact fun h => by cases h

/-- A zero of either sign, or NaN. -/
def ZeroOrNan (x : F64) : Prop := x = .nan ∨ ∃ s, x = .zero s

theorem ZeroOrNan.mul_left {x : F64} (h : ZeroOrNan x) (y : F64) : ZeroOrNan (y * x) := by
  rcases h with rfl | ⟨s, rfl⟩
  · left; rw [F64.mul_def]; cases y <;> rfl
  · cases y with
    | nan => exact Or.inl rfl
    | inf t => exact Or.inl rfl
    | zero t => right; rw [F64.mul_def]; simp [F64.mul, F64.mulFin, F64.value]
    | fin v hv => right; rw [F64.mul_def]; simp [F64.mul, F64.mulFin, F64.value]

theorem ZeroOrNan.mul_right {x : F64} (h : ZeroOrNan x) (y : F64) : ZeroOrNan (x * y) := by
  rw [F64.mul_comm']; exact h.mul_left y

theorem ZeroOrNan.add {x y : F64} (hx : ZeroOrNan x) (hy : ZeroOrNan y) : ZeroOrNan (x + y) := by
  rcases hx with rfl | ⟨s, rfl⟩
  · exact Or.inl rfl
  · rcases hy with rfl | ⟨t, rfl⟩
    · exact Or.inl rfl
    · right; rw [F64.add_def]; simp [F64.add, F64.addFin, F64.value]

theorem zeroOrNan_cancel (p : F64) : ZeroOrNan (p + -p) := by
  rw [F64.add_def, F64.neg_def]
  cases p with
  | nan => exact Or.inl rfl
  | inf s => left; cases s <;> rfl
  | zero s => right; simp [F64.neg, F64.add, F64.addFin, F64.value]
  | fin v hv => right; simp [F64.neg, F64.add, F64.addFin, F64.value]

theorem zeroOrNan_zero : ZeroOrNan (0 : F64) := Or.inr ⟨false, rfl⟩

theorem ZeroOrNan.value {x : F64} (h : ZeroOrNan x) : x.value = 0 := by
  rcases h with rfl | ⟨s, rfl⟩ <;> rfl

theorem odd_comp {h e b s : F64} (hb : b.Finite) :
    ZeroOrNan (h * (e * ((0 : F64) - b) * s + e * ((0 : F64) + b) * s)) := by
  refine ZeroOrNan.mul_left ?_ h
  rcases zero_sub_cases hb with ⟨h1, h2⟩ | ⟨h1, h2⟩
  · rw [h1, h2, F64.mul_neg', F64.neg_mul', F64.add_comm']
    exact zeroOrNan_cancel _
  · rw [h1, h2]
    exact ((zeroOrNan_zero.mul_left e).mul_right s).add ((zeroOrNan_zero.mul_left e).mul_right s)

theorem sq_zero_sub {b : F64} (hb : b.Finite) : sq ((0 : F64) - b) = sq ((0 : F64) + b) := by
  rcases zero_sub_cases hb with ⟨h1, h2⟩ | ⟨h1, h2⟩
  · rw [h1, h2, sq, F64.neg_mul', F64.mul_neg', F64.neg_neg'']; rfl
  · rw [h1, h2]

/-- **C63.**  `exp` of a spinor-valued multivector has no vector and no trivector part: with any
library in which `exp(-0)` and `exp(+0)` are the same number, each of the four components is a zero
(or NaN, when something overflows), whatever the finite bivector and however inaccurate the
library. -/
theorem C63_odd_grades [LibM F64] (hz : (LibM.exp (-0) : F64) = LibM.exp 0) (S : Spinor F64)
    (hb : ∀ c ∈ comps .biv S.theBiv, c.Finite) :
    ∀ c ∈ comps .imsp (⟨(expMv (toMV S : MultiVector F64)).theVec,
      (expMv (toMV S : MultiVector F64)).theTri⟩ : ImSpin F64), ZeroOrNan c := by
  obtain ⟨⟨⟨s⟩⟩, ⟨⟨b0, b1, b2⟩⟩⟩ := S
  simp only [comps, List.mem_cons, List.not_mem_nil, or_false, forall_eq_or_imp, forall_eq] at hb
  obtain ⟨h0, h1, h2⟩ := hb
  have hA : (toMV (⟨⟨⟨s⟩⟩, ⟨⟨b0, b1, b2⟩⟩⟩ : Spinor F64) : MultiVector F64)
      = ⟨⟨⟨s⟩⟩, ⟨⟨0, 0, 0⟩⟩, ⟨⟨b0, b1, b2⟩⟩, ⟨⟨0⟩⟩⟩ := rfl
  rw [hA]
  by_cases hv : isValid (⟨⟨⟨s⟩⟩, ⟨⟨0, 0, 0⟩⟩, ⟨⟨b0, b1, b2⟩⟩, ⟨⟨0⟩⟩⟩ : MultiVector F64) = true
  · have hk := expMv_comps s 0 0 0 0 b0 b1 b2 hv rfl rfl rfl rfl rfl rfl rfl rfl rfl rfl rfl rfl rfl rfl rfl
    generalize expMv (⟨⟨⟨s⟩⟩, ⟨⟨0, 0, 0⟩⟩, ⟨⟨b0, b1, b2⟩⟩, ⟨⟨0⟩⟩⟩ : MultiVector F64) = M at hk ⊢
    rw [hz, sq_zero_sub h0, sq_zero_sub h1, sq_zero_sub h2] at hk
    obtain ⟨⟨⟨m⟩⟩, ⟨⟨m1, m2, m3⟩⟩, ⟨⟨n0, n1, n2⟩⟩, ⟨⟨q⟩⟩⟩ := M
    simp only [comps, List.cons.injEq, and_true] at hk
    obtain ⟨-, k1, k2, k3, -, -, -, k7⟩ := hk
    simp only [comps, List.mem_cons, List.not_mem_nil, or_false, forall_eq_or_imp, forall_eq]
    rw [k1, k2, k3, k7]
    exact ⟨odd_comp h0, odd_comp h1, odd_comp h2, (zeroOrNan_cancel _).mul_left _⟩
  · unfold expMv expMvIO
    rw [if_neg hv]
    intro c hc
    right
    simp only [comps, List.mem_cons, List.not_mem_nil, or_false] at hc
    rcases hc with h | h | h | h <;> exact ⟨false, h⟩

/-! ## Vectors -/

theorem cosh_ge (x : ℝ) : 1 + x ^ 2 / 2 ≤ Real.cosh x := by
  have h := Real.cosh_sq (x / 2)
  have e : Real.cosh x = 2 * Real.sinh (x / 2) ^ 2 + 1 := by
    have h2 := Real.cosh_two_mul (x / 2)
    rw [mul_div_cancel₀ _ two_ne_zero] at h2
    rw [h2, h]; ring
  have h3 : (x / 2) ^ 2 ≤ Real.sinh (x / 2) ^ 2 := by
    rw [sq_le_sq]
    rcases le_total 0 (x / 2) with hx | hx
    · rw [abs_of_nonneg hx, abs_of_nonneg (Real.sinh_nonneg_iff.2 hx)]
      exact Real.self_le_sinh_iff.2 hx
    · rw [abs_of_nonpos hx, abs_of_nonpos (Real.sinh_nonpos_iff.2 hx)]
      exact neg_le_neg (Real.sinh_le_self_iff.2 hx)
  rw [e]; linarith

/-- **C63.**  The exponential of a vector is wrong by at least `|v|^2 / 2` less the rounding: the
series of the library's own algebra has the scalar part `cosh |v|`, the code computes `cos |v|`. -/
theorem C63_vector_wrong [LibM F64] (ε : ℝ) (hε0 : 0 ≤ ε) (hε : ε ≤ 1 / 100) (hlib : LibmOk ε)
    (hexp : LibmExpOk ε) (v : Vector F64) (hv : isValid v = true)
    (hf : ∀ c ∈ comps .vec v, c.Finite) (hb : ∀ c ∈ comps .vec v, |c.value| ≤ 2 ^ 500)
    (E : MultiVector ℝ) (hE : IsExp (realTy .mv (toMV v : MultiVector F64)) E) :
    (expMv (toMV v : MultiVector F64)).theSca.theData.d0.Finite ∧
    euclid .vec v ^ 2 / 2 - (33 / 10 * ε + (12 + 19 * euclid .vec v) * 2 ^ (-53 : ℤ))
      ≤ |((expMv (toMV v : MultiVector F64)).theSca.theData.d0.value : ℝ) - E.theSca.theData.d0| := by
  have h0 : ((0 : F64).value : ℝ) = 0 := by rw [F64.hasVal_zero'.2, Rat.cast_zero]
  have h0q : |(0 : F64).value| ≤ 2 ^ 500 := by
    rw [F64.hasVal_zero'.2, abs_zero]; exact pow_nonneg (by norm_num) _
  have h1 : (2 : ℝ) ^ (-500 : ℤ) ≤ 1 := zpow_le_one_of_nonpos₀ one_le_two (by norm_num)
  have h2 : (1 : ℝ) ≤ 2 ^ (500 : ℤ) := one_le_zpow₀ one_le_two (by norm_num)
  have r1 : (2 : ℝ) ^ (-500 : ℤ) ≤ Real.exp ((0 : F64).value : ℝ) := by rw [h0, Real.exp_zero]; exact h1
  have r2 : Real.exp ((0 : F64).value : ℝ) ≤ 2 ^ (500 : ℤ) := by rw [h0, Real.exp_zero]; exact h2
  obtain ⟨⟨x, y, z⟩⟩ := v
  have hA : (toMV (⟨⟨x, y, z⟩⟩ : Vector F64) : MultiVector F64)
      = ⟨⟨⟨0⟩⟩, ⟨⟨x, y, z⟩⟩, ⟨⟨0, 0, 0⟩⟩, ⟨⟨0⟩⟩⟩ := rfl
  rw [hA] at hE ⊢
  obtain ⟨F, hF, hk⟩ := C63_exp_mv ε hε0 hε hlib hexp
    (⟨⟨⟨0⟩⟩, ⟨⟨x, y, z⟩⟩, ⟨⟨0, 0, 0⟩⟩, ⟨⟨0⟩⟩⟩ : MultiVector F64) (by
      have hz := isValidDub_zero'
      change isValidDub _ = true at hv
      change (isValidDub (0 : F64) && isValidDub x && isValidDub (0 : F64) && isValidDub (0 : F64)) = true
      rw [hv, hz]; rfl)
    (by
      have hz : (0 : F64).Finite := F64.hasVal_zero'.1
      simp only [comps, List.mem_cons, List.not_mem_nil, or_false, forall_eq_or_imp, forall_eq] at hf ⊢
      exact ⟨hz, hf.1, hf.2.1, hf.2.2, hz, hz, hz, hz⟩)
    (by
      simp only [comps, List.mem_cons, List.not_mem_nil, or_false,
        forall_eq_or_imp, forall_eq, List.cons_append, List.nil_append] at hb ⊢
      exact ⟨hb.1, hb.2.1, hb.2.2, h0q, h0q, h0q⟩)
    r1 r2 r1 r2
  have eE := isExp_noBiv 0 0 _ _ (realTy .vec (⟨⟨x, y, z⟩⟩ : Vector F64)) rfl rfl
  rw [show (⟨⟨⟨0⟩⟩, realTy .vec (⟨⟨x, y, z⟩⟩ : Vector F64), ⟨⟨0, 0, 0⟩⟩, ⟨⟨0⟩⟩⟩ : MultiVector ℝ)
    = realTy .mv (⟨⟨⟨0⟩⟩, ⟨⟨x, y, z⟩⟩, ⟨⟨0, 0, 0⟩⟩, ⟨⟨0⟩⟩⟩ : MultiVector F64) by
      simp only [realTy, mapTy, h0]] at eE
  have e1 : E.theSca.theData.d0 = Real.cosh (euclid .vec (⟨⟨x, y, z⟩⟩ : Vector F64)) := by
    rw [isExp_unique hE eE, ← length_realTy]
    simp [shape]
  have e2 : F.theSca.theData.d0 = Real.cos (euclid .vec (⟨⟨x, y, z⟩⟩ : Vector F64)) := by
    rw [isExpN_unique hF (formula_exp _), ← length_realTy]
    have l1 : vecMinus (realTy .mv (⟨⟨⟨0⟩⟩, ⟨⟨x, y, z⟩⟩, ⟨⟨0, 0, 0⟩⟩, ⟨⟨0⟩⟩⟩ : MultiVector F64))
        = realTy .vec (⟨⟨x, y, z⟩⟩ : Vector F64) := by
      simp [vecMinus, realTy, mapTy, h0]
    have l2 : vecPlus (realTy .mv (⟨⟨⟨0⟩⟩, ⟨⟨x, y, z⟩⟩, ⟨⟨0, 0, 0⟩⟩, ⟨⟨0⟩⟩⟩ : MultiVector F64))
        = realTy .vec (⟨⟨x, y, z⟩⟩ : Vector F64) := by
      simp [vecPlus, realTy, mapTy, h0]
    rw [l1, l2]
    simp only [formula, ofQ, l1, l2]
    simp [realTy, mapTy, h0]
  have e3 : euclid .biv (⟨⟨0, 0, 0⟩⟩ : BiVector F64) = 0 := euclid_zero
  generalize expMv (⟨⟨⟨0⟩⟩, ⟨⟨x, y, z⟩⟩, ⟨⟨0, 0, 0⟩⟩, ⟨⟨0⟩⟩⟩ : MultiVector F64) = M at *
  obtain ⟨⟨⟨m⟩⟩, ⟨⟨m1, m2, m3⟩⟩, ⟨⟨n0, n1, n2⟩⟩, ⟨⟨q⟩⟩⟩ := M
  obtain ⟨⟨⟨f⟩⟩, ⟨⟨f1, f2, f3⟩⟩, ⟨⟨g0, g1, g2⟩⟩, ⟨⟨f7⟩⟩⟩ := F
  simp only [comps, List.forall₂_cons] at hk
  obtain ⟨⟨fm, km⟩, -⟩ := hk
  simp only at e1 e2
  refine ⟨fm, ?_⟩
  rw [e2, h0, Real.exp_zero, Real.cosh_zero, mul_one, one_mul, e3, add_zero] at km
  simp only
  rw [e1]
  have c1 := cosh_ge (euclid .vec (⟨⟨x, y, z⟩⟩ : Vector F64))
  have c2 := Real.cos_le_one (euclid .vec (⟨⟨x, y, z⟩⟩ : Vector F64))
  generalize euclid .vec (⟨⟨x, y, z⟩⟩ : Vector F64) = r at *
  have c3 := (abs_le.1 km).2
  have c4 := neg_abs_le ((m.value : ℝ) - Real.cosh r)
  generalize (33 / 10 * ε + (12 + 19 * r) * 2 ^ (-53 : ℤ) : ℝ) = w at *
  linarith only [c1, c2, c3, c4]

/-! ## The hypotheses are met -/

theorem ones_exp : (2 : ℝ) ^ (-500 : ℤ) ≤ Real.exp ((1 : F64).value : ℝ) ∧
    Real.exp ((1 : F64).value : ℝ) ≤ 2 ^ (500 : ℤ) := by
  rw [F64.hasVal_one.2, Rat.cast_one]
  refine ⟨(zpow_le_one_of_nonpos₀ one_le_two (by norm_num)).trans (Real.one_le_exp zero_le_one), ?_⟩
  refine Real.exp_one_lt_d9.le.trans ((by norm_num : (2.7182818286 : ℝ) ≤ 2 ^ (2 : ℤ)).trans ?_)
  exact zpow_le_zpow_right₀ one_le_two (by norm_num)

theorem one_le_big : |(1 : F64).value| ≤ 2 ^ 500 := by
  rw [F64.hasVal_one.2, abs_one]; exact one_le_pow₀ one_le_two

theorem ones_mv : ∀ {t : Ty} {x : t.D F64}, (∀ c ∈ comps t x, c = 1) →
    (∀ c ∈ comps t x, c.Finite) ∧ ∀ c ∈ comps t x, |c.value| ≤ 2 ^ 500 :=
  fun h => ⟨fun c hc => by rw [h c hc]; exact F64.hasVal_one.1,
    fun c hc => by rw [h c hc]; exact one_le_big⟩

/-- All eight components one, with a correctly rounded library: within `2^-43`. -/
example : letI := refLibM
    ∃ F : MultiVector ℝ, IsExpN (realTy .mv (⟨⟨⟨1⟩⟩, ⟨⟨1, 1, 1⟩⟩, ⟨⟨1, 1, 1⟩⟩, ⟨⟨1⟩⟩⟩ : MultiVector F64)) F ∧
      List.Forall₂ (fun c y => c.Finite ∧ |(c.value : ℝ) - y| ≤ 2 ^ (-43 : ℤ))
        (comps .mv (expMv (⟨⟨⟨1⟩⟩, ⟨⟨1, 1, 1⟩⟩, ⟨⟨1, 1, 1⟩⟩, ⟨⟨1⟩⟩⟩ : MultiVector F64))) (comps .mv F) := by
  let _ := refLibM
  obtain ⟨F, h1, h2⟩ := C63_exp_mv (2 ^ (-53 : ℤ)) (by positivity) (by norm_num) refLibM_ok.1 refLibM_ok.2.1
    (⟨⟨⟨1⟩⟩, ⟨⟨1, 1, 1⟩⟩, ⟨⟨1, 1, 1⟩⟩, ⟨⟨1⟩⟩⟩ : MultiVector F64)
    (by
      change (isValidDub (1 : F64) && isValidDub (1 : F64) && isValidDub (1 : F64) && isValidDub (1 : F64)) = true
      rw [isValidDub_one]; rfl)
    (ones_mv (t := .mv) (by simp [comps])).1
    (by
      intro c hc
      have : c = 1 := by simpa [comps] using hc
      rw [this]; exact one_le_big)
    ones_exp.1 ones_exp.2 ones_exp.1 ones_exp.2
  refine ⟨F, h1, h2.imp fun c y h => ⟨h.1, h.2.trans ?_⟩⟩
  have v1 : ((1 : F64).value : ℝ) = 1 := by rw [F64.hasVal_one.2, Rat.cast_one]
  have hL : euclid .vec (⟨⟨1, 1, 1⟩⟩ : Vector F64) ≤ 2 ∧ euclid .biv (⟨⟨1, 1, 1⟩⟩ : BiVector F64) ≤ 2 := by
    constructor <;> (refine Real.sqrt_le_iff.2 ⟨by norm_num, ?_⟩) <;>
      simp [sqSum, comps, F64.hasVal_one.2] <;> norm_num
  change Real.exp ((1 : F64).value : ℝ) * Real.cosh ((1 : F64).value : ℝ)
    * (33 / 10 * 2 ^ (-53 : ℤ) + (12 + 19 * (euclid .vec (⟨⟨1, 1, 1⟩⟩ : Vector F64)
      + euclid .biv (⟨⟨1, 1, 1⟩⟩ : BiVector F64))) * 2 ^ (-53 : ℤ)) ≤ _
  rw [v1]
  have he := Real.exp_one_lt_d9
  have hc : Real.cosh 1 ≤ 3 := by
    rw [Real.cosh_eq]
    have : Real.exp (-1) ≤ 1 := Real.exp_le_one_iff.2 (by norm_num)
    linarith
  have h3 := mul_le_mul (he.le.trans (by norm_num : (2.7182818286 : ℝ) ≤ 3)) hc (Real.cosh_pos 1).le
    (by norm_num)
  refine (mul_le_mul h3 (d := (92 : ℝ) * 2 ^ (-53 : ℤ)) ?_ ?_ (by norm_num)).trans ?_
  · linarith [hL.1, hL.2]
  · have := Real.sqrt_nonneg ((sqSum .vec (⟨⟨1, 1, 1⟩⟩ : Vector F64) : ℚ) : ℝ)
    have := Real.sqrt_nonneg ((sqSum .biv (⟨⟨1, 1, 1⟩⟩ : BiVector F64) : ℚ) : ℝ)
    unfold euclid
    positivity
  · norm_num

/-- The two exponentials of `1 + e23 + e31 + e12`, and the zeros in the one as a multivector. -/
example : letI := refLibM
    List.Forall₂ (fun c d => c.Finite ∧ d.Finite ∧ |(c.value : ℝ) - d.value| ≤ 2 ^ (-44 : ℤ))
      (evenComps (expMv (toMV (⟨⟨⟨1⟩⟩, ⟨⟨1, 1, 1⟩⟩⟩ : Spinor F64) : MultiVector F64)))
      (comps .spin (expSpin (⟨⟨⟨1⟩⟩, ⟨⟨1, 1, 1⟩⟩⟩ : Spinor F64))) ∧
    ∀ c ∈ comps .imsp (⟨(expMv (toMV (⟨⟨⟨1⟩⟩, ⟨⟨1, 1, 1⟩⟩⟩ : Spinor F64) : MultiVector F64)).theVec,
      (expMv (toMV (⟨⟨⟨1⟩⟩, ⟨⟨1, 1, 1⟩⟩⟩ : Spinor F64) : MultiVector F64)).theTri⟩ : ImSpin F64),
      ZeroOrNan c := by
  let _ := refLibM
  constructor
  · refine (C63_two_exps (2 ^ (-53 : ℤ)) (by positivity) (by norm_num) refLibM_ok.1 refLibM_ok.2.1
      (⟨⟨⟨1⟩⟩, ⟨⟨1, 1, 1⟩⟩⟩ : Spinor F64)
      (by
        change (isValidDub (1 : F64) && isValidDub (1 : F64)) = true
        rw [isValidDub_one]; rfl)
      F64.hasVal_one.1 ones_exp.1 ones_exp.2 ones_central.1 (Or.inr ones_central.2)
      (ones_mv (t := .biv) (by simp [comps])).2).imp fun c d h => ⟨h.1, h.2.1, h.2.2.trans ?_⟩
    have v1 : ((1 : F64).value : ℝ) = 1 := by rw [F64.hasVal_one.2, Rat.cast_one]
    have hL : euclid .biv (⟨⟨1, 1, 1⟩⟩ : BiVector F64) ≤ 2 := by
      refine Real.sqrt_le_iff.2 ⟨by norm_num, ?_⟩
      simp [sqSum, comps, F64.hasVal_one.2]; norm_num
    change Real.exp ((1 : F64).value : ℝ) * (55 / 10 * 2 ^ (-53 : ℤ)
      + (24 + 25 * euclid .biv (⟨⟨1, 1, 1⟩⟩ : BiVector F64)) * 2 ^ (-53 : ℤ)) + _ ≤ _
    rw [v1]
    have h3 : Real.exp 1 ≤ 3 := Real.exp_one_lt_d9.le.trans (by norm_num)
    have h4 := tiny_le_uR
    have h6 : (55 / 10 : ℝ) * uR + (24 + 25 * euclid .biv (⟨⟨1, 1, 1⟩⟩ : BiVector F64)) * uR
        ≤ 80 * uR := by
      have := mul_le_mul_of_nonneg_right hL uR_nonneg
      have := uR_nonneg
      generalize uR = u at *
      linarith
    have h5 := mul_le_mul h3 h6 (by
        have := Real.sqrt_nonneg ((sqSum .biv (⟨⟨1, 1, 1⟩⟩ : BiVector F64) : ℚ) : ℝ)
        unfold euclid
        positivity) (by norm_num)
    refine (add_le_add h5 h4).trans ?_
    unfold uR
    norm_num
  · exact C63_odd_grades rfl _ (ones_mv (t := .biv) (by simp [comps])).1

/-- `exp(e1 + e2 + e3)` with a correctly rounded library: the scalar part is wrong by more than one. -/
example (E : MultiVector ℝ) (hE : IsExp (realTy .mv (toMV (⟨⟨1, 1, 1⟩⟩ : Vector F64) : MultiVector F64)) E) :
    letI := refLibM
    1 < |((expMv (toMV (⟨⟨1, 1, 1⟩⟩ : Vector F64) : MultiVector F64)).theSca.theData.d0.value : ℝ)
      - E.theSca.theData.d0| := by
  let _ := refLibM
  have h := (C63_vector_wrong (2 ^ (-53 : ℤ)) (by positivity) (by norm_num) refLibM_ok.1 refLibM_ok.2.1
    (⟨⟨1, 1, 1⟩⟩ : Vector F64) isValidDub_one (ones_mv (t := .vec) (by simp [comps])).1
    (ones_mv (t := .vec) (by simp [comps])).2 E hE).2
  refine lt_of_lt_of_le ?_ h
  have hL : euclid .vec (⟨⟨1, 1, 1⟩⟩ : Vector F64) ≤ 2 := by
    refine Real.sqrt_le_iff.2 ⟨by norm_num, ?_⟩
    simp [sqSum, comps, F64.hasVal_one.2]; norm_num
  have hS : euclid .vec (⟨⟨1, 1, 1⟩⟩ : Vector F64) ^ 2 = 3 := by
    unfold euclid
    rw [Real.sq_sqrt (by simp [sqSum, comps, F64.hasVal_one.2]; norm_num)]
    simp [sqSum, comps, F64.hasVal_one.2]; norm_num
  rw [hS]
  norm_num
  linarith

end Engabra
