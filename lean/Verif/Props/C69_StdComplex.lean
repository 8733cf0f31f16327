import Verif.Props.C19_Isomorphisms
import Verif.Props.C56_InverseProduct
import Verif.Props.C34_Total

/-! # C69: `ComPlex` and `std::complex<double>`, bit for bit

"This type has the same behavior as does the standard library std::complex<double> type"
(`README.md:345-348`, `g3type.hpp:491-498`).  The small specification of `std::complex` used here:
sums, differences, negation and conjugation act on the parts, `std::norm` is the sum of the two
squares, and the product is the algorithm of ISO C Annex G.5.1 (`__muldc3` in libgcc and
compiler-rt), which the compilers call for `std::complex<double>`. -/

namespace Engabra

open F64 (Finite HasVal)

/-- Specification: `isinf`. -/
def F64.isinf : F64 → Bool
  | .inf _ => true
  | _ => false

/-- Specification: `isnan`. -/
def F64.isnan : F64 → Bool
  | .nan => true
  | _ => false

/-- Specification: `copysign(isinf(x) ? 1.0 : 0.0, x)`. -/
noncomputable def boxInf (x : F64) : F64 :=
  if x.isinf then (if x.signbit then -(1 : F64) else 1) else .zero x.signbit

/-- Specification: `isnan(x) ? copysign(0.0, x) : x`.  The sign of a NaN is not modelled. -/
def dropNan (x : F64) : F64 := if x.isnan then .zero x.signbit else x

/-- Specification: the product of `std::complex<double>` as ISO C Annex G.5.1 gives it. -/
noncomputable def stdMul (z w : F64 × F64) : F64 × F64 :=
  let a := z.1; let b := z.2; let c := w.1; let d := w.2
  let x := a * c - b * d
  let y := a * d + b * c
  if x.isnan && y.isnan then
    let left := a.isinf || b.isinf
    let a1 := if left then boxInf a else a
    let b1 := if left then boxInf b else b
    let c1 := if left then dropNan c else c
    let d1 := if left then dropNan d else d
    let right := c1.isinf || d1.isinf
    let c2 := if right then boxInf c1 else c1
    let d2 := if right then boxInf d1 else d1
    let a2 := if right then dropNan a1 else a1
    let b2 := if right then dropNan b1 else b1
    let over := !(left || right) &&
      ((a * c).isinf || (b * d).isinf || (a * d).isinf || (b * c).isinf)
    let a3 := if over then dropNan a2 else a2
    let b3 := if over then dropNan b2 else b2
    let c3 := if over then dropNan c2 else c2
    let d3 := if over then dropNan d2 else d2
    if left || right || over then
      (.inf false * (a3 * c3 - b3 * d3), .inf false * (a3 * d3 + b3 * c3))
    else (x, y)
  else (x, y)

/-- **C69.** Sums, differences, negation, conjugation and the squared norm of `ComPlex` are those of
`std::complex<double>`, for all data including infinities and NaN. -/
theorem C69_sums (z w : ComPlex F64) :
    (z + w).toStd = (z.toStd.1 + w.toStd.1, z.toStd.2 + w.toStd.2) ∧
    (z - w).toStd = (z.toStd.1 - w.toStd.1, z.toStd.2 - w.toStd.2) ∧
    (-z).toStd = (-z.toStd.1, -z.toStd.2) ∧
    (reverse z).toStd = (z.toStd.1, -z.toStd.2) ∧
    (dirverse z).toStd = z.toStd ∧
    magSq z = z.toStd.1 * z.toStd.1 + z.toStd.2 * z.toStd.2 := by
  refine ⟨rfl, rfl, rfl, ?_, rfl, rfl⟩
  rfl

/-- **C69.** The product is that of `std::complex<double>` unless both parts come out as NaN. -/
theorem C69_mul (z w : ComPlex F64)
    (h : (z * w).toStd.1 ≠ .nan ∨ (z * w).toStd.2 ≠ .nan) :
    (z * w).toStd = stdMul z.toStd w.toStd := by
  have hc : ((z.toStd.1 * w.toStd.1 - z.toStd.2 * w.toStd.2).isnan
      && (z.toStd.1 * w.toStd.2 + z.toStd.2 * w.toStd.1).isnan) = false := by
    rw [Bool.and_eq_false_iff]
    have k : ∀ x : F64, x ≠ .nan → x.isnan = false := by
      intro x hx; cases x <;> first | rfl | exact absurd rfl hx
    rcases h with h | h
    · exact Or.inl (k _ h)
    · exact Or.inr (k _ h)
  refine (Eq.trans ?_ (if_neg (by rw [hc]; exact Bool.false_ne_true)).symm)
  rfl

/-- A product of finite data is finite or an infinity with the sign of the product. -/
theorem mul_finite_or {a c : F64} (ha : a.Finite) (hc : c.Finite) :
    (a * c).Finite ∨ a * c = .inf (xor a.signbit c.signbit) := by
  by_cases h0 : a.value * c.value = 0
  · left
    have : a * c = .zero (xor a.signbit c.signbit) := by
      cases a <;> cases c <;> first | exact ha.elim | exact hc.elim | exact if_pos h0
    rw [this]; trivial
  · obtain ⟨v, hv, rfl⟩ : ∃ v hv, a = .fin v hv := by
      cases a <;> first | exact ha.elim | exact ⟨_, _, rfl⟩ | exact absurd (zero_mul _) h0
    obtain ⟨w, hw, rfl⟩ : ∃ w hw, c = .fin w hw := by
      cases c <;> first | exact hc.elim | exact ⟨_, _, rfl⟩ | exact absurd (mul_zero _) h0
    rw [F64.fin_mul_fin]
    have hs : decide (v * w < 0) = xor (decide (v < 0)) (decide (w < 0)) := by
      rcases lt_or_gt_of_ne hv.1 with h1 | h1 <;> rcases lt_or_gt_of_ne hw.1 with h2 | h2
      · simp [h1, h2, (mul_pos_of_neg_of_neg h1 h2).le]
      · simp [h1, h2.le, mul_neg_of_neg_of_pos h1 h2]
      · simp [h1.le, h2, mul_neg_of_pos_of_neg h1 h2]
      · rw [decide_eq_false (not_lt.2 (mul_pos h1 h2).le), decide_eq_false (not_lt.2 (le_of_lt h1)),
          decide_eq_false (not_lt.2 (le_of_lt h2))]
        rfl
    unfold F64.roundTo
    split_ifs with g1 g2 g3
    · left; trivial
    · left; trivial
    · left; trivial
    · right; rw [hs]; rfl

/-- A sum of data none of which is NaN is NaN only for two infinities of opposite signs. -/
theorem add_nan_of {p q : F64} {s t : Bool} (hp : p.Finite ∨ p = .inf s) (hq : q.Finite ∨ q = .inf t)
    (h : p + q = .nan) : p = .inf s ∧ q = .inf t ∧ s ≠ t := by
  have hr : ∀ r : ℚ, F64.roundTo r ≠ .nan := by
    intro r; unfold F64.roundTo; split_ifs <;> simp
  have hfin : p.Finite → q.Finite → False := by
    intro h1 h2
    have e : p + q = F64.addFin p q := by
      cases p <;> cases q <;> first | exact h1.elim | exact h2.elim | rfl
    rw [e] at h
    unfold F64.addFin at h
    split_ifs at h
    exact hr _ h
  rcases hp with hp | rfl <;> rcases hq with hq | rfl
  · exact (hfin hp hq).elim
  · exfalso
    cases p <;> first | exact hp.elim | cases h
  · exfalso
    cases q <;> first | exact hq.elim | cases h
  · refine ⟨rfl, rfl, ?_⟩
    rintro rfl
    rw [F64.add_def] at h
    simp [F64.add] at h

/-- **C69.** For finite operands the product is always that of `std::complex<double>`, bit for bit,
also when it overflows: one part may be NaN, but never both. -/
theorem C69_mul_finite (z w : ComPlex F64) (hz : ∀ c ∈ comps .cplx z, c.Finite)
    (hw : ∀ c ∈ comps .cplx w, c.Finite) :
    (z * w).toStd = stdMul z.toStd w.toStd := by
  apply C69_mul
  obtain ⟨⟨⟨a⟩⟩, ⟨⟨b⟩⟩⟩ := z
  obtain ⟨⟨⟨c⟩⟩, ⟨⟨d⟩⟩⟩ := w
  have ha : a.Finite := hz a (by simp [comps])
  have hb : b.Finite := hz b (by simp [comps])
  have hc : c.Finite := hw c (by simp [comps])
  have hd : d.Finite := hw d (by simp [comps])
  show a * c - b * d ≠ .nan ∨ a * d + b * c ≠ .nan
  by_contra hn
  push Not at hn
  obtain ⟨h1, h2⟩ := hn
  have e1 : (-(b * d)).Finite ∨ -(b * d) = .inf (!xor b.signbit d.signbit) := by
    rcases mul_finite_or hb hd with k | k
    · exact Or.inl (F64.neg_finite k)
    · right; rw [k]; rfl
  obtain ⟨_, _, n1⟩ := add_nan_of (mul_finite_or ha hc) e1 h1
  obtain ⟨_, _, n2⟩ := add_nan_of (mul_finite_or ha hd) (mul_finite_or hb hc) h2
  generalize a.signbit = sa at *
  generalize b.signbit = sb at *
  generalize c.signbit = sc at *
  generalize d.signbit = sd at *
  cases sa <;> cases sb <;> cases sc <;> cases sd <;> simp at n1 n2

/-- **C69.** For infinite operands the two differ: one times `(∞, ∞)` is `(∞, ∞)` for
`std::complex<double>` and has no valid part for `ComPlex`. -/
theorem C69_fails_infinite :
    let z : ComPlex F64 := ⟨⟨⟨.inf false⟩⟩, ⟨⟨.inf false⟩⟩⟩
    (z * (gone : ComPlex F64)).toStd = (.nan, .nan) ∧
    stdMul z.toStd (gone : ComPlex F64).toStd = (.inf false, .inf false) := by
  have h1 : (F64.inf false) * (1 : F64) = .inf false := by rw [F64.one_eq]; rfl
  have h0 : (F64.inf false) * (0 : F64) = .nan := rfl
  constructor
  · show ((F64.inf false) * (1 : F64) - (F64.inf false) * (0 : F64),
      (F64.inf false) * (0 : F64) + (F64.inf false) * (1 : F64)) = _
    rw [h1, h0]; rfl
  · show stdMul (.inf false, .inf false) (1, 0) = _
    have k1 : (1 : F64).isinf = false := by rw [F64.one_eq]; rfl
    have k2 : (0 : F64).isinf = false := rfl
    have k3 : dropNan (1 : F64) = 1 := by rw [F64.one_eq]; rfl
    have k4 : dropNan (0 : F64) = 0 := rfl
    have k5 : boxInf (.inf false) = 1 := rfl
    have k6 : (1 : F64) * 1 - 1 * 0 = 1 := by
      rw [F64.one_mul', F64.one_mul', F64.one_eq]
      have : (1 : ℚ) + 0 ≠ 0 := by norm_num
      refine (if_neg this).trans ?_
      show F64.roundTo ((1 : ℚ) + 0) = _
      rw [add_zero, F64.roundTo_fin F64.isFin_one]
    have k7 : (1 : F64) * 0 + 1 * 1 = 1 := by
      rw [F64.one_mul', F64.one_mul', F64.add_comm', F64.one_eq]
      exact F64.add_zero' _ (by simp)
    have k9 : (F64.inf false).isinf = true := rfl
    have k10 : F64.nan.isnan = true := rfl
    unfold stdMul
    simp only [h1, h0, k1, k2, k3, k4, k5, k6, k7, k9, k10, Bool.or_self, Bool.and_self,
      F64.sub_nan, F64.nan_add, if_true, Bool.true_or, Bool.or_false,
      Bool.not_true, Bool.false_and, if_false, Bool.false_eq_true]

/-- **C69.** `magnitude` is not `std::abs`: for every `z` with a finite part of `2^513` or more, and
norm up to `2^900`, `std::abs` is finite and accurate, but `magnitude` is infinite. -/
theorem C69_fails_abs [LibM F64] {ε : ℝ} (hl : LibcOk ε) (z : ComPlex F64)
    (hz : ∀ c ∈ comps .cplx z, c.Finite) (hb : ∃ c ∈ comps .cplx z, (2 : ℚ) ^ 512 ≤ |c.value|)
    (hn : ‖cval z.toStd‖ ≤ 2 ^ (900 : ℤ)) :
    magnitude z = .inf false ∧ (LibM.cabs z.toStd).Finite ∧
      |((LibM.cabs z.toStd).value : ℝ) - ‖cval z.toStd‖| ≤ ε * ‖cval z.toStd‖ := by
  refine ⟨(C34_fails_overflow .cplx z hz hb).1, ?_⟩
  obtain ⟨⟨⟨a⟩⟩, ⟨⟨b⟩⟩⟩ := z
  have ha : a.Finite := hz a (by simp [comps])
  have hd : b.Finite := hz b (by simp [comps])
  refine hl.abs (a, b) ⟨ha, hd⟩ ?_ hn
  obtain ⟨c, hc, hb⟩ := hb
  have hb' : (2 : ℝ) ^ 512 ≤ |(c.value : ℝ)| := by
    have : ((2 ^ 512 : ℚ) : ℝ) ≤ ((|c.value| : ℚ) : ℝ) := Rat.cast_le.2 hb
    push_cast at this
    exact this
  have h1 : (2 : ℝ) ^ (-900 : ℤ) ≤ 2 ^ 512 := by
    rw [← zpow_natCast]
    exact zpow_le_zpow_right₀ (by norm_num) (by norm_num)
  refine h1.trans (hb'.trans ?_)
  simp only [comps, List.mem_cons, List.not_mem_nil, or_false] at hc
  rcases hc with rfl | rfl
  · exact Complex.abs_re_le_norm (cval (_, b))
  · exact Complex.abs_im_le_norm (cval (a, _))

theorem mul_overflow_std (p : F64) (hf : p.Finite) (hm : p * p = .inf false) :
    (∀ c ∈ comps .cplx (⟨⟨⟨p⟩⟩, ⟨⟨p⟩⟩⟩ : ComPlex F64), c.Finite) ∧
    ((⟨⟨⟨p⟩⟩, ⟨⟨p⟩⟩⟩ : ComPlex F64) * (⟨⟨⟨p⟩⟩, ⟨⟨p⟩⟩⟩ : ComPlex F64)).toStd = (.nan, .inf false) ∧
    stdMul (p, p) (p, p) = (.nan, .inf false) := by
  have hz : ∀ c ∈ comps .cplx (⟨⟨⟨p⟩⟩, ⟨⟨p⟩⟩⟩ : ComPlex F64), c.Finite := by
    intro c hc
    simp only [comps, List.mem_cons, List.not_mem_nil, or_false, or_self] at hc
    rw [hc]; exact hf
  have e : ((⟨⟨⟨p⟩⟩, ⟨⟨p⟩⟩⟩ : ComPlex F64) * (⟨⟨⟨p⟩⟩, ⟨⟨p⟩⟩⟩ : ComPlex F64)).toStd
      = (.nan, .inf false) := by
    show (p * p - p * p, p * p + p * p) = _
    rw [hm]; rfl
  exact ⟨hz, e, (C69_mul_finite _ _ hz hz).symm.trans e⟩

/-- The operands of `C69_mul_finite` may be such that the product overflows: `(2^600 + 2^600 i)²` has
the parts NaN and `∞`, for both types. -/
example : (F64.pow2 600).Finite ∧ F64.pow2 600 * F64.pow2 600 = .inf false := by
  have hv := F64.pow2_val (e := 600) (by norm_num) (by norm_num)
  generalize F64.pow2 600 = p at *
  have hf := hv.1
  have he := hv.2
  refine ⟨hf, F64.sq_overflow hf ?_⟩
  rw [he, abs_of_pos (F64.two_zpow_pos _), ← zpow_natCast]
  exact zpow_le_zpow_right₀ (by norm_num) (by norm_num)

end Engabra
