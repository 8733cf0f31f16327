import Verif.Props.C44_ExprRounding

/-! # Exact arithmetic on a grid

Helper lemmas for `C49_Exact`: sums and products of multiples of a power of two are computed
without rounding as long as the absolute sum of the terms fits in 53 bits. -/

namespace Engabra
namespace F64

/-- A multiple of `2^g`. -/
def OnGrid (g : ℤ) (q : ℚ) : Prop := ∃ n : ℤ, q = n * (2 : ℚ) ^ g

theorem OnGrid.zero (g : ℤ) : OnGrid g 0 := ⟨0, by simp⟩
theorem OnGrid.neg {g : ℤ} {q : ℚ} (h : OnGrid g q) : OnGrid g (-q) := by
  obtain ⟨n, rfl⟩ := h; exact ⟨-n, by push_cast; ring⟩
theorem OnGrid.add {g : ℤ} {q r : ℚ} (h : OnGrid g q) (k : OnGrid g r) : OnGrid g (q + r) := by
  obtain ⟨n, rfl⟩ := h; obtain ⟨m, rfl⟩ := k; exact ⟨n + m, by push_cast; ring⟩
theorem OnGrid.mul {g h : ℤ} {q r : ℚ} (hq : OnGrid g q) (hr : OnGrid h r) : OnGrid (g + h) (q * r) := by
  obtain ⟨n, rfl⟩ := hq; obtain ⟨m, rfl⟩ := hr
  exact ⟨n * m, by rw [zpow_add₀ (by norm_num)]; push_cast; ring⟩
theorem OnGrid.mono {g h : ℤ} {q : ℚ} (hq : OnGrid g q) (hh : h ≤ g) : OnGrid h q := by
  obtain ⟨n, rfl⟩ := hq
  refine ⟨n * 2 ^ (g - h).toNat, ?_⟩
  push_cast
  rw [mul_assoc, ← zpow_natCast, ← zpow_add₀ (by norm_num)]
  congr 2; omega

theorem OnGrid.rep {g : ℤ} {q : ℚ} (h : OnGrid g q) (hg : -1074 ≤ g) (hq : |q| ≤ 2 ^ (g + 53)) :
    Rep q := by
  obtain ⟨n, rfl⟩ := h
  refine ⟨n, g, ?_, hg, rfl⟩
  rw [abs_mul, abs_of_pos (two_zpow_pos (K := ℚ) g), add_comm, zpow_add₀ (by norm_num)] at hq
  have := le_of_mul_le_mul_right hq (two_zpow_pos g)
  rw [← Int.cast_abs] at this
  exact_mod_cast this

/-- `c` is the exact quantity `q`, a multiple of `2^g` whose terms have absolute sum `A`, provided
`A` fits. -/
def Exact (g : ℤ) (c : F64) (q A : ℚ) : Prop :=
  |q| ≤ A ∧ OnGrid g q ∧ (-1074 ≤ g → A ≤ 2 ^ (g + 53) → A ≤ safe → HasVal c q)

theorem Exact.zero {g : ℤ} : Exact g 0 0 0 := ⟨by rw [abs_zero], .zero g, fun _ _ _ => hasVal_zero'⟩

theorem Exact.neg {g : ℤ} {c : F64} {q A : ℚ} (h : Exact g c q A) : Exact g (-c) (-q) A :=
  ⟨by rw [abs_neg]; exact h.1, h.2.1.neg, fun h1 h2 h3 => (h.2.2 h1 h2 h3).neg⟩

theorem fits_lt {q : ℚ} (h : |q| ≤ safe) : |q| < 2 ^ 1024 :=
  h.trans_lt (pow_lt_pow_right₀ (by norm_num) (by norm_num))

theorem Exact.mul {g h : ℤ} {a b : F64} (ha : a.Finite ∧ OnGrid g a.value)
    (hb : b.Finite ∧ OnGrid h b.value) :
    Exact (g + h) (a * b) (a.value * b.value) (|a.value| * |b.value|) := by
  refine ⟨by rw [abs_mul], ha.2.mul hb.2, fun h1 h2 h3 => ?_⟩
  rw [← abs_mul] at h2 h3
  exact (HasVal.of ha.1).mul (HasVal.of hb.1) ((ha.2.mul hb.2).rep h1 h2) (fits_lt h3)

theorem Exact.mul' {g h : ℤ} {a b : F64} (ha : a.Finite ∧ OnGrid h a.value)
    (hb : b.Finite ∧ OnGrid g b.value) :
    Exact (g + h) (a * b) (a.value * b.value) (|a.value| * |b.value|) := by
  rw [add_comm]; exact Exact.mul ha hb

theorem Exact.add {g : ℤ} {c d : F64} {q r A B : ℚ} (h : Exact g c q A) (k : Exact g d r B) :
    Exact g (c + d) (q + r) (A + B) := by
  have hq : |q + r| ≤ A + B := (abs_add_le q r).trans (add_le_add h.1 k.1)
  have hA := (abs_nonneg _).trans h.1
  have hB := (abs_nonneg _).trans k.1
  refine ⟨hq, h.2.1.add k.2.1, fun h1 h2 h3 => ?_⟩
  exact (h.2.2 h1 (by linarith) (by linarith)).add (k.2.2 h1 (by linarith) (by linarith))
    ((h.2.1.add k.2.1).rep h1 (hq.trans h2)) (fits_lt (hq.trans h3))

theorem Exact.sub {g : ℤ} {c d : F64} {q r A B : ℚ} (h : Exact g c q A) (k : Exact g d r B) :
    Exact g (c - d) (q - r) (A + B) := by
  rw [sub_eq_add_neg]
  exact h.add k.neg

theorem Exact.use {g : ℤ} {c : F64} {q A q' A' : ℚ} (h : Exact g c q A) (hq : q = q') (hA : A = A')
    (h1 : -1074 ≤ g) (h2 : A' ≤ 2 ^ (g + 53)) (h3 : A' ≤ safe) : HasVal c q' := by
  subst hq hA; exact h.2.2 h1 h2 h3

theorem grid_neg {g : ℤ} {a : F64} (ha : a.Finite ∧ OnGrid g a.value) :
    (-a).Finite ∧ OnGrid g (-a).value :=
  ⟨neg_finite_iff.2 ha.1, by rw [value_neg]; exact ha.2.neg⟩

end F64

open F64

/-- A typed product of operands on grids is exact. -/
def ExactOk (s t : Ty) : Prop := ∀ (g h : ℤ) (a : s.D F64) (b : t.D F64),
  (∀ i, (cf (promote s a) i).Finite ∧ OnGrid g (cf (promote s a) i).value) →
  (∀ j, (cf (promote t b) j).Finite ∧ OnGrid h (cf (promote t b) j).value) →
  -1074 ≤ g + h → ∀ k,
    absMul (cf (promote s (valTy s a))) (cf (promote t (valTy t b))) k ≤ 2 ^ (g + h + 53) →
    absMul (cf (promote s (valTy s a))) (cf (promote t (valTy t b))) k ≤ F64.safe →
      HasVal (cf (promote _ (mulTy s t a b)) k) (cf (promote s (valTy s a) * promote t (valTy t b)) k)

macro "grid_side" : tactic => `(tactic| first
  | with_reducible assumption
  | with_reducible exact F64.grid_neg (by with_reducible assumption)
  | with_reducible exact F64.grid_neg (F64.grid_neg (by with_reducible assumption)))

/-- Prove an `Exact` goal with unknown value and absolute sum. -/
macro "exact_sum" : tactic => `(tactic| repeat' first
  | with_reducible assumption
  | with_reducible exact F64.Exact.zero
  | with_reducible apply F64.Exact.add
  | with_reducible apply F64.Exact.sub
  | with_reducible apply F64.Exact.neg
  | (with_reducible refine F64.Exact.mul ?_ ?_ <;> grid_side)
  | (with_reducible refine F64.Exact.mul' ?_ ?_ <;> grid_side))

macro "exact_ok" : tactic => `(tactic| (
  intro g h a b ha hb hg
  replace ha := all8 ha
  replace hb := all8 hb
  simp only [cf_0, cf_1, cf_2, cf_3, cf_4, cf_5, cf_6, cf_7, engabra] at ha hb
  obtain ⟨a0, a1, a2, a3, a4, a5, a6, a7⟩ := ha
  obtain ⟨b0, b1, b2, b3, b4, b5, b6, b7⟩ := hb
  apply forall_fin8
  all_goals
    simp only [cf_0, cf_1, cf_2, cf_3, cf_4, cf_5, cf_6, cf_7, engabra, valTy, mapTy, absMul_0,
      absMul_1, absMul_2, absMul_3, absMul_4, absMul_5, absMul_6, absMul_7]
    intro h2 h3
    refine F64.Exact.use (g := g + h) (by exact_sum) ?_ ?_ hg h2 h3
    · first | ring1 | (simp only [F64.value_neg]; ring1)
    · abs_sum))

theorem exact_vec (t : Ty) : ExactOk .vec t := by cases t <;> exact_ok
theorem exact_dub (t : Ty) : ExactOk .dub t := by cases t <;> exact_ok
theorem exact_sca (t : Ty) : ExactOk .sca t := by cases t <;> exact_ok
theorem exact_biv (t : Ty) : ExactOk .biv t := by cases t <;> exact_ok
theorem exact_tri (t : Ty) : ExactOk .tri t := by cases t <;> exact_ok
theorem exact_spin (t : Ty) : ExactOk .spin t := by cases t <;> exact_ok
theorem exact_imsp (t : Ty) : ExactOk .imsp t := by cases t <;> exact_ok
theorem exact_cplx (t : Ty) : ExactOk .cplx t := by cases t <;> exact_ok
theorem exact_dplx (t : Ty) : ExactOk .dplx t := by cases t <;> exact_ok
theorem exact_mv (t : Ty) : ExactOk .mv t := by cases t <;> exact_ok

end Engabra
