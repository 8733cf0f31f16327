import Verif.Props.C33_Rounding
import Verif.Props.C42_Expressions

/-! # C44: rounding error of expressions of any size

The operands are doubles, the result is computed in binary64 with one rounding per operation.
The bound is obtained from the expression alone: evaluate it on the absolute values of the
operands (`absEval`), and once more with every operation inflated by its own rounding error
(`bound`); the computed value differs from the exact one by at most the difference. -/

namespace Engabra

open F64 (Finite uro tinyErr)

/-- Components of the dual, up to sign. -/
def absDual (x : Fin 8 → ℚ) : Fin 8 → ℚ := ![x 7, x 4, x 5, x 6, x 1, x 2, x 3, x 0]

/-- Specification: the expression on absolute values, `+` for every sign. -/
def Expr.absEval (m : Nat → Fin 8 → ℚ) : Expr → Fin 8 → ℚ
  | .var i => fun k => |m i k|
  | .mul a b => absMul (a.absEval m) (b.absEval m)
  | .add a b => fun k => a.absEval m k + b.absEval m k
  | .sub a b => fun k => a.absEval m k + b.absEval m k
  | .neg a => a.absEval m
  | .reverse a => a.absEval m
  | .oddverse a => a.absEval m
  | .dirverse a => a.absEval m
  | .dual a => absDual (a.absEval m)

/-- Specification: the same, every product inflated by `1 + 9 u` and an underflow term, every sum
by `1 + u`, where `u = 2^-53`. -/
def Expr.bound (m : Nat → Fin 8 → ℚ) : Expr → Fin 8 → ℚ
  | .var i => fun k => |m i k|
  | .mul a b => fun k => (1 + 9 * 2 ^ (-53 : ℤ)) * absMul (a.bound m) (b.bound m) k + 2 ^ (-1059 : ℤ)
  | .add a b => fun k => (1 + 2 ^ (-53 : ℤ)) * (a.bound m k + b.bound m k)
  | .sub a b => fun k => (1 + 2 ^ (-53 : ℤ)) * (a.bound m k + b.bound m k)
  | .neg a => a.bound m
  | .reverse a => a.bound m
  | .oddverse a => a.bound m
  | .dirverse a => a.bound m
  | .dual a => absDual (a.bound m)

/-! ## Perturbation of exact expressions -/

/-- `p` is within `U - A` of `p'`, and `p'` is at most `A` in absolute value. -/
def Near (p p' U A : ℚ) : Prop := |p - p'| ≤ U - A ∧ |p'| ≤ A

namespace Near
variable {p p' U A q q' V B : ℚ}

theorem le (h : Near p p' U A) : A ≤ U := by have := (abs_nonneg _).trans h.1; linarith
theorem nonneg (h : Near p p' U A) : 0 ≤ A := (abs_nonneg _).trans h.2
theorem abs_le (h : Near p p' U A) : |p| ≤ U := by
  have := abs_add_le (p - p') p'
  rw [sub_add_cancel] at this
  linarith [h.1, h.2]

theorem neg (h : Near p p' U A) : Near (-p) (-p') U A := by
  refine ⟨?_, by rw [abs_neg]; exact h.2⟩
  rw [neg_sub_neg, abs_sub_comm]; exact h.1

theorem add (h : Near p p' U A) (k : Near q q' V B) : Near (p + q) (p' + q') (U + V) (A + B) := by
  refine ⟨?_, (abs_add_le _ _).trans (add_le_add h.2 k.2)⟩
  rw [add_sub_add_comm]
  have := abs_add_le (p - p') (q - q')
  linarith [h.1, k.1]

theorem sub (h : Near p p' U A) (k : Near q q' V B) : Near (p - q) (p' - q') (U + V) (A + B) := by
  rw [sub_eq_add_neg, sub_eq_add_neg]; exact h.add k.neg

theorem mul (h : Near p p' U A) (k : Near q q' V B) : Near (p * q) (p' * q') (U * V) (A * B) := by
  refine ⟨?_, by rw [abs_mul]; exact mul_le_mul h.2 k.2 (abs_nonneg _) h.nonneg⟩
  have e : p * q - p' * q' = (p - p') * q + p' * (q - q') := by ring
  have h1 : |(p - p') * q| ≤ (U - A) * V := by
    rw [abs_mul]; exact mul_le_mul h.1 k.abs_le (abs_nonneg _) ((abs_nonneg _).trans h.1)
  have h2 : |p' * (q - q')| ≤ A * (V - B) := by
    rw [abs_mul]; exact mul_le_mul h.2 k.1 (abs_nonneg _) h.nonneg
  rw [e]
  have := abs_add_le ((p - p') * q) (p' * (q - q'))
  linarith

theorem zero : Near 0 0 0 0 := by simp [Near]

theorem use (h : Near p p' U A) (hU : U = V) (hA : A = B) : Near p p' V B := hU ▸ hA ▸ h

end Near

theorem absMul_nonneg (x y : Fin 8 → ℚ) (k : Fin 8) : 0 ≤ absMul x y k := by
  unfold absMul
  refine Finset.sum_nonneg fun i _ => Finset.sum_nonneg fun j _ => ?_
  split_ifs
  · exact mul_nonneg (abs_nonneg _) (abs_nonneg _)
  · exact le_rfl

theorem absMul_mono {x y x' y' : Fin 8 → ℚ} (hx : ∀ i, |x i| ≤ |x' i|) (hy : ∀ i, |y i| ≤ |y' i|)
    (k : Fin 8) : absMul x y k ≤ absMul x' y' k := by
  unfold absMul
  refine Finset.sum_le_sum fun i _ => Finset.sum_le_sum fun j _ => ?_
  split_ifs
  · exact mul_le_mul (hx i) (hy j) (abs_nonneg _) (abs_nonneg _)
  · exact le_rfl

theorem near_mul {x x' y y' : MultiVector ℚ} {U A V B : Fin 8 → ℚ}
    (hx : ∀ k, Near (cf x k) (cf x' k) (U k) (A k)) (hy : ∀ k, Near (cf y k) (cf y' k) (V k) (B k)) :
    ∀ k, Near (cf (x * y) k) (cf (x' * y') k) (absMul U V k) (absMul A B k) := by
  have aA : ∀ k, |A k| = A k := fun k => abs_of_nonneg (hx k).nonneg
  have aB : ∀ k, |B k| = B k := fun k => abs_of_nonneg (hy k).nonneg
  have aU : ∀ k, |U k| = U k := fun k => abs_of_nonneg ((hx k).nonneg.trans (hx k).le)
  have aV : ∀ k, |V k| = V k := fun k => abs_of_nonneg ((hy k).nonneg.trans (hy k).le)
  have x0 := hx 0; have x1 := hx 1; have x2 := hx 2; have x3 := hx 3
  have x4 := hx 4; have x5 := hx 5; have x6 := hx 6; have x7 := hx 7
  have y0 := hy 0; have y1 := hy 1; have y2 := hy 2; have y3 := hy 3
  have y4 := hy 4; have y5 := hy 5; have y6 := hy 6; have y7 := hy 7
  clear hx hy
  simp only [cf_0, cf_1, cf_2, cf_3, cf_4, cf_5, cf_6, cf_7] at *
  apply forall_fin8 <;>
    simp only [cf_0, cf_1, cf_2, cf_3, cf_4, cf_5, cf_6, cf_7, engabra, absMul_0,
      absMul_1, absMul_2, absMul_3, absMul_4, absMul_5, absMul_6, absMul_7, aA, aB, aU, aV] <;>
    (refine Near.use (by
      repeat' first
        | with_reducible exact Near.zero
        | with_reducible assumption
        | with_reducible apply Near.add
        | with_reducible apply Near.sub
        | with_reducible apply Near.neg
        | with_reducible apply Near.mul) ?_ ?_ <;> ring1)

/-! ## Single operations -/

theorem cf_val (t : Ty) (x : t.D F64) (k : Fin 8) :
    cf (promote t (valTy t x)) k = (cf (promote t x) k).value := by
  have h0 : (0 : F64).value = 0 := F64.hasVal_zero'.2
  revert k
  cases t <;> apply forall_fin8 <;>
    simp only [cf_0, cf_1, cf_2, cf_3, cf_4, cf_5, cf_6, cf_7, engabra, valTy, mapTy, h0]

/-- All components finite. -/
def FiniteTy (t : Ty) (x : t.D F64) : Prop := ∀ k, (cf (promote t x) k).Finite

theorem finiteTy_of (t : Ty) (x : t.D F64) (h : ∀ c ∈ comps t x, c.Finite) : FiniteTy t x := by
  have h0 : (0 : F64).Finite := F64.hasVal_zero'.1
  cases t <;> apply forall_fin8 <;>
    simp only [cf_0, cf_1, cf_2, cf_3, cf_4, cf_5, cf_6, cf_7, engabra] <;>
    first | exact h0 | (apply h; simp [comps])

theorem fin_add {x y : F64} (hx : x.Finite) (hy : y.Finite) (h : |x.value + y.value| ≤ F64.safe) :
    (x + y).Finite :=
  (F64.add_spec hx hy (F64.safe_lt (h.trans (by linarith [F64.one_le_safe])))).1

theorem fin_sub {x y : F64} (hx : x.Finite) (hy : y.Finite) (h : |x.value - y.value| ≤ F64.safe) :
    (x - y).Finite := by
  show (x + -y).Finite
  exact fin_add hx (F64.neg_finite_iff.2 hy) (by rwa [F64.value_neg, ← sub_eq_add_neg])

macro "sum_fin" : tactic => `(tactic| repeat' first
  | with_reducible assumption
  | with_reducible refine F64.neg_finite_iff.2 ?_
  | with_reducible refine fin_add ?_ ?_ (by with_reducible assumption)
  | with_reducible refine fin_add ?_ ?_ (by rw [add_comm]; with_reducible assumption)
  | with_reducible refine fin_sub ?_ ?_ (by with_reducible assumption)
  | with_reducible refine fin_sub ?_ ?_ (by rw [abs_sub_comm]; with_reducible assumption)
  | exact F64.hasVal_zero'.1)

theorem sum_finite (s t r : Ty) (a : s.D F64) (b : t.D F64) (c : r.D F64)
    (h : addTy s t a b = some ⟨r, c⟩) (fa : FiniteTy s a) (fb : FiniteTy t b)
    (hs : ∀ k, |(cf (promote s a) k).value + (cf (promote t b) k).value| ≤ F64.safe) :
    FiniteTy r c := by
  have a0 := fa 0; have a1 := fa 1; have a2 := fa 2; have a3 := fa 3
  have a4 := fa 4; have a5 := fa 5; have a6 := fa 6; have a7 := fa 7
  have b0 := fb 0; have b1 := fb 1; have b2 := fb 2; have b3 := fb 3
  have b4 := fb 4; have b5 := fb 5; have b6 := fb 6; have b7 := fb 7
  have s0 := hs 0; have s1 := hs 1; have s2 := hs 2; have s3 := hs 3
  have s4 := hs 4; have s5 := hs 5; have s6 := hs 6; have s7 := hs 7
  clear fa fb hs
  simp only [cf_0, cf_1, cf_2, cf_3, cf_4, cf_5, cf_6, cf_7] at *
  cases s <;> cases t <;> simp only [addTy, reduceCtorEq, Option.some.injEq] at h <;> cases h
  all_goals
    simp only [engabra] at *
    apply forall_fin8 <;> simp only [cf_0, cf_1, cf_2, cf_3, cf_4, cf_5, cf_6, cf_7, engabra]
  all_goals sum_fin

theorem diff_finite (s t r : Ty) (a : s.D F64) (b : t.D F64) (c : r.D F64)
    (h : subTy s t a b = some ⟨r, c⟩) (fa : FiniteTy s a) (fb : FiniteTy t b)
    (hs : ∀ k, |(cf (promote s a) k).value - (cf (promote t b) k).value| ≤ F64.safe) :
    FiniteTy r c := by
  have a0 := fa 0; have a1 := fa 1; have a2 := fa 2; have a3 := fa 3
  have a4 := fa 4; have a5 := fa 5; have a6 := fa 6; have a7 := fa 7
  have b0 := fb 0; have b1 := fb 1; have b2 := fb 2; have b3 := fb 3
  have b4 := fb 4; have b5 := fb 5; have b6 := fb 6; have b7 := fb 7
  have s0 := hs 0; have s1 := hs 1; have s2 := hs 2; have s3 := hs 3
  have s4 := hs 4; have s5 := hs 5; have s6 := hs 6; have s7 := hs 7
  clear fa fb hs
  simp only [cf_0, cf_1, cf_2, cf_3, cf_4, cf_5, cf_6, cf_7] at *
  cases s <;> cases t <;> simp only [subTy, reduceCtorEq, Option.some.injEq] at h <;> cases h
  all_goals
    simp only [engabra] at *
    apply forall_fin8 <;> simp only [cf_0, cf_1, cf_2, cf_3, cf_4, cf_5, cf_6, cf_7, engabra]
  all_goals sum_fin


/-- A sum of two doubles is rounded without underflow error. -/
theorem near_add_err (x y : F64) :
    |nearest (x.value + y.value) - (x.value + y.value)| ≤ 2 ^ (-53 : ℤ) * |x.value + y.value| := by
  obtain ⟨m, e, -, he, hm⟩ := F64.value_rep (x := x)
  obtain ⟨n, f, -, hf, hn⟩ := F64.value_rep (x := y)
  have key : ∀ (m e : ℤ), -1074 ≤ e → ∃ M : ℤ, (m : ℚ) * 2 ^ e = M * 2 ^ (-1074 : ℤ) := by
    intro m e he
    obtain ⟨j, hj⟩ := Int.eq_ofNat_of_zero_le (show 0 ≤ e + 1074 by omega)
    refine ⟨m * 2 ^ j, ?_⟩
    rw [show e = (j : ℤ) + -1074 by omega, zpow_add₀ (by norm_num), zpow_natCast]
    push_cast; ring
  obtain ⟨M, hM⟩ := key m e he
  obtain ⟨N, hN⟩ := key n f hf
  have hz : x.value + y.value = ((M + N : ℤ) : ℚ) * 2 ^ (-1074 : ℤ) := by
    rw [hm, hn, hM, hN]; push_cast; ring
  generalize x.value + y.value = z at *
  generalize M + N = K at *
  by_cases hK : |K| ≤ 2 ^ 53
  · have : nearest z = z := F64.rnVal_exact ⟨K, -1074, hK, le_rfl, hz⟩
    rw [this, sub_self, abs_zero]
    positivity
  · have h1 := F64.rnVal_err_rel (K := ℚ) z
    rw [Rat.cast_id] at h1
    refine h1.trans (max_le le_rfl ?_)
    have h2 : (2 : ℚ) ^ 53 ≤ |(K : ℚ)| := by
      rw [← Int.cast_abs]; exact_mod_cast (not_le.1 hK).le
    rw [hz, abs_mul, abs_of_pos (zpow_pos (by norm_num : (0 : ℚ) < 2) (-1074))]
    have h3 : (2 : ℚ) ^ (-1075 : ℤ) ≤ 2 ^ (-53 : ℤ) * (2 ^ (53 : ℕ) * 2 ^ (-1074 : ℤ)) := by
      rw [← zpow_natCast, ← zpow_add₀ (by norm_num), ← zpow_add₀ (by norm_num)]
      exact zpow_le_zpow_right₀ (by norm_num) (by norm_num)
    refine h3.trans (mul_le_mul_of_nonneg_left (mul_le_mul_of_nonneg_right h2 ?_) ?_)
    · exact (F64.two_zpow_pos _).le
    · exact (F64.two_zpow_pos _).le

/-- Components of the exact operations. -/
theorem unary_ok (t : Ty) (x : t.D F64) (h : FiniteTy t x) :
    (FiniteTy t (negTy t x) ∧ ∀ k, cf (promote t (valTy t (negTy t x))) k
        = cf (-(promote t (valTy t x))) k) ∧
    (FiniteTy t (reverseTy t x) ∧ ∀ k, cf (promote t (valTy t (reverseTy t x))) k
        = cf (reverse (promote t (valTy t x))) k) ∧
    (FiniteTy t (oddverseTy t x) ∧ ∀ k, cf (promote t (valTy t (oddverseTy t x))) k
        = cf (oddverse (promote t (valTy t x))) k) ∧
    (FiniteTy t (dirverseTy t x) ∧ ∀ k, cf (promote t (valTy t (dirverseTy t x))) k
        = cf (dirverse (promote t (valTy t x))) k) ∧
    (FiniteTy _ (dualTy t x) ∧ ∀ k, cf (promote _ (valTy _ (dualTy t x))) k
        = cf (dual (promote t (valTy t x))) k) := by
  have a0 := h 0; have a1 := h 1; have a2 := h 2; have a3 := h 3
  have a4 := h 4; have a5 := h 5; have a6 := h 6; have a7 := h 7
  clear h
  simp only [cf_0, cf_1, cf_2, cf_3, cf_4, cf_5, cf_6, cf_7] at *
  cases t <;> simp only [engabra] at * <;>
    refine ⟨⟨?_, ?_⟩, ⟨?_, ?_⟩, ⟨?_, ?_⟩, ⟨?_, ?_⟩, ⟨?_, ?_⟩⟩ <;> apply forall_fin8 <;>
    simp only [cf_0, cf_1, cf_2, cf_3, cf_4, cf_5, cf_6, cf_7, engabra, valTy, mapTy, F64.value_neg, neg_zero] <;>
    sum_fin

theorem cf_reverse {β : Type} [Add β] [Sub β] [Mul β] [Neg β] [Zero β] (x : MultiVector β) :
    cf (reverse x) 0 = cf x 0 ∧ cf (reverse x) 1 = cf x 1 ∧ cf (reverse x) 2 = cf x 2 ∧ cf (reverse x) 3 = cf x 3 ∧
    cf (reverse x) 4 = -cf x 4 ∧ cf (reverse x) 5 = -cf x 5 ∧ cf (reverse x) 6 = -cf x 6 ∧ cf (reverse x) 7 = -cf x 7 := by
  simp only [cf_0, cf_1, cf_2, cf_3, cf_4, cf_5, cf_6, cf_7]
  exact ⟨rfl, rfl, rfl, rfl, rfl, rfl, rfl, rfl⟩

theorem cf_oddverse {β : Type} [Add β] [Sub β] [Mul β] [Neg β] [Zero β] (x : MultiVector β) :
    cf (oddverse x) 0 = cf x 0 ∧ cf (oddverse x) 1 = -cf x 1 ∧ cf (oddverse x) 2 = -cf x 2 ∧ cf (oddverse x) 3 = -cf x 3 ∧
    cf (oddverse x) 4 = cf x 4 ∧ cf (oddverse x) 5 = cf x 5 ∧ cf (oddverse x) 6 = cf x 6 ∧ cf (oddverse x) 7 = -cf x 7 := by
  simp only [cf_0, cf_1, cf_2, cf_3, cf_4, cf_5, cf_6, cf_7]
  exact ⟨rfl, rfl, rfl, rfl, rfl, rfl, rfl, rfl⟩

theorem cf_dirverse {β : Type} [Add β] [Sub β] [Mul β] [Neg β] [Zero β] (x : MultiVector β) :
    cf (dirverse x) 0 = cf x 0 ∧ cf (dirverse x) 1 = -cf x 1 ∧ cf (dirverse x) 2 = -cf x 2 ∧ cf (dirverse x) 3 = -cf x 3 ∧
    cf (dirverse x) 4 = -cf x 4 ∧ cf (dirverse x) 5 = -cf x 5 ∧ cf (dirverse x) 6 = -cf x 6 ∧ cf (dirverse x) 7 = cf x 7 := by
  simp only [cf_0, cf_1, cf_2, cf_3, cf_4, cf_5, cf_6, cf_7]
  exact ⟨rfl, rfl, rfl, rfl, rfl, rfl, rfl, rfl⟩

theorem cf_dual {β : Type} [Add β] [Sub β] [Mul β] [Neg β] [Zero β] (x : MultiVector β) :
    cf (dual x) 0 = -cf x 7 ∧ cf (dual x) 1 = -cf x 4 ∧ cf (dual x) 2 = -cf x 5 ∧ cf (dual x) 3 = -cf x 6 ∧
    cf (dual x) 4 = cf x 1 ∧ cf (dual x) 5 = cf x 2 ∧ cf (dual x) 6 = cf x 3 ∧ cf (dual x) 7 = cf x 0 := by
  simp only [cf_0, cf_1, cf_2, cf_3, cf_4, cf_5, cf_6, cf_7]
  exact ⟨rfl, rfl, rfl, rfl, rfl, rfl, rfl, rfl⟩

theorem cf_neg {β : Type} [Add β] [Sub β] [Mul β] [Neg β] [Zero β] (x : MultiVector β) :
    cf (-x) 0 = -cf x 0 ∧ cf (-x) 1 = -cf x 1 ∧ cf (-x) 2 = -cf x 2 ∧ cf (-x) 3 = -cf x 3 ∧
    cf (-x) 4 = -cf x 4 ∧ cf (-x) 5 = -cf x 5 ∧ cf (-x) 6 = -cf x 6 ∧ cf (-x) 7 = -cf x 7 := by
  simp only [cf_0, cf_1, cf_2, cf_3, cf_4, cf_5, cf_6, cf_7]
  exact ⟨rfl, rfl, rfl, rfl, rfl, rfl, rfl, rfl⟩

theorem near_signs {x x' y y' : MultiVector ℚ} {U A : Fin 8 → ℚ}
    (hx : ∀ k, Near (cf x k) (cf x' k) (U k) (A k))
    (hy : ∀ k, (cf y k = cf x k ∧ cf y' k = cf x' k) ∨ (cf y k = -cf x k ∧ cf y' k = -cf x' k))
    (k : Fin 8) : Near (cf y k) (cf y' k) (U k) (A k) := by
  rcases hy k with ⟨h1, h2⟩ | ⟨h1, h2⟩ <;> rw [h1, h2]
  · exact hx k
  · exact (hx k).neg

theorem near_unary {x x' : MultiVector ℚ} {U A : Fin 8 → ℚ}
    (hx : ∀ k, Near (cf x k) (cf x' k) (U k) (A k)) :
    (∀ k, Near (cf (-x) k) (cf (-x') k) (U k) (A k)) ∧
    (∀ k, Near (cf (reverse x) k) (cf (reverse x') k) (U k) (A k)) ∧
    (∀ k, Near (cf (oddverse x) k) (cf (oddverse x') k) (U k) (A k)) ∧
    (∀ k, Near (cf (dirverse x) k) (cf (dirverse x') k) (U k) (A k)) := by
  refine ⟨near_signs hx ?_, near_signs hx ?_, near_signs hx ?_, near_signs hx ?_⟩
  · obtain ⟨a0, a1, a2, a3, a4, a5, a6, a7⟩ := cf_neg x
    obtain ⟨b0, b1, b2, b3, b4, b5, b6, b7⟩ := cf_neg x'
    exact forall_fin8 (.inr ⟨a0, b0⟩) (.inr ⟨a1, b1⟩) (.inr ⟨a2, b2⟩) (.inr ⟨a3, b3⟩)
      (.inr ⟨a4, b4⟩) (.inr ⟨a5, b5⟩) (.inr ⟨a6, b6⟩) (.inr ⟨a7, b7⟩)
  · obtain ⟨a0, a1, a2, a3, a4, a5, a6, a7⟩ := cf_reverse x
    obtain ⟨b0, b1, b2, b3, b4, b5, b6, b7⟩ := cf_reverse x'
    exact forall_fin8 (.inl ⟨a0, b0⟩) (.inl ⟨a1, b1⟩) (.inl ⟨a2, b2⟩) (.inl ⟨a3, b3⟩)
      (.inr ⟨a4, b4⟩) (.inr ⟨a5, b5⟩) (.inr ⟨a6, b6⟩) (.inr ⟨a7, b7⟩)
  · obtain ⟨a0, a1, a2, a3, a4, a5, a6, a7⟩ := cf_oddverse x
    obtain ⟨b0, b1, b2, b3, b4, b5, b6, b7⟩ := cf_oddverse x'
    exact forall_fin8 (.inl ⟨a0, b0⟩) (.inr ⟨a1, b1⟩) (.inr ⟨a2, b2⟩) (.inr ⟨a3, b3⟩)
      (.inl ⟨a4, b4⟩) (.inl ⟨a5, b5⟩) (.inl ⟨a6, b6⟩) (.inr ⟨a7, b7⟩)
  · obtain ⟨a0, a1, a2, a3, a4, a5, a6, a7⟩ := cf_dirverse x
    obtain ⟨b0, b1, b2, b3, b4, b5, b6, b7⟩ := cf_dirverse x'
    exact forall_fin8 (.inl ⟨a0, b0⟩) (.inr ⟨a1, b1⟩) (.inr ⟨a2, b2⟩) (.inr ⟨a3, b3⟩)
      (.inr ⟨a4, b4⟩) (.inr ⟨a5, b5⟩) (.inr ⟨a6, b6⟩) (.inl ⟨a7, b7⟩)

theorem near_dual {x x' : MultiVector ℚ} {U A : Fin 8 → ℚ}
    (hx : ∀ k, Near (cf x k) (cf x' k) (U k) (A k)) :
    ∀ k, Near (cf (dual x) k) (cf (dual x') k) (absDual U k) (absDual A k) := by
  obtain ⟨a0, a1, a2, a3, a4, a5, a6, a7⟩ := cf_dual x
  obtain ⟨b0, b1, b2, b3, b4, b5, b6, b7⟩ := cf_dual x'
  have e : ∀ z : Fin 8 → ℚ, absDual z 0 = z 7 ∧ absDual z 1 = z 4 ∧ absDual z 2 = z 5 ∧
      absDual z 3 = z 6 ∧ absDual z 4 = z 1 ∧ absDual z 5 = z 2 ∧ absDual z 6 = z 3 ∧
      absDual z 7 = z 0 := fun z => ⟨rfl, rfl, rfl, rfl, rfl, rfl, rfl, rfl⟩
  obtain ⟨u0, u1, u2, u3, u4, u5, u6, u7⟩ := e U
  obtain ⟨v0, v1, v2, v3, v4, v5, v6, v7⟩ := e A
  apply forall_fin8
  · rw [a0, b0, u0, v0]; exact (hx 7).neg
  · rw [a1, b1, u1, v1]; exact (hx 4).neg
  · rw [a2, b2, u2, v2]; exact (hx 5).neg
  · rw [a3, b3, u3, v3]; exact (hx 6).neg
  · rw [a4, b4, u4, v4]; exact hx 1
  · rw [a5, b5, u5, v5]; exact hx 2
  · rw [a6, b6, u6, v6]; exact hx 3
  · rw [a7, b7, u7, v7]; exact hx 0

theorem cf_add (x y : MultiVector ℚ) (k : Fin 8) : cf (x + y) k = cf x k + cf y k := by
  revert k; exact forall_fin8 rfl rfl rfl rfl rfl rfl rfl rfl

theorem cf_sub (x y : MultiVector ℚ) (k : Fin 8) : cf (x - y) k = cf x k - cf y k := by
  revert k; exact forall_fin8 rfl rfl rfl rfl rfl rfl rfl rfl

/-- Exact values of the variables. -/
abbrev exactEnv (env : Nat → Sigma fun t : Ty => t.D F64) : Nat → MultiVector ℚ :=
  fun i => promote (env i).1 (valTy (env i).1 (env i).2)

theorem add_step (x y r : Sigma fun t : Ty => t.D F64) (h : addTy x.1 y.1 x.2 y.2 = some r)
    (fa : FiniteTy x.1 x.2) (fb : FiniteTy y.1 y.2) (p q : MultiVector ℚ) (U A V B : Fin 8 → ℚ)
    (na : ∀ k, Near (cf (promote x.1 (valTy x.1 x.2)) k) (cf p k) (U k) (A k))
    (nb : ∀ k, Near (cf (promote y.1 (valTy y.1 y.2)) k) (cf q k) (V k) (B k))
    (hbk : ∀ k, (1 + 2 ^ (-53 : ℤ)) * (U k + V k) ≤ F64.safe) :
    FiniteTy r.1 r.2 ∧ ∀ k, Near (cf (promote r.1 (valTy r.1 r.2)) k) (cf (p + q) k)
      ((1 + 2 ^ (-53 : ℤ)) * (U k + V k)) (A k + B k) := by
  have nm : ∀ k, Near _ _ _ _ := fun k => (na k).add (nb k)
  have hu : (0 : ℚ) ≤ 2 ^ (-53 : ℤ) := by positivity
  have hs : ∀ k, |(cf (promote x.1 x.2) k).value + (cf (promote y.1 y.2) k).value| ≤ F64.safe := by
    intro k
    have h1 := (nm k).abs_le
    rw [cf_val, cf_val] at h1
    have h2 := mul_nonneg hu ((abs_nonneg _).trans h1)
    linarith [hbk k]
  have hf := sum_finite _ _ _ _ _ _ h fa fb hs
  refine ⟨hf, fun k => ⟨?_, ?_⟩⟩
  · have e1 := C33_sum _ _ _ _ _ _ h k (hf k)
    have e3 := near_add_err (cf (promote x.1 x.2) k) (cf (promote y.1 y.2) k)
    rw [← cf_val, ← cf_val] at e3
    rw [cf_val, e1, cf_add]
    have h1 := mul_le_mul_of_nonneg_left (nm k).abs_le hu
    refine (abs_sub_le _ _ _).trans ((add_le_add (e3.trans h1) (nm k).1).trans ?_)
    linarith
  · rw [cf_add]; exact (nm k).2

theorem expr_near (env : Nat → Sigma fun t : Ty => t.D F64) (e : Expr) (hr : e.NoReversed env)
    (hv : ∀ i ∈ e.vars, ∀ c ∈ comps (env i).1 (env i).2, c.Finite)
    (hb : ∀ f ∈ e.subs, ∀ k, f.bound (fun i => cf (exactEnv env i)) k ≤ F64.safe)
    (r : Sigma fun t : Ty => t.D F64) (h : e.eval env = some r) :
    FiniteTy r.1 r.2 ∧ ∀ k, Near (cf (promote r.1 (valTy r.1 r.2)) k)
      (cf (e.evalMV (exactEnv env)) k) (e.bound (fun i => cf (exactEnv env i)) k)
      (e.absEval (fun i => cf (exactEnv env i)) k) := by
  induction e generalizing r with
  | var i =>
    simp only [Expr.eval, Option.some.injEq] at h
    subst h
    refine ⟨finiteTy_of _ _ (hv i (by simp [Expr.vars])), fun k => ?_⟩
    simp only [Near, Expr.evalMV, Expr.bound, Expr.absEval, sub_self, abs_zero]
    exact ⟨le_rfl, le_rfl⟩
  | mul a b iha ihb =>
    simp only [Expr.eval, Option.bind_eq_some_iff, Option.map_eq_some_iff] at h
    obtain ⟨x, hx, y, hy, rfl⟩ := h
    obtain ⟨fa, na⟩ := iha (hr.mono fun _ h => by simp [Expr.subs, h])
      (fun i hi => hv i (by simp [Expr.vars, hi])) (fun f hf => hb f (by simp [Expr.subs, hf])) x hx
    obtain ⟨fb, nb⟩ := ihb (hr.mono fun _ h => by simp [Expr.subs, h])
      (fun i hi => hv i (by simp [Expr.vars, hi])) (fun f hf => hb f (by simp [Expr.subs, hf])) y hy
    have nm := near_mul na nb
    have hbk := hb _ (List.mem_cons_self : Expr.mul a b ∈ (Expr.mul a b).subs)
    simp only [Expr.bound, Expr.evalMV, Expr.absEval] at hbk ⊢
    generalize hU : a.bound (fun i => cf (exactEnv env i)) = U at *
    generalize hV : b.bound (fun i => cf (exactEnv env i)) = V at *
    have hm : ∀ k, absMul (cf (promote x.1 (valTy x.1 x.2))) (cf (promote y.1 (valTy y.1 y.2))) k
        ≤ absMul U V k := fun k =>
      absMul_mono (fun i => (na i).abs_le.trans (le_abs_self _))
        (fun i => (nb i).abs_le.trans (le_abs_self _)) k
    have hu : (0 : ℚ) ≤ 9 * 2 ^ (-53 : ℤ) := by positivity
    have ht : (0 : ℚ) ≤ 2 ^ (-1059 : ℤ) := (F64.two_zpow_pos _).le
    have hs : ∀ k, absMul (cf (promote x.1 (valTy x.1 x.2))) (cf (promote y.1 (valTy y.1 y.2))) k
        ≤ F64.safe := by
      intro k
      have h1 := hbk k
      have h2 := absMul_nonneg U V k
      have h3 := mul_nonneg hu h2
      linarith [hm k]
    have hp := fun k => C33_product x.1 y.1 x.2 y.2 fa fb k (hs k)
    refine ⟨fun k => (hp k).1, fun k => ⟨?_, (nm k).2⟩⟩
    rw [cf_val]
    have h1 := (hp k).2
    have h2 := (nm k).1
    have h3 := mul_le_mul_of_nonneg_left (hm k) hu
    refine (abs_sub_le _ _ _).trans ((add_le_add h1 h2).trans ?_)
    linarith
  | add a b iha ihb =>
    simp only [Expr.eval, Option.bind_eq_some_iff] at h
    obtain ⟨x, hx, y, hy, h⟩ := h
    obtain ⟨fa, na⟩ := iha (hr.mono fun _ h => by simp [Expr.subs, h])
      (fun i hi => hv i (by simp [Expr.vars, hi])) (fun f hf => hb f (by simp [Expr.subs, hf])) x hx
    obtain ⟨fb, nb⟩ := ihb (hr.mono fun _ h => by simp [Expr.subs, h])
      (fun i hi => hv i (by simp [Expr.vars, hi])) (fun f hf => hb f (by simp [Expr.subs, hf])) y hy
    have hbk := hb _ (List.mem_cons_self : Expr.add a b ∈ (Expr.add a b).subs)
    simp only [Expr.bound, Expr.evalMV, Expr.absEval] at hbk ⊢
    exact add_step x y r h fa fb _ _ _ _ _ _ na nb hbk
  | sub a b iha ihb =>
    simp only [Expr.eval, Option.bind_eq_some_iff] at h
    obtain ⟨x, hx, y, hy, h⟩ := h
    have hrev := hr a b (by simp [Expr.subs]) x y hx hy
    obtain ⟨fa, na⟩ := iha (hr.mono fun _ h => by simp [Expr.subs, h])
      (fun i hi => hv i (by simp [Expr.vars, hi])) (fun f hf => hb f (by simp [Expr.subs, hf])) x hx
    obtain ⟨fb, nb⟩ := ihb (hr.mono fun _ h => by simp [Expr.subs, h])
      (fun i hi => hv i (by simp [Expr.vars, hi])) (fun f hf => hb f (by simp [Expr.subs, hf])) y hy
    have nm : ∀ k, Near _ _ _ _ := fun k => (na k).sub (nb k)
    have hbk := hb _ (List.mem_cons_self : Expr.sub a b ∈ (Expr.sub a b).subs)
    simp only [Expr.bound, Expr.absEval] at hbk ⊢
    have hu : (0 : ℚ) ≤ 2 ^ (-53 : ℤ) := by positivity
    have hs : ∀ k, |(cf (promote x.1 x.2) k).value - (cf (promote y.1 y.2) k).value| ≤ F64.safe := by
      intro k
      have h1 := (nm k).abs_le
      rw [cf_val, cf_val] at h1
      have h2 := mul_nonneg hu ((abs_nonneg _).trans h1)
      linarith [hbk k]
    have hf := diff_finite _ _ _ _ _ _ h fa fb hs
    refine ⟨hf, fun k => ⟨?_, ?_⟩⟩
    · have e1 := C33_difference _ _ _ _ _ _ hrev h k (hf k)
      have e2 : cf ((a.sub b).evalMV (exactEnv env)) k
          = cf (a.evalMV (exactEnv env)) k - cf (b.evalMV (exactEnv env)) k := cf_sub _ _ k
      have e3 := near_add_err (cf (promote x.1 x.2) k) (-(cf (promote y.1 y.2) k))
      rw [F64.value_neg, ← cf_val, ← cf_val, ← sub_eq_add_neg] at e3
      rw [cf_val, e1, e2]
      have h1 := mul_le_mul_of_nonneg_left (nm k).abs_le hu
      refine (abs_sub_le _ _ _).trans ((add_le_add (e3.trans h1) (nm k).1).trans ?_)
      linarith
    · rw [Expr.evalMV, cf_sub]; exact (nm k).2
  | neg a ih =>
    simp only [Expr.eval, Option.map_eq_some_iff] at h
    obtain ⟨x, hx, rfl⟩ := h
    obtain ⟨fa, na⟩ := ih (hr.mono fun _ h => by simp [Expr.subs, h]) hv
      (fun f hf => hb f (by simp [Expr.subs, hf])) x hx
    have hu := (unary_ok x.1 x.2 fa).1
    exact ⟨hu.1, fun k => by rw [hu.2 k]; exact (near_unary na).1 k⟩
  | reverse a ih =>
    simp only [Expr.eval, Option.map_eq_some_iff] at h
    obtain ⟨x, hx, rfl⟩ := h
    obtain ⟨fa, na⟩ := ih (hr.mono fun _ h => by simp [Expr.subs, h]) hv
      (fun f hf => hb f (by simp [Expr.subs, hf])) x hx
    have hu := (unary_ok x.1 x.2 fa).2.1
    exact ⟨hu.1, fun k => by rw [hu.2 k]; exact (near_unary na).2.1 k⟩
  | oddverse a ih =>
    simp only [Expr.eval, Option.map_eq_some_iff] at h
    obtain ⟨x, hx, rfl⟩ := h
    obtain ⟨fa, na⟩ := ih (hr.mono fun _ h => by simp [Expr.subs, h]) hv
      (fun f hf => hb f (by simp [Expr.subs, hf])) x hx
    have hu := (unary_ok x.1 x.2 fa).2.2.1
    exact ⟨hu.1, fun k => by rw [hu.2 k]; exact (near_unary na).2.2.1 k⟩
  | dirverse a ih =>
    simp only [Expr.eval, Option.map_eq_some_iff] at h
    obtain ⟨x, hx, rfl⟩ := h
    obtain ⟨fa, na⟩ := ih (hr.mono fun _ h => by simp [Expr.subs, h]) hv
      (fun f hf => hb f (by simp [Expr.subs, hf])) x hx
    have hu := (unary_ok x.1 x.2 fa).2.2.2.1
    exact ⟨hu.1, fun k => by rw [hu.2 k]; exact (near_unary na).2.2.2 k⟩
  | dual a ih =>
    simp only [Expr.eval, Option.map_eq_some_iff] at h
    obtain ⟨x, hx, rfl⟩ := h
    obtain ⟨fa, na⟩ := ih (hr.mono fun _ h => by simp [Expr.subs, h]) hv
      (fun f hf => hb f (by simp [Expr.subs, hf])) x hx
    have hu := (unary_ok x.1 x.2 fa).2.2.2.2
    exact ⟨hu.1, fun k => by rw [hu.2 k]; exact near_dual na k⟩

/-! ## C44 -/

/-- **C44.** For every well-typed expression, of any size, over variables with finite components
whose bound stays below `2^1022` in every subexpression: nothing overflows, every component of the
result is finite, and it differs from the exact value of the expression in the geometric algebra
by at most `bound - absEval`.  (Expressions with one of the six reversed subtractions excluded.) -/
theorem C44_expression_error (env : Nat → Sigma fun t : Ty => t.D F64) (e : Expr)
    (hr : e.NoReversed env)
    (hv : ∀ i ∈ e.vars, ∀ c ∈ comps (env i).1 (env i).2, c.Finite)
    (hb : ∀ f ∈ e.subs, ∀ k, f.bound (fun i => cf (exactEnv env i)) k ≤ 2 ^ 1022)
    (r : Sigma fun t : Ty => t.D F64) (h : e.eval env = some r) (k : Fin 8) :
    (cf (promote r.1 r.2) k).Finite ∧
    |(cf (promote r.1 r.2) k).value - cf (e.evalMV (exactEnv env)) k|
      ≤ e.bound (fun i => cf (exactEnv env i)) k - e.absEval (fun i => cf (exactEnv env i)) k := by
  obtain ⟨h1, h2⟩ := expr_near env e hr hv hb r h
  refine ⟨h1 k, ?_⟩
  rw [← cf_val]
  exact (h2 k).1

theorem inflate {A B U V : ℚ} {n n' : ℕ} (hA : 0 ≤ A) (hB : 0 ≤ B)
    (hU : U ≤ (1 + 2 ^ (-53 : ℤ)) ^ n * A) (hV : V ≤ (1 + 2 ^ (-53 : ℤ)) ^ n' * B) :
    (1 + 2 ^ (-53 : ℤ)) * (U + V) ≤ (1 + 2 ^ (-53 : ℤ)) ^ (max n n' + 1) * (A + B) := by
  have hu : (0 : ℚ) ≤ 2 ^ (-53 : ℤ) := by positivity
  generalize (2 : ℚ) ^ (-53 : ℤ) = u at *
  have h1 : (1 + u) ^ n ≤ (1 + u) ^ max n n' := pow_le_pow_right₀ (by linarith) (le_max_left _ _)
  have h2 : (1 + u) ^ n' ≤ (1 + u) ^ max n n' := pow_le_pow_right₀ (by linarith) (le_max_right _ _)
  have h3 := mul_le_mul_of_nonneg_right h1 hA
  have h4 := mul_le_mul_of_nonneg_right h2 hB
  have h5 : U + V ≤ (1 + u) ^ max n n' * (A + B) := by rw [mul_add]; linarith
  calc (1 + u) * (U + V) ≤ (1 + u) * ((1 + u) ^ max n n' * (A + B)) :=
        mul_le_mul_of_nonneg_left h5 (by linarith)
    _ = _ := by rw [pow_succ]; ring

/-- The bound of an expression without products. -/
theorem bound_prodFree (m : Nat → Fin 8 → ℚ) (e : Expr) (hp : e.prodFree) (k : Fin 8) :
    0 ≤ e.absEval m k ∧ e.bound m k ≤ (1 + 2 ^ (-53 : ℤ)) ^ e.addDepth * e.absEval m k := by
  induction e generalizing k with
  | var i => simp [Expr.absEval, Expr.bound, Expr.addDepth]
  | mul => exact hp.elim
  | add a b iha ihb =>
    obtain ⟨a1, a2⟩ := iha hp.1 k
    obtain ⟨b1, b2⟩ := ihb hp.2 k
    exact ⟨add_nonneg a1 b1, inflate a1 b1 a2 b2⟩
  | sub a b iha ihb =>
    obtain ⟨a1, a2⟩ := iha hp.1 k
    obtain ⟨b1, b2⟩ := ihb hp.2 k
    exact ⟨add_nonneg a1 b1, inflate a1 b1 a2 b2⟩
  | neg a ih => exact ih hp k
  | reverse a ih => exact ih hp k
  | oddverse a ih => exact ih hp k
  | dirverse a ih => exact ih hp k
  | dual a ih =>
    revert k
    exact forall_fin8 (ih hp 7) (ih hp 4) (ih hp 5) (ih hp 6) (ih hp 1) (ih hp 2) (ih hp 3) (ih hp 0)

theorem bound_nonneg (m : Nat → Fin 8 → ℚ) (e : Expr) (k : Fin 8) : 0 ≤ e.bound m k := by
  induction e generalizing k with
  | var i => exact abs_nonneg _
  | mul a b =>
    exact add_nonneg (mul_nonneg (by positivity) (absMul_nonneg _ _ _)) (F64.two_zpow_pos _).le
  | add a b iha ihb => exact mul_nonneg (by positivity) (add_nonneg (iha k) (ihb k))
  | sub a b iha ihb => exact mul_nonneg (by positivity) (add_nonneg (iha k) (ihb k))
  | neg a ih => exact ih k
  | reverse a ih => exact ih k
  | oddverse a ih => exact ih k
  | dirverse a ih => exact ih k
  | dual a ih =>
    revert k
    exact forall_fin8 (ih 7) (ih 4) (ih 5) (ih 6) (ih 1) (ih 2) (ih 3) (ih 0)

theorem bound_sub (m : Nat → Fin 8 → ℚ) (e : Expr) (hp : e.prodFree) (f : Expr) (hf : f ∈ e.subs)
    (k : Fin 8) : ∃ k', f.bound m k ≤ e.bound m k' := by
  have step : ∀ x y : ℚ, 0 ≤ x → 0 ≤ y → x ≤ (1 + 2 ^ (-53 : ℤ)) * (x + y) := by
    intro x y hx hy
    have hu : (0 : ℚ) ≤ 2 ^ (-53 : ℤ) := by positivity
    have := mul_nonneg hu (add_nonneg hx hy)
    linarith
  induction e with
  | var i => simp only [Expr.subs, List.mem_singleton] at hf; exact ⟨k, by rw [hf]⟩
  | mul => exact hp.elim
  | add a b iha ihb =>
    simp only [Expr.subs, List.mem_cons, List.mem_append] at hf
    rcases hf with rfl | hf | hf
    · exact ⟨k, le_rfl⟩
    · obtain ⟨j, hj⟩ := iha hp.1 hf
      exact ⟨j, hj.trans (step _ _ (bound_nonneg m a j) (bound_nonneg m b j))⟩
    · obtain ⟨j, hj⟩ := ihb hp.2 hf
      refine ⟨j, hj.trans ?_⟩
      have := step _ _ (bound_nonneg m b j) (bound_nonneg m a j)
      rwa [add_comm (b.bound m j)] at this
  | sub a b iha ihb =>
    simp only [Expr.subs, List.mem_cons, List.mem_append] at hf
    rcases hf with rfl | hf | hf
    · exact ⟨k, le_rfl⟩
    · obtain ⟨j, hj⟩ := iha hp.1 hf
      exact ⟨j, hj.trans (step _ _ (bound_nonneg m a j) (bound_nonneg m b j))⟩
    · obtain ⟨j, hj⟩ := ihb hp.2 hf
      refine ⟨j, hj.trans ?_⟩
      have := step _ _ (bound_nonneg m b j) (bound_nonneg m a j)
      rwa [add_comm (b.bound m j)] at this
  | neg a ih =>
    simp only [Expr.subs, List.mem_cons] at hf
    rcases hf with rfl | hf
    · exact ⟨k, le_rfl⟩
    · exact ih hp hf
  | reverse a ih =>
    simp only [Expr.subs, List.mem_cons] at hf
    rcases hf with rfl | hf
    · exact ⟨k, le_rfl⟩
    · exact ih hp hf
  | oddverse a ih =>
    simp only [Expr.subs, List.mem_cons] at hf
    rcases hf with rfl | hf
    · exact ⟨k, le_rfl⟩
    · exact ih hp hf
  | dirverse a ih =>
    simp only [Expr.subs, List.mem_cons] at hf
    rcases hf with rfl | hf
    · exact ⟨k, le_rfl⟩
    · exact ih hp hf
  | dual a ih =>
    simp only [Expr.subs, List.mem_cons] at hf
    rcases hf with rfl | hf
    · exact ⟨k, le_rfl⟩
    · obtain ⟨j, hj⟩ := ih hp hf
      have : ∀ j : Fin 8, ∃ i : Fin 8, absDual (a.bound m) i = a.bound m j :=
        forall_fin8 ⟨7, rfl⟩ ⟨4, rfl⟩ ⟨5, rfl⟩ ⟨6, rfl⟩ ⟨1, rfl⟩ ⟨2, rfl⟩ ⟨3, rfl⟩ ⟨0, rfl⟩
      obtain ⟨i, hi⟩ := this j
      exact ⟨i, by rw [Expr.bound, hi]; exact hj⟩

/-- **C44.** For expressions built from sums, differences, negations, involutions and duals only,
of any size: if the absolute sum stays below overflow, the relative error with respect to the
absolute sum is at most `(1 + u)^n - 1` where `n` is the depth of additions (no underflow error at
all).  So summing in any order, left to right or pairwise, is covered. -/
theorem C44_sums (env : Nat → Sigma fun t : Ty => t.D F64) (e : Expr) (hp : e.prodFree)
    (hr : e.NoReversed env)
    (hv : ∀ i ∈ e.vars, ∀ c ∈ comps (env i).1 (env i).2, c.Finite)
    (hb : ∀ k, (1 + 2 ^ (-53 : ℤ)) ^ e.addDepth * e.absEval (fun i => cf (exactEnv env i)) k
      ≤ 2 ^ 1022)
    (r : Sigma fun t : Ty => t.D F64) (h : e.eval env = some r) (k : Fin 8) :
    (cf (promote r.1 r.2) k).Finite ∧
    |(cf (promote r.1 r.2) k).value - cf (e.evalMV (exactEnv env)) k|
      ≤ ((1 + 2 ^ (-53 : ℤ)) ^ e.addDepth - 1) * e.absEval (fun i => cf (exactEnv env i)) k := by
  have h1 : ∀ f ∈ e.subs, ∀ k, f.bound (fun i => cf (exactEnv env i)) k ≤ 2 ^ 1022 := by
    intro f hf k
    obtain ⟨j, hj⟩ := bound_sub _ e hp f hf k
    exact hj.trans ((bound_prodFree _ e hp j).2.trans (hb j))
  obtain ⟨h2, h3⟩ := C44_expression_error env e hr hv h1 r h k
  refine ⟨h2, h3.trans ?_⟩
  have h4 := (bound_prodFree (fun i => cf (exactEnv env i)) e hp k).2
  rw [sub_mul, one_mul]
  exact sub_le_sub_right h4 _

/-! ## Accumulation loops -/

/-- Exact value of an object. -/
def exactObj (o : Sigma fun t : Ty => t.D F64) : MultiVector ℚ := promote o.1 (valTy o.1 o.2)

/-- **C44.** The loop `sum = sum + x` over any number `n` of objects: no overflow, and the error is
at most `((1+u)^n - 1)` times the sum of the absolute values, component by component. -/
theorem C44_sum_loop (x0 : Sigma fun t : Ty => t.D F64) (xs : List (Sigma fun t : Ty => t.D F64))
    (hv : ∀ o ∈ x0 :: xs, ∀ c ∈ comps o.1 o.2, c.Finite)
    (hb : ∀ k, (1 + 2 ^ (-53 : ℤ)) ^ xs.length * ((x0 :: xs).map fun o => |cf (exactObj o) k|).sum
      ≤ 2 ^ 1022)
    (r : Sigma fun t : Ty => t.D F64)
    (h : xs.foldlM (fun acc x => addTy acc.1 x.1 acc.2 x.2) x0 = some r) (k : Fin 8) :
    (cf (promote r.1 r.2) k).Finite ∧
    |(cf (promote r.1 r.2) k).value - ((x0 :: xs).map fun o => cf (exactObj o) k).sum|
      ≤ ((1 + 2 ^ (-53 : ℤ)) ^ xs.length - 1) *
        ((x0 :: xs).map fun o => |cf (exactObj o) k|).sum := by
  have hu : (0 : ℚ) ≤ 2 ^ (-53 : ℤ) := by positivity
  have h1u : (1 : ℚ) ≤ 1 + 2 ^ (-53 : ℤ) := by linarith
  -- invariant of the loop: `acc` approximates `p` after `n` additions, absolute sum `A`
  suffices ∀ (acc : Sigma fun t : Ty => t.D F64) (p : MultiVector ℚ) (U A : Fin 8 → ℚ) (n : ℕ),
      FiniteTy acc.1 acc.2 →
      (∀ k, Near (cf (promote acc.1 (valTy acc.1 acc.2)) k) (cf p k) (U k) (A k)) →
      (∀ k, U k ≤ (1 + 2 ^ (-53 : ℤ)) ^ n * A k) →
      (∀ k, (1 + 2 ^ (-53 : ℤ)) ^ (n + xs.length) * (A k + (xs.map fun o => |cf (exactObj o) k|).sum)
        ≤ 2 ^ 1022) →
      xs.foldlM (fun acc x => addTy acc.1 x.1 acc.2 x.2) acc = some r →
      (cf (promote r.1 r.2) k).Finite ∧
      |(cf (promote r.1 r.2) k).value - (cf p k + (xs.map fun o => cf (exactObj o) k).sum)|
        ≤ ((1 + 2 ^ (-53 : ℤ)) ^ (n + xs.length) - 1) *
          (A k + (xs.map fun o => |cf (exactObj o) k|).sum) by
    have := this x0 (exactObj x0) (fun k => |cf (exactObj x0) k|) (fun k => |cf (exactObj x0) k|) 0
      (finiteTy_of _ _ (hv x0 List.mem_cons_self))
      (fun k => by simp only [Near, exactObj, sub_self, abs_zero]; exact ⟨le_rfl, le_rfl⟩)
      (fun k => by rw [pow_zero, one_mul]) (fun k => by rw [zero_add]; exact hb k) h
    rwa [zero_add] at this
  clear h hb
  have hxs : ∀ o ∈ xs, ∀ c ∈ comps o.1 o.2, c.Finite := fun o ho => hv o (List.mem_cons_of_mem _ ho)
  clear hv
  induction xs with
  | nil =>
    intro acc p U A n hf hn hU _ h
    cases h
    refine ⟨hf k, ?_⟩
    rw [← cf_val, List.map_nil, List.map_nil, List.sum_nil, List.length_nil, add_zero, add_zero,
      add_zero, sub_mul, one_mul]
    exact (hn k).1.trans (sub_le_sub_right (hU k) _)
  | cons x xs ih =>
    intro acc p U A n hf hn hU hb h
    rw [List.foldlM_cons] at h
    obtain ⟨acc', h1, h2⟩ := Option.bind_eq_some_iff.1 h
    have hX : ∀ k, (0 : ℚ) ≤ (xs.map fun o => |cf (exactObj o) k|).sum := fun k =>
      List.sum_nonneg (by
        intro y hy; obtain ⟨o, _, rfl⟩ := List.mem_map.1 hy; exact abs_nonneg _)
    have hstep : ∀ k, (1 + 2 ^ (-53 : ℤ)) * (U k + |cf (exactObj x) k|)
        ≤ (1 + 2 ^ (-53 : ℤ)) ^ (n + 1) * (A k + |cf (exactObj x) k|) := by
      intro k
      have := inflate (n := n) (n' := 0) (hn k).nonneg (abs_nonneg (cf (exactObj x) k)) (hU k)
        (by rw [pow_zero, one_mul])
      rwa [Nat.max_zero] at this
    have hsafe : ∀ k, (1 + 2 ^ (-53 : ℤ)) * (U k + |cf (exactObj x) k|) ≤ F64.safe := by
      intro k
      refine (hstep k).trans (le_trans ?_ (hb k))
      rw [List.map_cons, List.sum_cons, List.length_cons]
      refine mul_le_mul (pow_le_pow_right₀ h1u (by omega)) ?_
        (add_nonneg (hn k).nonneg (abs_nonneg _)) (by positivity)
      linarith [hX k]
    obtain ⟨hf', hn'⟩ := add_step acc x acc' h1 hf (finiteTy_of _ _ (hxs x List.mem_cons_self))
      p (exactObj x) U A (fun k => |cf (exactObj x) k|) (fun k => |cf (exactObj x) k|) hn
      (fun k => by simp only [Near, exactObj, sub_self, abs_zero]; exact ⟨le_rfl, le_rfl⟩) hsafe
    have := ih (fun o ho => hxs o (List.mem_cons_of_mem _ ho)) acc' (p + exactObj x) _ _ (n + 1)
      hf' hn' hstep (fun k => by
        have := hb k
        rw [List.map_cons, List.sum_cons, List.length_cons, ← add_assoc (A k)] at this
        rwa [Nat.add_right_comm n 1]) h2
    rw [cf_add, add_assoc (cf p k), add_assoc (A k), Nat.add_right_comm n 1] at this
    rw [List.map_cons, List.map_cons, List.sum_cons, List.sum_cons, List.length_cons]
    exact this

/-- The loop over objects of one type always compiles and keeps the type. -/
theorem C44_sum_loop_defined (t : Ty) (x0 : t.D F64) (xs : List (t.D F64)) :
    ∃ r : t.D F64, (xs.map fun x => (⟨t, x⟩ : Sigma fun t : Ty => t.D F64)).foldlM
      (fun acc x => addTy acc.1 x.1 acc.2 x.2) ⟨t, x0⟩ = some ⟨t, r⟩ := by
  induction xs generalizing x0 with
  | nil => exact ⟨x0, rfl⟩
  | cons x xs ih =>
    obtain ⟨c, hc⟩ : ∃ c, addTy t t x0 x = some ⟨t, c⟩ := by cases t <;> exact ⟨_, rfl⟩
    obtain ⟨r, hr⟩ := ih c
    refine ⟨r, ?_⟩
    rw [List.map_cons, List.foldlM_cons]
    dsimp only
    rw [hc]
    exact hr

/-! ## Examples -/

theorem cf_e1 (k : Fin 8) :
    cf (exactObj ⟨.vec, (e1 : Vector F64)⟩) k = if k = 1 then 1 else 0 := by
  unfold exactObj
  rw [cf_val]
  have h0 : (0 : F64).value = 0 := F64.hasVal_zero'.2
  have h1 : (1 : F64).value = 1 := F64.hasVal_one.2
  revert k
  apply forall_fin8 <;> simp only [cf_0, cf_1, cf_2, cf_3, cf_4, cf_5, cf_6, cf_7, engabra, h0, h1] <;>
    rfl

theorem finite_e1 : ∀ c ∈ comps .vec (e1 : Vector F64), c.Finite := by
  have h0 : (0 : F64).Finite := F64.hasVal_zero'.1
  have h1 : (1 : F64).Finite := F64.hasVal_one.1
  intro c hc
  simp [comps, engabra] at hc
  rcases hc with rfl | rfl <;> assumption

theorem sum_replicate (n : ℕ) (q : ℚ) : (List.replicate n q).sum = n * q := by
  rw [List.sum_replicate, nsmul_eq_mul]

/-- 201 unit vectors added in a loop. -/
example : ∃ r : Vector F64, ∀ k,
    |(cf (promote .vec r) k).value - if k = 1 then 201 else 0| ≤ 1 / 10 ^ 11 := by
  obtain ⟨r, hr⟩ := C44_sum_loop_defined .vec (e1 : Vector F64) (List.replicate 200 (e1 : Vector F64))
  refine ⟨r, fun k => ?_⟩
  rw [List.map_replicate] at hr
  have hk : ∀ k : Fin 8, (((⟨.vec, (e1 : Vector F64)⟩ : Sigma fun t : Ty => t.D F64) ::
      List.replicate 200 ⟨.vec, (e1 : Vector F64)⟩).map fun o => |cf (exactObj o) k|).sum ≤ 201 := by
    intro k
    rw [List.map_cons, List.map_replicate, List.sum_cons, sum_replicate, cf_e1]
    split_ifs <;> norm_num
  have := C44_sum_loop ⟨.vec, (e1 : Vector F64)⟩ (List.replicate 200 ⟨.vec, (e1 : Vector F64)⟩)
    (by
      intro o ho
      have : o = ⟨.vec, (e1 : Vector F64)⟩ := by
        rcases List.mem_cons.1 ho with h | h
        · exact h
        · exact List.eq_of_mem_replicate h
      subst this
      exact finite_e1)
    (by
      intro k
      rw [List.length_replicate]
      refine (mul_le_mul_of_nonneg_left (hk k) (by positivity)).trans (le_trans (?_ : _ ≤ (2 : ℚ) ^ 10) ?_)
      · norm_num
      · exact pow_le_pow_right₀ (by norm_num) (by norm_num))
    _ hr k
  have h2 := this.2
  rw [List.length_replicate] at h2
  have h3 : (((⟨.vec, (e1 : Vector F64)⟩ : Sigma fun t : Ty => t.D F64) ::
      List.replicate 200 ⟨.vec, (e1 : Vector F64)⟩).map fun o => cf (exactObj o) k).sum
      = if k = 1 then 201 else 0 := by
    rw [List.map_cons, List.map_replicate, List.sum_cons, sum_replicate, cf_e1]
    split_ifs <;> norm_num
  rw [h3] at h2
  refine h2.trans ((mul_le_mul_of_nonneg_left (hk k) ?_).trans ?_) <;> norm_num

/-- `e1 * e1 + e1 * e1`: the hypotheses of `C44_expression_error` are met. -/
example : ∀ k, |(cf (promote .spin (addSpinSpin ((e1 : Vector F64) * (e1 : Vector F64))
    ((e1 : Vector F64) * (e1 : Vector F64)))) k).value - if k = 0 then 2 else 0| ≤ 1 / 10 ^ 14 := by
  intro k
  let env : Nat → Sigma fun t : Ty => t.D F64 := fun _ => ⟨.vec, (e1 : Vector F64)⟩
  let e : Expr := .add (.mul (.var 0) (.var 0)) (.mul (.var 0) (.var 0))
  have hA : ∀ k, absMul (fun k => |cf (exactEnv env 0) k|) (fun k => |cf (exactEnv env 0) k|) k
      = if k = 0 then 1 else 0 := by
    have h : ∀ k, cf (exactEnv env 0) k = if k = 1 then 1 else 0 := cf_e1
    apply forall_fin8 <;> simp [absMul_0, absMul_1, absMul_2, absMul_3, absMul_4, absMul_5,
      absMul_6, absMul_7, h]
  have ht : (0 : ℚ) < 2 ^ (-1059 : ℤ) := F64.two_zpow_pos _
  have ht' : (2 : ℚ) ^ (-1059 : ℤ) ≤ 2 ^ (-53 : ℤ) := zpow_le_zpow_right₀ (by norm_num) (by norm_num)
  have hbig : (2 : ℚ) ^ 10 ≤ 2 ^ 1022 := pow_le_pow_right₀ (by norm_num) (by norm_num)
  have bm : ∀ k, (Expr.mul (.var 0) (.var 0)).bound (fun i => cf (exactEnv env i)) k
      = (1 + 9 * 2 ^ (-53 : ℤ)) * (if k = 0 then 1 else 0) + 2 ^ (-1059 : ℤ) := fun k => by
    rw [← hA k]; rfl
  have ba : ∀ k, e.bound (fun i => cf (exactEnv env i)) k = (1 + 2 ^ (-53 : ℤ)) *
      (((1 + 9 * 2 ^ (-53 : ℤ)) * (if k = 0 then 1 else 0) + 2 ^ (-1059 : ℤ)) +
        ((1 + 9 * 2 ^ (-53 : ℤ)) * (if k = 0 then 1 else 0) + 2 ^ (-1059 : ℤ))) := fun k => by
    rw [← bm k]; rfl
  have aa : ∀ k, e.absEval (fun i => cf (exactEnv env i)) k
      = (if k = 0 then 1 else 0) + (if k = 0 then 1 else 0) := fun k => by rw [← hA k]; rfl
  generalize (2 : ℚ) ^ (-1059 : ℤ) = t at *
  norm_num at ht' ba bm
  have hb : ∀ f ∈ e.subs, ∀ k, f.bound (fun i => cf (exactEnv env i)) k ≤ 2 ^ 1022 := by
    intro f hf k
    refine le_trans (?_ : _ ≤ (2 : ℚ) ^ 10) hbig
    simp only [e, Expr.subs, List.mem_cons, List.not_mem_nil, or_false, List.cons_append,
      List.nil_append] at hf
    rcases hf with rfl | rfl | rfl | rfl | rfl | rfl | rfl
    · rw [ba k]; split_ifs <;> linarith
    all_goals first
      | (rw [bm k]; split_ifs <;> linarith)
      | (refine le_trans (?_ : _ ≤ (1 : ℚ)) (by norm_num)
         show |cf (exactObj ⟨.vec, (e1 : Vector F64)⟩) k| ≤ 1
         rw [cf_e1]; split_ifs <;> norm_num)
  have := (C44_expression_error env e (by intro a b h; simp [e, Expr.subs] at h)
    (fun i _ => finite_e1) hb _ rfl k).2
  rw [ba k, aa k] at this
  have he : cf (e.evalMV (exactEnv env)) k = if k = 0 then 2 else 0 := by
    have h1 : cf (exactObj ⟨.vec, (e1 : Vector F64)⟩) 1 = 1 := (cf_e1 1).trans (if_pos rfl)
    have h : ∀ k, k ≠ 1 → cf (exactObj ⟨.vec, (e1 : Vector F64)⟩) k = 0 := fun k hk =>
      (cf_e1 k).trans (if_neg hk)
    have h0 := h 0 (by decide)
    have h2 := h 2 (by decide)
    have h3 := h 3 (by decide)
    have h4 := h 4 (by decide)
    have h5 := h 5 (by decide)
    have h6 := h 6 (by decide)
    have h7 := h 7 (by decide)
    clear h
    show cf (exactObj ⟨.vec, (e1 : Vector F64)⟩ * exactObj ⟨.vec, (e1 : Vector F64)⟩ +
      exactObj ⟨.vec, (e1 : Vector F64)⟩ * exactObj ⟨.vec, (e1 : Vector F64)⟩) k = _
    generalize exactObj ⟨.vec, (e1 : Vector F64)⟩ = x at *
    clear this
    simp only [cf_0, cf_1, cf_2, cf_3, cf_4, cf_5, cf_6, cf_7] at *
    revert k
    apply forall_fin8 <;> simp only [cf_0, cf_1, cf_2, cf_3, cf_4, cf_5, cf_6, cf_7, engabra, h0, h1,
      h2, h3, h4, h5, h6, h7] <;> simp <;> norm_num
  rw [he] at this
  refine this.trans ?_
  split_ifs <;> linarith

end Engabra
