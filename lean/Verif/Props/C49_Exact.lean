import Verif.Lemmas.ExactLattice
import Verif.Props.C25_C28_Compare

/-! # C49: expressions of integers, and of multiples of a power of two, are exact

An expression of any size over variables whose components are integers (or multiples of `2^g`) is
computed without any rounding as long as, in each subexpression, the sum of the absolute values of
the terms of each component fits in 53 bits.  Then identities of the algebra hold with `==`. -/

namespace Engabra

open F64

/-- Specification: exponent of the grid on which the value of an expression lies, given the grids of
the variables. -/
def Expr.grid (G : Nat → ℤ) : Expr → ℤ
  | .var i => G i
  | .mul a b => a.grid G + b.grid G
  | .add a b => min (a.grid G) (b.grid G)
  | .sub a b => min (a.grid G) (b.grid G)
  | .neg a => a.grid G
  | .reverse a => a.grid G
  | .oddverse a => a.grid G
  | .dirverse a => a.grid G
  | .dual a => a.grid G

/-- Specification: every subexpression fits in 53 bits above its grid (and is neither below the
smallest subnormal number nor above `2^1022`). -/
def Expr.FitsGrid (G : Nat → ℤ) (m : Nat → Fin 8 → ℚ) (e : Expr) : Prop :=
  ∀ f ∈ e.subs, -1074 ≤ f.grid G ∧
    ∀ k, f.absEval m k ≤ 2 ^ (f.grid G + 53) ∧ f.absEval m k ≤ 2 ^ 1022

theorem mv_ext_cf {x y : MultiVector ℚ} (h : ∀ k, cf x k = cf y k) : x = y := by
  obtain ⟨⟨⟨a0⟩⟩, ⟨⟨a1, a2, a3⟩⟩, ⟨⟨a4, a5, a6⟩⟩, ⟨⟨a7⟩⟩⟩ := x
  obtain ⟨⟨⟨b0⟩⟩, ⟨⟨b1, b2, b3⟩⟩, ⟨⟨b4, b5, b6⟩⟩, ⟨⟨b7⟩⟩⟩ := y
  have h := all8 h
  simp only [cf_0, cf_1, cf_2, cf_3, cf_4, cf_5, cf_6, cf_7] at h
  obtain ⟨rfl, rfl, rfl, rfl, rfl, rfl, rfl, rfl⟩ := h
  rfl

theorem grid_mul {x y : MultiVector ℚ} {g h : ℤ} (hx : ∀ k, OnGrid g (cf x k))
    (hy : ∀ k, OnGrid h (cf y k)) : ∀ k, OnGrid (g + h) (cf (x * y) k) := by
  have sub : ∀ {g : ℤ} {q r : ℚ}, OnGrid g q → OnGrid g r → OnGrid g (q - r) := by
    intro g q r h k; rw [sub_eq_add_neg]; exact h.add k.neg
  obtain ⟨x0, x1, x2, x3, x4, x5, x6, x7⟩ := all8 hx
  obtain ⟨y0, y1, y2, y3, y4, y5, y6, y7⟩ := all8 hy
  clear hx hy
  simp only [cf_0, cf_1, cf_2, cf_3, cf_4, cf_5, cf_6, cf_7] at *
  apply forall_fin8 <;>
    simp only [cf_0, cf_1, cf_2, cf_3, cf_4, cf_5, cf_6, cf_7, engabra] <;>
    (repeat' first
        | with_reducible assumption
        | with_reducible apply OnGrid.add
        | with_reducible apply sub
        | with_reducible apply OnGrid.neg
        | with_reducible apply OnGrid.mul)

theorem exactOk (s t : Ty) : ExactOk s t := by
  cases s
  · exact exact_dub t
  · exact exact_sca t
  · exact exact_vec t
  · exact exact_biv t
  · exact exact_tri t
  · exact exact_spin t
  · exact exact_imsp t
  · exact exact_cplx t
  · exact exact_dplx t
  · exact exact_mv t

/-- The exact value of a typed object all of whose components are known. -/
theorem val_eq {t : Ty} {x : t.D F64} {q : MultiVector ℚ}
    (h : ∀ k, HasVal (cf (promote t x) k) (cf q k)) : promote t (valTy t x) = q :=
  mv_ext_cf fun k => by rw [cf_val, (h k).2]

theorem unary_exact {t t' : Ty} {x : t.D F64} {y : t'.D F64} {q q' : MultiVector ℚ}
    (hx : ∀ k, HasVal (cf (promote t x) k) (cf q k)) (hf : FiniteTy t' y)
    {op : MultiVector ℚ → MultiVector ℚ}
    (hy : ∀ k, cf (promote t' (valTy t' y)) k = cf (op (promote t (valTy t x))) k)
    (hq : op q = q') : ∀ k, HasVal (cf (promote t' y) k) (cf q' k) := fun k =>
  ⟨hf k, by rw [← cf_val, hy, val_eq hx, hq]⟩

theorem signs_exact {x y : MultiVector ℚ} {g : ℤ} {A : Fin 8 → ℚ}
    (hx : ∀ k, OnGrid g (cf x k) ∧ |cf x k| ≤ A k)
    (hy : ∀ k, cf y k = cf x k ∨ cf y k = -cf x k) (k : Fin 8) :
    OnGrid g (cf y k) ∧ |cf y k| ≤ A k := by
  rcases hy k with h | h <;> rw [h]
  · exact hx k
  · rw [abs_neg]; exact ⟨(hx k).1.neg, (hx k).2⟩

theorem comps_grid (t : Ty) (x : t.D F64) (g : ℤ) (h : ∀ c ∈ comps t x, OnGrid g c.value) :
    ∀ k, OnGrid g (cf (promote t x) k).value := by
  have h0 : OnGrid g (0 : F64).value := OnGrid.zero _
  cases t <;> apply forall_fin8 <;>
    simp only [cf_0, cf_1, cf_2, cf_3, cf_4, cf_5, cf_6, cf_7, engabra] <;>
    first | exact h0 | exact h _ (by simp [comps])

theorem expr_exact (env : Nat → Sigma fun t : Ty => t.D F64) (G : Nat → ℤ) (e : Expr)
    (hr : e.NoReversed env)
    (hv : ∀ i ∈ e.vars, ∀ c ∈ comps (env i).1 (env i).2, c.Finite ∧ OnGrid (G i) c.value)
    (hb : e.FitsGrid G (fun i => cf (exactEnv env i)))
    (r : Sigma fun t : Ty => t.D F64) (h : e.eval env = some r) :
    (∀ k, HasVal (cf (promote r.1 r.2) k) (cf (e.evalMV (exactEnv env)) k)) ∧
    ∀ k, OnGrid (e.grid G) (cf (e.evalMV (exactEnv env)) k) ∧
      |cf (e.evalMV (exactEnv env)) k| ≤ e.absEval (fun i => cf (exactEnv env i)) k := by
  induction e generalizing r with
  | var i =>
    simp only [Expr.eval, Option.some.injEq] at h
    subst h
    have hv' := hv i (by simp [Expr.vars])
    have hf := finiteTy_of _ _ fun c hc => (hv' c hc).1
    refine ⟨fun k => ⟨hf k, (cf_val _ _ k).symm⟩, fun k => ⟨?_, le_rfl⟩⟩
    change OnGrid (G i) (cf (promote (env i).1 (valTy (env i).1 (env i).2)) k)
    rw [cf_val]
    exact comps_grid _ _ _ (fun c hc => (hv' c hc).2) k
  | mul a b iha ihb =>
    simp only [Expr.eval, Option.bind_eq_some_iff, Option.map_eq_some_iff] at h
    obtain ⟨x, hx, y, hy, rfl⟩ := h
    obtain ⟨va, na⟩ := iha (hr.mono fun _ h => by simp [Expr.subs, h])
      (fun i hi => hv i (by simp [Expr.vars, hi])) (fun f hf => hb f (by simp [Expr.subs, hf])) x hx
    obtain ⟨vb, nb⟩ := ihb (hr.mono fun _ h => by simp [Expr.subs, h])
      (fun i hi => hv i (by simp [Expr.vars, hi])) (fun f hf => hb f (by simp [Expr.subs, hf])) y hy
    obtain ⟨hg, hbk⟩ := hb _ (List.mem_cons_self : Expr.mul a b ∈ (Expr.mul a b).subs)
    simp only [Expr.grid, Expr.evalMV, Expr.absEval] at hg hbk ⊢
    have hm : ∀ k, absMul (cf (a.evalMV (exactEnv env))) (cf (b.evalMV (exactEnv env))) k
        ≤ absMul (a.absEval fun i => cf (exactEnv env i)) (b.absEval fun i => cf (exactEnv env i)) k :=
      fun k => absMul_mono (fun i => (na i).2.trans (le_abs_self _))
        (fun i => (nb i).2.trans (le_abs_self _)) k
    refine ⟨fun k => ?_, fun k => ⟨grid_mul (fun k => (na k).1) (fun k => (nb k).1) k, ?_⟩⟩
    · have := exactOk x.1 y.1 (a.grid G) (b.grid G) x.2 y.2
        (fun i => ⟨(va i).1, by rw [(va i).2]; exact (na i).1⟩)
        (fun i => ⟨(vb i).1, by rw [(vb i).2]; exact (nb i).1⟩) hg k
      rw [val_eq va, val_eq vb] at this
      exact this ((hm k).trans (hbk k).1) ((hm k).trans (hbk k).2)
    · exact (near_mul (x := a.evalMV (exactEnv env)) (y := b.evalMV (exactEnv env))
        (U := a.absEval fun i => cf (exactEnv env i)) (V := b.absEval fun i => cf (exactEnv env i))
        (fun k => ⟨by rw [sub_self, sub_self, abs_zero], (na k).2⟩)
        (fun k => ⟨by rw [sub_self, sub_self, abs_zero], (nb k).2⟩) k).2
  | add a b iha ihb =>
    simp only [Expr.eval, Option.bind_eq_some_iff] at h
    obtain ⟨x, hx, y, hy, h⟩ := h
    obtain ⟨va, na⟩ := iha (hr.mono fun _ h => by simp [Expr.subs, h])
      (fun i hi => hv i (by simp [Expr.vars, hi])) (fun f hf => hb f (by simp [Expr.subs, hf])) x hx
    obtain ⟨vb, nb⟩ := ihb (hr.mono fun _ h => by simp [Expr.subs, h])
      (fun i hi => hv i (by simp [Expr.vars, hi])) (fun f hf => hb f (by simp [Expr.subs, hf])) y hy
    obtain ⟨hg, hbk⟩ := hb _ (List.mem_cons_self : Expr.add a b ∈ (Expr.add a b).subs)
    simp only [Expr.grid, Expr.evalMV, Expr.absEval] at hg hbk ⊢
    have hA : ∀ k, |cf (a.evalMV (exactEnv env)) k + cf (b.evalMV (exactEnv env)) k| ≤
        a.absEval (fun i => cf (exactEnv env i)) k + b.absEval (fun i => cf (exactEnv env i)) k :=
      fun k => (abs_add_le _ _).trans (add_le_add (na k).2 (nb k).2)
    have hG : ∀ k, OnGrid (min (a.grid G) (b.grid G))
        (cf (a.evalMV (exactEnv env)) k + cf (b.evalMV (exactEnv env)) k) := fun k =>
      ((na k).1.mono (min_le_left _ _)).add ((nb k).1.mono (min_le_right _ _))
    have hf := sum_finite _ _ _ _ _ _ h (fun k => (va k).1) (fun k => (vb k).1)
      (fun k => by rw [(va k).2, (vb k).2]; exact (hA k).trans (hbk k).2)
    refine ⟨fun k => ⟨hf k, ?_⟩, fun k => ?_⟩
    · rw [C33_sum _ _ _ _ _ _ h k (hf k), val_eq va, val_eq vb, cf_add]
      exact F64.rnVal_exact ((hG k).rep hg ((hA k).trans (hbk k).1))
    · rw [cf_add]; exact ⟨hG k, hA k⟩
  | sub a b iha ihb =>
    simp only [Expr.eval, Option.bind_eq_some_iff] at h
    obtain ⟨x, hx, y, hy, h⟩ := h
    have hrev := hr a b (by simp [Expr.subs]) x y hx hy
    obtain ⟨va, na⟩ := iha (hr.mono fun _ h => by simp [Expr.subs, h])
      (fun i hi => hv i (by simp [Expr.vars, hi])) (fun f hf => hb f (by simp [Expr.subs, hf])) x hx
    obtain ⟨vb, nb⟩ := ihb (hr.mono fun _ h => by simp [Expr.subs, h])
      (fun i hi => hv i (by simp [Expr.vars, hi])) (fun f hf => hb f (by simp [Expr.subs, hf])) y hy
    obtain ⟨hg, hbk⟩ := hb _ (List.mem_cons_self : Expr.sub a b ∈ (Expr.sub a b).subs)
    simp only [Expr.grid, Expr.evalMV, Expr.absEval] at hg hbk ⊢
    have hA : ∀ k, |cf (a.evalMV (exactEnv env)) k - cf (b.evalMV (exactEnv env)) k| ≤
        a.absEval (fun i => cf (exactEnv env i)) k + b.absEval (fun i => cf (exactEnv env i)) k :=
      fun k => (abs_sub _ _).trans (add_le_add (na k).2 (nb k).2)
    have hG : ∀ k, OnGrid (min (a.grid G) (b.grid G))
        (cf (a.evalMV (exactEnv env)) k - cf (b.evalMV (exactEnv env)) k) := fun k => by
      rw [sub_eq_add_neg]
      exact ((na k).1.mono (min_le_left _ _)).add ((nb k).1.mono (min_le_right _ _)).neg
    have hf := diff_finite _ _ _ _ _ _ h (fun k => (va k).1) (fun k => (vb k).1)
      (fun k => by rw [(va k).2, (vb k).2]; exact (hA k).trans (hbk k).2)
    refine ⟨fun k => ⟨hf k, ?_⟩, fun k => ?_⟩
    · rw [C33_difference _ _ _ _ _ _ hrev h k (hf k), val_eq va, val_eq vb, cf_sub]
      exact F64.rnVal_exact ((hG k).rep hg ((hA k).trans (hbk k).1))
    · rw [cf_sub]; exact ⟨hG k, hA k⟩
  | neg a ih =>
    simp only [Expr.eval, Option.map_eq_some_iff] at h
    obtain ⟨x, hx, rfl⟩ := h
    obtain ⟨va, na⟩ := ih (hr.mono fun _ h => by simp [Expr.subs, h]) hv
      (fun f hf => hb f (by simp [Expr.subs, hf])) x hx
    have hu := (unary_ok x.1 x.2 fun k => (va k).1).1
    refine ⟨unary_exact va hu.1 (op := fun z => -z) hu.2 rfl, signs_exact na ?_⟩
    obtain ⟨a0, a1, a2, a3, a4, a5, a6, a7⟩ := cf_neg (a.evalMV (exactEnv env))
    exact forall_fin8 (.inr a0) (.inr a1) (.inr a2) (.inr a3) (.inr a4) (.inr a5) (.inr a6) (.inr a7)
  | reverse a ih =>
    simp only [Expr.eval, Option.map_eq_some_iff] at h
    obtain ⟨x, hx, rfl⟩ := h
    obtain ⟨va, na⟩ := ih (hr.mono fun _ h => by simp [Expr.subs, h]) hv
      (fun f hf => hb f (by simp [Expr.subs, hf])) x hx
    have hu := (unary_ok x.1 x.2 fun k => (va k).1).2.1
    refine ⟨unary_exact va hu.1 (op := fun z => reverse z) hu.2 rfl, signs_exact na ?_⟩
    obtain ⟨a0, a1, a2, a3, a4, a5, a6, a7⟩ := cf_reverse (a.evalMV (exactEnv env))
    exact forall_fin8 (.inl a0) (.inl a1) (.inl a2) (.inl a3) (.inr a4) (.inr a5) (.inr a6) (.inr a7)
  | oddverse a ih =>
    simp only [Expr.eval, Option.map_eq_some_iff] at h
    obtain ⟨x, hx, rfl⟩ := h
    obtain ⟨va, na⟩ := ih (hr.mono fun _ h => by simp [Expr.subs, h]) hv
      (fun f hf => hb f (by simp [Expr.subs, hf])) x hx
    have hu := (unary_ok x.1 x.2 fun k => (va k).1).2.2.1
    refine ⟨unary_exact va hu.1 (op := fun z => oddverse z) hu.2 rfl, signs_exact na ?_⟩
    obtain ⟨a0, a1, a2, a3, a4, a5, a6, a7⟩ := cf_oddverse (a.evalMV (exactEnv env))
    exact forall_fin8 (.inl a0) (.inr a1) (.inr a2) (.inr a3) (.inl a4) (.inl a5) (.inl a6) (.inr a7)
  | dirverse a ih =>
    simp only [Expr.eval, Option.map_eq_some_iff] at h
    obtain ⟨x, hx, rfl⟩ := h
    obtain ⟨va, na⟩ := ih (hr.mono fun _ h => by simp [Expr.subs, h]) hv
      (fun f hf => hb f (by simp [Expr.subs, hf])) x hx
    have hu := (unary_ok x.1 x.2 fun k => (va k).1).2.2.2.1
    refine ⟨unary_exact va hu.1 (op := fun z => dirverse z) hu.2 rfl, signs_exact na ?_⟩
    obtain ⟨a0, a1, a2, a3, a4, a5, a6, a7⟩ := cf_dirverse (a.evalMV (exactEnv env))
    exact forall_fin8 (.inl a0) (.inr a1) (.inr a2) (.inr a3) (.inr a4) (.inr a5) (.inr a6) (.inl a7)
  | dual a ih =>
    simp only [Expr.eval, Option.map_eq_some_iff] at h
    obtain ⟨x, hx, rfl⟩ := h
    obtain ⟨va, na⟩ := ih (hr.mono fun _ h => by simp [Expr.subs, h]) hv
      (fun f hf => hb f (by simp [Expr.subs, hf])) x hx
    have hu := (unary_ok x.1 x.2 fun k => (va k).1).2.2.2.2
    refine ⟨unary_exact va hu.1 (op := fun z => dual z) hu.2 rfl, ?_⟩
    obtain ⟨a0, a1, a2, a3, a4, a5, a6, a7⟩ := cf_dual (a.evalMV (exactEnv env))
    simp only [Expr.evalMV, Expr.absEval, Expr.grid]
    have ng : ∀ i, OnGrid (a.grid G) (-cf (a.evalMV (exactEnv env)) i) ∧
        |-cf (a.evalMV (exactEnv env)) i| ≤ a.absEval (fun i => cf (exactEnv env i)) i := fun i => by
      rw [abs_neg]; exact ⟨(na i).1.neg, (na i).2⟩
    apply forall_fin8
    · rw [a0]; exact ng 7
    · rw [a1]; exact ng 4
    · rw [a2]; exact ng 5
    · rw [a3]; exact ng 6
    · rw [a4]; exact na 1
    · rw [a5]; exact na 2
    · rw [a6]; exact na 3
    · rw [a7]; exact na 0

/-- **C49.**  Exactness on grids: if the components of each variable are finite multiples of a
power of two, and each subexpression fits in 53 bits, every component of the result is finite and
equal to the exact value of the expression in the geometric algebra. -/
theorem C49_exact (env : Nat → Sigma fun t : Ty => t.D F64) (G : Nat → ℤ) (e : Expr)
    (hr : e.NoReversed env)
    (hv : ∀ i ∈ e.vars, ∀ c ∈ comps (env i).1 (env i).2, c.Finite ∧ ∃ n : ℤ, c.value = n * 2 ^ (G i))
    (hb : e.FitsGrid G (fun i => cf (exactEnv env i)))
    (r : Sigma fun t : Ty => t.D F64) (h : e.eval env = some r) (k : Fin 8) :
    (cf (promote r.1 r.2) k).Finite ∧
    (cf (promote r.1 r.2) k).value = cf (e.evalMV (exactEnv env)) k :=
  (expr_exact env G e hr hv hb r h).1 k

theorem grid_zero (e : Expr) : e.grid (fun _ => 0) = 0 := by
  induction e <;> simp_all [Expr.grid]

/-- **C49.**  In particular for integers: all components of all variables are integers, and in no
subexpression does the sum of the absolute values of the terms of a component exceed `2^53`. -/
theorem C49_integers (env : Nat → Sigma fun t : Ty => t.D F64) (e : Expr)
    (hr : e.NoReversed env)
    (hv : ∀ i ∈ e.vars, ∀ c ∈ comps (env i).1 (env i).2, c.Finite ∧ ∃ n : ℤ, c.value = n)
    (hb : ∀ f ∈ e.subs, ∀ k, f.absEval (fun i => cf (exactEnv env i)) k ≤ 2 ^ 53)
    (r : Sigma fun t : Ty => t.D F64) (h : e.eval env = some r) (k : Fin 8) :
    (cf (promote r.1 r.2) k).Finite ∧
    (cf (promote r.1 r.2) k).value = cf (e.evalMV (exactEnv env)) k := by
  refine C49_exact env (fun _ => 0) e hr (fun i hi c hc => ?_) (fun f hf => ?_) r h k
  · obtain ⟨h1, n, h2⟩ := hv i hi c hc
    exact ⟨h1, n, by rw [h2, zpow_zero, mul_one]⟩
  · rw [grid_zero]
    refine ⟨by norm_num, fun k => ⟨(hb f hf k).trans (le_of_eq ?_), (hb f hf k).trans ?_⟩⟩
    · norm_num
    · exact pow_le_pow_right₀ (by norm_num) (by norm_num)

/-- Specification: an upper bound for all components of an expression whose variables have
components at most `M` in absolute value: a product of multivectors has 8 terms per component. -/
def Expr.cap (M : ℕ) : Expr → ℕ
  | .var _ => M
  | .mul a b => 8 * (a.cap M * b.cap M)
  | .add a b => a.cap M + b.cap M
  | .sub a b => a.cap M + b.cap M
  | .neg a => a.cap M
  | .reverse a => a.cap M
  | .oddverse a => a.cap M
  | .dirverse a => a.cap M
  | .dual a => a.cap M

theorem absMul_le_cap {x y : Fin 8 → ℚ} {A B : ℚ} (hx : ∀ i, |x i| ≤ A) (hy : ∀ i, |y i| ≤ B)
    (k : Fin 8) : absMul x y k ≤ 8 * (A * B) := by
  have h : ∀ i j, |x i| * |y j| ≤ A * B := fun i j =>
    mul_le_mul (hx i) (hy j) (abs_nonneg _) ((abs_nonneg _).trans (hx i))
  revert k
  apply forall_fin8
  · rw [absMul_0]; linarith only [h 0 0, h 1 1, h 2 2, h 3 3, h 4 4, h 5 5, h 6 6, h 7 7]
  · rw [absMul_1]; linarith only [h 0 1, h 1 0, h 2 6, h 3 5, h 4 7, h 5 3, h 6 2, h 7 4]
  · rw [absMul_2]; linarith only [h 0 2, h 1 6, h 2 0, h 3 4, h 4 3, h 5 7, h 6 1, h 7 5]
  · rw [absMul_3]; linarith only [h 0 3, h 1 5, h 2 4, h 3 0, h 4 2, h 5 1, h 6 7, h 7 6]
  · rw [absMul_4]; linarith only [h 0 4, h 4 0, h 1 7, h 7 1, h 2 3, h 3 2, h 5 6, h 6 5]
  · rw [absMul_5]; linarith only [h 0 5, h 5 0, h 1 3, h 3 1, h 2 7, h 7 2, h 4 6, h 6 4]
  · rw [absMul_6]; linarith only [h 0 6, h 6 0, h 1 2, h 2 1, h 3 7, h 7 3, h 4 5, h 5 4]
  · rw [absMul_7]; linarith only [h 0 7, h 7 0, h 1 4, h 4 1, h 2 5, h 5 2, h 3 6, h 6 3]

theorem absEval_le_cap {m : Nat → Fin 8 → ℚ} {M : ℕ} (e : Expr)
    (hm : ∀ i ∈ e.vars, ∀ k, |m i k| ≤ M) (k : Fin 8) : |e.absEval m k| ≤ e.cap M := by
  induction e generalizing k with
  | var i => simpa [Expr.absEval, Expr.cap] using hm i (by simp [Expr.vars]) k
  | mul a b iha ihb =>
    simp only [Expr.absEval, Expr.cap]
    rw [abs_of_nonneg (absMul_nonneg _ _ _)]
    push_cast
    exact absMul_le_cap (iha fun i hi => hm i (by simp [Expr.vars, hi]))
      (ihb fun i hi => hm i (by simp [Expr.vars, hi])) k
  | add a b iha ihb =>
    simp only [Expr.absEval, Expr.cap]
    push_cast
    exact (abs_add_le _ _).trans (add_le_add (iha (fun i hi => hm i (by simp [Expr.vars, hi])) k)
      (ihb (fun i hi => hm i (by simp [Expr.vars, hi])) k))
  | sub a b iha ihb =>
    simp only [Expr.absEval, Expr.cap]
    push_cast
    exact (abs_add_le _ _).trans (add_le_add (iha (fun i hi => hm i (by simp [Expr.vars, hi])) k)
      (ihb (fun i hi => hm i (by simp [Expr.vars, hi])) k))
  | neg a ih => exact ih hm k
  | reverse a ih => exact ih hm k
  | oddverse a ih => exact ih hm k
  | dirverse a ih => exact ih hm k
  | dual a ih =>
    revert k
    exact forall_fin8 (ih hm 7) (ih hm 4) (ih hm 5) (ih hm 6) (ih hm 1) (ih hm 2) (ih hm 3) (ih hm 0)

theorem cap_pos {M : ℕ} (hM : 1 ≤ M) (e : Expr) : 1 ≤ e.cap M := by
  induction e with
  | var i => exact hM
  | mul a b iha ihb =>
    have := Nat.mul_le_mul iha ihb
    simp only [Expr.cap]; omega
  | add a b iha ihb => simp only [Expr.cap]; omega
  | sub a b iha ihb => simp only [Expr.cap]; omega
  | neg a ih => exact ih
  | reverse a ih => exact ih
  | oddverse a ih => exact ih
  | dirverse a ih => exact ih
  | dual a ih => exact ih

theorem cap_subs {M : ℕ} (hM : 1 ≤ M) (e : Expr) : ∀ f ∈ e.subs, f.cap M ≤ e.cap M := by
  induction e with
  | var i => intro f hf; simp only [Expr.subs, List.mem_singleton] at hf; rw [hf]
  | mul a b iha ihb =>
    intro f hf
    simp only [Expr.subs, List.mem_cons, List.mem_append] at hf
    rcases hf with rfl | hf | hf
    · exact le_rfl
    · have := iha f hf
      have h2 := Nat.le_mul_of_pos_right (a.cap M) (cap_pos hM b)
      simp only [Expr.cap]; omega
    · have := ihb f hf
      have h2 := Nat.le_mul_of_pos_left (b.cap M) (cap_pos hM a)
      simp only [Expr.cap]; omega
  | add a b iha ihb =>
    intro f hf
    simp only [Expr.subs, List.mem_cons, List.mem_append] at hf
    rcases hf with rfl | hf | hf
    · exact le_rfl
    · have := iha f hf
      simp only [Expr.cap]; omega
    · have := ihb f hf
      simp only [Expr.cap]; omega
  | sub a b iha ihb =>
    intro f hf
    simp only [Expr.subs, List.mem_cons, List.mem_append] at hf
    rcases hf with rfl | hf | hf
    · exact le_rfl
    · have := iha f hf
      simp only [Expr.cap]; omega
    · have := ihb f hf
      simp only [Expr.cap]; omega
  | neg a ih | reverse a ih | oddverse a ih | dirverse a ih | dual a ih =>
    intro f hf
    simp only [Expr.subs, List.mem_cons] at hf
    rcases hf with rfl | hf
    · exact le_rfl
    · exact ih f hf

theorem vars_subs (e : Expr) : ∀ f ∈ e.subs, ∀ i ∈ f.vars, i ∈ e.vars := by
  induction e with
  | var i => intro f hf; simp only [Expr.subs, List.mem_singleton] at hf; rw [hf]; exact fun _ h => h
  | mul a b iha ihb | add a b iha ihb | sub a b iha ihb =>
    intro f hf i hi
    simp only [Expr.subs, List.mem_cons, List.mem_append] at hf
    rcases hf with rfl | hf | hf
    · exact hi
    · exact List.mem_append_left _ (iha f hf i hi)
    · exact List.mem_append_right _ (ihb f hf i hi)
  | neg a ih | reverse a ih | oddverse a ih | dirverse a ih | dual a ih =>
    intro f hf
    simp only [Expr.subs, List.mem_cons] at hf
    rcases hf with rfl | hf
    · exact fun _ h => h
    · exact ih f hf

theorem comps_le (t : Ty) (x : t.D F64) (M : ℚ) (hM : 0 ≤ M) (h : ∀ c ∈ comps t x, |c.value| ≤ M) :
    ∀ k, |(cf (promote t x) k).value| ≤ M := by
  have h0 : |(0 : F64).value| ≤ M := by rw [F64.hasVal_zero'.2, abs_zero]; exact hM
  cases t <;> apply forall_fin8 <;>
    simp only [cf_0, cf_1, cf_2, cf_3, cf_4, cf_5, cf_6, cf_7, engabra] <;>
    first | exact h0 | exact h _ (by simp [comps])

theorem absEval_cap (env : Nat → Sigma fun t : Ty => t.D F64) (M : ℕ) (hM : 1 ≤ M) (e : Expr)
    (hv : ∀ i ∈ e.vars, ∀ c ∈ comps (env i).1 (env i).2,
      c.Finite ∧ ∃ n : ℤ, c.value = n ∧ |n| ≤ M)
    (hc : e.cap M ≤ 2 ^ 53) :
    ∀ f ∈ e.subs, ∀ k, f.absEval (fun i => cf (exactEnv env i)) k ≤ 2 ^ 53 := by
  intro f hf k
  have h1 : |f.absEval (fun i => cf (exactEnv env i)) k| ≤ f.cap M := by
    refine absEval_le_cap f (fun i hi k => ?_) k
    change |cf (promote (env i).1 (valTy (env i).1 (env i).2)) k| ≤ _
    rw [cf_val]
    refine comps_le _ _ _ (Nat.cast_nonneg M) (fun c hc => ?_) k
    obtain ⟨-, n, h2, h3⟩ := hv i (vars_subs e f hf i hi) c hc
    rw [h2, ← Int.cast_abs]
    exact_mod_cast h3
  have h2 : (f.cap M : ℚ) ≤ 2 ^ 53 := by exact_mod_cast (cap_subs hM e f hf).trans hc
  exact (le_abs_self _).trans (h1.trans h2)

theorem fitsGrid_zero {m : Nat → Fin 8 → ℚ} {e : Expr}
    (h : ∀ f ∈ e.subs, ∀ k, f.absEval m k ≤ 2 ^ 53) : e.FitsGrid (fun _ => 0) m := fun f hf => by
  rw [grid_zero]
  refine ⟨by norm_num, fun k => ⟨(h f hf k).trans (le_of_eq ?_), (h f hf k).trans ?_⟩⟩
  · norm_num
  · exact pow_le_pow_right₀ (by norm_num) (by norm_num)

theorem fitsGrid_of_cap (env : Nat → Sigma fun t : Ty => t.D F64) (M : ℕ) (hM : 1 ≤ M) (e : Expr)
    (hv : ∀ i ∈ e.vars, ∀ c ∈ comps (env i).1 (env i).2,
      c.Finite ∧ ∃ n : ℤ, c.value = n ∧ |n| ≤ M)
    (hc : e.cap M ≤ 2 ^ 53) : e.FitsGrid (fun _ => 0) (fun i => cf (exactEnv env i)) :=
  fitsGrid_zero (absEval_cap env M hM e hv hc)

/-- **C49.**  A bound that only looks at the expression: if all components are integers of
absolute value at most `M` and `e.cap M ≤ 2^53`, the expression is exact. -/
theorem C49_small_integers (env : Nat → Sigma fun t : Ty => t.D F64) (M : ℕ) (hM : 1 ≤ M) (e : Expr)
    (hr : e.NoReversed env)
    (hv : ∀ i ∈ e.vars, ∀ c ∈ comps (env i).1 (env i).2,
      c.Finite ∧ ∃ n : ℤ, c.value = n ∧ |n| ≤ M)
    (hc : e.cap M ≤ 2 ^ 53)
    (r : Sigma fun t : Ty => t.D F64) (h : e.eval env = some r) (k : Fin 8) :
    (cf (promote r.1 r.2) k).Finite ∧
    (cf (promote r.1 r.2) k).value = cf (e.evalMV (exactEnv env)) k := by
  refine C49_integers env e hr (fun i hi c hc => ?_) (absEval_cap env M hM e hv hc) r h k
  obtain ⟨h1, n, h2, -⟩ := hv i hi c hc
  exact ⟨h1, n, h2⟩

/-- **C49.**  So identities of the geometric algebra hold with `operator==` on such data: two
expressions which agree in the algebra and have the same type (one that has an `operator==`) compare
equal. -/
theorem C49_identities (env : Nat → Sigma fun t : Ty => t.D F64) (G : Nat → ℤ) (e f : Expr)
    (hre : e.NoReversed env) (hrf : f.NoReversed env)
    (hv : ∀ i ∈ e.vars ++ f.vars, ∀ c ∈ comps (env i).1 (env i).2,
      c.Finite ∧ ∃ n : ℤ, c.value = n * 2 ^ (G i))
    (hbe : e.FitsGrid G (fun i => cf (exactEnv env i)))
    (hbf : f.FitsGrid G (fun i => cf (exactEnv env i)))
    (t : Ty) (ht : t ≠ .cplx ∧ t ≠ .dplx) (x y : t.D F64)
    (hx : e.eval env = some ⟨t, x⟩) (hy : f.eval env = some ⟨t, y⟩)
    (h : e.evalMV (exactEnv env) = f.evalMV (exactEnv env)) : geqTy t x y = some true := by
  have h1 := (expr_exact env G e hre (fun i hi => hv i (by simp [hi])) hbe _ hx).1
  have h2 := (expr_exact env G f hrf (fun i hi => hv i (by simp [hi])) hbf _ hy).1
  rw [h] at h1
  have h3 : ∀ k, Dbl.feq (cf (promote t x) k) (cf (promote t y) k) = true := fun k =>
    by rw [(h1 k).feq (h2 k)]; exact decide_eq_true rfl
  clear h1 h2 hx hy
  obtain ⟨a0, a1, a2, a3, a4, a5, a6, a7⟩ := all8 h3
  simp only [cf_0, cf_1, cf_2, cf_3, cf_4, cf_5, cf_6, cf_7] at *
  cases t <;> simp only [engabra] at * <;>
    simp_all [geqTy, geq, eqArr3]

/-! ## Examples, and the bound is sharp -/

/-- The double which holds an integer. -/
noncomputable def intDub (n : ℤ) : F64 := F64.roundTo (n : ℚ)

theorem intDub_val (n : ℤ) (h : |n| ≤ 2 ^ 53) : HasVal (intDub n) n := by
  have h1 : F64.rnVal (n : ℚ) = n := F64.rnVal_exact (F64.rep_int n h)
  have h2 : |F64.rnVal (n : ℚ)| < 2 ^ 1024 := by
    rw [h1, ← Int.cast_abs]
    have h3 : ((|n| : ℤ) : ℚ) ≤ ((2 ^ 53 : ℤ) : ℚ) := Int.cast_le.2 h
    refine h3.trans_lt ?_
    rw [Int.cast_pow, Int.cast_ofNat]
    exact pow_lt_pow_right₀ (by norm_num) (by norm_num)
  obtain ⟨a, b⟩ := F64.roundTo_value h2
  exact ⟨a, b.trans h1⟩

/-- Variables of the example: vector `(3, -5, 7)`, bivector `(2, 11, -1)`, otherwise the vector
`(1, 4, -9)`. -/
noncomputable def intEnv : Nat → Sigma fun t : Ty => t.D F64
  | 0 => ⟨.vec, ⟨⟨intDub 3, intDub (-5), intDub 7⟩⟩⟩
  | 1 => ⟨.biv, ⟨⟨intDub 2, intDub 11, intDub (-1)⟩⟩⟩
  | _ => ⟨.vec, ⟨⟨intDub 1, intDub 4, intDub (-9)⟩⟩⟩

theorem intEnv_ok (i : ℕ) : ∀ c ∈ comps (intEnv i).1 (intEnv i).2,
    c.Finite ∧ ∃ n : ℤ, c.value = n ∧ |n| ≤ (11 : ℕ) := by
  have ok : ∀ n : ℤ, |n| ≤ 11 → (intDub n).Finite ∧ ∃ m : ℤ, (intDub n).value = m ∧ |m| ≤ (11 : ℕ) := by
    intro n hn
    have := intDub_val n (hn.trans (by norm_num))
    exact ⟨this.1, n, this.2, by exact_mod_cast hn⟩
  have ok3 : ∀ a b d : ℤ, |a| ≤ 11 → |b| ≤ 11 → |d| ≤ 11 → ∀ c ∈ [intDub a, intDub b, intDub d],
      c.Finite ∧ ∃ n : ℤ, c.value = n ∧ |n| ≤ (11 : ℕ) := by
    intro a b d ha hb hd c hc
    simp only [List.mem_cons, List.not_mem_nil, or_false] at hc
    rcases hc with rfl | rfl | rfl
    · exact ok _ ha
    · exact ok _ hb
    · exact ok _ hd
  match i with
  | 0 => exact ok3 3 (-5) 7 (by norm_num) (by norm_num) (by norm_num)
  | 1 => exact ok3 2 11 (-1) (by norm_num) (by norm_num) (by norm_num)
  | _ + 2 => exact ok3 1 4 (-9) (by norm_num) (by norm_num) (by norm_num)

/-- `(x * y) * (x * z)` with the integer vectors above meets the hypotheses. -/
example : ∃ r, (Expr.mul (.mul (.var 0) (.var 1)) (.mul (.var 0) (.var 2))).eval intEnv = some r ∧
    ∀ k, (cf (promote r.1 r.2) k).value =
      cf ((Expr.mul (.mul (.var 0) (.var 1)) (.mul (.var 0) (.var 2))).evalMV (exactEnv intEnv)) k := by
  obtain ⟨r, hr⟩ : ∃ r, (Expr.mul (.mul (.var 0) (.var 1)) (.mul (.var 0) (.var 2))).eval intEnv
    = some r := ⟨_, rfl⟩
  refine ⟨r, hr, fun k => (C49_small_integers intEnv 11 (by norm_num) _ ?_ (fun i _ => intEnv_ok i)
    (by norm_num [Expr.cap]) r hr k).2⟩
  intro a b hab
  simp [Expr.subs] at hab

/-- `x * (y + y) == x * y + x * y`: the two sides have the same type (`ImSpin`) and compare equal. -/
example : ∃ p q : Ty.imsp.D F64,
    (Expr.mul (.var 0) (.add (.var 1) (.var 1))).eval intEnv = some ⟨.imsp, p⟩ ∧
    (Expr.add (.mul (.var 0) (.var 1)) (.mul (.var 0) (.var 1))).eval intEnv = some ⟨.imsp, q⟩ ∧
    geqTy .imsp p q = some true := by
  obtain ⟨p, hp⟩ : ∃ p, (Expr.mul (.var 0) (.add (.var 1) (.var 1))).eval intEnv
    = some ⟨.imsp, p⟩ := ⟨_, rfl⟩
  obtain ⟨q, hq⟩ : ∃ q, (Expr.add (.mul (.var 0) (.var 1)) (.mul (.var 0) (.var 1))).eval intEnv
    = some ⟨.imsp, q⟩ := ⟨_, rfl⟩
  refine ⟨p, q, hp, hq, C49_identities intEnv (fun _ => 0) _ _ ?_ ?_ ?_ ?_ ?_ .imsp (by decide)
    p q hp hq ?_⟩
  · intro a b hab; simp [Expr.subs] at hab
  · intro a b hab; simp [Expr.subs] at hab
  · intro i _ c hc
    obtain ⟨h1, n, h2, -⟩ := intEnv_ok i c hc
    exact ⟨h1, n, by rw [h2, zpow_zero, mul_one]⟩
  · exact fitsGrid_of_cap intEnv 11 (by norm_num) _ (fun i _ => intEnv_ok i) (by norm_num [Expr.cap])
  · exact fitsGrid_of_cap intEnv 11 (by norm_num) _ (fun i _ => intEnv_ok i) (by norm_num [Expr.cap])
  · simp only [Expr.evalMV]
    generalize exactEnv intEnv 0 = x
    generalize exactEnv intEnv 1 = y
    mv_ring

theorem not_rep : ¬ F64.Rep ((2 : ℚ) ^ 53 + 1) := by
  rintro ⟨m, e, hm, -, h⟩
  rcases le_or_gt e 0 with he | he
  · have h1 : (2 : ℚ) ^ e ≤ 1 := zpow_le_one_of_nonpos₀ (by norm_num) he
    have h2 : (m : ℚ) ≤ 2 ^ 53 := by exact_mod_cast (le_abs_self m).trans hm
    have h3 := F64.two_zpow_pos (K := ℚ) e
    have h4 : (m : ℚ) * 2 ^ e ≤ 2 ^ 53 * 2 ^ e := mul_le_mul_of_nonneg_right h2 h3.le
    linarith
  · obtain ⟨n, rfl⟩ : ∃ n : ℕ, e = n + 1 := ⟨(e - 1).toNat, by omega⟩
    have h1 : ((2 ^ 53 + 1 : ℤ) : ℚ) = ((m * 2 ^ (n + 1) : ℤ) : ℚ) := by
      rw [Int.cast_add, Int.cast_pow, Int.cast_ofNat, Int.cast_one, h, Int.cast_mul, Int.cast_pow,
        Int.cast_ofNat, ← zpow_natCast, Nat.cast_add, Nat.cast_one]
    have h2 := Int.cast_injective h1
    have h3 : (2 ^ 53 + 1 : ℤ) = 2 * (m * 2 ^ n) := by rw [h2]; ring
    omega

/-- **C49.**  The bound `2^53` cannot be raised: `2^53 + 1` is not computed exactly, though both
operands are integers (here the absolute sum is `2^53 + 1`). -/
theorem C49_bound_sharp : ∃ a b : F64, HasVal a (2 ^ 53) ∧ HasVal b 1 ∧
    (a + b).value ≠ 2 ^ 53 + 1 := by
  have ha := intDub_val (2 ^ 53) (by norm_num)
  have hb := intDub_val 1 (by norm_num)
  rw [Int.cast_pow, Int.cast_ofNat] at ha
  rw [Int.cast_one] at hb
  exact ⟨_, _, ha, hb, fun h => not_rep (h ▸ F64.value_rep)⟩

end Engabra
