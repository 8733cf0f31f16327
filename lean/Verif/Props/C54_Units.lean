import Verif.Lemmas.ScaleF64
import Verif.Props.C49_Exact
import Verif.Props.C27_Range
import Verif.Props.C48_Inverse
import Verif.Props.C52_Axis

/-! # C54: changing the units by a power of two changes no bit of a significand

If the variables of an expression are multiplied by powers of two, the value of the expression is
multiplied by the power of two which dimensional analysis predicts, and by nothing else: no digit
of any component changes, nor the sign of a zero.  The condition is that nothing falls below the
subnormal numbers or overflows. -/

namespace Engabra

open F64 (nan inf zero fin IsFin Finite HasVal OnGrid)

/-- Specification: `c'` is `2^k c`, with the sign bit of `c`. -/
def Times2 (k : ℤ) (c c' : F64) : Prop :=
  c.Finite ∧ c'.Finite ∧ c'.value = 2 ^ k * c.value ∧ c'.signbit = c.signbit

/-- Specification: an object of the same type whose components are `2^k` times those of `x`. -/
def ScaledBy (k : ℤ) (x y : Sigma fun t : Ty => t.D F64) : Prop :=
  x.1 = y.1 ∧ List.Forall₂ (Times2 k) (comps x.1 x.2) (comps y.1 y.2)

/-- Specification: dimensional analysis.  The variables have the dimensions `d`; sums and
differences need operands of the same dimension. -/
def Expr.dim (d : Nat → ℤ) : Expr → Option ℤ
  | .var i => some (d i)
  | .mul a b => (a.dim d).bind fun m => (b.dim d).map fun n => m + n
  | .add a b => (a.dim d).bind fun m => (b.dim d).bind fun n => if m = n then some m else none
  | .sub a b => (a.dim d).bind fun m => (b.dim d).bind fun n => if m = n then some m else none
  | .neg a => a.dim d
  | .reverse a => a.dim d
  | .oddverse a => a.dim d
  | .dirverse a => a.dim d
  | .dual a => a.dim d

theorem forall_cf {P : F64 → F64 → Prop} (h0 : P 0 0) {t : Ty} {x y : t.D F64}
    (h : List.Forall₂ P (comps t x) (comps t y)) :
    ∀ i, P (cf (promote t x) i) (cf (promote t y) i) := by
  cases t <;> simp only [comps, List.forall₂_cons, List.forall₂_nil_left_iff, and_true] at h <;>
    apply forall_fin8 <;>
    simp only [cf_0, cf_1, cf_2, cf_3, cf_4, cf_5, cf_6, cf_7, engabra] <;> simp only [h, h0]

theorem cf_forall {P : F64 → F64 → Prop} {t : Ty} {x y : t.D F64}
    (h : ∀ i, P (cf (promote t x) i) (cf (promote t y) i)) :
    List.Forall₂ P (comps t x) (comps t y) := by
  have h0 := h 0; have h1 := h 1; have h2 := h 2; have h3 := h 3
  have h4 := h 4; have h5 := h 5; have h6 := h 6; have h7 := h 7
  clear h
  simp only [cf_0, cf_1, cf_2, cf_3, cf_4, cf_5, cf_6, cf_7] at *
  cases t <;> simp only [engabra] at * <;>
    simp only [comps, List.forall₂_cons, List.forall₂_nil_left_iff, and_true, *]

theorem comps_cf {P : F64 → Prop} {t : Ty} {x : t.D F64} (h : ∀ c ∈ comps t x, P c) (h0 : P 0) :
    ∀ i, P (cf (promote t x) i) := by
  cases t <;> apply forall_fin8 <;>
    simp only [cf_0, cf_1, cf_2, cf_3, cf_4, cf_5, cf_6, cf_7, engabra] <;>
    first | exact h0 | exact h _ (by simp [comps])

theorem self_mem_subs (e : Expr) : e ∈ e.subs := by cases e <;> simp [Expr.subs]

theorem same_type {env env' : Nat → Sigma fun t : Ty => t.D F64} (e : Expr)
    (ht : ∀ i ∈ e.vars, (env i).1 = (env' i).1) {r r' : Sigma fun t : Ty => t.D F64}
    (h : e.eval env = some r) (h' : e.eval env' = some r') : r.1 = r'.1 := by
  have := C42_static_types env env' e ht
  rw [h, h'] at this
  simpa using this

/-- The relation between the two evaluations. -/
theorem expr_scl (env env' : Nat → Sigma fun t : Ty => t.D F64) (d G : Nat → ℤ) (e : Expr) {K : ℤ}
    (hd : e.dim d = some K) (ht : ∀ i ∈ e.vars, (env i).1 = (env' i).1)
    (hv : ∀ i ∈ e.vars, ∀ j, Scl (d i) (G i) (cf (promote (env i).1 (env i).2) j)
      (cf (promote (env' i).1 (env' i).2) j))
    (hg : ∀ f ∈ e.subs, ∀ m, f.dim d = some m → -1074 ≤ f.grid G ∧ -1074 ≤ f.grid G + m)
    (r r' : Sigma fun t : Ty => t.D F64) (h : e.eval env = some r) (h' : e.eval env' = some r') :
    r.1 = r'.1 ∧ ∀ j, Scl K (e.grid G) (cf (promote r.1 r.2) j) (cf (promote r'.1 r'.2) j) := by
  refine ⟨same_type e ht h h', ?_⟩
  induction e generalizing K r r' with
  | var i =>
    simp only [Expr.eval, Option.some.injEq, Expr.dim] at h h' hd
    subst h h' hd
    exact hv i (by simp [Expr.vars])
  | mul a b iha ihb =>
    simp only [Expr.eval, Option.bind_eq_some_iff, Option.map_eq_some_iff] at h h'
    obtain ⟨x, hx, y, hy, rfl⟩ := h
    obtain ⟨x', hx', y', hy', rfl⟩ := h'
    have hd0 := hd
    simp only [Expr.dim, Option.bind_eq_some_iff, Option.map_eq_some_iff] at hd
    obtain ⟨m, hm, n, hn, rfl⟩ := hd
    have tx := same_type a (fun i hi => ht i (by simp [Expr.vars, hi])) hx hx'
    have ty := same_type b (fun i hi => ht i (by simp [Expr.vars, hi])) hy hy'
    have sa := iha hm (fun i hi => ht i (by simp [Expr.vars, hi]))
      (fun i hi => hv i (by simp [Expr.vars, hi])) (fun f hf => hg f (by simp [Expr.subs, hf])) x x' hx hx'
    have sb := ihb hn (fun i hi => ht i (by simp [Expr.vars, hi]))
      (fun i hi => hv i (by simp [Expr.vars, hi])) (fun f hf => hg f (by simp [Expr.subs, hf])) y y' hy hy'
    have ga := hg a (by simp [Expr.subs, self_mem_subs]) m hm
    have gb := hg b (by simp [Expr.subs, self_mem_subs]) n hn
    have gm := hg _ (List.mem_cons_self : Expr.mul a b ∈ (Expr.mul a b).subs) _ hd0
    obtain ⟨s, x⟩ := x; obtain ⟨s', x'⟩ := x'; obtain ⟨t, y⟩ := y; obtain ⟨t', y'⟩ := y'
    dsimp only at tx ty
    subst tx ty
    exact SclTy.mul ga.1 ga.2 gb.1 gb.2 gm.1 gm.2 sa sb
  | add a b iha ihb =>
    simp only [Expr.eval, Option.bind_eq_some_iff] at h h'
    obtain ⟨x, hx, y, hy, h⟩ := h
    obtain ⟨x', hx', y', hy', h'⟩ := h'
    have hd0 := hd
    simp only [Expr.dim, Option.bind_eq_some_iff, Option.ite_none_right_eq_some, Option.some.injEq] at hd
    obtain ⟨m, hm, n, hn, rfl, rfl⟩ := hd
    have tx := same_type a (fun i hi => ht i (by simp [Expr.vars, hi])) hx hx'
    have ty := same_type b (fun i hi => ht i (by simp [Expr.vars, hi])) hy hy'
    have sa := iha hm (fun i hi => ht i (by simp [Expr.vars, hi]))
      (fun i hi => hv i (by simp [Expr.vars, hi])) (fun f hf => hg f (by simp [Expr.subs, hf])) x x' hx hx'
    have sb := ihb hn (fun i hi => ht i (by simp [Expr.vars, hi]))
      (fun i hi => hv i (by simp [Expr.vars, hi])) (fun f hf => hg f (by simp [Expr.subs, hf])) y y' hy hy'
    have gm := hg _ (List.mem_cons_self : Expr.add a b ∈ (Expr.add a b).subs) _ hd0
    obtain ⟨s, x⟩ := x; obtain ⟨s', x'⟩ := x'; obtain ⟨t, y⟩ := y; obtain ⟨t', y'⟩ := y'
    dsimp only at tx ty
    subst tx ty
    exact SclTy.add gm.1 gm.2 (fun j => (sa j).mono (min_le_left _ _))
      (fun j => (sb j).mono (min_le_right _ _)) h h'
  | sub a b iha ihb =>
    simp only [Expr.eval, Option.bind_eq_some_iff] at h h'
    obtain ⟨x, hx, y, hy, h⟩ := h
    obtain ⟨x', hx', y', hy', h'⟩ := h'
    have hd0 := hd
    simp only [Expr.dim, Option.bind_eq_some_iff, Option.ite_none_right_eq_some, Option.some.injEq] at hd
    obtain ⟨m, hm, n, hn, rfl, rfl⟩ := hd
    have tx := same_type a (fun i hi => ht i (by simp [Expr.vars, hi])) hx hx'
    have ty := same_type b (fun i hi => ht i (by simp [Expr.vars, hi])) hy hy'
    have sa := iha hm (fun i hi => ht i (by simp [Expr.vars, hi]))
      (fun i hi => hv i (by simp [Expr.vars, hi])) (fun f hf => hg f (by simp [Expr.subs, hf])) x x' hx hx'
    have sb := ihb hn (fun i hi => ht i (by simp [Expr.vars, hi]))
      (fun i hi => hv i (by simp [Expr.vars, hi])) (fun f hf => hg f (by simp [Expr.subs, hf])) y y' hy hy'
    have gm := hg _ (List.mem_cons_self : Expr.sub a b ∈ (Expr.sub a b).subs) _ hd0
    obtain ⟨s, x⟩ := x; obtain ⟨s', x'⟩ := x'; obtain ⟨t, y⟩ := y; obtain ⟨t', y'⟩ := y'
    dsimp only at tx ty
    subst tx ty
    exact SclTy.sub gm.1 gm.2 (fun j => (sa j).mono (min_le_left _ _))
      (fun j => (sb j).mono (min_le_right _ _)) h h'
  | neg a ih =>
    simp only [Expr.eval, Option.map_eq_some_iff] at h h'
    obtain ⟨x, hx, rfl⟩ := h
    obtain ⟨x', hx', rfl⟩ := h'
    have tx := same_type a ht hx hx'
    have sa := ih hd ht hv (fun f hf => hg f (by simp [Expr.subs, hf])) x x' hx hx'
    have ga := hg a (by simp [Expr.subs, self_mem_subs]) _ hd
    obtain ⟨t, x⟩ := x
    obtain ⟨t', x'⟩ := x'
    dsimp only at tx
    subst tx
    exact (SclTy.unary ga.1 ga.2 sa).1
  | reverse a ih =>
    simp only [Expr.eval, Option.map_eq_some_iff] at h h'
    obtain ⟨x, hx, rfl⟩ := h
    obtain ⟨x', hx', rfl⟩ := h'
    have tx := same_type a ht hx hx'
    have sa := ih hd ht hv (fun f hf => hg f (by simp [Expr.subs, hf])) x x' hx hx'
    have ga := hg a (by simp [Expr.subs, self_mem_subs]) _ hd
    obtain ⟨t, x⟩ := x
    obtain ⟨t', x'⟩ := x'
    dsimp only at tx
    subst tx
    exact (SclTy.unary ga.1 ga.2 sa).2.1
  | oddverse a ih =>
    simp only [Expr.eval, Option.map_eq_some_iff] at h h'
    obtain ⟨x, hx, rfl⟩ := h
    obtain ⟨x', hx', rfl⟩ := h'
    have tx := same_type a ht hx hx'
    have sa := ih hd ht hv (fun f hf => hg f (by simp [Expr.subs, hf])) x x' hx hx'
    have ga := hg a (by simp [Expr.subs, self_mem_subs]) _ hd
    obtain ⟨t, x⟩ := x
    obtain ⟨t', x'⟩ := x'
    dsimp only at tx
    subst tx
    exact (SclTy.unary ga.1 ga.2 sa).2.2.1
  | dirverse a ih =>
    simp only [Expr.eval, Option.map_eq_some_iff] at h h'
    obtain ⟨x, hx, rfl⟩ := h
    obtain ⟨x', hx', rfl⟩ := h'
    have tx := same_type a ht hx hx'
    have sa := ih hd ht hv (fun f hf => hg f (by simp [Expr.subs, hf])) x x' hx hx'
    have ga := hg a (by simp [Expr.subs, self_mem_subs]) _ hd
    obtain ⟨t, x⟩ := x
    obtain ⟨t', x'⟩ := x'
    dsimp only at tx
    subst tx
    exact (SclTy.unary ga.1 ga.2 sa).2.2.2.1
  | dual a ih =>
    simp only [Expr.eval, Option.map_eq_some_iff] at h h'
    obtain ⟨x, hx, rfl⟩ := h
    obtain ⟨x', hx', rfl⟩ := h'
    have tx := same_type a ht hx hx'
    have sa := ih hd ht hv (fun f hf => hg f (by simp [Expr.subs, hf])) x x' hx hx'
    have ga := hg a (by simp [Expr.subs, self_mem_subs]) _ hd
    obtain ⟨t, x⟩ := x
    obtain ⟨t', x'⟩ := x'
    dsimp only at tx
    subst tx
    exact (SclTy.unary ga.1 ga.2 sa).2.2.2.2

/-- **C54.**  Dimensional analysis holds to the last bit.  Let the components of the variables be
finite and multiples of `2^(G i)`, and let a second set of variables be `2^(d i)` times the first.
If every subexpression has a dimension and its grid stays above the smallest subnormal number in
both units, the two results have the same type, and if they are finite the second is exactly `2^K`
times the first, `K` being the dimension of the expression.  (The six subtractions of C05 are not
excluded.) -/
theorem C54_expression (env env' : Nat → Sigma fun t : Ty => t.D F64) (d G : Nat → ℤ) (e : Expr)
    (K : ℤ) (hd : e.dim d = some K)
    (hs : ∀ i ∈ e.vars, ScaledBy (d i) (env i) (env' i))
    (hG : ∀ i ∈ e.vars, ∀ c ∈ comps (env i).1 (env i).2, ∃ n : ℤ, c.value = n * 2 ^ (G i))
    (hg : ∀ f ∈ e.subs, ∀ m, f.dim d = some m → -1074 ≤ f.grid G ∧ -1074 ≤ f.grid G + m)
    (r r' : Sigma fun t : Ty => t.D F64) (h : e.eval env = some r) (h' : e.eval env' = some r')
    (hf : ∀ c ∈ comps r.1 r.2, c.Finite) (hf' : ∀ c ∈ comps r'.1 r'.2, c.Finite) :
    ScaledBy K r r' := by
  have hv : ∀ i ∈ e.vars, ∀ j, Scl (d i) (G i) (cf (promote (env i).1 (env i).2) j)
      (cf (promote (env' i).1 (env' i).2) j) := by
    intro i hi
    have s := hs i hi
    have g := comps_cf (P := fun c => ∃ n : ℤ, c.value = n * 2 ^ (G i)) (hG i hi)
      ⟨0, by rw [F64.hasVal_zero'.2]; simp⟩
    revert s g
    generalize env i = x
    generalize env' i = y
    intro s g j
    obtain ⟨t, x⟩ := x; obtain ⟨t', y⟩ := y
    obtain ⟨s1, s2⟩ := s
    dsimp only at s1 s2 g
    subst s1
    have := forall_cf (P := Times2 (d i)) ⟨trivial, trivial, by rw [F64.hasVal_zero'.2, mul_zero], rfl⟩ s2 j
    exact fun _ _ => ⟨this.2.2.1, this.2.2.2, g j⟩
  obtain ⟨h1, h2⟩ := expr_scl env env' d G e hd (fun i hi => (hs i hi).1) hv hg r r' h h'
  refine ⟨h1, ?_⟩
  obtain ⟨t, x⟩ := r; obtain ⟨t', y⟩ := r'
  dsimp only at h1 h2 hf hf'
  subst h1
  have f1 := finiteTy_of t x hf
  have f2 := finiteTy_of t y hf'
  refine cf_forall fun i => ?_
  obtain ⟨a, b, c⟩ := h2 i (f1 i) (f2 i)
  exact ⟨f1 i, f2 i, a, b⟩

/-! ## Objects of moderate size -/

/-- Specification: every component is a zero or has an absolute value between `2^-300` and `2^300`. -/
def Moderate (l : List F64) : Prop :=
  ∀ c ∈ l, c.Finite ∧ (c.value = 0 ∨ (2 : ℚ) ^ (-300 : ℤ) ≤ |c.value| ∧ |c.value| ≤ 2 ^ (300 : ℤ))

theorem pow2_sign {k : ℤ} (h1 : -1074 ≤ k) (h2 : k ≤ 971) : (F64.pow2 k).signbit = false := by
  have e : F64.pow2 k = fin _ (F64.isFin_pow h1 h2) := by
    unfold F64.pow2; rw [F64.lit_def, F64.roundTo_fin (F64.isFin_pow h1 h2)]
  rw [e]
  simp only [F64.signbit, decide_eq_false_iff_not, not_lt]
  positivity

/-- Anything equal to `2^k z` is what the multiplication by `2^k` computes. -/
theorem times2_eq {k : ℤ} {z w : F64} (h1 : -1074 ≤ k) (h2 : k ≤ 971) (h : Times2 k z w) :
    w = F64.pow2 k * z := by
  obtain ⟨fz, fw, hv, hs⟩ := h
  have hp := F64.pow2_val h1 h2
  have hr : F64.rnVal (2 ^ k * z.value) = 2 ^ k * z.value := by
    rw [← hv]; exact F64.rnVal_exact F64.value_rep
  have hm := F64.mul_spec hp.1 fz (by
    rw [hp.2, hr, ← hv]; exact F64.value_lt)
  rw [hp.2, hr] at hm
  refine F64.ext_val fw hm.1 (hv.trans hm.2.symm) ?_
  rw [mul_signbit hp.1 fz, hp.2, pow2_sign h1 h2, hs, Bool.false_xor]
  simp only [scale_zero_iff, scale_neg_iff]
  split_ifs with h0
  · rfl
  · cases z with
    | nan => exact fz.elim
    | inf _ => exact fz.elim
    | zero _ => exact absurd rfl h0
    | fin v hv => rfl

theorem moderate_grid {c : F64} (h : c.value = 0 ∨ (2 : ℚ) ^ (-300 : ℤ) ≤ |c.value| ∧
    |c.value| ≤ 2 ^ (300 : ℤ)) : OnGrid (-352) c.value := by
  rcases h with h | ⟨h, -⟩
  · rw [h]; exact .zero _
  · have e : F64.rnVal c.value = c.value := F64.rnVal_exact F64.value_rep
    have hu : -352 ≤ F64.ulpExp c.value := by
      have : -300 ≤ Int.log 2 |c.value| := by
        rw [← Int.zpow_le_iff_le_log (by norm_num) (lt_of_lt_of_le (by positivity) h)]
        exact_mod_cast h
      unfold F64.ulpExp; omega
    rw [← e]
    exact OnGrid.mono ⟨_, rfl⟩ hu

theorem moderate_le {c : F64} (h : c.value = 0 ∨ (2 : ℚ) ^ (-300 : ℤ) ≤ |c.value| ∧
    |c.value| ≤ 2 ^ (300 : ℤ)) : |c.value| ≤ 2 ^ (300 : ℤ) := by
  rcases h with h | h
  · rw [h, abs_zero]; positivity
  · exact h.2

theorem moderate_times {c : F64} {k : ℤ} (hf : c.Finite) (h : c.value = 0 ∨
    (2 : ℚ) ^ (-300 : ℤ) ≤ |c.value| ∧ |c.value| ≤ 2 ^ (300 : ℤ)) (hk : |k| ≤ 150) :
    Times2 k c (F64.pow2 k * c) := by
  obtain ⟨k1, k2⟩ := abs_le.1 hk
  have hp := F64.pow2_val (e := k) (by omega) (by omega)
  obtain ⟨s1, -⟩ := rnVal_scale (k := k) (g := -352) (by norm_num) (by omega) (moderate_grid h)
  have e : F64.rnVal c.value = c.value := F64.rnVal_exact F64.value_rep
  rw [e] at s1
  have hm := F64.mul_spec hp.1 hf (by
    rw [hp.2, s1, abs_mul, abs_of_pos (by positivity : (0 : ℚ) < 2 ^ k)]
    calc (2 : ℚ) ^ k * |c.value| ≤ 2 ^ k * 2 ^ (300 : ℤ) :=
          mul_le_mul_of_nonneg_left (moderate_le h) (by positivity)
      _ = 2 ^ (k + 300) := (zpow_add₀ two_ne_zero _ _).symm
      _ < 2 ^ (1024 : ℤ) := zpow_lt_zpow_right₀ (by norm_num) (by omega)
      _ = 2 ^ 1024 := zpow_natCast _ _)
  rw [hp.2, s1] at hm
  refine ⟨hf, hm.1, hm.2, ?_⟩
  rw [mul_signbit hp.1 hf, hp.2, pow2_sign (by omega) (by omega), Bool.false_xor]
  simp only [scale_zero_iff, scale_neg_iff]
  split_ifs with h0
  · rfl
  · cases c with
    | nan => exact hf.elim
    | inf _ => exact hf.elim
    | zero _ => exact absurd rfl h0
    | fin v hv => rfl

theorem forall₂_map_self {α : Type} {P : α → α → Prop} {f : α → α} {l : List α}
    (h : ∀ c ∈ l, P c (f c)) : List.Forall₂ P l (l.map f) := by
  induction l with
  | nil => exact .nil
  | cons a l ih =>
    exact .cons (h a List.mem_cons_self) (ih fun c hc => h c (List.mem_cons_of_mem _ hc))

/-- **C54.**  The unit change itself: multiplying an object of moderate size by the double `2^k`,
`|k| ≤ 150`, is exact. -/
theorem C54_scale (t : Ty) (x : t.D F64) (hx : Moderate (comps t x)) (k : ℤ) (hk : |k| ≤ 150) :
    ScaledBy k ⟨t, x⟩ ⟨t, smulTy t (F64.pow2 k) x⟩ := by
  refine ⟨rfl, ?_⟩
  dsimp only
  rw [comps_smul]
  exact forall₂_map_self fun c hc => moderate_times (hx c hc).1 (hx c hc).2 hk

theorem moderate_cf {t : Ty} {x : t.D F64} (hx : Moderate (comps t x)) :
    ∀ i, (cf (promote t x) i).Finite ∧ ((cf (promote t x) i).value = 0 ∨
      (2 : ℚ) ^ (-300 : ℤ) ≤ |(cf (promote t x) i).value| ∧
      |(cf (promote t x) i).value| ≤ 2 ^ (300 : ℤ)) :=
  comps_cf hx ⟨trivial, .inl rfl⟩

theorem scaled_cf {t : Ty} {x : t.D F64} (hx : Moderate (comps t x)) {k : ℤ} (hk : |k| ≤ 150) :
    ∀ i, Times2 k (cf (promote t x) i) (cf (promote t (smulTy t (F64.pow2 k) x)) i) :=
  forall_cf ⟨trivial, trivial, by rw [F64.hasVal_zero'.2, mul_zero], rfl⟩ (C54_scale t x hx k hk).2

theorem scaled_scl {t : Ty} {x : t.D F64} (hx : Moderate (comps t x)) {k : ℤ} (hk : |k| ≤ 150) :
    SclTy k (-352) t x (smulTy t (F64.pow2 k) x) := fun i _ _ =>
  ⟨(scaled_cf hx hk i).2.2.1, (scaled_cf hx hk i).2.2.2, moderate_grid (moderate_cf hx i).2⟩

theorem scaled_le {t : Ty} {x : t.D F64} (hx : Moderate (comps t x)) {k : ℤ} (hk : |k| ≤ 150) (i : Fin 8) :
    |(cf (promote t (smulTy t (F64.pow2 k) x)) i).value| ≤ 2 ^ (450 : ℤ) := by
  rw [(scaled_cf hx hk i).2.2.1, abs_mul, abs_of_pos (by positivity : (0 : ℚ) < 2 ^ k)]
  have := (abs_le.1 hk).2
  calc (2 : ℚ) ^ k * |(cf (promote t x) i).value| ≤ 2 ^ k * 2 ^ (300 : ℤ) :=
        mul_le_mul_of_nonneg_left (moderate_le (moderate_cf hx i).2) (by positivity)
    _ = 2 ^ (k + 300) := (zpow_add₀ two_ne_zero _ _).symm
    _ ≤ _ := zpow_le_zpow_right₀ (by norm_num) (by omega)

theorem cf_smul_pow2 {t : Ty} {x : t.D F64} {k : ℤ} (h1 : -1074 ≤ k) (h2 : k ≤ 971) : ∀ i,
    cf (promote t (smulTy t (F64.pow2 k) x)) i = F64.pow2 k * cf (promote t x) i := by
  have h0 : F64.pow2 k * 0 = 0 :=
    (times2_eq (z := 0) (w := 0) h1 h2
      ⟨trivial, trivial, by rw [F64.hasVal_zero'.2, mul_zero], rfl⟩).symm
  cases t <;> apply forall_fin8 <;>
    simp only [cf_0, cf_1, cf_2, cf_3, cf_4, cf_5, cf_6, cf_7, engabra, h0]

theorem obj_ext {t : Ty} {x y : t.D F64}
    (h : ∀ i, cf (promote t x) i = cf (promote t y) i) : x = y := by
  have h := cf_forall h
  cases t <;>
    simp only [comps, List.forall₂_cons, List.forall₂_nil_left_iff, and_true] at h
  · exact h
  · obtain ⟨⟨x0⟩⟩ := x; obtain ⟨⟨y0⟩⟩ := y; simp_all
  · obtain ⟨⟨x0, x1, x2⟩⟩ := x; obtain ⟨⟨y0, y1, y2⟩⟩ := y; simp_all
  · obtain ⟨⟨x0, x1, x2⟩⟩ := x; obtain ⟨⟨y0, y1, y2⟩⟩ := y; simp_all
  · obtain ⟨⟨x0⟩⟩ := x; obtain ⟨⟨y0⟩⟩ := y; simp_all
  · obtain ⟨⟨⟨x0⟩⟩, ⟨⟨x1, x2, x3⟩⟩⟩ := x; obtain ⟨⟨⟨y0⟩⟩, ⟨⟨y1, y2, y3⟩⟩⟩ := y; simp_all
  · obtain ⟨⟨⟨x1, x2, x3⟩⟩, ⟨⟨x0⟩⟩⟩ := x; obtain ⟨⟨⟨y1, y2, y3⟩⟩, ⟨⟨y0⟩⟩⟩ := y; simp_all
  · obtain ⟨⟨⟨x0⟩⟩, ⟨⟨x1⟩⟩⟩ := x; obtain ⟨⟨⟨y0⟩⟩, ⟨⟨y1⟩⟩⟩ := y; simp_all
  · obtain ⟨⟨⟨x1, x2, x3⟩⟩, ⟨⟨x4, x5, x6⟩⟩⟩ := x
    obtain ⟨⟨⟨y1, y2, y3⟩⟩, ⟨⟨y4, y5, y6⟩⟩⟩ := y; simp_all
  · obtain ⟨⟨⟨x0⟩⟩, ⟨⟨x1, x2, x3⟩⟩, ⟨⟨x4, x5, x6⟩⟩, ⟨⟨x7⟩⟩⟩ := x
    obtain ⟨⟨⟨y0⟩⟩, ⟨⟨y1, y2, y3⟩⟩, ⟨⟨y4, y5, y6⟩⟩, ⟨⟨y7⟩⟩⟩ := y; simp_all

/-- From the relation to equality with the scaled object. -/
theorem sclTy_eq {t : Ty} {x y : t.D F64} {k g : ℤ} (h1 : -1074 ≤ k) (h2 : k ≤ 971)
    (h : SclTy k g t x y) (hx : FiniteTy t x) (hy : FiniteTy t y) :
    y = smulTy t (F64.pow2 k) x := by
  refine obj_ext fun i => ?_
  rw [cf_smul_pow2 h1 h2]
  obtain ⟨a, b, -⟩ := h i (hx i) (hy i)
  exact times2_eq h1 h2 ⟨hx i, hy i, a, b⟩

theorem prod_finite_450 {s t : Ty} {a : s.D F64} {b : t.D F64} (fa : FiniteTy s a) (fb : FiniteTy t b)
    (ha : ∀ i, |(cf (promote s a) i).value| ≤ 2 ^ (450 : ℤ))
    (hb : ∀ i, |(cf (promote t b) i).value| ≤ 2 ^ (450 : ℤ)) : FiniteTy _ (mulTy s t a b) := fun k =>
  (C33_product s t a b fa fb k ((absMul_le_cap (fun i => by rw [cf_val]; exact ha i)
    (fun i => by rw [cf_val]; exact hb i) k).trans (by
      rw [← zpow_add₀ two_ne_zero, show (8 : ℚ) = 2 ^ (3 : ℤ) by norm_num, ← zpow_add₀ two_ne_zero,
        ← zpow_natCast]
      exact zpow_le_zpow_right₀ (by norm_num) (by norm_num)))).1

/-- **C54.**  Products of operands of moderate size, for all 100 pairs of types: changing the units
of the operands by `2^j` and `2^k` multiplies the computed product by `2^(j+k)`, bit for bit. -/
theorem C54_product (s t : Ty) (a : s.D F64) (b : t.D F64) (ha : Moderate (comps s a))
    (hb : Moderate (comps t b)) (j k : ℤ) (hj : |j| ≤ 150) (hk : |k| ≤ 150) :
    mulTy s t (smulTy s (F64.pow2 j) a) (smulTy t (F64.pow2 k) b)
      = smulTy (mulRes s t) (F64.pow2 (j + k)) (mulTy s t a b) := by
  obtain ⟨j1, j2⟩ := abs_le.1 hj
  obtain ⟨k1, k2⟩ := abs_le.1 hk
  have le : (2 : ℚ) ^ (300 : ℤ) ≤ 2 ^ (450 : ℤ) := zpow_le_zpow_right₀ (by norm_num) (by norm_num)
  refine sclTy_eq (by omega) (by omega) (SclTy.mul (by norm_num) (by omega) (by norm_num) (by omega)
    (by norm_num) (by omega) (scaled_scl ha hj) (scaled_scl hb hk)) ?_ ?_
  · exact prod_finite_450 (fun i => (moderate_cf ha i).1) (fun i => (moderate_cf hb i).1)
      (fun i => (moderate_le (moderate_cf ha i).2).trans le)
      (fun i => (moderate_le (moderate_cf hb i).2).trans le)
  · exact prod_finite_450 (fun i => (scaled_cf ha hj i).2.1) (fun i => (scaled_cf hb hk i).2.1)
      (scaled_le ha hj) (scaled_le hb hk)

theorem safe_two {x y : ℚ} (hx : |x| ≤ 2 ^ (450 : ℤ)) (hy : |y| ≤ 2 ^ (450 : ℤ)) :
    |x + y| ≤ F64.safe ∧ |x - y| ≤ F64.safe := by
  have e : (2 : ℚ) ^ (450 : ℤ) + 2 ^ (450 : ℤ) ≤ F64.safe := by
    rw [← two_mul, ← zpow_one_add₀ two_ne_zero]
    unfold F64.safe
    rw [← zpow_natCast]; exact zpow_le_zpow_right₀ (by norm_num) (by norm_num)
  exact ⟨(abs_add_le _ _).trans ((add_le_add hx hy).trans e),
    (abs_sub _ _).trans ((add_le_add hx hy).trans e)⟩

/-- **C54.**  Sums: `2^k a + 2^k b = 2^k (a + b)`, bit for bit, whenever the sum compiles. -/
theorem C54_sum (s t : Ty) (a : s.D F64) (b : t.D F64) (ha : Moderate (comps s a))
    (hb : Moderate (comps t b)) (k : ℤ) (hk : |k| ≤ 150) :
    addTy s t (smulTy s (F64.pow2 k) a) (smulTy t (F64.pow2 k) b)
      = (addTy s t a b).map fun r => ⟨r.1, smulTy r.1 (F64.pow2 k) r.2⟩ := by
  obtain ⟨k1, k2⟩ := abs_le.1 hk
  have le : (2 : ℚ) ^ (300 : ℤ) ≤ 2 ^ (450 : ℤ) := zpow_le_zpow_right₀ (by norm_num) (by norm_num)
  have ty := addTy_type s t a (smulTy s (F64.pow2 k) a) b (smulTy t (F64.pow2 k) b)
  cases h : addTy s t a b with
  | none =>
    rw [h] at ty
    cases h' : addTy s t (smulTy s (F64.pow2 k) a) (smulTy t (F64.pow2 k) b) with
    | none => rfl
    | some r => rw [h'] at ty; cases ty
  | some r =>
    rw [h] at ty
    cases h' : addTy s t (smulTy s (F64.pow2 k) a) (smulTy t (F64.pow2 k) b) with
    | none => rw [h'] at ty; cases ty
    | some r' =>
      rw [h'] at ty
      simp only [Option.map_some, Option.some.injEq] at ty ⊢
      have sc := SclTy.add (by norm_num) (by omega) (scaled_scl ha hk) (scaled_scl hb hk) h h'
      obtain ⟨u, x⟩ := r
      obtain ⟨u', x'⟩ := r'
      dsimp only at ty sc
      subst ty
      have fx := sum_finite _ _ _ _ _ _ h (fun i => (moderate_cf ha i).1)
        (fun i => (moderate_cf hb i).1) (fun i => (safe_two ((moderate_le (moderate_cf ha i).2).trans le)
          ((moderate_le (moderate_cf hb i).2).trans le)).1)
      have fx' := sum_finite _ _ _ _ _ _ h' (fun i => (scaled_cf ha hk i).2.1)
        (fun i => (scaled_cf hb hk i).2.1) (fun i => (safe_two (scaled_le ha hk i) (scaled_le hb hk i)).1)
      rw [sclTy_eq (by omega) (by omega) sc fx fx']

/-- **C54.**  Differences (also the six of C05). -/
theorem C54_difference (s t : Ty) (a : s.D F64) (b : t.D F64) (ha : Moderate (comps s a))
    (hb : Moderate (comps t b)) (k : ℤ) (hk : |k| ≤ 150) :
    subTy s t (smulTy s (F64.pow2 k) a) (smulTy t (F64.pow2 k) b)
      = (subTy s t a b).map fun r => ⟨r.1, smulTy r.1 (F64.pow2 k) r.2⟩ := by
  obtain ⟨k1, k2⟩ := abs_le.1 hk
  have le : (2 : ℚ) ^ (300 : ℤ) ≤ 2 ^ (450 : ℤ) := zpow_le_zpow_right₀ (by norm_num) (by norm_num)
  have ty := subTy_type s t a (smulTy s (F64.pow2 k) a) b (smulTy t (F64.pow2 k) b)
  cases h : subTy s t a b with
  | none =>
    rw [h] at ty
    cases h' : subTy s t (smulTy s (F64.pow2 k) a) (smulTy t (F64.pow2 k) b) with
    | none => rfl
    | some r => rw [h'] at ty; cases ty
  | some r =>
    rw [h] at ty
    cases h' : subTy s t (smulTy s (F64.pow2 k) a) (smulTy t (F64.pow2 k) b) with
    | none => rw [h'] at ty; cases ty
    | some r' =>
      rw [h'] at ty
      simp only [Option.map_some, Option.some.injEq] at ty ⊢
      have sc := SclTy.sub (by norm_num) (by omega) (scaled_scl ha hk) (scaled_scl hb hk) h h'
      obtain ⟨u, x⟩ := r
      obtain ⟨u', x'⟩ := r'
      dsimp only at ty sc
      subst ty
      have fx := diff_finite _ _ _ _ _ _ h (fun i => (moderate_cf ha i).1)
        (fun i => (moderate_cf hb i).1) (fun i => (safe_two ((moderate_le (moderate_cf ha i).2).trans le)
          ((moderate_le (moderate_cf hb i).2).trans le)).2)
      have fx' := diff_finite _ _ _ _ _ _ h' (fun i => (scaled_cf ha hk i).2.1)
        (fun i => (scaled_cf hb hk i).2.1) (fun i => (safe_two (scaled_le ha hk i) (scaled_le hb hk i)).2)
      rw [sclTy_eq (by omega) (by omega) sc fx fx']

/-! ## Magnitude, direction, inverse, comparison -/

theorem times2_comps {t : Ty} {x : t.D F64} (hx : Moderate (comps t x)) {k : ℤ} (hk : |k| ≤ 150) :
    List.Forall₂ (Scl k (-352)) (comps t x) (comps t (smulTy t (F64.pow2 k) x)) :=
  cf_forall (scaled_scl hx hk)

theorem magSq_scl {t : Ty} {x y : t.D F64} {k g : ℤ} (hm : -1074 ≤ g + g)
    (hm' : -1074 ≤ (g + g) + (k + k)) (h : List.Forall₂ (Scl k g) (comps t x) (comps t y)) :
    Scl (k + k) (g + g) (magSqTy t x) (magSqTy t y) := by
  have sq : ∀ {z w : F64}, Scl k g z w → Scl (k + k) (g + g) (z * z) (w * w) :=
    fun h => h.mul hm hm' h
  cases t <;> simp only [comps, List.forall₂_cons, List.forall₂_nil_left_iff, and_true] at h <;>
    simp only [engabra] <;>
    (repeat' first
      | with_reducible exact Scl.zero
      | with_reducible exact sq h.1
      | with_reducible exact sq h.2.1
      | with_reducible exact sq h.2.2.1
      | with_reducible exact sq h.2.2.2.1
      | with_reducible exact sq h.2.2.2.2.1
      | with_reducible exact sq h.2.2.2.2.2.1
      | with_reducible exact sq h.2.2.2.2.2.2.1
      | with_reducible exact sq h.2.2.2.2.2.2.2
      | with_reducible exact sq h.2.2.2.2.2.2
      | with_reducible exact sq h.2.2.2.2.2
      | with_reducible exact sq h.2.2.2.2
      | with_reducible exact sq h.2.2.2
      | with_reducible exact sq h.2.2
      | with_reducible exact sq h.2
      | with_reducible exact sq h
      | with_reducible refine Scl.add hm hm' ?_ ?_)

theorem sign_pos {x : F64} (h : 0 < x.value) : x.signbit = false := by
  cases x with
  | nan => rfl
  | inf _ => exact absurd h (lt_irrefl _)
  | zero _ => exact absurd h (lt_irrefl _)
  | fin v hv => exact decide_eq_false (not_lt.2 h.le)

theorem grid_pos_le {g : ℤ} {q : ℚ} (h : OnGrid g q) (h0 : 0 < q) : (2 : ℚ) ^ g ≤ q := by
  obtain ⟨n, rfl⟩ := h
  have hp : (0 : ℚ) < 2 ^ g := by positivity
  have hn : 0 < n := by
    have := pos_of_mul_pos_left h0 hp.le
    exact_mod_cast this
  have hn : (1 : ℚ) ≤ n := by exact_mod_cast hn
  exact le_mul_of_one_le_left hp.le hn

theorem sqrt_lo {v : ℚ} {e : ℤ} (h : (2 : ℚ) ^ (e + e) ≤ v) : (2 : ℝ) ^ e ≤ √(v : ℝ) := by
  apply Real.le_sqrt_of_sq_le
  rw [pow_two, ← zpow_add₀ two_ne_zero, ← cast_zpow]
  exact Rat.cast_le.2 h

theorem sqrt_hi (s : F64) : √(s.value : ℝ) ≤ 2 ^ 1022 := by
  rw [Real.sqrt_le_left (by positivity), ← pow_mul]
  have h : ((s.value : ℚ) : ℝ) < ((2 ^ 1024 : ℚ) : ℝ) :=
    Rat.cast_lt.2 ((le_abs_self _).trans_lt F64.value_lt)
  rw [Rat.cast_pow, Rat.cast_ofNat] at h
  exact h.le.trans (pow_le_pow_right₀ (by norm_num) (by norm_num))

/-- Square roots scale by half the exponent. -/
theorem sqrt_scl {s s' : F64} {k : ℤ} (hs : s.Finite) (hs' : s'.Finite)
    (h : Scl (k + k) (-704) s s') (h0 : 0 < s.value) (hk : |k| ≤ 150) :
    Times2 k (Dbl.sqrt s) (Dbl.sqrt s') ∧ (2 : ℚ) ^ (-352 : ℤ) ≤ (Dbl.sqrt s).value := by
  obtain ⟨k1, k2⟩ := abs_le.1 hk
  obtain ⟨hv, -, hg⟩ := h hs hs'
  have h0' : 0 < s'.value := by rw [hv]; positivity
  have a1 := grid_pos_le hg h0
  have l1 : (2 : ℝ) ^ (-352 : ℤ) ≤ √(s.value : ℝ) := sqrt_lo a1
  have e : √(s'.value : ℝ) = 2 ^ k * √(s.value : ℝ) := by
    rw [hv, Rat.cast_mul, cast_zpow, zpow_add₀ two_ne_zero, Real.sqrt_mul (by positivity),
      Real.sqrt_mul_self (by positivity)]
  have l2 : (2 : ℝ) ^ (-1022 : ℤ) ≤ 2 ^ k * √(s.value : ℝ) := by
    calc (2 : ℝ) ^ (-1022 : ℤ) ≤ 2 ^ (k + -352) := zpow_le_zpow_right₀ (by norm_num) (by omega)
      _ = 2 ^ k * 2 ^ (-352 : ℤ) := zpow_add₀ two_ne_zero _ _
      _ ≤ _ := mul_le_mul_of_nonneg_left l1 (by positivity)
  obtain ⟨f1, v1⟩ := F64.sqrt_spec hs h0 (sqrt_hi s)
  obtain ⟨f2, v2⟩ := F64.sqrt_spec hs' h0' (sqrt_hi s')
  rw [e, rnVal_scale_normal (by
      rw [abs_of_nonneg (Real.sqrt_nonneg _)]
      exact (zpow_le_zpow_right₀ (by norm_num) (by norm_num)).trans l1)
    (by rw [abs_of_nonneg (by positivity)]; exact l2), ← v1] at v2
  have lo : (2 : ℚ) ^ (-352 : ℤ) ≤ (Dbl.sqrt s).value := by
    rw [v1]
    exact F64.rep_le_rnVal (F64.rep_pow _ (by norm_num)) (by rw [cast_zpow]; exact l1)
  have p1 : 0 < (Dbl.sqrt s).value := lt_of_lt_of_le (by positivity) lo
  have p2 : 0 < (Dbl.sqrt s').value := by rw [v2]; positivity
  exact ⟨⟨f1, f2, v2, by rw [sign_pos p1, sign_pos p2]⟩, lo⟩

theorem moderate_central {t : Ty} {x : t.D F64} (hx : Moderate (comps t x))
    (h0 : ∃ c ∈ comps t x, c.value ≠ 0) {k : ℤ} (hk : |k| ≤ 150) :
    Central t x ∧ Central t (smulTy t (F64.pow2 k) x) := by
  obtain ⟨k1, k2⟩ := abs_le.1 hk
  obtain ⟨c, hc, hne⟩ := h0
  have hc2 := ((hx c hc).2.resolve_left hne).1
  have le : (2 : ℚ) ^ (300 : ℤ) ≤ 2 ^ (500 : ℤ) := zpow_le_zpow_right₀ (by norm_num) (by norm_num)
  refine ⟨⟨fun d hd => ⟨(hx d hd).1, (moderate_le (hx d hd).2).trans le⟩, c, hc,
    (zpow_le_zpow_right₀ (by norm_num) (by norm_num)).trans hc2⟩, ?_, ?_⟩
  · intro d hd
    rw [comps_smul, List.mem_map] at hd
    obtain ⟨b, hb, rfl⟩ := hd
    obtain ⟨-, f, v, -⟩ := moderate_times (hx b hb).1 (hx b hb).2 hk
    refine ⟨f, ?_⟩
    rw [v, abs_mul, abs_of_pos (by positivity : (0 : ℚ) < 2 ^ k)]
    calc (2 : ℚ) ^ k * |b.value| ≤ 2 ^ k * 2 ^ (300 : ℤ) :=
          mul_le_mul_of_nonneg_left (moderate_le (hx b hb).2) (by positivity)
      _ = 2 ^ (k + 300) := (zpow_add₀ two_ne_zero _ _).symm
      _ ≤ _ := zpow_le_zpow_right₀ (by norm_num) (by omega)
  · refine ⟨F64.pow2 k * c, by rw [comps_smul, List.mem_map]; exact ⟨c, hc, rfl⟩, ?_⟩
    obtain ⟨-, f, v, -⟩ := moderate_times (hx c hc).1 (hx c hc).2 hk
    rw [v, abs_mul, abs_of_pos (by positivity : (0 : ℚ) < 2 ^ k)]
    calc (2 : ℚ) ^ (-500 : ℤ) ≤ 2 ^ (k + -300) := zpow_le_zpow_right₀ (by norm_num) (by omega)
      _ = 2 ^ k * 2 ^ (-300 : ℤ) := zpow_add₀ two_ne_zero _ _
      _ ≤ _ := mul_le_mul_of_nonneg_left hc2 (by positivity)

theorem central_magSq_pos {t : Ty} {x : t.D F64} (h : Central t x) :
    (magSqTy t x).Finite ∧ 0 < (magSqTy t x).value ∧ (magSqTy t x).value ≤ 2 * sqSum t x := by
  obtain ⟨-, -, hS⟩ := central_real h
  obtain ⟨hf, he⟩ := magSq_est h
  have he2 := abs_le.1 he
  have hk : 81 / 10 * uR * (sqSum t x : ℝ) ≤ 1 / 2 * (sqSum t x : ℝ) :=
    mul_le_mul_of_nonneg_right (by linarith [uR_small]) hS.le
  have h1 : (0 : ℝ) < ((magSqTy t x).value : ℝ) := by linarith
  have h2 : ((magSqTy t x).value : ℝ) ≤ ((2 * sqSum t x : ℚ) : ℝ) := by push_cast; linarith
  exact ⟨hf, by exact_mod_cast h1, Rat.cast_le.1 h2⟩

theorem mag_scl {t : Ty} {x : t.D F64} (hx : Moderate (comps t x))
    (h0 : ∃ c ∈ comps t x, c.value ≠ 0) {k : ℤ} (hk : |k| ≤ 150) :
    Times2 k (magnitudeTy t x) (magnitudeTy t (smulTy t (F64.pow2 k) x)) ∧
    (2 : ℚ) ^ (-352 : ℤ) ≤ (magnitudeTy t x).value := by
  obtain ⟨k1, k2⟩ := abs_le.1 hk
  obtain ⟨c1, c2⟩ := moderate_central hx h0 hk
  obtain ⟨f1, p1, -⟩ := central_magSq_pos c1
  obtain ⟨f2, p2, -⟩ := central_magSq_pos c2
  have := magSq_scl (by norm_num) (by omega) (times2_comps hx hk)
  rw [show (-352 : ℤ) + -352 = -704 by norm_num] at this
  exact sqrt_scl f1 f2 this p1 hk

/-- **C54.**  The magnitude is in the unit of its argument: `magnitude(2^k x) = 2^k magnitude(x)`,
bit for bit. -/
theorem C54_magnitude (t : Ty) (x : t.D F64) (hx : Moderate (comps t x))
    (h0 : ∃ c ∈ comps t x, c.value ≠ 0) (k : ℤ) (hk : |k| ≤ 150) :
    magnitudeTy t (smulTy t (F64.pow2 k) x) = F64.pow2 k * magnitudeTy t x := by
  obtain ⟨k1, k2⟩ := abs_le.1 hk
  exact times2_eq (by omega) (by omega) (mag_scl hx h0 hk).1

theorem mul_same {x y x' y' : F64} (hx : x.Finite) (hy : y.Finite) (hx' : x'.Finite)
    (hy' : y'.Finite) (h : x'.value * y'.value = x.value * y.value)
    (hs : xor x'.signbit y'.signbit = xor x.signbit y.signbit) : x' * y' = x * y := by
  have e : ∀ {x y : F64}, x.Finite → y.Finite → x * y = F64.mulFin x y := by
    intro x y hx hy
    cases x <;> cases y <;> first | rfl | exact hx.elim | exact hy.elim
  rw [e hx hy, e hx' hy', F64.mulFin, F64.mulFin, h, hs]

theorem recip_scl {m m' : F64} {j : ℤ} (h : Times2 j m m') (hlo : (2 : ℚ) ^ (-704 : ℤ) ≤ m.value)
    (hhi : m.value ≤ 2 ^ (704 : ℤ)) (hj : |j| ≤ 300) :
    Times2 (-j) (1 / m) (1 / m') ∧ 0 < (1 / m).value ∧
      (2 : ℚ) ^ (-704 : ℤ) ≤ (1 / m).value ∧ (1 / m).value ≤ 2 ^ (704 : ℤ) := by
  obtain ⟨j1, j2⟩ := abs_le.1 hj
  obtain ⟨f, f', v, -⟩ := h
  have p : 0 < m.value := lt_of_lt_of_le (by positivity) hlo
  have p' : 0 < m'.value := by rw [v]; positivity
  have e : (1 : ℚ) / m'.value = 2 ^ (-j) * (1 / m.value) := by
    rw [v, zpow_neg]; field_simp
  have b1 : (2 : ℚ) ^ (-704 : ℤ) ≤ 1 / m.value := by
    rw [zpow_neg, ← one_div]; exact one_div_le_one_div_of_le p hhi
  have b2 : 1 / m.value ≤ (2 : ℚ) ^ (704 : ℤ) := by
    rw [show (2 : ℚ) ^ (704 : ℤ) = 1 / 2 ^ (-704 : ℤ) by rw [zpow_neg, one_div, inv_inv]]
    exact one_div_le_one_div_of_le (by positivity) hlo
  have b3 : (2 : ℚ) ^ (-1022 : ℤ) ≤ |2 ^ (-j) * (1 / m.value)| := by
    rw [abs_of_pos (by positivity)]
    calc (2 : ℚ) ^ (-1022 : ℤ) ≤ 2 ^ (-j + -704) := zpow_le_zpow_right₀ (by norm_num) (by omega)
      _ = 2 ^ (-j) * 2 ^ (-704 : ℤ) := zpow_add₀ two_ne_zero _ _
      _ ≤ _ := mul_le_mul_of_nonneg_left b1 (by positivity)
  have sc := rnVal_scale_normal (x := 1 / m.value) (k := -j) (by
    rw [abs_of_pos (by positivity)]
    exact (zpow_le_zpow_right₀ (by norm_num) (by norm_num)).trans b1) b3
  have r2 := F64.rnVal_le_rep (K := ℚ) (F64.rep_pow 704 (by norm_num)) (by exact_mod_cast b2)
  have r1 := F64.rep_le_rnVal (K := ℚ) (F64.rep_pow (-704) (by norm_num)) (by exact_mod_cast b1)
  have r0 : 0 < F64.rnVal (1 / m.value) := lt_of_lt_of_le (by positivity) r1
  have one := F64.hasVal_one
  have d1 := F64.div_spec one.1 f p.ne' (by
    rw [one.2, abs_of_pos r0]
    exact r2.trans_lt (by rw [← zpow_natCast]; exact zpow_lt_zpow_right₀ (by norm_num) (by norm_num)))
  have d2 := F64.div_spec one.1 f' p'.ne' (by
    rw [one.2, e, sc, abs_of_pos (by positivity)]
    calc (2 : ℚ) ^ (-j) * F64.rnVal (1 / m.value) ≤ 2 ^ (-j) * 2 ^ (704 : ℤ) :=
          mul_le_mul_of_nonneg_left r2 (by positivity)
      _ = 2 ^ (-j + 704) := (zpow_add₀ two_ne_zero _ _).symm
      _ < 2 ^ (1024 : ℤ) := zpow_lt_zpow_right₀ (by norm_num) (by omega)
      _ = 2 ^ 1024 := zpow_natCast _ _)
  rw [one.2] at d1 d2
  rw [e, sc] at d2
  have q1 : 0 < (1 / m).value := by rw [d1.2]; exact r0
  have q2 : 0 < (1 / m').value := by rw [d2.2]; positivity
  exact ⟨⟨d1.1, d2.1, by rw [d2.2, d1.2], by rw [sign_pos q1, sign_pos q2]⟩, q1,
    by rw [d1.2]; exact r1, by rw [d1.2]; exact r2⟩

theorem central_mag_hi {t : Ty} {x : t.D F64} (h : Central t x) :
    (magnitudeTy t x).value ≤ 2 ^ (704 : ℤ) := by
  obtain ⟨hl, hu, hS⟩ := central_real h
  obtain ⟨hf, he⟩ := C34_magnitude t x h
  have he2 := abs_le.1 he
  have hE : 0 < euclid t x := lt_of_lt_of_le (F64.two_zpow_pos _) hl
  have hk : 52 / 10 * uR * euclid t x ≤ 1 * euclid t x :=
    mul_le_mul_of_nonneg_right (by linarith [uR_small]) hE.le
  have h1 : ((magnitudeTy t x).value : ℝ) ≤ (2 : ℝ) ^ (503 : ℤ) := by
    rw [show (503 : ℤ) = 1 + 502 from by norm_num only, zpow_add₀ (by norm_num), zpow_one]
    generalize (2 : ℝ) ^ (502 : ℤ) = P at *
    linarith
  rw [← cast_zpow] at h1
  exact (Rat.cast_le.1 h1).trans (zpow_le_zpow_right₀ (by norm_num) (by norm_num))

/-- **C54.**  The direction has no unit: `direction(2^k x) = direction(x)`, bit for bit. -/
theorem C54_direction (t : Ty) (x : t.D F64) (hx : Moderate (comps t x))
    (h0 : ∃ c ∈ comps t x, c.value ≠ 0) (k : ℤ) (hk : |k| ≤ 150) :
    directionTy t (smulTy t (F64.pow2 k) x) = directionTy t x := by
  obtain ⟨c1, c2⟩ := moderate_central hx h0 hk
  obtain ⟨m, lo⟩ := mag_scl hx h0 hk
  rw [(recip_est c1).1, (recip_est c2).1]
  obtain ⟨⟨f1, f2, v, s⟩, -⟩ := recip_scl m
    ((zpow_le_zpow_right₀ (by norm_num) (by norm_num)).trans lo) (central_mag_hi c1) (by omega)
  apply C09_comps_injective t
  rw [comps_smul, comps_smul, comps_smul, List.map_map]
  refine List.map_congr_left fun c hc => ?_
  obtain ⟨g1, g2, w, s'⟩ := moderate_times (hx c hc).1 (hx c hc).2 hk
  refine mul_same f1 g1 f2 g2 ?_ (by rw [s, s'])
  rw [v, w, zpow_neg]
  field_simp

/-! ## Inverse -/

theorem Times2.mul {i j : ℤ} {x x' y y' : F64} (hx : Times2 i x x') (hy : Times2 j y y')
    (f : (x * y).Finite) (f' : (x' * y').Finite)
    (h : x.value * y.value = 0 ∨ (2 : ℚ) ^ (-1022 : ℤ) ≤ |x.value * y.value| ∧
      (2 : ℚ) ^ (-1022 : ℤ) ≤ |2 ^ (i + j) * (x.value * y.value)|) :
    Times2 (i + j) (x * y) (x' * y') := by
  obtain ⟨fx, fx', vx, sx⟩ := hx
  obtain ⟨fy, fy', vy, sy⟩ := hy
  have e : x'.value * y'.value = 2 ^ (i + j) * (x.value * y.value) := by
    rw [vx, vy, zpow_add₀ two_ne_zero]; ring
  refine ⟨f, f', ?_, ?_⟩
  · rw [F64.mul_value f, F64.mul_value f', e]
    rcases h with h | ⟨h1, h2⟩
    · rw [h, mul_zero, F64.rnVal_zero, mul_zero]
    · exact rnVal_scale_normal h1 h2
  · rw [mul_signbit fx fy, mul_signbit fx' fy', e, sx, sy]
    simp only [scale_zero_iff, scale_neg_iff]

theorem moderate_reverse {t : Ty} {x : t.D F64} (ht : t = .sca ∨ t = .vec ∨ t = .biv ∨ t = .tri)
    (hx : Moderate (comps t x)) : Moderate (comps t (reverseTy t x)) := by
  rcases comps_reverse t x ht with e | e
  · rw [e]; exact hx
  · rw [e]
    intro c hc
    obtain ⟨d, hd, rfl⟩ := List.mem_map.1 hc
    rw [F64.value_neg, abs_neg, neg_eq_zero]
    exact ⟨F64.neg_finite (hx d hd).1, (hx d hd).2⟩

theorem moderate_magSq_le {t : Ty} {x : t.D F64} (hx : Moderate (comps t x))
    (h : Central t x) : (magSqTy t x).value ≤ 2 ^ (604 : ℤ) := by
  obtain ⟨-, -, h2⟩ := central_magSq_pos h
  have h3 : sqSum t x ≤ 8 * 2 ^ (600 : ℤ) := by
    refine (list_sum_le (comps t x) ((2 : ℚ) ^ (600 : ℤ)) fun c hc => ?_).trans ?_
    · rw [show (600 : ℤ) = 300 + 300 from by norm_num only, zpow_add₀ two_ne_zero,
        ← abs_mul_abs_self c.value]
      have := moderate_le (hx c hc).2
      exact mul_le_mul this this (abs_nonneg _) (by positivity)
    · refine mul_le_mul_of_nonneg_right ?_ (by positivity)
      exact_mod_cast comps_length t x
  rw [show (604 : ℤ) = 4 + 600 from by norm_num only, zpow_add₀ two_ne_zero]
  generalize (2 : ℚ) ^ (600 : ℤ) = P at *
  norm_num
  linarith only [h2, h3]

theorem inverse_finite {t : Ty} {x : t.D F64} (ht : t = .sca ∨ t = .vec ∨ t = .biv ∨ t = .tri)
    (h : Central t x) :
    inverseTy t x = some (smulTy t (1 / magSqTy t x) (reverseTy t x)) ∧
    ∀ c ∈ comps t (reverseTy t x), ((1 / magSqTy t x) * c).Finite := by
  have e : inverseTy t x = some (smulTy t (1 / magSqTy t x) (reverseTy t x)) := by
    rcases ht with rfl | rfl | rfl | rfl <;> rfl
  refine ⟨e, fun c hc => ?_⟩
  obtain ⟨y, hy, f, hf, hb⟩ := C48_inverse t ht x h
  rw [e, Option.some.injEq] at hy
  have : (1 / magSqTy t x) * c ∈ comps t y := by
    rw [← hy, comps_smul]; exact List.mem_map.2 ⟨c, hc, rfl⟩
  rw [hf, List.mem_map] at this
  obtain ⟨d, hd, hde⟩ := this
  rw [← hde]
  exact (hb d hd).1

/-- **C54.**  The inverse of a blade has the reciprocal unit:
`inverse(2^k x) = 2^-k inverse(x)`, bit for bit. -/
theorem C54_inverse (t : Ty) (ht : t = .sca ∨ t = .vec ∨ t = .biv ∨ t = .tri) (x : t.D F64)
    (hx : Moderate (comps t x)) (h0 : ∃ c ∈ comps t x, c.value ≠ 0) (k : ℤ) (hk : |k| ≤ 100) :
    ∃ y, inverseTy t x = some y ∧
      inverseTy t (smulTy t (F64.pow2 k) x) = some (smulTy t (F64.pow2 (-k)) y) := by
  have hk' : |k| ≤ 150 := by omega
  obtain ⟨k1, k2⟩ := abs_le.1 hk
  obtain ⟨c1, c2⟩ := moderate_central hx h0 hk'
  obtain ⟨e1, f1⟩ := inverse_finite ht c1
  obtain ⟨e2, f2⟩ := inverse_finite ht c2
  refine ⟨_, e1, ?_⟩
  rw [e2, Option.some.injEq]
  have er : reverseTy t (smulTy t (F64.pow2 k) x) = smulTy t (F64.pow2 k) (reverseTy t x) :=
    (smul_reverseTy t (F64.pow2 k) x).symm
  rw [er] at f2 ⊢
  obtain ⟨m1, p1, -⟩ := central_magSq_pos c1
  obtain ⟨m2, p2, -⟩ := central_magSq_pos c2
  have hs := magSq_scl (by norm_num) (by omega) (times2_comps hx hk') m1 m2
  have hlo : (2 : ℚ) ^ (-704 : ℤ) ≤ (magSqTy t x).value := grid_pos_le hs.2.2 p1
  have hhi := moderate_magSq_le hx c1
  obtain ⟨r, r0, -, -⟩ := recip_scl ⟨m1, m2, hs.1, hs.2.1⟩ hlo
    (hhi.trans (zpow_le_zpow_right₀ (by norm_num) (by norm_num))) (j := k + k) (abs_le.2 ⟨by omega, by omega⟩)
  have rlo : (2 : ℚ) ^ (-604 : ℤ) ≤ (1 / magSqTy t x).value := by
    have d := F64.div_value F64.hasVal_one.1 p1.ne' r.1
    rw [d, F64.hasVal_one.2]
    refine F64.rep_le_rnVal (K := ℚ) (F64.rep_pow (-604) (by norm_num)) ?_
    rw [Rat.cast_id, zpow_neg, ← one_div]
    exact one_div_le_one_div_of_le p1 hhi
  have hm := moderate_reverse ht hx
  apply C09_comps_injective t
  rw [comps_smul, comps_smul, comps_smul, comps_smul, List.map_map, List.map_map]
  refine List.map_congr_left fun c hc => ?_
  have hc2 : F64.pow2 k * c ∈ comps t (smulTy t (F64.pow2 k) (reverseTy t x)) := by
    rw [comps_smul]; exact List.mem_map.2 ⟨c, hc, rfl⟩
  have mt := moderate_times (hm c hc).1 (hm c hc).2 hk'
  have big : ∀ {c : F64}, (2 : ℚ) ^ (-300 : ℤ) ≤ |c.value| →
      (2 : ℚ) ^ (-904 : ℤ) ≤ |(1 / magSqTy t x).value * c.value| := by
    intro c hc
    rw [abs_mul, abs_of_pos r0, show (-904 : ℤ) = -604 + -300 from by norm_num only,
      zpow_add₀ two_ne_zero]
    exact mul_le_mul rlo hc (by positivity) r0.le
  have key := Times2.mul r mt (f1 c hc) (f2 _ hc2) (by
    rcases (hm c hc).2 with h | ⟨h, -⟩
    · left; rw [h, mul_zero]
    · right
      have b := big h
      refine ⟨(zpow_le_zpow_right₀ (by norm_num) (by norm_num)).trans b, ?_⟩
      rw [abs_mul, abs_of_pos (by positivity)]
      calc (2 : ℚ) ^ (-1022 : ℤ) ≤ 2 ^ ((-(k + k) + k) + -904) :=
            zpow_le_zpow_right₀ (by norm_num) (by omega)
        _ = 2 ^ (-(k + k) + k) * 2 ^ (-904 : ℤ) := zpow_add₀ two_ne_zero _ _
        _ ≤ _ := mul_le_mul_of_nonneg_left b (by positivity))
  rw [show -(k + k) + k = -k by ring] at key
  exact times2_eq (by omega) (by omega) key

/-! ## Comparison -/

theorem div_same {x y x' y' : F64} (hx : x.Finite) (hy : y.Finite) (hx' : x'.Finite)
    (hy' : y'.Finite) {j : ℤ} (h1 : x'.value = 2 ^ j * x.value) (h2 : y'.value = 2 ^ j * y.value)
    (s1 : x'.signbit = x.signbit) (s2 : y'.signbit = y.signbit) (h0 : y.value ≠ 0) :
    x' / y' = x / y := by
  have h0' : y'.value ≠ 0 := by rw [h2]; exact mt scale_zero_iff.1 h0
  have e : x'.value / y'.value = x.value / y.value := by
    rw [h1, h2, mul_div_mul_left _ _ (by positivity)]
  have zf : ∀ {z : F64}, z.Finite → z.value = 0 → ∃ b, z = zero b := by
    intro z hz h
    cases z with
    | nan => exact hz.elim
    | inf _ => exact hz.elim
    | zero b => exact ⟨b, rfl⟩
    | fin v hv => exact absurd h hv.1
  by_cases hz : x.value = 0
  · obtain ⟨b, rfl⟩ := zf hx hz
    obtain ⟨b', rfl⟩ := zf hx' (by rw [h1, hz, mul_zero])
    obtain rfl : b' = b := s1
    cases y <;> cases y' <;>
      first
        | exact hy.elim | exact hy'.elim | exact absurd rfl h0 | exact absurd rfl h0'
        | exact congrArg (fun s => F64.zero (xor b' s)) s2
  · have hz' : x'.value ≠ 0 := by rw [h1]; exact mt scale_zero_iff.1 hz
    cases x <;> cases y <;> cases x' <;> cases y' <;>
      first
        | exact hx.elim | exact hy.elim | exact hx'.elim | exact hy'.elim
        | exact absurd rfl h0 | exact absurd rfl h0' | exact absurd rfl hz | exact absurd rfl hz'
        | exact congrArg F64.roundTo e

theorem innerProduct_scl {k g : ℤ} (hm : -1074 ≤ g + g) (hm' : -1074 ≤ (g + g) + (k + k))
    {a a' : F64} (ha : Scl (k + k) (g + g) a a') {l l' : List F64}
    (h : List.Forall₂ (Scl k g) l l') :
    Scl (k + k) (g + g) (innerProduct a l) (innerProduct a' l') := by
  induction h generalizing a a' with
  | nil => exact ha
  | cons h _ ih => exact ih (ha.add hm hm' (h.mul hm hm' h))

theorem list_pos_le (l : List F64) {c : F64} (hc : c ∈ l) : |(c.value : ℝ)| ≤ listNorm (vals l) := by
  unfold listNorm vals
  rw [← Real.sqrt_sq_eq_abs, pow_two]
  apply Real.sqrt_le_sqrt
  refine List.single_le_sum (fun x hx => ?_) _ ?_
  · obtain ⟨y, -, rfl⟩ := List.mem_map.1 hx
    exact mul_self_nonneg _
  · rw [List.map_map]
    exact List.mem_map.2 ⟨c, hc, rfl⟩

/-- The relative branch, for any tolerance. -/
theorem nearly_rel (xs ys : List F64) (tol : F64) (hlen : xs.length = ys.length)
    (hn : xs.length ≤ 1000) (hx : Mid xs) (hy : Mid ys)
    (hbig : ∃ c ∈ ys, (2 : ℚ) ^ (-440 : ℤ) ≤ |c.value|) :
    (difLoop 0 xs ys).Finite ∧ (innerProduct 0 ys).Finite ∧ (innerProduct 0 ys).value ≠ 0 ∧
    nearlyEqualsArr xs ys tol = .ok (isSmallAbs
        (Dbl.sqrt (difLoop 0 xs ys / innerProduct 0 ys)) tol) := by
  obtain ⟨c, hc, hb⟩ := hbig
  have hN : (2 : ℝ) ^ (-440 : ℤ) ≤ listNorm (vals ys) := by
    refine le_trans ?_ (list_pos_le ys hc)
    rw [← cast_zpow, ← Rat.cast_abs]
    exact Rat.cast_le.2 hb
  have v0 := F64.pow2_val (e := 0) (by norm_num) (by norm_num)
  obtain ⟨D, R, Dh, Rh, a, b, β, -, -, -, -, -, -, -, -, -, -, -, -, -, -, -, rfl, r1, f1, f2, -, h⟩ :=
    range_setup xs ys (F64.pow2 0) hlen hn hx hy
      (by rw [v0.2]; exact zpow_le_zpow_right₀ (by norm_num) (by norm_num)) hN
  have hp : 0 < (innerProduct 0 ys).value := by
    have := (F64.two_zpow_pos (K := ℝ) (-881)).trans_le r1
    exact_mod_cast this
  refine ⟨f1, f2, hp.ne', ?_⟩
  have hs : (2 : ℚ) ^ (-1022 : ℤ) ≤ (Dbl.sqrt (innerProduct 0 ys)).value := by
    obtain ⟨-, hv⟩ := F64.sqrt_spec f2 hp (sqrt_hi _)
    rw [hv]
    refine F64.rep_le_rnVal (F64.rep_pow _ (by norm_num)) ?_
    rw [cast_zpow]
    apply Real.le_sqrt_of_sq_le
    rw [pow_two, ← zpow_add₀ (by norm_num)]
    exact (zpow_le_zpow_right₀ (by norm_num) (by norm_num)).trans r1
  have hs1 := (F64.sqrt_spec f2 hp (sqrt_hi _)).1
  cases ys with
  | nil => cases hc
  | cons y ys =>
    cases xs with
    | nil => cases hlen
    | cons x xs =>
      have lt : Dbl.lt (Dbl.sqrt (innerProduct 0 (y :: ys))) (Dbl.minDub F64) = false := by
        rw [(HasVal.of hs1).flt F64.minDub_val]
        exact decide_eq_false (not_lt.2 hs)
      rw [nearlyEqualsArr_eq, List.all_eq_true.2 fun c hc => (hx c hc).1,
        List.all_eq_true.2 fun c hc => (hy c hc).1, lt]
      simp

theorem moderate_mid {l : List F64} (h : Moderate l) : Mid l := by
  intro c hc
  refine ⟨F64.valid_of_value (h c hc).1 ?_, (moderate_le (h c hc).2).trans
    (zpow_le_zpow_right₀ (by norm_num) (by norm_num))⟩
  rcases (h c hc).2 with h | h
  · exact .inl h
  · exact .inr ((zpow_le_zpow_right₀ (by norm_num) (by norm_num)).trans h.1)

theorem moderate_mid_scaled {l : List F64} (h : Moderate l) {k : ℤ} (hk : |k| ≤ 150) :
    Mid (l.map (F64.pow2 k * ·)) := by
  obtain ⟨k1, k2⟩ := abs_le.1 hk
  intro d hd
  obtain ⟨c, hc, rfl⟩ := List.mem_map.1 hd
  obtain ⟨-, f, v, -⟩ := moderate_times (h c hc).1 (h c hc).2 hk
  have e : |(F64.pow2 k * c).value| = 2 ^ k * |c.value| := by
    rw [v, abs_mul, abs_of_pos (by positivity)]
  refine ⟨F64.valid_of_value f ?_, ?_⟩
  · rcases (h c hc).2 with h | h
    · left; rw [v, h, mul_zero]
    · right
      rw [e]
      calc (2 : ℚ) ^ (-1022 : ℤ) ≤ 2 ^ (k + -300) := zpow_le_zpow_right₀ (by norm_num) (by omega)
        _ = 2 ^ k * 2 ^ (-300 : ℤ) := zpow_add₀ two_ne_zero _ _
        _ ≤ _ := mul_le_mul_of_nonneg_left h.1 (by positivity)
  · rw [e]
    calc (2 : ℚ) ^ k * |c.value| ≤ 2 ^ k * 2 ^ (300 : ℤ) :=
          mul_le_mul_of_nonneg_left (moderate_le (h c hc).2) (by positivity)
      _ = 2 ^ (k + 300) := (zpow_add₀ two_ne_zero _ _).symm
      _ ≤ _ := zpow_le_zpow_right₀ (by norm_num) (by omega)

theorem moderate_scl_list {l : List F64} (h : Moderate l) {k : ℤ} (hk : |k| ≤ 150) :
    List.Forall₂ (Scl k (-352)) l (l.map (F64.pow2 k * ·)) :=
  forall₂_map_self fun c hc _ _ =>
    let m := moderate_times (h c hc).1 (h c hc).2 hk
    ⟨m.2.2.1, m.2.2.2, moderate_grid (h c hc).2⟩

theorem zipSub_scl {k g : ℤ} (hm : -1074 ≤ g) (hm' : -1074 ≤ g + k) {a a' b b' : List F64}
    (ha : List.Forall₂ (Scl k g) a a') (hb : List.Forall₂ (Scl k g) b b') :
    List.Forall₂ (Scl k g) (List.zipWith (· - ·) a b) (List.zipWith (· - ·) a' b') := by
  induction ha generalizing b b' with
  | nil => exact .nil
  | cons h _ ih =>
    cases hb with
    | nil => exact .nil
    | cons h' hb => exact .cons (h.sub hm hm' h') (ih hb)

/-- Arrays: the verdict is the same in every unit. -/
theorem C54_array_nearlyEquals (xs ys : List F64) (hlen : xs.length = ys.length)
    (hn : xs.length ≤ 1000) (hx : Moderate xs) (hy : Moderate ys)
    (h0 : ∃ c ∈ ys, c.value ≠ 0) (tol : F64) (k : ℤ) (hk : |k| ≤ 100) :
    nearlyEqualsArr (xs.map (F64.pow2 k * ·)) (ys.map (F64.pow2 k * ·)) tol
      = nearlyEqualsArr xs ys tol := by
  obtain ⟨k1, k2⟩ := abs_le.1 hk
  have hk' : |k| ≤ 150 := by omega
  obtain ⟨c, hc, hne⟩ := h0
  have hcb := ((hy c hc).2.resolve_left hne).1
  obtain ⟨f1, f2, n2, e⟩ := nearly_rel xs ys tol hlen hn (moderate_mid hx) (moderate_mid hy)
    ⟨c, hc, (zpow_le_zpow_right₀ (by norm_num) (by norm_num)).trans hcb⟩
  obtain ⟨f1', f2', n2', e'⟩ := nearly_rel (xs.map (F64.pow2 k * ·)) (ys.map (F64.pow2 k * ·)) tol
    (by simpa using hlen) (by simpa using hn) (moderate_mid_scaled hx hk')
    (moderate_mid_scaled hy hk') ⟨F64.pow2 k * c, List.mem_map.2 ⟨c, hc, rfl⟩, by
      rw [(moderate_times (hy c hc).1 (hy c hc).2 hk').2.2.1, abs_mul, abs_of_pos (by positivity)]
      calc (2 : ℚ) ^ (-440 : ℤ) ≤ 2 ^ (k + -300) := zpow_le_zpow_right₀ (by norm_num) (by omega)
        _ = 2 ^ k * 2 ^ (-300 : ℤ) := zpow_add₀ two_ne_zero _ _
        _ ≤ _ := mul_le_mul_of_nonneg_left hcb (by positivity)⟩
  rw [e, e']
  have s2 := innerProduct_scl (k := k) (g := -352) (by norm_num) (by omega) Scl.zero
    (moderate_scl_list hy hk') f2 f2'
  have s1 := innerProduct_scl (k := k) (g := -352) (by norm_num) (by omega) Scl.zero
    (zipSub_scl (by norm_num) (by omega) (moderate_scl_list hx hk') (moderate_scl_list hy hk'))
  rw [← difLoop_eq, ← difLoop_eq] at s1
  have s1 := s1 f1 f1'
  rw [div_same f1 f2 f1' f2' s1.1 s2.1 s1.2.1 s2.2.1 n2]

theorem gradeLists_smul (t : Ty) (p : F64) (x : t.D F64) :
    gradeLists t (smulTy t p x) = (gradeLists t x).map (·.map (p * ·)) := by
  cases t <;> rfl

/-- **C54.**  The verdict of the tolerant comparison does not depend on the unit: for every
tolerance, `nearlyEquals(2^k x, 2^k y, tol)` is `nearlyEquals(x, y, tol)`, as long as no grade of
the reference is zero. -/
theorem C54_nearlyEquals (t : Ty) (x y : t.D F64) (hx : Moderate (comps t x))
    (hy : Moderate (comps t y)) (h0 : ∀ l ∈ gradeLists t y, ∃ c ∈ l, c.value ≠ 0) (tol : F64)
    (k : ℤ) (hk : |k| ≤ 100) :
    nearlyEqualsTy t (smulTy t (F64.pow2 k) x) (smulTy t (F64.pow2 k) y) tol
      = nearlyEqualsTy t x y tol := by
  have hk' : |k| ≤ 150 := by omega
  by_cases ht : t = .dub
  · subst ht
    have mx := hx x (List.mem_singleton.2 rfl)
    have my := hy y (List.mem_singleton.2 rfl)
    have n0 : F64.value y ≠ 0 := by simpa [gradeLists] using h0
    have vx := moderate_mid hx x (List.mem_singleton.2 rfl)
    have vy := moderate_mid hy y (List.mem_singleton.2 rfl)
    have vx' := moderate_mid_scaled hx hk' _ (List.mem_singleton.2 rfl)
    have vy' := moderate_mid_scaled hy hk' _ (List.mem_singleton.2 rfl)
    obtain ⟨g1, g2, g3, g4⟩ := moderate_times mx.1 mx.2 hk'
    obtain ⟨r1, r2, r3, r4⟩ := moderate_times my.1 my.2 hk'
    have lo := (my.2.resolve_left n0).1
    obtain ⟨k1, k2⟩ := abs_le.1 hk
    change Run.ok (nearlyEqualsDub (F64.pow2 k * x) (F64.pow2 k * y) tol)
      = Run.ok (nearlyEqualsDub x y tol)
    rw [nearlyEqualsRel_large vx.1 vy.1
        ((zpow_le_zpow_right₀ (by norm_num) (by norm_num)).trans lo),
      nearlyEqualsRel_large vx'.1 vy'.1 (by
        rw [r3, abs_mul, abs_of_pos (by positivity)]
        calc (2 : ℚ) ^ (-970 : ℤ) ≤ 2 ^ (k + -300) := zpow_le_zpow_right₀ (by norm_num) (by omega)
          _ = 2 ^ k * 2 ^ (-300 : ℤ) := zpow_add₀ two_ne_zero _ _
          _ ≤ _ := mul_le_mul_of_nonneg_left lo (by positivity)),
      div_same g1 r1 g2 r2 g3 r3 g4 r4 n0]
  · obtain ⟨b, hb⟩ := C25_defined t x y tol
    obtain ⟨b', hb'⟩ := C25_defined t (smulTy t (F64.pow2 k) x) (smulTy t (F64.pow2 k) y) tol
    have key : nearlyEqualsTy t (smulTy t (F64.pow2 k) x) (smulTy t (F64.pow2 k) y) tol = .ok true
        ↔ nearlyEqualsTy t x y tol = .ok true := by
      rw [nearly_grades t ht, nearly_grades t ht, gradeLists_smul, gradeLists_smul, List.zip_map,
        List.forall_mem_map]
      refine forall₂_congr fun p hp => ?_
      obtain ⟨h1, h2, -, h3, h4⟩ := grade_length t x y p hp
      rw [Prod.map_fst, Prod.map_snd, C54_array_nearlyEquals p.1 p.2 h1 (by omega)
        (fun c hc => hx c (h3 c hc)) (fun c hc => hy c (h4 c hc))
        (h0 _ (List.of_mem_zip hp).2) tol k hk]
    rw [hb, hb'] at key ⊢
    cases b <;> cases b' <;> simp_all

/-- Against a zero reference the comparison is absolute, and there the verdict does depend on the
unit: `1/2` is accepted as zero with tolerance 1, and after doubling both it is not. -/
theorem C54_fails_zero_reference :
    nearlyEqualsTy .sca (⟨⟨F64.pow2 (-1)⟩⟩ : Scalar F64) ⟨⟨0⟩⟩ (F64.pow2 0) = .ok true ∧
    nearlyEqualsTy .sca (smulTy .sca (F64.pow2 1) (⟨⟨F64.pow2 (-1)⟩⟩ : Scalar F64))
      (smulTy .sca (F64.pow2 1) (⟨⟨0⟩⟩ : Scalar F64)) (F64.pow2 0) ≠ .ok true := by
  have v0 := F64.pow2_val (e := 0) (by norm_num) (by norm_num)
  have v1 := F64.pow2_val (e := -1) (by norm_num) (by norm_num)
  have m : Moderate [F64.pow2 (-1)] := by
    intro c hc
    rw [List.mem_singleton.1 hc]
    refine ⟨v1.1, .inr ?_⟩
    rw [v1.2, abs_of_pos (by positivity)]
    exact ⟨zpow_le_zpow_right₀ (by norm_num) (by norm_num),
      zpow_le_zpow_right₀ (by norm_num) (by norm_num)⟩
  have z : F64.pow2 1 * (0 : F64) = 0 :=
    (times2_eq (k := 1) (z := 0) (w := 0) (by norm_num) (by norm_num) ⟨trivial, trivial, by
      rw [F64.hasVal_zero'.2, mul_zero], rfl⟩).symm
  constructor
  · refine (C27_zero_reference [F64.pow2 (-1)] [0] _ rfl (by simp)
      (fun c hc => (moderate_mid m c hc).1) v0.1 (by simp)).2 ?_
    intro c hc
    rw [List.mem_singleton.1 hc, v0.2, v1.2]
    norm_num
  · intro h
    have h := (C27_zero_reference [F64.pow2 1 * F64.pow2 (-1)] [F64.pow2 1 * 0] _ rfl (by simp)
      (fun c hc => (moderate_mid_scaled m (k := 1) (by norm_num) c hc).1) v0.1 (by simp [z])).1 h _
      (List.mem_singleton.2 rfl)
    rw [(moderate_times v1.1 (m _ (List.mem_singleton.2 rfl)).2 (k := 1) (by norm_num)).2.2.1,
      v0.2, v1.2] at h
    norm_num at h

/-! ## Cases meeting the hypotheses -/

section Examples

theorem finite_comps {t : Ty} {x : t.D F64} (h : ∀ k, (cf (promote t x) k).Finite) :
    ∀ c ∈ comps t x, c.Finite := by
  have h2 : List.Forall₂ (fun c _ : F64 => c.Finite) (comps t x) (comps t x) := cf_forall h
  generalize comps t x = l at h2
  induction l with
  | nil => simp
  | cons a l ih =>
    cases h2 with
    | cons h3 h4 =>
      intro c hc
      rcases List.mem_cons.1 hc with rfl | hc
      · exact h3
      · exact ih h4 c hc

theorem moderate_int {l : List F64} (h : ∀ c ∈ l, c.Finite ∧ ∃ n : ℤ, c.value = n ∧ |n| ≤ (11 : ℕ)) :
    Moderate l := by
  intro c hc
  obtain ⟨f, n, e, b⟩ := h c hc
  refine ⟨f, ?_⟩
  by_cases hn : n = 0
  · left; rw [e, hn]; rfl
  · right
    have h1 : (1 : ℤ) ≤ |n| := Int.one_le_abs hn
    have h1 : (1 : ℚ) ≤ |(n : ℚ)| := by exact_mod_cast h1
    have h2 : |(n : ℚ)| ≤ 11 := by exact_mod_cast b
    rw [e]
    refine ⟨le_trans ?_ h1, h2.trans ?_⟩
    · exact zpow_le_one_of_nonpos₀ (by norm_num) (by norm_num)
    · exact le_trans (by norm_num) (zpow_le_zpow_right₀ (by norm_num) (by norm_num : (4 : ℤ) ≤ 300))

/-- The vector `(3, -5, 7)` of `C49_Exact`. -/
noncomputable def vecA : Vector F64 := ⟨⟨intDub 3, intDub (-5), intDub 7⟩⟩
theorem vecA_ok : Moderate (comps .vec vecA) := moderate_int (intEnv_ok 0)
theorem vecA_ne : ∃ c ∈ comps .vec vecA, c.value ≠ 0 :=
  ⟨intDub 3, List.mem_cons_self, by rw [(intDub_val 3 (by norm_num)).2]; norm_num⟩
/-- The bivector `(2, 11, -1)` of `C49_Exact`. -/
noncomputable def bivB : BiVector F64 := ⟨⟨intDub 2, intDub 11, intDub (-1)⟩⟩
theorem bivB_ok : Moderate (comps .biv bivB) := moderate_int (intEnv_ok 1)

/-- Millimetres or kilometres (here: `2^-10` and `2^10`), a vector times a bivector. -/
example : mulTy .vec .biv (smulTy .vec (F64.pow2 (-10)) vecA) (smulTy .biv (F64.pow2 20) bivB)
    = smulTy .imsp (F64.pow2 10) (mulTy .vec .biv vecA bivB) :=
  C54_product .vec .biv vecA bivB vecA_ok bivB_ok (-10) 20 (by norm_num) (by norm_num)

example : directionTy .vec (smulTy .vec (F64.pow2 (-10)) vecA) = directionTy .vec vecA :=
  C54_direction .vec vecA vecA_ok vecA_ne (-10) (by norm_num)

example : magnitudeTy .vec (smulTy .vec (F64.pow2 (-10)) vecA)
    = F64.pow2 (-10) * magnitudeTy .vec vecA :=
  C54_magnitude .vec vecA vecA_ok vecA_ne (-10) (by norm_num)

example : ∃ y, inverseTy .vec vecA = some y ∧
    inverseTy .vec (smulTy .vec (F64.pow2 10) vecA) = some (smulTy .vec (F64.pow2 (-10)) y) :=
  C54_inverse .vec (by simp) vecA vecA_ok vecA_ne 10 (by norm_num)

example (tol : F64) : nearlyEqualsTy .vec (smulTy .vec (F64.pow2 10) ⟨⟨intDub 1, intDub 4, intDub (-9)⟩⟩)
    (smulTy .vec (F64.pow2 10) vecA) tol
      = nearlyEqualsTy .vec (⟨⟨intDub 1, intDub 4, intDub (-9)⟩⟩ : Vector F64) vecA tol :=
  C54_nearlyEquals .vec _ vecA (moderate_int (intEnv_ok 2)) vecA_ok (by
    intro l hl
    obtain rfl := List.mem_singleton.1 hl
    exact vecA_ne) tol 10 (by norm_num)

/-- The variables of `C49_Exact`, doubled. -/
noncomputable def intEnv2 (i : Nat) : Sigma fun t : Ty => t.D F64 :=
  ⟨(intEnv i).1, smulTy _ (F64.pow2 1) (intEnv i).2⟩

theorem intEnv2_ok (i : ℕ) : ∀ c ∈ comps (intEnv2 i).1 (intEnv2 i).2,
    c.Finite ∧ ∃ n : ℤ, c.value = n ∧ |n| ≤ (22 : ℕ) := by
  intro c hc
  unfold intEnv2 at hc
  dsimp only at hc
  rw [comps_smul, List.mem_map] at hc
  obtain ⟨b, hb, rfl⟩ := hc
  have m := moderate_int (intEnv_ok i) b hb
  obtain ⟨-, f, v, -⟩ := moderate_times m.1 m.2 (k := 1) (by norm_num)
  obtain ⟨-, n, e, bd⟩ := intEnv_ok i b hb
  refine ⟨f, 2 * n, by rw [v, e]; push_cast; norm_num, ?_⟩
  rw [abs_mul]
  push_cast at bd ⊢
  norm_num
  omega

/-- `(x * y) * (x * z)` with doubled variables is sixteen times the original. -/
example : ∃ r r', (Expr.mul (.mul (.var 0) (.var 1)) (.mul (.var 0) (.var 2))).eval intEnv = some r ∧
    (Expr.mul (.mul (.var 0) (.var 1)) (.mul (.var 0) (.var 2))).eval intEnv2 = some r' ∧
    ScaledBy 4 r r' := by
  obtain ⟨r, hr⟩ : ∃ r, (Expr.mul (.mul (.var 0) (.var 1)) (.mul (.var 0) (.var 2))).eval intEnv
    = some r := ⟨_, rfl⟩
  obtain ⟨r', hr'⟩ : ∃ r, (Expr.mul (.mul (.var 0) (.var 1)) (.mul (.var 0) (.var 2))).eval intEnv2
    = some r := ⟨_, rfl⟩
  refine ⟨r, r', hr, hr', C54_expression intEnv intEnv2 (fun _ => 1) (fun _ => 0) _ 4 rfl ?_ ?_ ?_ r r'
    hr hr' ?_ ?_⟩
  · intro i _
    exact C54_scale _ _ (moderate_int (intEnv_ok i)) 1 (by norm_num)
  · intro i _ c hc
    obtain ⟨-, n, e, -⟩ := intEnv_ok i c hc
    exact ⟨n, by rw [e, zpow_zero, mul_one]⟩
  · intro f hf m hm
    simp only [Expr.subs, List.mem_cons, List.mem_append, List.not_mem_nil, or_false] at hf
    rcases hf with rfl | (rfl | rfl | rfl) | rfl | rfl | rfl <;>
      (simp only [Expr.dim, Option.bind_some, Option.map_some, Option.some.injEq] at hm
       subst hm
       simp [Expr.grid])
  · have : ∀ k, (cf (promote r.1 r.2) k).Finite := fun k =>
      (C49_small_integers intEnv 11 (by norm_num) _ (by intro a b hab; simp [Expr.subs] at hab)
        (fun i _ => intEnv_ok i) (by norm_num [Expr.cap]) r hr k).1
    exact fun c hc => finite_comps this c hc
  · have : ∀ k, (cf (promote r'.1 r'.2) k).Finite := fun k =>
      (C49_small_integers intEnv2 22 (by norm_num) _ (by intro a b hab; simp [Expr.subs] at hab)
        (fun i _ => intEnv2_ok i) (by norm_num [Expr.cap]) r' hr' k).1
    exact fun c hc => finite_comps this c hc

end Examples

end Engabra
