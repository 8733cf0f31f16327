import Verif.Lemmas.ExactLattice
import Verif.Lemmas.Terms
import Verif.Lemmas.AxisF64

/-! # Scaling binary64 numbers by a power of two -/

namespace Engabra

open F64 (nan inf zero fin IsFin Finite HasVal OnGrid)

section
variable {L : Type} [Field L] [LinearOrder L] [IsStrictOrderedRing L] [FloorRing L]

theorem ulpExp_normal {x : L} {k : ℤ} (hx : (2 : L) ^ (-1022 : ℤ) ≤ |x|)
    (hy : (2 : L) ^ (-1022 : ℤ) ≤ |2 ^ k * x|) :
    F64.ulpExp (2 ^ k * x) = F64.ulpExp x + k := by
  have hx0 : 0 < |x| := lt_of_lt_of_le (by positivity) hx
  have hy0 : 0 < |2 ^ k * x| := lt_of_lt_of_le (by positivity) hy
  have e : |2 ^ k * x| = 2 ^ k * |x| := by rw [abs_mul, abs_of_pos (by positivity)]
  have l1 := Int.zpow_log_le_self (b := 2) (by norm_num) hx0
  have l2 := Int.lt_zpow_succ_log_self (b := 2) (by norm_num) |x|
  push_cast at l1 l2
  have hlog : Int.log 2 |2 ^ k * x| = Int.log 2 |x| + k := by
    apply F64.log_eq
    · rw [e, zpow_add₀ two_ne_zero, mul_comm]
      exact mul_le_mul_of_nonneg_left l1 (by positivity)
    · rw [e, show Int.log 2 |x| + k + 1 = k + (Int.log 2 |x| + 1) by ring,
        zpow_add₀ two_ne_zero (n := Int.log 2 |x| + 1)]
      exact mul_lt_mul_of_pos_left l2 (by positivity)
  have n1 : -1022 ≤ Int.log 2 |x| := by
    rw [← Int.zpow_le_iff_le_log (by norm_num) hx0]; exact_mod_cast hx
  have n2 : -1022 ≤ Int.log 2 |2 ^ k * x| := by
    rw [← Int.zpow_le_iff_le_log (by norm_num) hy0]; exact_mod_cast hy
  unfold F64.ulpExp
  rw [hlog] at n2 ⊢
  omega

/-- Rounding commutes with scaling in the normal range. -/
theorem rnVal_scale_normal {x : L} {k : ℤ} (hx : (2 : L) ^ (-1022 : ℤ) ≤ |x|)
    (hy : (2 : L) ^ (-1022 : ℤ) ≤ |2 ^ k * x|) :
    F64.rnVal (2 ^ k * x) = 2 ^ k * F64.rnVal x := by
  unfold F64.rnVal
  rw [ulpExp_normal hx hy, zpow_add₀ (two_ne_zero : (2 : L) ≠ 0), zpow_add₀ (two_ne_zero : (2 : ℚ) ≠ 0),
    show 2 ^ k * x / (2 ^ F64.ulpExp x * 2 ^ k) = x / (2 : L) ^ F64.ulpExp x by
      rw [mul_comm, mul_div_mul_right _ _ (by positivity)]]
  ring

end

/-- Rounding commutes with scaling on a grid which stays above the subnormal numbers. -/
theorem rnVal_scale {x : ℚ} {k g : ℤ} (hg : -1074 ≤ g) (hk : -1074 ≤ g + k) (hx : OnGrid g x) :
    F64.rnVal (2 ^ k * x) = 2 ^ k * F64.rnVal x ∧ OnGrid g (F64.rnVal x) := by
  by_cases hs : |x| ≤ 2 ^ (g + 53)
  · have r1 := hx.rep hg hs
    have r2 : F64.Rep (2 ^ k * x) := by
      obtain ⟨n, rfl⟩ := hx
      refine OnGrid.rep (g := g + k) ⟨n, by rw [zpow_add₀ two_ne_zero]; ring⟩ hk ?_
      rw [abs_mul, abs_of_pos (by positivity : (0 : ℚ) < 2 ^ k),
        show g + k + 53 = k + (g + 53) by ring, zpow_add₀ two_ne_zero k]
      exact mul_le_mul_of_nonneg_left hs (by positivity)
    rw [F64.rnVal_exact r1, F64.rnVal_exact r2]
    exact ⟨rfl, hx⟩
  · have hs := (not_le.1 hs).le
    have n1 : (2 : ℚ) ^ (-1022 : ℤ) ≤ |x| :=
      (zpow_le_zpow_right₀ (by norm_num) (by omega)).trans hs
    have n2 : (2 : ℚ) ^ (-1022 : ℤ) ≤ |2 ^ k * x| := by
      rw [abs_mul, abs_of_pos (by positivity : (0 : ℚ) < 2 ^ k)]
      calc (2 : ℚ) ^ (-1022 : ℤ) ≤ 2 ^ (k + (g + 53)) :=
            zpow_le_zpow_right₀ (by norm_num) (by omega)
        _ = 2 ^ k * 2 ^ (g + 53) := zpow_add₀ two_ne_zero _ _
        _ ≤ _ := mul_le_mul_of_nonneg_left hs (by positivity)
    refine ⟨rnVal_scale_normal n1 n2, ?_⟩
    have hu : g ≤ F64.ulpExp x := by
      have : g + 53 ≤ Int.log 2 |x| := by
        rw [← Int.zpow_le_iff_le_log (by norm_num)
          (lt_of_lt_of_le (by positivity) hs)]
        exact_mod_cast hs
      unfold F64.ulpExp; omega
    exact OnGrid.mono ⟨_, rfl⟩ hu

theorem roundTo_signbit {L : Type} [Field L] [LinearOrder L] [IsStrictOrderedRing L] [FloorRing L]
    {x : L} : (F64.roundTo x).signbit = decide (x < 0) := by
  unfold F64.roundTo
  split_ifs with h1 h2 h3
  · subst h1; simp [F64.signbit]
  · rfl
  · simp only [F64.signbit, decide_eq_decide]
    constructor
    · intro h
      by_contra hx
      exact absurd (F64.rnVal_nonneg (not_lt.1 hx)) (not_le.2 h)
    · intro h
      exact lt_of_le_of_ne (F64.rnVal_nonpos h.le) h2
  · rfl

/-- A finite datum is determined by its value and its sign bit. -/
theorem F64.ext_val {x y : F64} (hx : x.Finite) (hy : y.Finite) (h : x.value = y.value)
    (hs : x.signbit = y.signbit) : x = y := by
  cases x <;> cases y <;> simp_all [F64.value, F64.signbit, F64.Finite]
  · rename_i v hv; exact hv.1 h.symm
  · rename_i v hv _; exact hv.1 (by assumption)

theorem neg_signbit {x : F64} (hx : x.Finite) : (-x).signbit = !x.signbit := by
  cases x with
  | nan => exact hx.elim
  | inf _ => rfl
  | zero _ => rfl
  | fin v hv =>
    change decide (-v < 0) = !decide (v < 0)
    have := hv.1
    rcases lt_or_gt_of_ne this with h | h
    · simp [h, h.le]
    · simp [h, h.le]

theorem add_signbit {x y : F64} (hx : x.Finite) (hy : y.Finite) :
    (x + y).signbit = if x.value + y.value = 0 then x.signbit && y.signbit
      else decide (x.value + y.value < 0) := by
  have e : x + y = F64.addFin x y := by
    cases x <;> cases y <;> first | rfl | exact hx.elim | exact hy.elim
  rw [e, F64.addFin]
  split_ifs
  · rfl
  · exact roundTo_signbit

theorem mul_signbit {x y : F64} (hx : x.Finite) (hy : y.Finite) :
    (x * y).signbit = if x.value * y.value = 0 then xor x.signbit y.signbit
      else decide (x.value * y.value < 0) := by
  have e : x * y = F64.mulFin x y := by
    cases x <;> cases y <;> first | rfl | exact hx.elim | exact hy.elim
  rw [e, F64.mulFin]
  split_ifs
  · rfl
  · exact roundTo_signbit

/-- `w` is `2^k z`, provided both are finite; and `z` lies on the grid of `2^g`. -/
def Scl (k g : ℤ) (z w : F64) : Prop :=
  z.Finite → w.Finite → w.value = 2 ^ k * z.value ∧ w.signbit = z.signbit ∧ OnGrid g z.value

theorem Scl.zero {k g : ℤ} : Scl k g 0 0 := fun _ _ =>
  ⟨by rw [F64.hasVal_zero'.2, mul_zero], rfl, by rw [F64.hasVal_zero'.2]; exact .zero g⟩

theorem Scl.mono {k g g' : ℤ} {z w : F64} (h : Scl k g z w) (hg : g' ≤ g) : Scl k g' z w :=
  fun a b => ⟨(h a b).1, (h a b).2.1, (h a b).2.2.mono hg⟩

theorem Scl.neg {k g : ℤ} {z w : F64} (h : Scl k g z w) : Scl k g (-z) (-w) := by
  intro hz hw
  have hz := F64.neg_finite_iff.1 hz
  have hw := F64.neg_finite_iff.1 hw
  obtain ⟨h1, h2, h3⟩ := h hz hw
  rw [neg_signbit hz, neg_signbit hw, h2, F64.neg_def, F64.neg_def, F64.neg_value, F64.neg_value, h1]
  exact ⟨by ring, rfl, h3.neg⟩

theorem scale_zero_iff {k : ℤ} {q : ℚ} : (2 : ℚ) ^ k * q = 0 ↔ q = 0 := by
  have : (2 : ℚ) ^ k ≠ 0 := by positivity
  simp [this]

theorem scale_neg_iff {k : ℤ} {q : ℚ} : (2 : ℚ) ^ k * q < 0 ↔ q < 0 := by
  have : (0 : ℚ) < 2 ^ k := by positivity
  constructor
  · intro h; by_contra hq; exact absurd (mul_nonneg this.le (not_lt.1 hq)) (not_le.2 h)
  · intro h; exact mul_neg_of_pos_of_neg this h

theorem Scl.add {k g : ℤ} {z w z' w' : F64} (hg : -1074 ≤ g) (hk : -1074 ≤ g + k)
    (h : Scl k g z w) (h' : Scl k g z' w') : Scl k g (z + z') (w + w') := by
  intro hz hw
  obtain ⟨fz, fz'⟩ := F64.add_finite hz
  obtain ⟨fw, fw'⟩ := F64.add_finite hw
  obtain ⟨a1, a2, a3⟩ := h fz fw
  obtain ⟨b1, b2, b3⟩ := h' fz' fw'
  have e : w.value + w'.value = 2 ^ k * (z.value + z'.value) := by rw [a1, b1]; ring
  obtain ⟨s1, s2⟩ := rnVal_scale hg hk (a3.add b3)
  rw [F64.add_value hz, F64.add_value hw, e, s1, add_signbit fz fz', add_signbit fw fw', a2, b2, e]
  refine ⟨rfl, ?_, s2⟩
  simp only [scale_zero_iff, scale_neg_iff]

theorem Scl.sub {k g : ℤ} {z w z' w' : F64} (hg : -1074 ≤ g) (hk : -1074 ≤ g + k)
    (h : Scl k g z w) (h' : Scl k g z' w') : Scl k g (z - z') (w - w') :=
  h.add hg hk h'.neg

theorem Scl.mul {k g k' g' : ℤ} {z w z' w' : F64} (hg : -1074 ≤ g + g')
    (hk : -1074 ≤ (g + g') + (k + k'))
    (h : Scl k g z w) (h' : Scl k' g' z' w') : Scl (k + k') (g + g') (z * z') (w * w') := by
  intro hz hw
  obtain ⟨fz, fz'⟩ := F64.mul_finite hz
  obtain ⟨fw, fw'⟩ := F64.mul_finite hw
  obtain ⟨a1, a2, a3⟩ := h fz fw
  obtain ⟨b1, b2, b3⟩ := h' fz' fw'
  have e : w.value * w'.value = 2 ^ (k + k') * (z.value * z'.value) := by
    rw [a1, b1, zpow_add₀ two_ne_zero]; ring
  obtain ⟨s1, s2⟩ := rnVal_scale hg hk (a3.mul b3)
  rw [F64.mul_value hz, F64.mul_value hw, e, s1, mul_signbit fz fz', mul_signbit fw fw', a2, b2, e]
  refine ⟨rfl, ?_, s2⟩
  simp only [scale_zero_iff, scale_neg_iff]

/-! ## Bilinear terms -/

/-- A term which is a sum of variables from `lo` to `lo + 7`, with signs. -/
def T.linear (lo : Nat) : T → Bool
  | .zero => true
  | .var n => decide (lo ≤ n) && decide (n < lo + 8)
  | .add a b => a.linear lo && b.linear lo
  | .sub a b => a.linear lo && b.linear lo
  | .mul _ _ => false
  | .neg a => a.linear lo

/-- A term which is a sum of products of one variable of each operand. -/
def T.bilinear : T → Bool
  | .zero => true
  | .var _ => false
  | .add a b => a.bilinear && b.bilinear
  | .sub a b => a.bilinear && b.bilinear
  | .mul a b => (a.linear 0 && b.linear 8) || (a.linear 8 && b.linear 0)
  | .neg a => a.bilinear

theorem T.linear_scl {e e' : Nat → F64} {lo : Nat} {k g : ℤ} (hg : -1074 ≤ g) (hk : -1074 ≤ g + k)
    (h : ∀ n, lo ≤ n → n < lo + 8 → Scl k g (e n) (e' n)) (t : T) (ht : t.linear lo = true) :
    Scl k g (t.eval e) (t.eval e') := by
  induction t with
  | zero => exact .zero
  | var n =>
    simp only [T.linear, Bool.and_eq_true, decide_eq_true_eq] at ht
    exact h n ht.1 ht.2
  | add a b iha ihb =>
    simp only [T.linear, Bool.and_eq_true] at ht
    exact (iha ht.1).add hg hk (ihb ht.2)
  | sub a b iha ihb =>
    simp only [T.linear, Bool.and_eq_true] at ht
    exact (iha ht.1).sub hg hk (ihb ht.2)
  | mul a b => cases ht
  | neg a ih => exact (ih ht).neg

theorem T.bilinear_scl {e e' : Nat → F64} {k g k' g' : ℤ} (hg : -1074 ≤ g) (hk : -1074 ≤ g + k)
    (hg' : -1074 ≤ g') (hk' : -1074 ≤ g' + k') (hm : -1074 ≤ g + g')
    (hm' : -1074 ≤ (g + g') + (k + k'))
    (h : ∀ n, n < 8 → Scl k g (e n) (e' n)) (h' : ∀ n, 8 ≤ n → n < 16 → Scl k' g' (e n) (e' n))
    (t : T) (ht : t.bilinear = true) :
    Scl (k + k') (g + g') (t.eval e) (t.eval e') := by
  induction t with
  | zero => exact .zero
  | var n => cases ht
  | add a b iha ihb =>
    simp only [T.bilinear, Bool.and_eq_true] at ht
    exact (iha ht.1).add hm hm' (ihb ht.2)
  | sub a b iha ihb =>
    simp only [T.bilinear, Bool.and_eq_true] at ht
    exact (iha ht.1).sub hm hm' (ihb ht.2)
  | mul a b =>
    simp only [T.bilinear, Bool.or_eq_true, Bool.and_eq_true] at ht
    have lx := fun t => T.linear_scl (lo := 0) hg hk (fun n _ hn => h n (by omega)) t
    have ly := fun t => T.linear_scl (lo := 8) hg' hk' (fun n h8 hn => h' n h8 (by omega)) t
    rcases ht with ⟨h1, h2⟩ | ⟨h1, h2⟩
    · exact (lx a h1).mul hm hm' (ly b h2)
    · have := (ly a h1).mul (by omega) (by omega) (lx b h2)
      rwa [add_comm k', add_comm g'] at this
  | neg a ih => exact (ih ht).neg

theorem typedT_bilinear (s t : Ty) : ∀ k, (cf (typedT s t) k).bilinear = true := by
  cases s <;> cases t <;> exact forall_fin8 rfl rfl rfl rfl rfl rfl rfl rfl

theorem env2_scl {x y x' y' : MultiVector F64} {k g k' g' : ℤ}
    (hx : ∀ i, Scl k g (cf x i) (cf x' i)) (hy : ∀ i, Scl k' g' (cf y i) (cf y' i)) :
    (∀ n, n < 8 → Scl k g (env2 x y n) (env2 x' y' n)) ∧
    ∀ n, 8 ≤ n → n < 16 → Scl k' g' (env2 x y n) (env2 x' y' n) := by
  constructor
  · intro n hn
    match n, hn with
    | 0, _ => exact hx 0
    | 1, _ => exact hx 1
    | 2, _ => exact hx 2
    | 3, _ => exact hx 3
    | 4, _ => exact hx 4
    | 5, _ => exact hx 5
    | 6, _ => exact hx 6
    | 7, _ => exact hx 7
  · intro n h8 hn
    match n, h8, hn with
    | 8, _, _ => exact hy 0
    | 9, _, _ => exact hy 1
    | 10, _, _ => exact hy 2
    | 11, _, _ => exact hy 3
    | 12, _, _ => exact hy 4
    | 13, _, _ => exact hy 5
    | 14, _, _ => exact hy 6
    | 15, _, _ => exact hy 7
    | n + 16, _, hn => exact absurd hn (by omega)

/-! ## The operators of the library -/

/-- Componentwise scaling of objects. -/
def SclTy (k g : ℤ) (t : Ty) (x x' : t.D F64) : Prop :=
  ∀ i, Scl k g (cf (promote t x) i) (cf (promote t x') i)

theorem SclTy.mul {s t : Ty} {k g k' g' : ℤ} {a a' : s.D F64} {b b' : t.D F64}
    (hg : -1074 ≤ g) (hk : -1074 ≤ g + k) (hg' : -1074 ≤ g') (hk' : -1074 ≤ g' + k')
    (hm : -1074 ≤ g + g') (hm' : -1074 ≤ (g + g') + (k + k'))
    (ha : SclTy k g s a a') (hb : SclTy k' g' t b b') :
    SclTy (k + k') (g + g') (mulRes s t) (mulTy s t a b) (mulTy s t a' b') := by
  intro i
  rw [← typedT_eval, ← typedT_eval]
  obtain ⟨h1, h2⟩ := env2_scl ha hb
  exact T.bilinear_scl hg hk hg' hk' hm hm' h1 h2 _ (typedT_bilinear s t i)

/-- A sum of variables 0 to 15, with signs. -/
def T.linear16 : T → Bool
  | .zero => true
  | .var n => decide (n < 16)
  | .add a b => a.linear16 && b.linear16
  | .sub a b => a.linear16 && b.linear16
  | .mul _ _ => false
  | .neg a => a.linear16

theorem T.linear16_scl {e e' : Nat → F64} {k g : ℤ} (hg : -1074 ≤ g) (hk : -1074 ≤ g + k)
    (h : ∀ n, n < 16 → Scl k g (e n) (e' n)) (t : T) (ht : t.linear16 = true) :
    Scl k g (t.eval e) (t.eval e') := by
  induction t with
  | zero => exact .zero
  | var n =>
    simp only [T.linear16, decide_eq_true_eq] at ht
    exact h n ht
  | add a b iha ihb =>
    simp only [T.linear16, Bool.and_eq_true] at ht
    exact (iha ht.1).add hg hk (ihb ht.2)
  | sub a b iha ihb =>
    simp only [T.linear16, Bool.and_eq_true] at ht
    exact (iha ht.1).sub hg hk (ihb ht.2)
  | mul a b => cases ht
  | neg a ih => exact (ih ht).neg

/-- Terms for the components of a sum and of a difference. -/
def addT (s t : Ty) : MultiVector T := match addTy s t (sv s 0) (sv t 8) with
  | some r => promote r.1 r.2
  | none => promote .sca ⟨⟨.zero⟩⟩
def subT (s t : Ty) : MultiVector T := match subTy s t (sv s 0) (sv t 8) with
  | some r => promote r.1 r.2
  | none => promote .sca ⟨⟨.zero⟩⟩

theorem addT_linear (s t : Ty) : ∀ k, (cf (addT s t) k).linear16 = true := by
  cases s <;> cases t <;> exact forall_fin8 rfl rfl rfl rfl rfl rfl rfl rfl

theorem subT_linear (s t : Ty) : ∀ k, (cf (subT s t) k).linear16 = true := by
  cases s <;> cases t <;> exact forall_fin8 rfl rfl rfl rfl rfl rfl rfl rfl

theorem addT_eval (s t : Ty) (a : s.D F64) (b : t.D F64) {r : Sigma fun t : Ty => t.D F64}
    (h : addTy s t a b = some r) : ∀ k,
    (cf (addT s t) k).eval (env2 (promote s a) (promote t b)) = cf (promote r.1 r.2) k := by
  cases s <;> cases t <;> simp only [addTy, Option.some.injEq, reduceCtorEq] at h <;>
    (subst h; exact forall_fin8 rfl rfl rfl rfl rfl rfl rfl rfl)

theorem subT_eval (s t : Ty) (a : s.D F64) (b : t.D F64) {r : Sigma fun t : Ty => t.D F64}
    (h : subTy s t a b = some r) : ∀ k,
    (cf (subT s t) k).eval (env2 (promote s a) (promote t b)) = cf (promote r.1 r.2) k := by
  cases s <;> cases t <;> simp only [subTy, Option.some.injEq, reduceCtorEq] at h <;>
    (subst h; exact forall_fin8 rfl rfl rfl rfl rfl rfl rfl rfl)

theorem SclTy.add {s t : Ty} {k g : ℤ} {a a' : s.D F64} {b b' : t.D F64}
    (hg : -1074 ≤ g) (hk : -1074 ≤ g + k)
    (ha : SclTy k g s a a') (hb : SclTy k g t b b') {r r' : Sigma fun t : Ty => t.D F64}
    (h : addTy s t a b = some r) (h' : addTy s t a' b' = some r') (i : Fin 8) :
    Scl k g (cf (promote r.1 r.2) i) (cf (promote r'.1 r'.2) i) := by
  rw [← addT_eval s t a b h i, ← addT_eval s t a' b' h' i]
  obtain ⟨h1, h2⟩ := env2_scl ha hb
  refine T.linear16_scl hg hk (fun n hn => ?_) _ (addT_linear s t i)
  rcases lt_or_ge n 8 with h8 | h8
  · exact h1 n h8
  · exact h2 n h8 hn

theorem SclTy.sub {s t : Ty} {k g : ℤ} {a a' : s.D F64} {b b' : t.D F64}
    (hg : -1074 ≤ g) (hk : -1074 ≤ g + k)
    (ha : SclTy k g s a a') (hb : SclTy k g t b b') {r r' : Sigma fun t : Ty => t.D F64}
    (h : subTy s t a b = some r) (h' : subTy s t a' b' = some r') (i : Fin 8) :
    Scl k g (cf (promote r.1 r.2) i) (cf (promote r'.1 r'.2) i) := by
  rw [← subT_eval s t a b h i, ← subT_eval s t a' b' h' i]
  obtain ⟨h1, h2⟩ := env2_scl ha hb
  refine T.linear16_scl hg hk (fun n hn => ?_) _ (subT_linear s t i)
  rcases lt_or_ge n 8 with h8 | h8
  · exact h1 n h8
  · exact h2 n h8 hn

/-- Terms for the components of the unary operations. -/
def unT (op : Nat) (t : Ty) : MultiVector T := match op with
  | 0 => promote t (negTy t (sv t 0))
  | 1 => promote t (reverseTy t (sv t 0))
  | 2 => promote t (oddverseTy t (sv t 0))
  | 3 => promote t (dirverseTy t (sv t 0))
  | _ => promote _ (dualTy t (sv t 0))

theorem unT_linear (t : Ty) (i : Fin 8) : (cf (unT 0 t) i).linear16 = true ∧
    (cf (unT 1 t) i).linear16 = true ∧ (cf (unT 2 t) i).linear16 = true ∧
    (cf (unT 3 t) i).linear16 = true ∧ (cf (unT 4 t) i).linear16 = true := by
  revert i
  cases t <;> decide

theorem unT_eval (t : Ty) (a : t.D F64) (i : Fin 8) :
    (cf (unT 0 t) i).eval (env2 (promote t a) (promote t a)) = cf (promote _ (negTy t a)) i ∧
    (cf (unT 1 t) i).eval (env2 (promote t a) (promote t a)) = cf (promote _ (reverseTy t a)) i ∧
    (cf (unT 2 t) i).eval (env2 (promote t a) (promote t a)) = cf (promote _ (oddverseTy t a)) i ∧
    (cf (unT 3 t) i).eval (env2 (promote t a) (promote t a)) = cf (promote _ (dirverseTy t a)) i ∧
    (cf (unT 4 t) i).eval (env2 (promote t a) (promote t a)) = cf (promote _ (dualTy t a)) i := by
  revert i
  cases t <;> exact forall_fin8 ⟨rfl, rfl, rfl, rfl, rfl⟩ ⟨rfl, rfl, rfl, rfl, rfl⟩
    ⟨rfl, rfl, rfl, rfl, rfl⟩ ⟨rfl, rfl, rfl, rfl, rfl⟩ ⟨rfl, rfl, rfl, rfl, rfl⟩
    ⟨rfl, rfl, rfl, rfl, rfl⟩ ⟨rfl, rfl, rfl, rfl, rfl⟩ ⟨rfl, rfl, rfl, rfl, rfl⟩

theorem SclTy.unary {t : Ty} {k g : ℤ} {a a' : t.D F64} (hg : -1074 ≤ g) (hk : -1074 ≤ g + k)
    (ha : SclTy k g t a a') :
    SclTy k g t (negTy t a) (negTy t a') ∧ SclTy k g t (reverseTy t a) (reverseTy t a') ∧
    SclTy k g t (oddverseTy t a) (oddverseTy t a') ∧ SclTy k g t (dirverseTy t a) (dirverseTy t a') ∧
    SclTy k g (dualRes t) (dualTy t a) (dualTy t a') := by
  have h : ∀ n, n < 16 → Scl k g (env2 (promote t a) (promote t a) n)
      (env2 (promote t a') (promote t a') n) := by
    obtain ⟨h1, h2⟩ := env2_scl ha ha
    intro n hn
    rcases lt_or_ge n 8 with h8 | h8
    · exact h1 n h8
    · exact h2 n h8 hn
  refine ⟨fun i => ?_, fun i => ?_, fun i => ?_, fun i => ?_, fun i => ?_⟩ <;>
    obtain ⟨l0, l1, l2, l3, l4⟩ := unT_linear t i <;>
    obtain ⟨e0, e1, e2, e3, e4⟩ := unT_eval t a i <;>
    obtain ⟨f0, f1, f2, f3, f4⟩ := unT_eval t a' i
  · rw [← e0, ← f0]; exact T.linear16_scl hg hk h _ l0
  · rw [← e1, ← f1]; exact T.linear16_scl hg hk h _ l1
  · rw [← e2, ← f2]; exact T.linear16_scl hg hk h _ l2
  · rw [← e3, ← f3]; exact T.linear16_scl hg hk h _ l3
  · rw [← e4, ← f4]; exact T.linear16_scl hg hk h _ l4

end Engabra
