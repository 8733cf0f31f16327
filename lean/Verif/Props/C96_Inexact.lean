import Verif.Model.Inexact
import Verif.Lemmas.Flags
import Verif.Lemmas.ExactLattice

/-! # C96 — the flags inexact and underflow

A program that clears `FE_INEXACT`, evaluates an expression of library operators and finds the flag clear has
the exact value of the algebra; integer data leave it clear; only products underflow. -/

namespace Engabra

open F64 (HasVal Rep OnGrid)

/-! ## Specification -/

/-- Bounds in place of numbers: every sign is taken as plus, and zero as one. -/
structure Cap where
  b : ℕ

namespace Cap
instance : Add Cap := ⟨fun x y => ⟨x.b + y.b⟩⟩
instance : Sub Cap := ⟨fun x y => ⟨x.b + y.b⟩⟩
instance : Mul Cap := ⟨fun x y => ⟨x.b * y.b⟩⟩
instance : Neg Cap := ⟨fun x => x⟩
instance : Zero Cap := ⟨⟨1⟩⟩
end Cap

/-! ## One operation -/

theorem not_rounded {q : ℚ} {y : F64} : F64.rounded q y = false ↔ HasVal y q := by
  unfold F64.rounded HasVal
  rw [Bool.not_eq_false', Bool.and_eq_true, isFin_iff, decide_eq_true_iff]

theorem value_grid (x : F64) : OnGrid (-1074) x.value := by
  obtain ⟨n, e, -, he, hv⟩ := F64.value_rep (x := x)
  exact OnGrid.mono ⟨n, hv⟩ he

/-- A tiny sum of two numbers is a number. -/
theorem tiny_sum {p q : ℚ} (hp : OnGrid (-1074) p) (hq : OnGrid (-1074) q)
    (ht : |p + q| < (2 : ℚ) ^ (-1022 : ℤ)) : Rep (p + q) ∧ |p + q| < 2 ^ 1024 := by
  refine ⟨(hp.add hq).rep le_rfl (ht.le.trans ?_), ht.trans ?_⟩
  · exact zpow_le_zpow_right₀ (by norm_num) (by norm_num)
  · rw [← zpow_natCast]
    exact zpow_lt_zpow_right₀ (by norm_num) (by norm_num)

theorem op_flags {x y z : F64} {q : ℚ} (hx : x.Finite) (hy : y.Finite) :
    (EV.op (.clean x) (.clean y) q z).inexact = F64.rounded q z ∧
    (EV.op (.clean x) (.clean y) q z).underflow = (F64.rounded q z && F64.tiny q) := by
  unfold EV.op EV.clean
  simp only [(isFin_iff x).2 hx, (isFin_iff y).2 hy, Bool.true_and, Bool.false_or, and_self]

/-- **C96.** A sum or difference of finite numbers raises inexact exactly if the exact result is not a
double, and never raises underflow. -/
theorem C96_add {x y : F64} (hx : x.Finite) (hy : y.Finite) :
    ((EV.clean x + EV.clean y).inexact = true ↔ ¬∃ z : F64, z.Finite ∧ z.value = x.value + y.value) ∧
    ((EV.clean x - EV.clean y).inexact = true ↔ ¬∃ z : F64, z.Finite ∧ z.value = x.value - y.value) ∧
    (EV.clean x + EV.clean y).underflow = false ∧ (EV.clean x - EV.clean y).underflow = false := by
  have h1 := op_flags (z := x + y) (q := x.value + y.value) hx hy
  have h2 := op_flags (z := x - y) (q := x.value - y.value) hx hy
  have add : Rep (x.value + y.value) → |x.value + y.value| < 2 ^ 1024 → HasVal (x + y) (x.value + y.value) :=
    HasVal.add (.of hx) (.of hy)
  have sub : Rep (x.value - y.value) → |x.value - y.value| < 2 ^ 1024 → HasVal (x - y) (x.value - y.value) :=
    HasVal.sub (.of hx) (.of hy)
  refine ⟨?_, ?_, ?_, ?_⟩
  · change (EV.op _ _ _ _).inexact = true ↔ _
    rw [show (EV.op (EV.clean x) (EV.clean y) ((EV.clean x).val.value + (EV.clean y).val.value)
      ((EV.clean x).val + (EV.clean y).val)).inexact = _ from h1.1, ← Bool.not_eq_false, not_rounded, not_iff_not]
    exact ⟨fun h => ⟨_, h⟩, fun ⟨z, h⟩ => add (HasVal.rep h) (HasVal.lt h)⟩
  · change (EV.op _ _ _ _).inexact = true ↔ _
    rw [show (EV.op (EV.clean x) (EV.clean y) ((EV.clean x).val.value - (EV.clean y).val.value)
      ((EV.clean x).val - (EV.clean y).val)).inexact = _ from h2.1, ← Bool.not_eq_false, not_rounded, not_iff_not]
    exact ⟨fun h => ⟨_, h⟩, fun ⟨z, h⟩ => sub (HasVal.rep h) (HasVal.lt h)⟩
  · refine h1.2.trans ?_
    by_cases ht : |x.value + y.value| < (2 : ℚ) ^ (-1022 : ℤ)
    · obtain ⟨a, b⟩ := tiny_sum (value_grid x) (value_grid y) ht
      rw [not_rounded.2 (add a b), Bool.false_and]
    · unfold F64.tiny; rw [decide_eq_false ht, Bool.and_false]
  · refine h2.2.trans ?_
    by_cases ht : |x.value - y.value| < (2 : ℚ) ^ (-1022 : ℤ)
    · have ht' := ht
      rw [sub_eq_add_neg] at ht'
      obtain ⟨a, b⟩ := tiny_sum (value_grid x) (value_grid y).neg ht'
      rw [← sub_eq_add_neg] at a b
      rw [not_rounded.2 (sub a b), Bool.false_and]
    · unfold F64.tiny; rw [decide_eq_false ht, Bool.and_false]

/-- **C96.** A product of finite numbers raises inexact exactly if the exact result is not a double, and
underflow exactly if moreover it is less than the smallest normal number. -/
theorem C96_mul {x y : F64} (hx : x.Finite) (hy : y.Finite) :
    ((EV.clean x * EV.clean y).inexact = true ↔ ¬∃ z : F64, z.Finite ∧ z.value = x.value * y.value) ∧
    ((EV.clean x * EV.clean y).underflow = true ↔
      (¬∃ z : F64, z.Finite ∧ z.value = x.value * y.value) ∧ |x.value * y.value| < (2 : ℚ) ^ (-1022 : ℤ)) := by
  have h1 := op_flags (z := x * y) (q := x.value * y.value) hx hy
  have key : F64.rounded (x.value * y.value) (x * y) = true ↔
      ¬∃ z : F64, z.Finite ∧ z.value = x.value * y.value := by
    rw [← Bool.not_eq_false, not_rounded, not_iff_not]
    exact ⟨fun h => ⟨_, h⟩, fun ⟨z, h⟩ => HasVal.mul (.of hx) (.of hy) (HasVal.rep h) (HasVal.lt h)⟩
  refine ⟨?_, ?_⟩
  · rw [← key]; exact Bool.eq_iff_iff.1 h1.1
  · rw [← key]
    refine (Bool.eq_iff_iff.1 h1.2).trans ?_
    rw [Bool.and_eq_true, F64.tiny, decide_eq_true_iff]

/-! ## Expressions -/

theorem evE_val (env : Nat → F64) (t : T) : (t.ev fun n => EV.clean (env n)).val = t.ev env := by
  induction t with
  | zero => rfl
  | var n => rfl
  | add a b iha ihb => show (T.ev (fun n => EV.clean (env n)) a).val + (T.ev (fun n => EV.clean (env n)) b).val = _; rw [iha, ihb]; rfl
  | sub a b iha ihb => show (T.ev (fun n => EV.clean (env n)) a).val - (T.ev (fun n => EV.clean (env n)) b).val = _; rw [iha, ihb]; rfl
  | mul a b iha ihb => show (T.ev (fun n => EV.clean (env n)) a).val * (T.ev (fun n => EV.clean (env n)) b).val = _; rw [iha, ihb]; rfl
  | neg a ih => show - (T.ev (fun n => EV.clean (env n)) a).val = _; rw [ih]; rfl

theorem op_clear {a b : EV} {q : ℚ} {y : F64} (h : (EV.op a b q y).inexact = false) :
    a.inexact = false ∧ b.inexact = false ∧ (a.val.Finite → b.val.Finite → HasVal y q) := by
  unfold EV.op at h
  simp only [Bool.or_eq_false_iff] at h
  obtain ⟨⟨h1, h2⟩, h3⟩ := h
  refine ⟨h1, h2, fun ha hb => ?_⟩
  rw [(isFin_iff _).2 ha, (isFin_iff _).2 hb, Bool.true_and, Bool.true_and] at h3
  exact not_rounded.1 h3

theorem ev_exact (env : Nat → F64) (hf : ∀ n, (env n).Finite) (t : T)
    (h : (t.ev fun n => EV.clean (env n)).inexact = false) :
    HasVal (t.ev fun n => EV.clean (env n)).val (t.ev fun n => (env n).value) := by
  induction t with
  | zero => exact F64.hasVal_zero'
  | var n => exact .of (hf n)
  | add a b iha ihb =>
    obtain ⟨h1, h2, h3⟩ := op_clear h
    have A := iha h1; have B := ihb h2
    have := h3 A.1 B.1
    rw [A.2, B.2] at this
    exact this
  | sub a b iha ihb =>
    obtain ⟨h1, h2, h3⟩ := op_clear h
    have A := iha h1; have B := ihb h2
    have := h3 A.1 B.1
    rw [A.2, B.2] at this
    exact this
  | mul a b iha ihb =>
    obtain ⟨h1, h2, h3⟩ := op_clear h
    have A := iha h1; have B := ihb h2
    have := h3 A.1 B.1
    rw [A.2, B.2] at this
    exact this
  | neg a ih => exact (ih h).neg

/-- **C96.** Recording the flags does not change the numbers. -/
theorem C96_values (env : Nat → Sigma fun t : Ty => t.D F64) (e : Expr) :
    (e.eval fun i => mapS EV.clean (env i)).map (mapS EV.val) = e.eval env := by
  rw [eval_sym', eval_sym env, Option.map_map]
  congr 1
  funext r
  show mapS EV.val (mapS _ r) = _
  unfold mapS
  simp only
  rw [mapTy_mapTy', mapTy_congr' (evE_val _)]

theorem varEnv_of {P : F64 → Prop} (h0 : P 0) (env : Nat → Sigma fun t : Ty => t.D F64)
    (hv : ∀ i, ∀ c ∈ comps (env i).1 (env i).2, P c) (n : Nat) : P (varEnv env n) := by
  unfold varEnv
  have h := hv (n / 8)
  generalize (⟨n % 8, _⟩ : Fin 8) = k
  generalize env (n / 8) = x at *
  obtain ⟨t, x⟩ := x
  revert k
  cases t <;>
    simp only [comps, List.forall_mem_cons, List.not_mem_nil, false_imp_iff, implies_true,
      and_true] at h <;> (try casesm* _ ∧ _) <;>
    (apply forall_fin8 <;> assumption)

/-- **C96.** Any expression of library operators on finite data: the same expression over the rational numbers
has a value `y` of the same type, and every component whose computation has not raised inexact is finite and
equal to that of `y`. -/
theorem C96_exact (env : Nat → Sigma fun t : Ty => t.D F64) (e : Expr)
    (hv : ∀ i, ∀ c ∈ comps (env i).1 (env i).2, c.Finite)
    (r : Sigma fun t : Ty => t.D EV) (h : (e.eval fun i => mapS EV.clean (env i)) = some r) :
    ∃ y, (e.eval fun i => mapS F64.value (env i)) = some y ∧ y.1 = r.1 ∧
      List.Forall₂ (fun c q => c.inexact = false → c.val.Finite ∧ c.val.value = q)
        (comps r.1 r.2) (comps y.1 y.2) := by
  have hf := varEnv_of F64.hasVal_zero'.1 env hv
  rw [eval_sym', Option.map_eq_some_iff] at h
  obtain ⟨q, hq, rfl⟩ := h
  refine ⟨mapS (T.ev fun n => (varEnv env n).value) q, ?_, rfl, ?_⟩
  · rw [eval_sym', hq]; rfl
  · have e1 : comps (mapS (T.ev fun n => EV.clean (varEnv env n)) q).1
        (mapS (T.ev fun n => EV.clean (varEnv env n)) q).2 =
        (comps q.1 q.2).map (T.ev fun n => EV.clean (varEnv env n)) := comps_mapTy' _ _ _
    have e2 : comps (mapS (T.ev fun n => (varEnv env n).value) q).1
        (mapS (T.ev fun n => (varEnv env n).value) q).2 =
        (comps q.1 q.2).map (T.ev fun n => (varEnv env n).value) := comps_mapTy' _ _ _
    rw [e1, e2, List.forall₂_map_left_iff, List.forall₂_map_right_iff, List.forall₂_same]
    exact fun t _ ht => ev_exact _ hf t ht

/-- **C96.** Flags are sticky: a flag raised for an operand is raised for the result. -/
theorem C96_sticky (a b : EV) :
    ((a.inexact = true ∨ b.inexact = true) →
      (a + b).inexact = true ∧ (a - b).inexact = true ∧ (a * b).inexact = true) ∧
    ((a.underflow = true ∨ b.underflow = true) →
      (a + b).underflow = true ∧ (a - b).underflow = true ∧ (a * b).underflow = true) ∧
    (-a).inexact = a.inexact ∧ (-a).underflow = a.underflow := by
  have op1 : ∀ q y, (a.inexact = true ∨ b.inexact = true) → (EV.op a b q y).inexact = true := by
    intro q y h
    unfold EV.op
    simp only [Bool.or_eq_true]
    exact .inl h
  have op2 : ∀ q y, (a.underflow = true ∨ b.underflow = true) → (EV.op a b q y).underflow = true := by
    intro q y h
    unfold EV.op
    simp only [Bool.or_eq_true]
    exact .inl h
  exact ⟨fun h => ⟨op1 _ _ h, op1 _ _ h, op1 _ _ h⟩, fun h => ⟨op2 _ _ h, op2 _ _ h, op2 _ _ h⟩, rfl, rfl⟩

theorem op_under {a b : EV} {q : ℚ} {y : F64} (ha : a.underflow = true → a.inexact = true)
    (hb : b.underflow = true → b.inexact = true) (h : (EV.op a b q y).underflow = true) :
    (EV.op a b q y).inexact = true := by
  unfold EV.op at h ⊢
  simp only [Bool.or_eq_true] at h ⊢
  rcases h with (h | h) | h
  · exact .inl (.inl (ha h))
  · exact .inl (.inr (hb h))
  · exact .inr (Bool.and_eq_true _ _ ▸ h).1

theorem ev_under (env : Nat → F64) (t : T) (h : (t.ev fun n => EV.clean (env n)).underflow = true) :
    (t.ev fun n => EV.clean (env n)).inexact = true := by
  induction t with
  | zero => cases h
  | var n => cases h
  | add a b iha ihb => exact op_under iha ihb h
  | sub a b iha ihb => exact op_under iha ihb h
  | mul a b iha ihb => exact op_under iha ihb h
  | neg a ih => exact ih h

/-- **C96.** In any expression, on any data, underflow is raised only together with inexact. -/
theorem C96_underflow_inexact (env : Nat → Sigma fun t : Ty => t.D F64) (e : Expr)
    (r : Sigma fun t : Ty => t.D EV) (h : (e.eval fun i => mapS EV.clean (env i)) = some r) :
    ∀ c ∈ comps r.1 r.2, c.underflow = true → c.inexact = true := by
  rw [eval_sym', Option.map_eq_some_iff] at h
  obtain ⟨q, hq, rfl⟩ := h
  have e1 : comps (mapS (T.ev fun n => EV.clean (varEnv env n)) q).1
      (mapS (T.ev fun n => EV.clean (varEnv env n)) q).2 =
      (comps q.1 q.2).map (T.ev fun n => EV.clean (varEnv env n)) := comps_mapTy' _ _ _
  rw [e1]
  intro c hc
  obtain ⟨t, ht, rfl⟩ := List.mem_map.1 hc
  exact ev_under _ t

/-! ## Integers -/

theorem op_silent {a b : EV} {q : ℚ} {y : F64} (ha : a.inexact = false ∧ a.underflow = false)
    (hb : b.inexact = false ∧ b.underflow = false) (h : HasVal y q) :
    (EV.op a b q y).inexact = false ∧ (EV.op a b q y).underflow = false := by
  unfold EV.op
  simp only [ha.1, ha.2, hb.1, hb.2, not_rounded.2 h, Bool.and_false, Bool.or_self, Bool.false_and, and_self]

theorem int_rep_of {n : ℤ} (h : |(n : ℚ)| ≤ 2 ^ 53) : Rep (n : ℚ) ∧ |(n : ℚ)| < 2 ^ 1024 := by
  refine ⟨OnGrid.rep (g := 0) ⟨n, by simp⟩ (by norm_num) ?_, h.trans_lt (pow_lt_pow_right₀ (by norm_num) (by norm_num))⟩
  rw [zero_add]
  exact_mod_cast h

theorem ev_int (env : Nat → F64) {M : ℕ} (hM : 1 ≤ M)
    (hf : ∀ n, (env n).Finite ∧ ∃ k : ℤ, (env n).value = k ∧ |(k : ℚ)| ≤ M) (t : T) :
    1 ≤ (t.ev fun _ => Cap.mk M).b ∧ ((t.ev fun _ => Cap.mk M).b ≤ 2 ^ 53 →
      ((t.ev fun n => EV.clean (env n)).inexact = false ∧ (t.ev fun n => EV.clean (env n)).underflow = false) ∧
      ∃ k : ℤ, HasVal (t.ev fun n => EV.clean (env n)).val k ∧ |(k : ℚ)| ≤ (t.ev fun _ => Cap.mk M).b) := by
  induction t with
  | zero => exact ⟨le_rfl, fun _ => ⟨⟨rfl, rfl⟩, 0, by rw [Int.cast_zero]; exact F64.hasVal_zero', by norm_num⟩⟩
  | var n =>
    obtain ⟨h1, k, h2, h3⟩ := hf n
    exact ⟨hM, fun _ => ⟨⟨rfl, rfl⟩, k, ⟨h1, h2⟩, h3⟩⟩
  | add a b iha ihb =>
    obtain ⟨a1, a2⟩ := iha
    obtain ⟨b1, b2⟩ := ihb
    change 1 ≤ (T.ev (fun _ => Cap.mk M) a).b + (T.ev (fun _ => Cap.mk M) b).b ∧
      ((T.ev (fun _ => Cap.mk M) a).b + (T.ev (fun _ => Cap.mk M) b).b ≤ 2 ^ 53 → (_ ∧ _) ∧ ∃ k : ℤ, _ ∧
        |(k : ℚ)| ≤ ((T.ev (fun _ => Cap.mk M) a).b + (T.ev (fun _ => Cap.mk M) b).b : ℕ))
    refine ⟨by omega, fun hb => ?_⟩
    obtain ⟨A, i, A1, A2⟩ := a2 (by omega)
    obtain ⟨B, j, B1, B2⟩ := b2 (by omega)
    have hk : |((i + j : ℤ) : ℚ)| ≤ ((T.ev (fun _ => Cap.mk M) a).b + (T.ev (fun _ => Cap.mk M) b).b : ℕ) := by
      push_cast
      exact (abs_add_le _ _).trans (add_le_add A2 B2)
    obtain ⟨r1, r2⟩ := int_rep_of (hk.trans (by exact_mod_cast hb))
    push_cast at r1 r2
    have H := A1.add B1 r1 r2
    refine ⟨op_silent A B ?_, i + j, ?_, hk⟩
    · rw [A1.2, B1.2]; exact H
    · push_cast; exact H
  | sub a b iha ihb =>
    obtain ⟨a1, a2⟩ := iha
    obtain ⟨b1, b2⟩ := ihb
    change 1 ≤ (T.ev (fun _ => Cap.mk M) a).b + (T.ev (fun _ => Cap.mk M) b).b ∧
      ((T.ev (fun _ => Cap.mk M) a).b + (T.ev (fun _ => Cap.mk M) b).b ≤ 2 ^ 53 → (_ ∧ _) ∧ ∃ k : ℤ, _ ∧
        |(k : ℚ)| ≤ ((T.ev (fun _ => Cap.mk M) a).b + (T.ev (fun _ => Cap.mk M) b).b : ℕ))
    refine ⟨by omega, fun hb => ?_⟩
    obtain ⟨A, i, A1, A2⟩ := a2 (by omega)
    obtain ⟨B, j, B1, B2⟩ := b2 (by omega)
    have hk : |((i - j : ℤ) : ℚ)| ≤ ((T.ev (fun _ => Cap.mk M) a).b + (T.ev (fun _ => Cap.mk M) b).b : ℕ) := by
      push_cast
      exact (abs_sub _ _).trans (add_le_add A2 B2)
    obtain ⟨r1, r2⟩ := int_rep_of (hk.trans (by exact_mod_cast hb))
    push_cast at r1 r2
    have H := A1.sub B1 r1 r2
    refine ⟨op_silent A B ?_, i - j, ?_, hk⟩
    · rw [A1.2, B1.2]; exact H
    · push_cast; exact H
  | mul a b iha ihb =>
    obtain ⟨a1, a2⟩ := iha
    obtain ⟨b1, b2⟩ := ihb
    change 1 ≤ (T.ev (fun _ => Cap.mk M) a).b * (T.ev (fun _ => Cap.mk M) b).b ∧
      ((T.ev (fun _ => Cap.mk M) a).b * (T.ev (fun _ => Cap.mk M) b).b ≤ 2 ^ 53 → (_ ∧ _) ∧ ∃ k : ℤ, _ ∧
        |(k : ℚ)| ≤ ((T.ev (fun _ => Cap.mk M) a).b * (T.ev (fun _ => Cap.mk M) b).b : ℕ))
    refine ⟨Nat.mul_pos a1 b1, fun hb => ?_⟩
    obtain ⟨A, i, A1, A2⟩ := a2 ((Nat.le_mul_of_pos_right _ b1).trans hb)
    obtain ⟨B, j, B1, B2⟩ := b2 ((Nat.le_mul_of_pos_left _ a1).trans hb)
    have hk : |((i * j : ℤ) : ℚ)| ≤ ((T.ev (fun _ => Cap.mk M) a).b * (T.ev (fun _ => Cap.mk M) b).b : ℕ) := by
      push_cast
      rw [abs_mul]
      exact mul_le_mul A2 B2 (abs_nonneg _) (by positivity)
    obtain ⟨r1, r2⟩ := int_rep_of (hk.trans (by exact_mod_cast hb))
    push_cast at r1 r2
    have H := A1.mul B1 r1 r2
    refine ⟨op_silent A B ?_, i * j, ?_, hk⟩
    · rw [A1.2, B1.2]; exact H
    · push_cast; exact H
  | neg a ih =>
    obtain ⟨a1, a2⟩ := ih
    refine ⟨a1, fun hb => ?_⟩
    obtain ⟨A, i, A1, A2⟩ := a2 hb
    refine ⟨A, -i, ?_, ?_⟩
    · push_cast; exact A1.neg
    · push_cast; rw [abs_neg]; exact A2

/-- **C96.** Integer data raise neither flag: if all components are integers of at most `M`, and the same
expression with `M` for every component and plus for every sign does not exceed `2^53`, inexact and underflow
stay clear. -/
theorem C96_integers (env : Nat → Sigma fun t : Ty => t.D F64) (e : Expr) {M : ℕ} (hM : 1 ≤ M)
    (hv : ∀ i, ∀ c ∈ comps (env i).1 (env i).2, c.Finite ∧ ∃ k : ℤ, c.value = k ∧ |(k : ℚ)| ≤ M)
    (m : Sigma fun t : Ty => t.D Cap) (hm : (e.eval fun i => mapS (fun _ => Cap.mk M) (env i)) = some m)
    (hb : ∀ c ∈ comps m.1 m.2, c.b ≤ 2 ^ 53)
    (r : Sigma fun t : Ty => t.D EV) (h : (e.eval fun i => mapS EV.clean (env i)) = some r) :
    ∀ c ∈ comps r.1 r.2, c.inexact = false ∧ c.underflow = false := by
  have hf := varEnv_of (P := fun c => c.Finite ∧ ∃ k : ℤ, c.value = k ∧ |(k : ℚ)| ≤ M)
    ⟨F64.hasVal_zero'.1, 0, by simpa using F64.hasVal_zero'.2, by simp⟩ env hv
  rw [eval_sym', Option.map_eq_some_iff] at h hm
  obtain ⟨q, hq, rfl⟩ := h
  obtain ⟨q', hq', rfl⟩ := hm
  rw [hq, Option.some.injEq] at hq'
  subst hq'
  have e1 : comps (mapS (T.ev fun n => EV.clean (varEnv env n)) q).1
      (mapS (T.ev fun n => EV.clean (varEnv env n)) q).2 =
      (comps q.1 q.2).map (T.ev fun n => EV.clean (varEnv env n)) := comps_mapTy' _ _ _
  have e2 : comps (mapS (T.ev fun _ => Cap.mk M) q).1
      (mapS (T.ev fun _ => Cap.mk M) q).2 =
      (comps q.1 q.2).map (T.ev fun _ => Cap.mk M) := comps_mapTy' _ _ _
  rw [e2] at hb
  rw [e1]
  intro c hc
  obtain ⟨t, ht, rfl⟩ := List.mem_map.1 hc
  exact (((ev_int _ hM hf t).2 (hb _ (List.mem_map.2 ⟨t, ht, rfl⟩))).1)

/-! ## What the flags do not say -/

/-- `2^-1200` is not a double. -/
theorem not_double : ¬∃ z : F64, z.Finite ∧ z.value = (2 : ℚ) ^ (-600 : ℤ) * (2 : ℚ) ^ (-600 : ℤ) := by
  rintro ⟨z, -, hz⟩
  obtain ⟨n, hn⟩ := value_grid z
  rw [hz] at hn
  have e : (2 : ℚ) ^ (-600 : ℤ) * (2 : ℚ) ^ (-600 : ℤ) = (2 : ℚ) ^ (-126 : ℤ) * (2 : ℚ) ^ (-1074 : ℤ) := by
    rw [← zpow_add₀ (by norm_num), ← zpow_add₀ (by norm_num), show (-600 + -600 : ℤ) = -126 + -1074 by norm_num only]
  rw [e] at hn
  have h := mul_right_cancel₀ (F64.two_zpow_pos (K := ℚ) (-1074)).ne' hn
  have h1 : (0 : ℚ) < n := by rw [← h]; exact F64.two_zpow_pos _
  have h2 : (n : ℚ) < 1 := by
    rw [← h]; exact zpow_lt_one_of_neg₀ (by norm_num) (by norm_num)
  have h1' : (0 : ℤ) < n := by exact_mod_cast h1
  have h2' : n < (1 : ℤ) := by exact_mod_cast h2
  omega

/-- **C96.** The flags can be raised although the result is exact: `(x * x) * y` of the scalars `x = 2^-600` and
`y = 0` raises both, and its value is the exact one. -/
theorem C96_not_conversely : ∃ (env : Nat → Sigma fun t : Ty => t.D F64) (e : Expr) (c : EV),
    (∀ i, ∀ c ∈ comps (env i).1 (env i).2, c.Finite) ∧
    (e.eval fun i => mapS EV.clean (env i)) = some ⟨.sca, ⟨⟨c⟩⟩⟩ ∧
    (e.eval fun i => mapS F64.value (env i)) = some ⟨.sca, ⟨⟨c.val.value⟩⟩⟩ ∧
    c.val.Finite ∧ c.inexact = true ∧ c.underflow = true := by
  have v : HasVal (F64.pow2 (-600)) ((2 : ℚ) ^ (-600 : ℤ)) := F64.pow2_val (by norm_num) (by norm_num)
  have hnd := not_double
  have hsm : |(2 : ℚ) ^ (-600 : ℤ) * (2 : ℚ) ^ (-600 : ℤ)| < (2 : ℚ) ^ (-1022 : ℤ) := by
    rw [← zpow_add₀ (by norm_num), abs_of_pos (F64.two_zpow_pos _)]
    exact zpow_lt_zpow_right₀ (by norm_num) (by norm_num only)
  generalize F64.pow2 (-600) = x at v
  obtain ⟨f, hw⟩ := v
  rw [← hw] at hnd hsm
  obtain ⟨m1, m2⟩ := C96_mul f f
  have hfin : (x * x).Finite := by
    have hr : |F64.rnVal (x.value * x.value)| < 2 ^ 1024 := by
      have h1 : (2 : ℚ) ^ (-1022 : ℤ) < 2 ^ 1024 := by
        rw [← zpow_natCast]; exact zpow_lt_zpow_right₀ (by norm_num) (by norm_num)
      have h2 : Rep ((2 : ℚ) ^ (-1022 : ℤ)) := ⟨1, -1022, by norm_num, by norm_num, by rw [Int.cast_one, one_mul]⟩
      rw [← F64.rnVal_abs]
      exact (F64.rnVal_le_rep h2 (by simpa using hsm.le)).trans_lt h1
    exact (F64.mul_spec f f hr).1
  have hz : HasVal (x * x * 0) 0 := by
    have := (HasVal.of hfin).mul F64.hasVal_zero' (by rw [mul_zero]; exact F64.hasVal_zero'.rep)
      (by rw [mul_zero]; exact F64.hasVal_zero'.lt)
    rwa [mul_zero] at this
  refine ⟨fun i => match i with | 0 => ⟨.sca, ⟨⟨x⟩⟩⟩ | _ + 1 => ⟨.sca, ⟨⟨0⟩⟩⟩, .mul (.mul (.var 0) (.var 0)) (.var 1),
    EV.clean x * EV.clean x * EV.clean 0, ?_, rfl, ?_, hz.1, ?_, ?_⟩
  · intro i
    rcases i with _ | i
    · simpa [comps] using f
    · simp only [comps, List.mem_singleton, forall_eq]; exact F64.hasVal_zero'.1
  · have e : (EV.clean x * EV.clean x * EV.clean 0).val.value = x.value * x.value * (0 : F64).value := by
      rw [F64.hasVal_zero'.2, mul_zero]; exact hz.2
    rw [e]; rfl
  · show (_ || _ || _) = true
    rw [m1.2 hnd]; rfl
  · show (_ || _ || _) = true
    rw [m2.2 ⟨hnd, hsm⟩]; rfl

/-! ## Hypotheses met -/

/-- The product of a vector and a bivector with integer components. -/
example : ∃ r, ((Expr.mul (.var 0) (.var 1)).eval fun i => mapS EV.clean (intEnv i)) = some r ∧
    ∀ c ∈ comps r.1 r.2, c.inexact = false ∧ c.underflow = false := by
  obtain ⟨r, hr⟩ : ∃ r, ((Expr.mul (.var 0) (.var 1)).eval fun i => mapS EV.clean (intEnv i)) = some r := ⟨_, rfl⟩
  refine ⟨r, hr, C96_integers intEnv (.mul (.var 0) (.var 1)) (M := 11) (by norm_num) (fun i c hc => ?_)
    _ rfl ?_ r hr⟩
  · obtain ⟨h1, n, h2, h3⟩ := intEnv_ok i c hc
    exact ⟨h1, n, h2, by exact_mod_cast h3⟩
  · have h : ∀ n ∈ [242, 242, 242, 364], n ≤ 2 ^ 53 := by decide
    intro c hc
    exact h c.b (List.mem_map_of_mem (f := Cap.b) hc)

end Engabra
