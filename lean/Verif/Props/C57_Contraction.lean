import Verif.Lemmas.FusedExpr

/-! # C57: contraction of floating-point expressions

A compiler may evaluate `a * b + c` with one rounding.  The statements below hold for every way to
do so in a whole expression of a user program (`Contracted`, Model/Fused.lean). -/

namespace Engabra

open F64 (Finite HasVal uro tinyErr)

/-- Specification: the operands as arithmetic variables: component `k` of operand `i` is variable
`8 i + k`. -/
def symEnv (env : Nat → Sigma fun t : Ty => t.D F64) (i : Nat) : Sigma fun t : Ty => t.D T :=
  ⟨(env i).1, sv (env i).1 (8 * i)⟩

/-- Specification: the doubles in these variables. -/
noncomputable def varEnv (env : Nat → Sigma fun t : Ty => t.D F64) (n : Nat) : F64 :=
  cf (promote (env (n / 8)).1 (env (n / 8)).2) ⟨n % 8, Nat.mod_lt _ (by norm_num)⟩

/-- Specification: `d` may be component `k` of the result of the expression, when the compiler
contracts the arithmetic of the whole expression in any way it likes. -/
def Expr.MayBe (env : Nat → Sigma fun t : Ty => t.D F64) (e : Expr) (k : Fin 8) (d : F64) : Prop :=
  ∃ r, e.eval (symEnv env) = some r ∧ Contracted (varEnv env) (cf (promote r.1 r.2) k) d

/-- Specification: the expression on absolute values, every product inflated by `1 + 9 u` and every
sum by `1 + u`, where `u = 2^-53`, and an underflow term in both. -/
def Expr.fusedBound (m : Nat → Fin 8 → ℚ) : Expr → Fin 8 → ℚ
  | .var i => fun k => |m i k|
  | .mul a b => fun k =>
      (1 + 9 * 2 ^ (-53 : ℤ)) * absMul (a.fusedBound m) (b.fusedBound m) k + 2 ^ (-1059 : ℤ)
  | .add a b => fun k =>
      (1 + 2 ^ (-53 : ℤ)) * (a.fusedBound m k + b.fusedBound m k) + 2 ^ (-1073 : ℤ)
  | .sub a b => fun k =>
      (1 + 2 ^ (-53 : ℤ)) * (a.fusedBound m k + b.fusedBound m k) + 2 ^ (-1073 : ℤ)
  | .neg a => a.fusedBound m
  | .reverse a => a.fusedBound m
  | .oddverse a => a.fusedBound m
  | .dirverse a => a.fusedBound m
  | .dual a => absDual (a.fusedBound m)

/-! ## Symbolic and actual evaluation -/

theorem varEnv_at (env : Nat → Sigma fun t : Ty => t.D F64) (i : Nat) (k : Fin 8) :
    varEnv env (8 * i + k) = cf (promote (env i).1 (env i).2) k := by
  have h1 : (8 * i + (k : Nat)) / 8 = i := by omega
  have h2 : (8 * i + (k : Nat)) % 8 = k := by omega
  unfold varEnv
  simp only [h2, Fin.eta]
  rw [h1]

theorem symEnv_map {α : Type} [Add α] [Sub α] [Mul α] [Neg α] [Zero α]
    (env : Nat → Sigma fun t : Ty => t.D F64) (f : F64 → α) :
    (fun i => mapS (T.ev fun n => f (varEnv env n)) (symEnv env i)) = fun i => mapS f (env i) := by
  funext i
  have h := fun k => varEnv_at env i k
  obtain ⟨h0, h1, h2, h3, h4, h5, h6, h7⟩ := all8 h
  unfold symEnv mapS
  generalize hx : env i = x at *
  obtain ⟨t, x⟩ := x
  simp only [Fin.isValue, Fin.val_zero, Fin.val_one, Fin.val_two, add_zero] at h0 h1 h2
  have e3 : varEnv env (8 * i + 3) = _ := h3
  have e4 : varEnv env (8 * i + 4) = _ := h4
  have e5 : varEnv env (8 * i + 5) = _ := h5
  have e6 : varEnv env (8 * i + 6) = _ := h6
  have e7 : varEnv env (8 * i + 7) = _ := h7
  clear h h3 h4 h5 h6 h7
  cases t <;> simp only [mapTy, sv, T.ev, h0, h1, h2, e3, e4, e5, e6, e7] <;> rfl

theorem mapS_id (r : Sigma fun t : Ty => t.D F64) : mapS (fun x => x) r = r := by
  obtain ⟨t, x⟩ := r
  cases t <;> rfl

/-- What the program computes without contraction. -/
theorem eval_sym (env : Nat → Sigma fun t : Ty => t.D F64) (e : Expr) :
    e.eval env = (e.eval (symEnv env)).map (mapS (T.ev (varEnv env))) := by
  rw [← eval_map, symEnv_map env fun x => x]
  simp only [mapS_id]

/-- The exact value. -/
theorem eval_val (env : Nat → Sigma fun t : Ty => t.D F64) (e : Expr) :
    e.eval (fun i => mapS F64.value (env i))
      = (e.eval (symEnv env)).map (mapS (T.ev fun n => (varEnv env n).value)) := by
  rw [← eval_map, symEnv_map env F64.value]

theorem exact_value (env : Nat → Sigma fun t : Ty => t.D F64) (e : Expr) (hr : e.NoReversed env)
    (r : Sigma fun t : Ty => t.D T) (h : e.eval (symEnv env) = some r) (k : Fin 8) :
    (cf (promote r.1 r.2) k).ev (fun n => (varEnv env n).value) = cf (e.evalMV (exactEnv env)) k := by
  have h1 : e.eval (fun i => mapS F64.value (env i))
      = some (mapS (T.ev fun n => (varEnv env n).value) r) := by rw [eval_val, h]; rfl
  have h2 : e.NoReversed fun i => mapS F64.value (env i) := by
    intro a b hab x y hx hy
    rw [eval_val, Option.map_eq_some_iff] at hx hy
    obtain ⟨x', hx', rfl⟩ := hx
    obtain ⟨y', hy', rfl⟩ := hy
    exact hr a b hab (mapS (T.ev (varEnv env)) x') (mapS (T.ev (varEnv env)) y')
      (by rw [eval_sym, hx']; rfl) (by rw [eval_sym, hy']; rfl)
  have h3 := C42_expression _ e h2 _ h1
  rw [← cf_map]
  exact congrArg (fun x => cf x k) h3

/-! ## The error bound -/

theorem Good.widen {env : Nat → F64} {t : T} {q U A U' A' : ℚ} (h : Good env t q U A)
    (hA : A ≤ A') (hU : U - A ≤ U' - A') : Good env t q U' A' :=
  ⟨fun c hc => ⟨(h.1 c hc).1, (h.1 c hc).2.1.trans hU, (h.1 c hc).2.2.trans hA⟩,
   fun s a b e x y hx hy => by
    obtain ⟨f1, f2, n⟩ := h.2 s a b e x y hx hy
    exact ⟨f1, f2, n.1.trans hU, n.2.trans hA⟩⟩

theorem env8_ind {α : Type} {P : Nat → α → Prop} {z : α} {x y : Fin 8 → α} (n : Nat)
    (hx : ∀ k : Fin 8, P k (x k)) (hy : ∀ k : Fin 8, P (8 + k) (y k)) (hz : ∀ n, P (n + 16) z) :
    P n (env8 z x y n) := by
  obtain ⟨x0, x1, x2, x3, x4, x5, x6, x7⟩ := all8 hx
  obtain ⟨y0, y1, y2, y3, y4, y5, y6, y7⟩ := all8 hy
  match n with
  | 0 => exact x0
  | 1 => exact x1
  | 2 => exact x2
  | 3 => exact x3
  | 4 => exact x4
  | 5 => exact x5
  | 6 => exact x6
  | 7 => exact x7
  | 8 => exact y0
  | 9 => exact y1
  | 10 => exact y2
  | 11 => exact y3
  | 12 => exact y4
  | 13 => exact y5
  | 14 => exact y6
  | 15 => exact y7
  | n + 16 => exact hz n

theorem env8_rel {α β γ δ : Type} {P : α → β → γ → δ → Prop} {z : α} {x y : Fin 8 → α} {z' : β}
    {x' y' : Fin 8 → β} {z'' : γ} {x'' y'' : Fin 8 → γ} {w : δ} {u v : Fin 8 → δ} (n : Nat)
    (hx : ∀ k, P (x k) (x' k) (x'' k) (u k)) (hy : ∀ k, P (y k) (y' k) (y'' k) (v k))
    (hz : P z z' z'' w) :
    P (env8 z x y n) (env8 z' x' y' n) (env8 z'' x'' y'' n) (env8 w u v n) := by
  match n with
  | 0 => exact hx 0
  | 1 => exact hx 1
  | 2 => exact hx 2
  | 3 => exact hx 3
  | 4 => exact hx 4
  | 5 => exact hx 5
  | 6 => exact hx 6
  | 7 => exact hx 7
  | 8 => exact hy 0
  | 9 => exact hy 1
  | 10 => exact hy 2
  | 11 => exact hy 3
  | 12 => exact hy 4
  | 13 => exact hy 5
  | 14 => exact hy 6
  | 15 => exact hy 7
  | _ + 16 => exact hz

/-- The components of a flat operation on good operands. -/
theorem op_good {env : Nat → F64} {q : Nat → ℚ} {a b : MultiVector T} {U A V B : Fin 8 → ℚ}
    (ga : ∀ k, Good env (cf a k) ((cf a k).ev q) (U k) (A k))
    (gb : ∀ k, Good env (cf b k) ((cf b k).ev q) (V k) (B k))
    (hA : ∀ k, 0 ≤ A k ∧ A k ≤ U k) (hB : ∀ k, 0 ≤ B k ∧ B k ≤ V k)
    {F : T} {d : Nat} {L : List (List Nat)} (hF : F.within d L = true) (hd : d ≤ 8)
    (hs : monSum (env8 0 U V) L ≤ F64.safe) :
    Good env (F.ev (env8 0 (cf a) (cf b))) ((F.ev (env8 0 (cf a) (cf b))).ev q)
      (flatBound d (monSum (env8 0 U V) L)) (monSum (env8 0 A B) L) := by
  unfold T.within at hF
  simp only [Bool.and_eq_true, decide_eq_true_eq] at hF
  obtain ⟨⟨h1, h2⟩, h3⟩ := hF
  obtain ⟨R, hR⟩ := absv_sub h3
  have n0 : ∀ n, 0 ≤ env8 0 A B n ∧ env8 0 A B n ≤ env8 0 U V n := fun n =>
    env8_rel (P := fun a u (_ _ : ℚ) => 0 ≤ a ∧ a ≤ u) (x'' := A) (y'' := A) (z'' := 0)
      (u := A) (v := A) (w := 0) n hA hB ⟨le_rfl, le_rfl⟩
  have g : ∀ n, Good env (env8 0 (cf a) (cf b) n) ((env8 0 (cf a) (cf b) n).ev q)
      (env8 0 U V n) (env8 0 A B n) := fun n =>
    env8_rel (P := fun t u a (_ : ℚ) => Good env t (t.ev q) u a) (u := A) (v := A) (w := 0)
      n ga gb (Good.zero env)
  have mR := monSum_mono (fun n => (n0 n).1) (fun n => (n0 n).2) R
  have hU := hR (env8 0 U V)
  have hA' := hR (env8 0 A B)
  have vU := T.absv_nonneg (fun n => (n0 n).1.trans (n0 n).2) F
  have fl := flat_good g (fun n => (n0 n).1.trans (n0 n).2) F h1 (h2.trans hd) (by linarith)
  rw [T.ev_ev]
  refine fl.widen (by linarith) ?_
  have h4 : flatBound F.depth (F.absv (env8 0 U V)) ≤ flatBound d (F.absv (env8 0 U V)) :=
    flatBound_mono h2 vU le_rfl
  have h5 : flatBound d (F.absv (env8 0 U V)) + monSum (env8 0 U V) R
      ≤ flatBound d (monSum (env8 0 U V) L) := by
    unfold flatBound
    rw [← hU, mul_add]
    have h6 : (1 : ℚ) ≤ (1 + uro) ^ d := one_le_pow₀ (by linarith [F64.uro_pos])
    have h7 := mul_le_mul_of_nonneg_right h6 (mR.1.trans mR.2)
    linarith
  linarith

theorem flat8 {X : ℚ} (hX : 0 ≤ X) :
    flatBound 8 X ≤ (1 + 9 * 2 ^ (-53 : ℤ)) * X + 2 ^ (-1059 : ℤ) := by
  have := u8_le hX
  unfold flatBound
  linarith [F64.tinyErr_pos]

theorem flat1 (X : ℚ) : flatBound 1 X ≤ (1 + 2 ^ (-53 : ℤ)) * X + 2 ^ (-1073 : ℤ) := by
  have h1 : uro = 2 ^ (-53 : ℤ) := rfl
  have h2 : 4 * tinyErr = 2 ^ (-1073 : ℤ) := by
    unfold tinyErr
    rw [show (4 : ℚ) = 2 ^ (2 : ℤ) by norm_num, ← zpow_add₀ (by norm_num)]; norm_num
  unfold flatBound
  rw [h1]
  have := F64.tinyErr_pos
  linarith

theorem fusedBound_le (m : Nat → Fin 8 → ℚ) (e : Expr) : ∀ k,
    0 ≤ e.absEval m k ∧ e.absEval m k ≤ e.fusedBound m k := by
  have z : ∀ n : ℤ, (0 : ℚ) ≤ 2 ^ n := fun n => by positivity
  induction e with
  | var i => exact fun k => ⟨abs_nonneg _, le_rfl⟩
  | mul a b iha ihb =>
    intro k
    refine ⟨absMul_nonneg _ _ _, ?_⟩
    have h1 := absMul_mono
      (fun i => by rw [abs_of_nonneg (iha i).1, abs_of_nonneg ((iha i).1.trans (iha i).2)]
                   exact (iha i).2)
      (fun i => by rw [abs_of_nonneg (ihb i).1, abs_of_nonneg ((ihb i).1.trans (ihb i).2)]
                   exact (ihb i).2) k
      (x := a.absEval m) (y := b.absEval m) (x' := a.fusedBound m) (y' := b.fusedBound m)
    have h2 := mul_nonneg (z (-53)) (absMul_nonneg (a.fusedBound m) (b.fusedBound m) k)
    have h3 := z (-1059)
    simp only [Expr.absEval, Expr.fusedBound]
    generalize (2 : ℚ) ^ (-53 : ℤ) = u at *
    generalize (2 : ℚ) ^ (-1059 : ℤ) = v at *
    linarith
  | add a b iha ihb =>
    intro k
    obtain ⟨a1, a2⟩ := iha k
    obtain ⟨b1, b2⟩ := ihb k
    have h2 := mul_nonneg (z (-53)) (add_nonneg (a1.trans a2) (b1.trans b2))
    have h3 := z (-1073)
    simp only [Expr.absEval, Expr.fusedBound]
    generalize (2 : ℚ) ^ (-53 : ℤ) = u at *
    generalize (2 : ℚ) ^ (-1073 : ℤ) = v at *
    exact ⟨by linarith, by linarith⟩
  | sub a b iha ihb =>
    intro k
    obtain ⟨a1, a2⟩ := iha k
    obtain ⟨b1, b2⟩ := ihb k
    have h2 := mul_nonneg (z (-53)) (add_nonneg (a1.trans a2) (b1.trans b2))
    have h3 := z (-1073)
    simp only [Expr.absEval, Expr.fusedBound]
    generalize (2 : ℚ) ^ (-53 : ℤ) = u at *
    generalize (2 : ℚ) ^ (-1073 : ℤ) = v at *
    exact ⟨by linarith, by linarith⟩
  | neg a ih => exact ih
  | reverse a ih => exact ih
  | oddverse a ih => exact ih
  | dirverse a ih => exact ih
  | dual a ih => exact forall_fin8 (ih 7) (ih 4) (ih 5) (ih 6) (ih 1) (ih 2) (ih 3) (ih 0)

/-- Up to sign, or zero. -/
def SameOrNeg (s t : T) : Prop := s = t ∨ s = .neg t ∨ s = .zero

theorem sameOrNeg_of {x : Fin 8 → T} {F s : T} {k : Fin 8} (h : s = F.ev (env8 .zero x x))
    (hF : F = .var k ∨ F = .neg (.var k) ∨ F = .zero) : SameOrNeg s (x k) := by
  have e : env8 T.zero x x k = x k := 
    forall_fin8 (P := fun k => env8 T.zero x x k = x k) rfl rfl rfl rfl rfl rfl rfl rfl k
  subst h
  rcases hF with rfl | rfl | rfl
  · exact Or.inl e
  · exact Or.inr (Or.inl (congrArg T.neg e))
  · exact Or.inr (Or.inr rfl)

def dualIx : Fin 8 → Fin 8 := ![7, 4, 5, 6, 1, 2, 3, 0]

theorem neg_comps (t : Ty) (a : t.D T) (k : Fin 8) :
    SameOrNeg (cf (promote t (negTy t a)) k) (cf (promote t a) k) := by
  refine sameOrNeg_of (F := cf (promote t (negTy t (sv t 0))) k) ?_ ?_
  · revert k
    cases t <;> exact forall_fin8 rfl rfl rfl rfl rfl rfl rfl rfl
  · revert k
    cases t <;> decide

theorem reverse_comps (t : Ty) (a : t.D T) (k : Fin 8) :
    SameOrNeg (cf (promote t (reverseTy t a)) k) (cf (promote t a) k) := by
  refine sameOrNeg_of (F := cf (promote t (reverseTy t (sv t 0))) k) ?_ ?_
  · revert k
    cases t <;> exact forall_fin8 rfl rfl rfl rfl rfl rfl rfl rfl
  · revert k
    cases t <;> decide

theorem oddverse_comps (t : Ty) (a : t.D T) (k : Fin 8) :
    SameOrNeg (cf (promote t (oddverseTy t a)) k) (cf (promote t a) k) := by
  refine sameOrNeg_of (F := cf (promote t (oddverseTy t (sv t 0))) k) ?_ ?_
  · revert k
    cases t <;> exact forall_fin8 rfl rfl rfl rfl rfl rfl rfl rfl
  · revert k
    cases t <;> decide

theorem dirverse_comps (t : Ty) (a : t.D T) (k : Fin 8) :
    SameOrNeg (cf (promote t (dirverseTy t a)) k) (cf (promote t a) k) := by
  refine sameOrNeg_of (F := cf (promote t (dirverseTy t (sv t 0))) k) ?_ ?_
  · revert k
    cases t <;> exact forall_fin8 rfl rfl rfl rfl rfl rfl rfl rfl
  · revert k
    cases t <;> decide

theorem dual_comps (t : Ty) (a : t.D T) (k : Fin 8) :
    SameOrNeg (cf (promote _ (dualTy t a)) k) (cf (promote t a) (dualIx k)) := by
  refine sameOrNeg_of (F := cf (promote _ (dualTy t (sv t 0))) k) ?_ ?_
  · revert k
    cases t <;> exact forall_fin8 rfl rfl rfl rfl rfl rfl rfl rfl
  · revert k
    cases t <;> decide

theorem absDual_ix (x : Fin 8 → ℚ) : ∀ k, absDual x k = x (dualIx k) :=
  forall_fin8 rfl rfl rfl rfl rfl rfl rfl rfl

theorem signs_good {env : Nat → F64} {q : Nat → ℚ} {s t : T} {U A : ℚ}
    (h : Good env t (t.ev q) U A) (hA : 0 ≤ A ∧ A ≤ U)
    (hs : SameOrNeg s t) : Good env s (s.ev q) U A := by
  rcases hs with rfl | rfl | rfl
  · exact h
  · exact h.neg
  · exact (Good.zero env).widen hA.1 (by linarith)

theorem expr_good (env : Nat → Sigma fun t : Ty => t.D F64) (e : Expr)
    (hv : ∀ i ∈ e.vars, ∀ c ∈ comps (env i).1 (env i).2, c.Finite)
    (hb : ∀ f ∈ e.subs, ∀ k, f.fusedBound (fun i => cf (exactEnv env i)) k ≤ 2 ^ 1022)
    (r : Sigma fun t : Ty => t.D T) (h : e.eval (symEnv env) = some r) (k : Fin 8) :
    Good (varEnv env) (cf (promote r.1 r.2) k)
      ((cf (promote r.1 r.2) k).ev fun n => (varEnv env n).value)
      (e.fusedBound (fun i => cf (exactEnv env i)) k) (e.absEval (fun i => cf (exactEnv env i)) k) := by
  have hle := fun f : Expr => fusedBound_le (fun i => cf (exactEnv env i)) f
  induction e generalizing r k with
  | var i =>
    simp only [Expr.eval, Option.some.injEq] at h
    subst h
    have hf := finiteTy_of _ _ (hv i (by simp [Expr.vars]))
    have hz : ∀ k, cf (promote (symEnv env i).1 (symEnv env i).2) k = .var (8 * i + k) ∨
        cf (promote (symEnv env i).1 (symEnv env i).2) k = .zero := by
      unfold symEnv
      generalize (env i).1 = t
      cases t <;> refine forall_fin8 ?_ ?_ ?_ ?_ ?_ ?_ ?_ ?_ <;>
        first | exact Or.inl rfl | exact Or.inr rfl
    have hk := hf k
    rw [← varEnv_at] at hk
    have e1 : cf (exactEnv env i) k = (varEnv env (8 * i + k)).value := by
      rw [varEnv_at, ← cf_val]
    simp only [Expr.fusedBound, Expr.absEval, e1]
    rcases hz k with e | e <;> rw [e]
    · exact Good.var hk
    · exact (Good.zero _).widen (abs_nonneg _) (by rw [sub_self, sub_self])
  | mul a b iha ihb =>
    simp only [Expr.eval, Option.bind_eq_some_iff, Option.map_eq_some_iff] at h
    obtain ⟨x, hx, y, hy, rfl⟩ := h
    have ga := iha (fun i hi => hv i (by simp [Expr.vars, hi])) (fun f hf => hb f (by simp [Expr.subs, hf])) x hx
    have gb := ihb (fun i hi => hv i (by simp [Expr.vars, hi])) (fun f hf => hb f (by simp [Expr.subs, hf])) y hy
    have hbk := hb _ (List.mem_cons_self : Expr.mul a b ∈ (Expr.mul a b).subs) k
    have ua := fun k => (hle a k).1.trans (hle a k).2
    have ub := fun k => (hle b k).1.trans (hle b k).2
    have mU := monSum_prod ua ub k
    have mA := monSum_prod (fun k => (hle a k).1) (fun k => (hle b k).1) k
    have nU := absMul_nonneg (a.fusedBound fun i => cf (exactEnv env i))
      (b.fusedBound fun i => cf (exactEnv env i)) k
    dsimp only
    rw [typedT_ev]
    have g := op_good ga gb (hle a) (hle b) (typedT_within x.1 y.1 k) le_rfl
      (by rw [mU]
          refine le_trans ?_ hbk
          simp only [Expr.fusedBound]
          have h2 := mul_nonneg (show (0 : ℚ) ≤ 2 ^ (-53 : ℤ) by positivity) nU
          have h3 : (0 : ℚ) ≤ 2 ^ (-1059 : ℤ) := by positivity
          generalize (2 : ℚ) ^ (-53 : ℤ) = u at *
          generalize (2 : ℚ) ^ (-1059 : ℤ) = v at *
          linarith)
    rw [mU, mA] at g
    exact g.mono (flat8 nU)
  | add a b iha ihb =>
    simp only [Expr.eval, Option.bind_eq_some_iff] at h
    obtain ⟨x, hx, y, hy, h⟩ := h
    have ga := iha (fun i hi => hv i (by simp [Expr.vars, hi])) (fun f hf => hb f (by simp [Expr.subs, hf])) x hx
    have gb := ihb (fun i hi => hv i (by simp [Expr.vars, hi])) (fun f hf => hb f (by simp [Expr.subs, hf])) y hy
    have hbk := hb _ (List.mem_cons_self : Expr.add a b ∈ (Expr.add a b).subs) k
    have ua := fun k => (hle a k).1.trans (hle a k).2
    have ub := fun k => (hle b k).1.trans (hle b k).2
    have mU := monSum_sum (a.fusedBound fun i => cf (exactEnv env i))
      (b.fusedBound fun i => cf (exactEnv env i)) k
    have mA := monSum_sum (a.absEval fun i => cf (exactEnv env i))
      (b.absEval fun i => cf (exactEnv env i)) k
    have nU := add_nonneg (ua k) (ub k)
    rw [sumT_ev _ _ _ _ _ h]
    have g := op_good ga gb (hle a) (hle b) (sumT_within x.1 y.1 k) (by norm_num)
      (by rw [mU]
          refine le_trans ?_ hbk
          simp only [Expr.fusedBound]
          have h2 := mul_nonneg (show (0 : ℚ) ≤ 2 ^ (-53 : ℤ) by positivity) nU
          have h3 : (0 : ℚ) ≤ 2 ^ (-1073 : ℤ) := by positivity
          generalize (2 : ℚ) ^ (-53 : ℤ) = u at *
          generalize (2 : ℚ) ^ (-1073 : ℤ) = v at *
          linarith)
    rw [mU, mA] at g
    exact g.mono (flat1 _)
  | sub a b iha ihb =>
    simp only [Expr.eval, Option.bind_eq_some_iff] at h
    obtain ⟨x, hx, y, hy, h⟩ := h
    have ga := iha (fun i hi => hv i (by simp [Expr.vars, hi])) (fun f hf => hb f (by simp [Expr.subs, hf])) x hx
    have gb := ihb (fun i hi => hv i (by simp [Expr.vars, hi])) (fun f hf => hb f (by simp [Expr.subs, hf])) y hy
    have hbk := hb _ (List.mem_cons_self : Expr.sub a b ∈ (Expr.sub a b).subs) k
    have ua := fun k => (hle a k).1.trans (hle a k).2
    have ub := fun k => (hle b k).1.trans (hle b k).2
    have mU := monSum_sum (a.fusedBound fun i => cf (exactEnv env i))
      (b.fusedBound fun i => cf (exactEnv env i)) k
    have mA := monSum_sum (a.absEval fun i => cf (exactEnv env i))
      (b.absEval fun i => cf (exactEnv env i)) k
    have nU := add_nonneg (ua k) (ub k)
    rw [diffT_ev _ _ _ _ _ h]
    have g := op_good ga gb (hle a) (hle b) (diffT_within x.1 y.1 k) (by norm_num)
      (by rw [mU]
          refine le_trans ?_ hbk
          simp only [Expr.fusedBound]
          have h2 := mul_nonneg (show (0 : ℚ) ≤ 2 ^ (-53 : ℤ) by positivity) nU
          have h3 : (0 : ℚ) ≤ 2 ^ (-1073 : ℤ) := by positivity
          generalize (2 : ℚ) ^ (-53 : ℤ) = u at *
          generalize (2 : ℚ) ^ (-1073 : ℤ) = v at *
          linarith)
    rw [mU, mA] at g
    exact g.mono (flat1 _)
  | neg a ih =>
    simp only [Expr.eval, Option.map_eq_some_iff] at h
    obtain ⟨x, hx, rfl⟩ := h
    exact signs_good (ih (fun i hi => hv i hi) (fun f hf => hb f (by simp [Expr.subs, hf])) x hx k)
      (hle a k) (neg_comps x.1 x.2 k)
  | reverse a ih =>
    simp only [Expr.eval, Option.map_eq_some_iff] at h
    obtain ⟨x, hx, rfl⟩ := h
    exact signs_good (ih (fun i hi => hv i hi) (fun f hf => hb f (by simp [Expr.subs, hf])) x hx k)
      (hle a k) (reverse_comps x.1 x.2 k)
  | oddverse a ih =>
    simp only [Expr.eval, Option.map_eq_some_iff] at h
    obtain ⟨x, hx, rfl⟩ := h
    exact signs_good (ih (fun i hi => hv i hi) (fun f hf => hb f (by simp [Expr.subs, hf])) x hx k)
      (hle a k) (oddverse_comps x.1 x.2 k)
  | dirverse a ih =>
    simp only [Expr.eval, Option.map_eq_some_iff] at h
    obtain ⟨x, hx, rfl⟩ := h
    exact signs_good (ih (fun i hi => hv i hi) (fun f hf => hb f (by simp [Expr.subs, hf])) x hx k)
      (hle a k) (dirverse_comps x.1 x.2 k)
  | dual a ih =>
    simp only [Expr.eval, Option.map_eq_some_iff] at h
    obtain ⟨x, hx, rfl⟩ := h
    have g := ih (fun i hi => hv i hi) (fun f hf => hb f (by simp [Expr.subs, hf])) x hx
    have hk := hle a (dualIx k)
    simp only [Expr.fusedBound, Expr.absEval, absDual_ix]
    exact signs_good (g (dualIx k)) hk (dual_comps x.1 x.2 k)

/-- However the compiler contracts the arithmetic of an expression, each component of the result is
within the rounding error of C44 of the exact value. -/
theorem C57_expression (env : Nat → Sigma fun t : Ty => t.D F64) (e : Expr)
    (hr : e.NoReversed env)
    (hv : ∀ i ∈ e.vars, ∀ c ∈ comps (env i).1 (env i).2, c.Finite)
    (hb : ∀ f ∈ e.subs, ∀ k, f.fusedBound (fun i => cf (exactEnv env i)) k ≤ 2 ^ 1022)
    (k : Fin 8) (d : F64) (h : e.MayBe env k d) :
    d.Finite ∧ |d.value - cf (e.evalMV (exactEnv env)) k|
      ≤ e.fusedBound (fun i => cf (exactEnv env i)) k - e.absEval (fun i => cf (exactEnv env i)) k := by
  obtain ⟨r, hr', hd⟩ := h
  obtain ⟨h1, h2⟩ := (expr_good env e hv hb r hr' k).1 d hd
  refine ⟨h1, ?_⟩
  rw [← exact_value env e hr r hr' k]
  exact h2.1

/-- The evaluation without any contraction is one of the possible evaluations. -/
theorem contracted_ev (env : Nat → F64) (t : T) : Contracted env t (t.ev env) := by
  induction t with
  | zero => exact .zero
  | var n => exact .var n
  | add a b iha ihb => exact .add iha ihb
  | sub a b iha ihb => exact .sub iha ihb
  | mul a b iha ihb => exact .mul iha ihb
  | neg a ih => exact .neg ih

/-- What the program computes with one rounding per operation (all other theorems) is one of the
possible results. -/
theorem C57_uncontracted (env : Nat → Sigma fun t : Ty => t.D F64) (e : Expr)
    (r : Sigma fun t : Ty => t.D F64) (h : e.eval env = some r) (k : Fin 8) :
    e.MayBe env k (cf (promote r.1 r.2) k) := by
  rw [eval_sym, Option.map_eq_some_iff] at h
  obtain ⟨x, hx, rfl⟩ := h
  refine ⟨x, hx, ?_⟩
  have := contracted_ev (varEnv env) (cf (promote x.1 x.2) k)
  rwa [← cf_map] at this

/-- Two builds of a program differ by at most twice the rounding error. -/
theorem C57_two_builds (env : Nat → Sigma fun t : Ty => t.D F64) (e : Expr)
    (hr : e.NoReversed env)
    (hv : ∀ i ∈ e.vars, ∀ c ∈ comps (env i).1 (env i).2, c.Finite)
    (hb : ∀ f ∈ e.subs, ∀ k, f.fusedBound (fun i => cf (exactEnv env i)) k ≤ 2 ^ 1022)
    (k : Fin 8) (d d' : F64) (h : e.MayBe env k d) (h' : e.MayBe env k d') :
    |d.value - d'.value| ≤ 2 * (e.fusedBound (fun i => cf (exactEnv env i)) k
      - e.absEval (fun i => cf (exactEnv env i)) k) := by
  have h1 := (C57_expression env e hr hv hb k d h).2
  have h2 := (C57_expression env e hr hv hb k d' h').2
  rw [abs_sub_comm] at h2
  have := abs_sub_le d.value (cf (e.evalMV (exactEnv env)) k) d'.value
  linarith

/-- One product, all hundred pairs of operand types: the bound of C33. -/
theorem C57_product (s t : Ty) (x : s.D F64) (y : t.D F64)
    (hx : ∀ c ∈ comps s x, c.Finite) (hy : ∀ c ∈ comps t y, c.Finite)
    (hs : ∀ k, (1 + 9 * 2 ^ (-53 : ℤ)) * absMul (cf (promote s (valTy s x)))
      (cf (promote t (valTy t y))) k + 2 ^ (-1059 : ℤ) ≤ 2 ^ 1022)
    (hsx : ∀ k, |cf (promote s (valTy s x)) k| ≤ 2 ^ 1022)
    (hsy : ∀ k, |cf (promote t (valTy t y)) k| ≤ 2 ^ 1022) (k : Fin 8) (d : F64)
    (h : (Expr.mul (.var 0) (.var 1)).MayBe (fun i => if i = 0 then ⟨s, x⟩ else ⟨t, y⟩) k d) :
    d.Finite ∧ |d.value - cf (promote s (valTy s x) * promote t (valTy t y)) k|
      ≤ 9 * 2 ^ (-53 : ℤ) * absMul (cf (promote s (valTy s x))) (cf (promote t (valTy t y))) k
        + 2 ^ (-1059 : ℤ) := by
  set env : Nat → Sigma fun t : Ty => t.D F64 := fun i => if i = 0 then ⟨s, x⟩ else ⟨t, y⟩ with he
  have a1 : absMul (fun k => |cf (exactEnv env 0) k|) (fun k => |cf (exactEnv env 1) k|) k
      = absMul (cf (promote s (valTy s x))) (cf (promote t (valTy t y))) k := by
    unfold absMul; simp only [abs_abs]; rfl
  have a2 : ∀ k, absMul (fun k => |cf (exactEnv env 0) k|) (fun k => |cf (exactEnv env 1) k|) k
      = absMul (cf (promote s (valTy s x))) (cf (promote t (valTy t y))) k := by
    intro k; unfold absMul; simp only [abs_abs]; rfl
  have := C57_expression env (.mul (.var 0) (.var 1)) (by intro a b hab; simp [Expr.subs] at hab)
    (by
      intro i hi
      simp only [Expr.vars, List.cons_append, List.nil_append, List.mem_cons, List.not_mem_nil,
        or_false] at hi
      rcases hi with rfl | rfl
      · exact hx
      · exact hy)
    (by
      intro f hf k
      simp only [Expr.subs, List.cons_append, List.nil_append, List.mem_cons, List.not_mem_nil,
        or_false] at hf
      rcases hf with rfl | rfl | rfl
      · simp only [Expr.fusedBound]; rw [a2]; exact hs k
      · exact hsx k
      · exact hsy k) k d h
  refine ⟨this.1, this.2.trans (le_of_eq ?_)⟩
  simp only [Expr.fusedBound, Expr.absEval]
  rw [a1]; ring

/-! ## Integers -/

theorem op_int {env : Nat → F64} {q : Nat → ℚ} {a b : MultiVector T} {A B : Fin 8 → ℚ}
    (ga : ∀ k, GoodI env (cf a k) ((cf a k).ev q) (A k))
    (gb : ∀ k, GoodI env (cf b k) ((cf b k).ev q) (B k))
    {F : T} {d : Nat} {L : List (List Nat)} (hF : F.within d L = true)
    (hs : monSum (env8 0 A B) L ≤ 2 ^ 53) :
    GoodI env (F.ev (env8 0 (cf a) (cf b))) ((F.ev (env8 0 (cf a) (cf b))).ev q)
      (monSum (env8 0 A B) L) := by
  unfold T.within at hF
  simp only [Bool.and_eq_true, decide_eq_true_eq] at hF
  obtain ⟨⟨h1, -⟩, h3⟩ := hF
  obtain ⟨R, hR⟩ := absv_sub h3
  have g : ∀ n, GoodI env (env8 0 (cf a) (cf b) n) ((env8 0 (cf a) (cf b) n).ev q)
      (env8 0 A B n) := fun n =>
    env8_rel (P := fun t a (_ _ : ℚ) => GoodI env t (t.ev q) a) (u := A) (v := A) (w := 0)
      (x'' := A) (y'' := A) (z'' := 0) n ga gb (GoodI.zero env)
  have n0 : ∀ n, 0 ≤ env8 0 A B n := fun n => (abs_nonneg _).trans (g n).1
  have mR := monSum_mono n0 (fun n => le_rfl) R
  have hA' := hR (env8 0 A B)
  rw [T.ev_ev]
  exact (flat_int g F h1 (by linarith)).widen (by linarith)

theorem signs_int {env : Nat → F64} {q : Nat → ℚ} {s t : T} {A : ℚ}
    (h : GoodI env t (t.ev q) A) (hs : SameOrNeg s t) : GoodI env s (s.ev q) A := by
  rcases hs with rfl | rfl | rfl
  · exact h
  · exact h.neg
  · exact (GoodI.zero env).widen ((abs_nonneg _).trans h.1)

theorem absEval_nonneg (m : Nat → Fin 8 → ℚ) (e : Expr) (k : Fin 8) : 0 ≤ e.absEval m k :=
  (fusedBound_le m e k).1

theorem expr_int (env : Nat → Sigma fun t : Ty => t.D F64) (e : Expr)
    (hv : ∀ i ∈ e.vars, ∀ c ∈ comps (env i).1 (env i).2, c.Finite ∧ ∃ n : ℤ, c.value = n)
    (hb : ∀ f ∈ e.subs, ∀ k, f.absEval (fun i => cf (exactEnv env i)) k ≤ 2 ^ 53)
    (r : Sigma fun t : Ty => t.D T) (h : e.eval (symEnv env) = some r) (k : Fin 8) :
    GoodI (varEnv env) (cf (promote r.1 r.2) k)
      ((cf (promote r.1 r.2) k).ev fun n => (varEnv env n).value)
      (e.absEval (fun i => cf (exactEnv env i)) k) := by
  have h0 := fun f : Expr => absEval_nonneg (fun i => cf (exactEnv env i)) f
  induction e generalizing r k with
  | var i =>
    simp only [Expr.eval, Option.some.injEq] at h
    subst h
    have hf := finiteTy_of _ _ fun c hc => (hv i (by simp [Expr.vars]) c hc).1
    have hg := comps_grid _ _ 0 (fun c hc => by
      obtain ⟨-, n, h2⟩ := hv i (by simp [Expr.vars]) c hc
      exact ⟨n, by rw [h2, zpow_zero, mul_one]⟩) k
    have hz : ∀ k, cf (promote (symEnv env i).1 (symEnv env i).2) k = .var (8 * i + k) ∨
        cf (promote (symEnv env i).1 (symEnv env i).2) k = .zero := by
      unfold symEnv
      generalize (env i).1 = t
      cases t <;> refine forall_fin8 ?_ ?_ ?_ ?_ ?_ ?_ ?_ ?_ <;>
        first | exact Or.inl rfl | exact Or.inr rfl
    have hk := hf k
    rw [← varEnv_at] at hk hg
    have e1 : cf (exactEnv env i) k = (varEnv env (8 * i + k)).value := by
      rw [varEnv_at, ← cf_val]
    simp only [Expr.absEval, e1]
    rcases hz k with e | e <;> rw [e]
    · refine ⟨le_rfl, ?_, fun c hc => ?_, fun s a b e => by cases e⟩
      · obtain ⟨n, hn⟩ := hg
        exact ⟨n, by rw [T.ev, hn, zpow_zero, mul_one]⟩
      · cases hc
        exact HasVal.of hk
    · exact (GoodI.zero _).widen (abs_nonneg _)
  | mul a b iha ihb =>
    simp only [Expr.eval, Option.bind_eq_some_iff, Option.map_eq_some_iff] at h
    obtain ⟨x, hx, y, hy, rfl⟩ := h
    have ga := iha (fun i hi => hv i (by simp [Expr.vars, hi])) (fun f hf => hb f (by simp [Expr.subs, hf])) x hx
    have gb := ihb (fun i hi => hv i (by simp [Expr.vars, hi])) (fun f hf => hb f (by simp [Expr.subs, hf])) y hy
    have hbk := hb _ (List.mem_cons_self : Expr.mul a b ∈ (Expr.mul a b).subs) k
    have mA := monSum_prod (h0 a) (h0 b) k
    dsimp only
    rw [typedT_ev]
    have g := op_int ga gb (typedT_within x.1 y.1 k) (by rw [mA]; exact hbk)
    rwa [mA] at g
  | add a b iha ihb =>
    simp only [Expr.eval, Option.bind_eq_some_iff] at h
    obtain ⟨x, hx, y, hy, h⟩ := h
    have ga := iha (fun i hi => hv i (by simp [Expr.vars, hi])) (fun f hf => hb f (by simp [Expr.subs, hf])) x hx
    have gb := ihb (fun i hi => hv i (by simp [Expr.vars, hi])) (fun f hf => hb f (by simp [Expr.subs, hf])) y hy
    have hbk := hb _ (List.mem_cons_self : Expr.add a b ∈ (Expr.add a b).subs) k
    have mA := monSum_sum (a.absEval fun i => cf (exactEnv env i))
      (b.absEval fun i => cf (exactEnv env i)) k
    rw [sumT_ev _ _ _ _ _ h]
    have g := op_int ga gb (sumT_within x.1 y.1 k) (by rw [mA]; exact hbk)
    rwa [mA] at g
  | sub a b iha ihb =>
    simp only [Expr.eval, Option.bind_eq_some_iff] at h
    obtain ⟨x, hx, y, hy, h⟩ := h
    have ga := iha (fun i hi => hv i (by simp [Expr.vars, hi])) (fun f hf => hb f (by simp [Expr.subs, hf])) x hx
    have gb := ihb (fun i hi => hv i (by simp [Expr.vars, hi])) (fun f hf => hb f (by simp [Expr.subs, hf])) y hy
    have hbk := hb _ (List.mem_cons_self : Expr.sub a b ∈ (Expr.sub a b).subs) k
    have mA := monSum_sum (a.absEval fun i => cf (exactEnv env i))
      (b.absEval fun i => cf (exactEnv env i)) k
    rw [diffT_ev _ _ _ _ _ h]
    have g := op_int ga gb (diffT_within x.1 y.1 k) (by rw [mA]; exact hbk)
    rwa [mA] at g
  | neg a ih =>
    simp only [Expr.eval, Option.map_eq_some_iff] at h
    obtain ⟨x, hx, rfl⟩ := h
    exact signs_int (ih (fun i hi => hv i hi) (fun f hf => hb f (by simp [Expr.subs, hf])) x hx k)
      (neg_comps x.1 x.2 k)
  | reverse a ih =>
    simp only [Expr.eval, Option.map_eq_some_iff] at h
    obtain ⟨x, hx, rfl⟩ := h
    exact signs_int (ih (fun i hi => hv i hi) (fun f hf => hb f (by simp [Expr.subs, hf])) x hx k)
      (reverse_comps x.1 x.2 k)
  | oddverse a ih =>
    simp only [Expr.eval, Option.map_eq_some_iff] at h
    obtain ⟨x, hx, rfl⟩ := h
    exact signs_int (ih (fun i hi => hv i hi) (fun f hf => hb f (by simp [Expr.subs, hf])) x hx k)
      (oddverse_comps x.1 x.2 k)
  | dirverse a ih =>
    simp only [Expr.eval, Option.map_eq_some_iff] at h
    obtain ⟨x, hx, rfl⟩ := h
    exact signs_int (ih (fun i hi => hv i hi) (fun f hf => hb f (by simp [Expr.subs, hf])) x hx k)
      (dirverse_comps x.1 x.2 k)
  | dual a ih =>
    simp only [Expr.eval, Option.map_eq_some_iff] at h
    obtain ⟨x, hx, rfl⟩ := h
    have g := ih (fun i hi => hv i hi) (fun f hf => hb f (by simp [Expr.subs, hf])) x hx
    simp only [Expr.absEval, absDual_ix]
    exact signs_int (g (dualIx k)) (dual_comps x.1 x.2 k)

/-- On integers that fit in 53 bits contraction changes nothing: every evaluation is exact. -/
theorem C57_integers (env : Nat → Sigma fun t : Ty => t.D F64) (e : Expr)
    (hr : e.NoReversed env)
    (hv : ∀ i ∈ e.vars, ∀ c ∈ comps (env i).1 (env i).2, c.Finite ∧ ∃ n : ℤ, c.value = n)
    (hb : ∀ f ∈ e.subs, ∀ k, f.absEval (fun i => cf (exactEnv env i)) k ≤ 2 ^ 53)
    (k : Fin 8) (d : F64) (h : e.MayBe env k d) :
    d.Finite ∧ d.value = cf (e.evalMV (exactEnv env)) k := by
  obtain ⟨r, hr', hd⟩ := h
  have := (expr_int env e hv hb r hr' k).2.2.1 d hd
  rw [exact_value env e hr r hr' k] at this
  exact this

/-- The same with a bound on the operands only. -/
theorem C57_small_integers (env : Nat → Sigma fun t : Ty => t.D F64) (M : ℕ) (hM : 1 ≤ M) (e : Expr)
    (hr : e.NoReversed env)
    (hv : ∀ i ∈ e.vars, ∀ c ∈ comps (env i).1 (env i).2,
      c.Finite ∧ ∃ n : ℤ, c.value = n ∧ |n| ≤ M)
    (hc : e.cap M ≤ 2 ^ 53) (k : Fin 8) (d : F64) (h : e.MayBe env k d) :
    d.Finite ∧ d.value = cf (e.evalMV (exactEnv env)) k := by
  refine C57_integers env e hr (fun i hi c hc => ?_) (absEval_cap env M hM e hv hc) k d h
  obtain ⟨h1, n, h2, -⟩ := hv i hi c hc
  exact ⟨h1, n, h2⟩

/-! ## A simple sufficient condition for the absence of overflow -/

/-- Specification: a bound for the components of an expression whose operands have components at
most `M`, with room for all rounding errors. -/
def Expr.fusedCap (M : ℕ) : Expr → ℕ
  | .var _ => M
  | .mul a b => 9 * (a.fusedCap M * b.fusedCap M) + 1
  | .add a b => 2 * (a.fusedCap M + b.fusedCap M) + 1
  | .sub a b => 2 * (a.fusedCap M + b.fusedCap M) + 1
  | .neg a => a.fusedCap M
  | .reverse a => a.fusedCap M
  | .oddverse a => a.fusedCap M
  | .dirverse a => a.fusedCap M
  | .dual a => a.fusedCap M

theorem fusedBound_le_cap {m : Nat → Fin 8 → ℚ} {M : ℕ} (e : Expr)
    (hm : ∀ i ∈ e.vars, ∀ k, |m i k| ≤ M) (k : Fin 8) : e.fusedBound m k ≤ e.fusedCap M := by
  have nn : ∀ (f : Expr) k, 0 ≤ f.fusedBound m k := fun f k =>
    (fusedBound_le m f k).1.trans (fusedBound_le m f k).2
  have z1 : (2 : ℚ) ^ (-53 : ℤ) ≤ 1 / 100 := by norm_num
  have z0 : (0 : ℚ) ≤ 2 ^ (-53 : ℤ) := by positivity
  have z2 : (2 : ℚ) ^ (-1059 : ℤ) ≤ 1 :=
    (zpow_le_zpow_right₀ (by norm_num) (by norm_num : (-1059 : ℤ) ≤ 0)).trans (by norm_num)
  have z3 : (2 : ℚ) ^ (-1073 : ℤ) ≤ 1 :=
    (zpow_le_zpow_right₀ (by norm_num) (by norm_num : (-1073 : ℤ) ≤ 0)).trans (by norm_num)
  have key : ∀ {X Y w : ℚ}, 0 ≤ X → X ≤ Y → w ≤ 1 → (1 + 2 ^ (-53 : ℤ)) * X + w ≤ 2 * Y + 1 := by
    intro X Y w h0 h1 h2
    generalize (2 : ℚ) ^ (-53 : ℤ) = u at *
    have := mul_le_mul_of_nonneg_right z1 h0
    linarith
  induction e generalizing k with
  | var i => exact hm i (by simp [Expr.vars]) k
  | mul a b iha ihb =>
    simp only [Expr.fusedBound, Expr.fusedCap]
    push_cast
    have h1 := absMul_le_cap (x := a.fusedBound m) (y := b.fusedBound m)
      (A := a.fusedCap M) (B := b.fusedCap M)
      (fun i => by rw [abs_of_nonneg (nn a i)]; exact iha (fun i hi => hm i (by simp [Expr.vars, hi])) i)
      (fun i => by rw [abs_of_nonneg (nn b i)]; exact ihb (fun i hi => hm i (by simp [Expr.vars, hi])) i) k
    have h2 := absMul_nonneg (a.fusedBound m) (b.fusedBound m) k
    generalize (2 : ℚ) ^ (-53 : ℤ) = u at *
    generalize (2 : ℚ) ^ (-1059 : ℤ) = v at *
    have := mul_le_mul_of_nonneg_right z1 h2
    linarith
  | add a b iha ihb =>
    simp only [Expr.fusedBound, Expr.fusedCap]
    push_cast
    exact key (add_nonneg (nn a k) (nn b k)) (add_le_add
      (iha (fun i hi => hm i (by simp [Expr.vars, hi])) k)
      (ihb (fun i hi => hm i (by simp [Expr.vars, hi])) k)) z3
  | sub a b iha ihb =>
    simp only [Expr.fusedBound, Expr.fusedCap]
    push_cast
    exact key (add_nonneg (nn a k) (nn b k)) (add_le_add
      (iha (fun i hi => hm i (by simp [Expr.vars, hi])) k)
      (ihb (fun i hi => hm i (by simp [Expr.vars, hi])) k)) z3
  | neg a ih => exact ih hm k
  | reverse a ih => exact ih hm k
  | oddverse a ih => exact ih hm k
  | dirverse a ih => exact ih hm k
  | dual a ih =>
    simp only [Expr.fusedBound, absDual_ix]
    exact ih hm _

/-- The error bound with a condition on the operands only. -/
theorem C57_bounded_operands (env : Nat → Sigma fun t : Ty => t.D F64) (M : ℕ) (e : Expr)
    (hr : e.NoReversed env)
    (hv : ∀ i ∈ e.vars, ∀ c ∈ comps (env i).1 (env i).2, c.Finite ∧ |c.value| ≤ M)
    (hc : ∀ f ∈ e.subs, f.fusedCap M ≤ 2 ^ 1022)
    (k : Fin 8) (d : F64) (h : e.MayBe env k d) :
    d.Finite ∧ |d.value - cf (e.evalMV (exactEnv env)) k|
      ≤ e.fusedBound (fun i => cf (exactEnv env i)) k - e.absEval (fun i => cf (exactEnv env i)) k := by
  refine C57_expression env e hr (fun i hi c hc => (hv i hi c hc).1) (fun f hf k => ?_) k d h
  have h1 : f.fusedBound (fun i => cf (exactEnv env i)) k ≤ f.fusedCap M := by
    refine fusedBound_le_cap f (fun i hi k => ?_) k
    change |cf (promote (env i).1 (valTy (env i).1 (env i).2)) k| ≤ _
    rw [cf_val]
    exact comps_le _ _ _ (Nat.cast_nonneg M) (fun c hc => (hv i (vars_subs e f hf i hi) c hc).2) k
  exact h1.trans (by exact_mod_cast hc f hf)

end Engabra
