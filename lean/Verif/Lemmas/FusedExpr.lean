import Verif.Lemmas.Fused
import Verif.Lemmas.InverseMvF64

/-! # Symbolic evaluation of expressions and contraction -/

namespace Engabra

open F64 (Finite HasVal uro tinyErr)

/-- Variables 0..7 are the components of `x`, 8..15 those of `y`. -/
def env8 {α : Type} (z : α) (x y : Fin 8 → α) : Nat → α
  | 0 => x 0 | 1 => x 1 | 2 => x 2 | 3 => x 3 | 4 => x 4 | 5 => x 5 | 6 => x 6 | 7 => x 7
  | 8 => y 0 | 9 => y 1 | 10 => y 2 | 11 => y 3 | 12 => y 4 | 13 => y 5 | 14 => y 6 | 15 => y 7
  | _ => z

section
variable {α : Type} [Add α] [Sub α] [Mul α] [Neg α] [Zero α]

theorem T.ev_ev {σ : Nat → T} {q : Nat → α} (t : T) :
    (t.ev σ).ev q = t.ev fun n => (σ n).ev q := by
  induction t with
  | zero => rfl
  | var n => rfl
  | add a b iha ihb => show (a.ev σ).ev q + (b.ev σ).ev q = _; rw [iha, ihb]; rfl
  | sub a b iha ihb => show (a.ev σ).ev q - (b.ev σ).ev q = _; rw [iha, ihb]; rfl
  | mul a b iha ihb => show (a.ev σ).ev q * (b.ev σ).ev q = _; rw [iha, ihb]; rfl
  | neg a ih => show - (a.ev σ).ev q = _; rw [ih]; rfl

theorem cf_map (q : Nat → α) (t : Ty) (a : t.D T) (k : Fin 8) :
    cf (promote t (mapTy (T.ev q) t a)) k = (cf (promote t a) k).ev q := by
  revert k
  cases t <;> exact forall_fin8 rfl rfl rfl rfl rfl rfl rfl rfl

theorem mul_map (q : Nat → α) (s t : Ty) (a : s.D T) (b : t.D T) :
    mulTy s t (mapTy (T.ev q) s a) (mapTy (T.ev q) t b) = mapTy (T.ev q) _ (mulTy s t a b) := by
  cases s <;> cases t <;> rfl

/-- Apply a function to the components of a typed object. -/
def mapS {β γ : Type} (f : β → γ) (r : Sigma fun t : Ty => t.D β) : Sigma fun t : Ty => t.D γ :=
  ⟨r.1, mapTy f r.1 r.2⟩

theorem add_map (q : Nat → α) (s t : Ty) (a : s.D T) (b : t.D T) :
    addTy s t (mapTy (T.ev q) s a) (mapTy (T.ev q) t b) = (addTy s t a b).map (mapS (T.ev q)) := by
  cases s <;> cases t <;> rfl

theorem sub_map (q : Nat → α) (s t : Ty) (a : s.D T) (b : t.D T) :
    subTy s t (mapTy (T.ev q) s a) (mapTy (T.ev q) t b) = (subTy s t a b).map (mapS (T.ev q)) := by
  cases s <;> cases t <;> rfl

theorem unary_map (q : Nat → α) (t : Ty) (a : t.D T) :
    negTy t (mapTy (T.ev q) t a) = mapTy (T.ev q) t (negTy t a) ∧
    reverseTy t (mapTy (T.ev q) t a) = mapTy (T.ev q) t (reverseTy t a) ∧
    oddverseTy t (mapTy (T.ev q) t a) = mapTy (T.ev q) t (oddverseTy t a) ∧
    dirverseTy t (mapTy (T.ev q) t a) = mapTy (T.ev q) t (dirverseTy t a) ∧
    dualTy t (mapTy (T.ev q) t a) = mapTy (T.ev q) _ (dualTy t a) := by
  cases t <;> exact ⟨rfl, rfl, rfl, rfl, rfl⟩

/-- Evaluation commutes with substitution of values for the variables of terms. -/
theorem eval_map (q : Nat → α) (env : Nat → Sigma fun t : Ty => t.D T) (e : Expr) :
    e.eval (fun i => mapS (T.ev q) (env i)) = (e.eval env).map (mapS (T.ev q)) := by
  induction e with
  | var i => rfl
  | mul a b iha ihb =>
    simp only [Expr.eval, iha, ihb]
    cases a.eval env <;> cases b.eval env <;> try rfl
    rename_i x y
    simp only [Option.map_some, Option.bind_some, Option.some.injEq]
    unfold mapS
    rw [mul_map]
  | add a b iha ihb =>
    simp only [Expr.eval, iha, ihb]
    cases a.eval env <;> cases b.eval env <;> try rfl
    rename_i x y
    exact add_map q _ _ _ _
  | sub a b iha ihb =>
    simp only [Expr.eval, iha, ihb]
    cases a.eval env <;> cases b.eval env <;> try rfl
    rename_i x y
    exact sub_map q _ _ _ _
  | neg a ih =>
    simp only [Expr.eval, ih]
    cases a.eval env <;> try rfl
    simp only [Option.map_some, Option.some.injEq]
    unfold mapS
    rw [(unary_map q _ _).1]
  | reverse a ih =>
    simp only [Expr.eval, ih]
    cases a.eval env <;> try rfl
    simp only [Option.map_some, Option.some.injEq]
    unfold mapS
    rw [(unary_map q _ _).2.1]
  | oddverse a ih =>
    simp only [Expr.eval, ih]
    cases a.eval env <;> try rfl
    simp only [Option.map_some, Option.some.injEq]
    unfold mapS
    rw [(unary_map q _ _).2.2.1]
  | dirverse a ih =>
    simp only [Expr.eval, ih]
    cases a.eval env <;> try rfl
    simp only [Option.map_some, Option.some.injEq]
    unfold mapS
    rw [(unary_map q _ _).2.2.2.1]
  | dual a ih =>
    simp only [Expr.eval, ih]
    cases a.eval env <;> try rfl
    simp only [Option.map_some, Option.some.injEq]
    unfold mapS
    rw [(unary_map q _ _).2.2.2.2]

set_option maxHeartbeats 1000000 in
theorem typedT_ev (s t : Ty) (a : s.D α) (b : t.D α) : ∀ k,
    cf (promote _ (mulTy s t a b)) k
      = (cf (typedT s t) k).ev (env8 0 (cf (promote s a)) (cf (promote t b))) := by
  cases s <;> cases t <;> exact forall_fin8 rfl rfl rfl rfl rfl rfl rfl rfl

/-- Terms for the components of a typed sum. -/
def sumT (s t : Ty) : MultiVector T :=
  match addTy s t (sv s 0) (sv t 8) with
  | some r => promote r.1 r.2
  | none => promote .dub .zero

/-- Terms for the components of a typed difference. -/
def diffT (s t : Ty) : MultiVector T :=
  match subTy s t (sv s 0) (sv t 8) with
  | some r => promote r.1 r.2
  | none => promote .dub .zero

theorem sumT_ev (s t : Ty) (a : s.D α) (b : t.D α) (r : Sigma fun t : Ty => t.D α)
    (h : addTy s t a b = some r) : ∀ k,
    cf (promote r.1 r.2) k
      = (cf (sumT s t) k).ev (env8 0 (cf (promote s a)) (cf (promote t b))) := by
  cases s <;> cases t <;> cases h <;> exact forall_fin8 rfl rfl rfl rfl rfl rfl rfl rfl

theorem diffT_ev (s t : Ty) (a : s.D α) (b : t.D α) (r : Sigma fun t : Ty => t.D α)
    (h : subTy s t a b = some r) : ∀ k,
    cf (promote r.1 r.2) k
      = (cf (diffT s t) k).ev (env8 0 (cf (promote s a)) (cf (promote t b))) := by
  cases s <;> cases t <;> cases h <;> exact forall_fin8 rfl rfl rfl rfl rfl rfl rfl rfl

end

/-- Monomials of component `k` of a product of multivectors. -/
def prodMon : Fin 8 → List (List Nat) :=
  ![[[0, 8], [1, 9], [2, 10], [3, 11], [4, 12], [5, 13], [6, 14], [7, 15]],
    [[0, 9], [1, 8], [2, 14], [3, 13], [4, 15], [5, 11], [6, 10], [7, 12]],
    [[0, 10], [1, 14], [2, 8], [3, 12], [4, 11], [5, 15], [6, 9], [7, 13]],
    [[0, 11], [1, 13], [2, 12], [3, 8], [4, 10], [5, 9], [6, 15], [7, 14]],
    [[0, 12], [1, 15], [2, 11], [3, 10], [4, 8], [5, 14], [6, 13], [7, 9]],
    [[0, 13], [1, 11], [2, 15], [3, 9], [4, 14], [5, 8], [6, 12], [7, 10]],
    [[0, 14], [1, 10], [2, 9], [3, 15], [4, 13], [5, 12], [6, 8], [7, 11]],
    [[0, 15], [1, 12], [2, 13], [3, 14], [4, 9], [5, 10], [6, 11], [7, 8]]]

def sumMon (k : Fin 8) : List (List Nat) := [[k], [8 + k]]

/-- Decidable version of what is needed of a term. -/
def T.within (t : T) (d : Nat) (L : List (List Nat)) : Bool :=
  t.flat && decide (t.depth ≤ d) && decide (t.mon.Subperm L)

theorem typedT_within (s t : Ty) : ∀ k, (cf (typedT s t) k).within 8 (prodMon k) = true := by
  cases s <;> cases t <;> decide

theorem sumT_within (s t : Ty) : ∀ k, (cf (sumT s t) k).within 1 (sumMon k) = true := by
  cases s <;> cases t <;> decide

theorem diffT_within (s t : Ty) : ∀ k, (cf (diffT s t) k).within 1 (sumMon k) = true := by
  cases s <;> cases t <;> decide

theorem monSum_prod {U V : Fin 8 → ℚ} (hU : ∀ k, 0 ≤ U k) (hV : ∀ k, 0 ≤ V k) :
    ∀ k, monSum (env8 0 U V) (prodMon k) = absMul U V k := by
  have aU : ∀ k, |U k| = U k := fun k => abs_of_nonneg (hU k)
  have aV : ∀ k, |V k| = V k := fun k => abs_of_nonneg (hV k)
  apply forall_fin8 <;>
    simp only [absMul_0, absMul_1, absMul_2, absMul_3, absMul_4, absMul_5, absMul_6, absMul_7, aU, aV] <;>
    simp [monSum, prodMon, env8] <;> ring

theorem monSum_sum (U V : Fin 8 → ℚ) : ∀ k, monSum (env8 0 U V) (sumMon k) = U k + V k := by
  apply forall_fin8 <;> simp [monSum, sumMon, env8]

end Engabra
