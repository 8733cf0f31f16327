import Verif.Spec.Expr
import Verif.Props.C04_C05_SumsDifferences
import Verif.Props.C06_C08_Unary
import Verif.Props.C10_C12_NullValid

/-! # C42, C43: expressions of any size

C42: a C++ expression of any size, over variables of any types, has the value of the same
expression in the geometric algebra.  C43: a NaN in any variable which occurs in the expression
is never lost. -/

namespace Engabra

set_option linter.unusedSectionVars false

open F64 (nan)

/-- The typed expression does not use one of the six subtraction overloads which subtract the
wrong way round (`C05_six_are_reversed`). -/
def Expr.NoReversed {α : Type} [Add α] [Sub α] [Mul α] [Neg α] [Zero α]
    (env : Nat → Sigma fun t : Ty => t.D α) (e : Expr) : Prop :=
  ∀ a b, Expr.sub a b ∈ e.subs → ∀ x y, a.eval env = some x → b.eval env = some y →
    subReversed x.1 y.1 = false

section
variable {α : Type} [Add α] [Sub α] [Mul α] [Neg α] [Zero α]

theorem addTy_type (s t : Ty) (a a' : s.D α) (b b' : t.D α) :
    (addTy s t a b).map Sigma.fst = (addTy s t a' b').map Sigma.fst := by
  cases s <;> cases t <;> rfl

theorem subTy_type (s t : Ty) (a a' : s.D α) (b b' : t.D α) :
    (subTy s t a b).map Sigma.fst = (subTy s t a' b').map Sigma.fst := by
  cases s <;> cases t <;> rfl

theorem bind_type {f g : (Sigma fun t : Ty => t.D α) → Option (Sigma fun t : Ty => t.D α)}
    {x y : Option (Sigma fun t : Ty => t.D α)} (h : x.map Sigma.fst = y.map Sigma.fst)
    (hf : ∀ a b, x = some a → y = some b → a.1 = b.1 → (f a).map Sigma.fst = (g b).map Sigma.fst) :
    (x.bind f).map Sigma.fst = (y.bind g).map Sigma.fst := by
  rcases x with _ | a <;> rcases y with _ | b <;>
    simp only [Option.map_none, Option.map_some, reduceCtorEq, Option.some.injEq] at h
  · rfl
  · exact hf a b rfl rfl h

theorem map_type {f g : (Sigma fun t : Ty => t.D α) → (Sigma fun t : Ty => t.D α)}
    {x y : Option (Sigma fun t : Ty => t.D α)} (h : x.map Sigma.fst = y.map Sigma.fst)
    (hf : ∀ a b, a.1 = b.1 → (f a).1 = (g b).1) :
    (x.map f).map Sigma.fst = (y.map g).map Sigma.fst := by
  rcases x with _ | a <;> rcases y with _ | b <;>
    simp only [Option.map_none, Option.map_some, reduceCtorEq, Option.some.injEq] at h ⊢
  exact hf a b h

/-- **C42.** Whether an expression compiles, and the type of its value, are determined by the
types of the variables: they never depend on the values. -/
theorem C42_static_types (env env' : Nat → Sigma fun t : Ty => t.D α) (e : Expr)
    (h : ∀ i ∈ e.vars, (env i).1 = (env' i).1) :
    (e.eval env).map Sigma.fst = (e.eval env').map Sigma.fst := by
  induction e with
  | var i => simp only [Expr.eval, Option.map_some, h i (by simp [Expr.vars])]
  | mul a b iha ihb =>
    simp only [Expr.vars, List.mem_append] at h
    refine bind_type (iha fun i hi => h i (Or.inl hi)) fun x y _ _ hxy => ?_
    refine map_type (ihb fun i hi => h i (Or.inr hi)) fun z w hzw => ?_
    dsimp only; rw [hxy, hzw]
  | add a b iha ihb =>
    simp only [Expr.vars, List.mem_append] at h
    refine bind_type (iha fun i hi => h i (Or.inl hi)) fun x y _ _ hxy => ?_
    refine bind_type (ihb fun i hi => h i (Or.inr hi)) fun z w _ _ hzw => ?_
    obtain ⟨s, x⟩ := x; obtain ⟨s', y⟩ := y; obtain ⟨t, z⟩ := z; obtain ⟨t', w⟩ := w
    dsimp only at hxy hzw; subst hxy; subst hzw
    exact addTy_type _ _ _ _ _ _
  | sub a b iha ihb =>
    simp only [Expr.vars, List.mem_append] at h
    refine bind_type (iha fun i hi => h i (Or.inl hi)) fun x y _ _ hxy => ?_
    refine bind_type (ihb fun i hi => h i (Or.inr hi)) fun z w _ _ hzw => ?_
    obtain ⟨s, x⟩ := x; obtain ⟨s', y⟩ := y; obtain ⟨t, z⟩ := z; obtain ⟨t', w⟩ := w
    dsimp only at hxy hzw; subst hxy; subst hzw
    exact subTy_type _ _ _ _ _ _
  | neg a ih => exact map_type (ih h) fun x y hxy => hxy
  | reverse a ih => exact map_type (ih h) fun x y hxy => hxy
  | oddverse a ih => exact map_type (ih h) fun x y hxy => hxy
  | dirverse a ih => exact map_type (ih h) fun x y hxy => hxy
  | dual a ih => exact map_type (ih h) fun x y hxy => congrArg dualRes hxy

theorem Expr.NoReversed.mono {env : Nat → Sigma fun t : Ty => t.D α} {e e' : Expr}
    (h : e.NoReversed env) (hs : ∀ x ∈ e'.subs, x ∈ e.subs) : e'.NoReversed env :=
  fun a b hab => h a b (hs _ hab)

end

section
variable {α : Type} [CommRing α]

theorem promote_dual (t : Ty) (x : t.D α) : promote _ (dualTy t x) = dual (promote t x) := by
  cases t <;> mv_ring

/-- **C42.** A typed expression of any size has, in exact arithmetic, the value of the same
expression in the geometric algebra (unless it uses one of the six reversed subtractions). -/
theorem C42_expression (env : Nat → Sigma fun t : Ty => t.D α) (e : Expr)
    (hr : e.NoReversed env) (r : Sigma fun t : Ty => t.D α) (h : e.eval env = some r) :
    promote r.1 r.2 = e.evalMV fun i => promote (env i).1 (env i).2 := by
  induction e generalizing r with
  | var i =>
    simp only [Expr.eval, Option.some.injEq] at h
    rw [← h]; rfl
  | mul a b iha ihb =>
    simp only [Expr.eval, Option.bind_eq_some_iff, Option.map_eq_some_iff] at h
    obtain ⟨x, hx, y, hy, rfl⟩ := h
    rw [C03_typed_product_agrees, iha (hr.mono fun _ h => by simp [Expr.subs, h]) x hx,
      ihb (hr.mono fun _ h => by simp [Expr.subs, h]) y hy]
    rfl
  | add a b iha ihb =>
    simp only [Expr.eval, Option.bind_eq_some_iff] at h
    obtain ⟨x, hx, y, hy, h⟩ := h
    rw [C04_typed_sum_agrees _ _ _ _ _ _ h, iha (hr.mono fun _ h => by simp [Expr.subs, h]) x hx,
      ihb (hr.mono fun _ h => by simp [Expr.subs, h]) y hy]
    rfl
  | sub a b iha ihb =>
    simp only [Expr.eval, Option.bind_eq_some_iff] at h
    obtain ⟨x, hx, y, hy, h⟩ := h
    rw [C05_typed_difference_partial _ _ _ _ _ _
        (hr a b (by simp [Expr.subs]) x y hx hy) h,
      iha (hr.mono fun _ h => by simp [Expr.subs, h]) x hx,
      ihb (hr.mono fun _ h => by simp [Expr.subs, h]) y hy]
    rfl
  | neg a ih =>
    simp only [Expr.eval, Option.map_eq_some_iff] at h
    obtain ⟨x, hx, rfl⟩ := h
    rw [promote_neg, ih (hr.mono fun _ h => by simp [Expr.subs, h]) x hx]; rfl
  | reverse a ih =>
    simp only [Expr.eval, Option.map_eq_some_iff] at h
    obtain ⟨x, hx, rfl⟩ := h
    rw [promote_reverse, ih (hr.mono fun _ h => by simp [Expr.subs, h]) x hx]; rfl
  | oddverse a ih =>
    simp only [Expr.eval, Option.map_eq_some_iff] at h
    obtain ⟨x, hx, rfl⟩ := h
    rw [promote_oddverse, ih (hr.mono fun _ h => by simp [Expr.subs, h]) x hx]; rfl
  | dirverse a ih =>
    simp only [Expr.eval, Option.map_eq_some_iff] at h
    obtain ⟨x, hx, rfl⟩ := h
    rw [promote_dirverse, ih (hr.mono fun _ h => by simp [Expr.subs, h]) x hx]; rfl
  | dual a ih =>
    simp only [Expr.eval, Option.map_eq_some_iff] at h
    obtain ⟨x, hx, rfl⟩ := h
    rw [promote_dual, ih (hr.mono fun _ h => by simp [Expr.subs, h]) x hx]; rfl

/-- **C42.** So two expressions which are equal in the geometric algebra (for example by
reassociating, distributing or reordering) and which have the same type give the same value, even
if the compiler goes through different intermediate types. -/
theorem C42_rewrite (env : Nat → Sigma fun t : Ty => t.D α) (e f : Expr)
    (he : e.NoReversed env) (hf : f.NoReversed env) (t : Ty) (x y : t.D α)
    (hx : e.eval env = some ⟨t, x⟩) (hy : f.eval env = some ⟨t, y⟩)
    (h : ∀ m : Nat → MultiVector α, e.evalMV m = f.evalMV m) : x = y :=
  promote_injective t (((C42_expression env e he _ hx).trans (h _)).trans
    (C42_expression env f hf _ hy).symm)

/-- Non-trivial instance: `u * v * w + reverse(w * v * u)` for vectors, through Spinor and
ImSpin, against `2 u v w`. -/
example (u v w : Vector Int) :
    let env : Nat → Sigma fun t : Ty => t.D Int := fun
      | 0 => ⟨.vec, u⟩ | 1 => ⟨.vec, v⟩ | 2 => ⟨.vec, w⟩ | _ => ⟨.dub, (2 : Int)⟩
    let e : Expr := .add (.mul (.mul (.var 0) (.var 1)) (.var 2))
      (.reverse (.mul (.mul (.var 2) (.var 1)) (.var 0)))
    let f : Expr := .mul (.mul (.var 3) (.var 0)) (.mul (.var 1) (.var 2))
    e.eval env = some ⟨.imsp, addImspImsp (u * v * w) (reverse (w * v * u))⟩ ∧
    (e.eval env).map Sigma.fst = (f.eval env).map Sigma.fst ∧
    e.NoReversed env ∧ f.NoReversed env := by
  refine ⟨rfl, rfl, ?_, ?_⟩ <;> intro a b h <;> simp [Expr.subs] at h

end

/-! ## C43: NaN is never lost -/

theorem nan_mem_iff (t : Ty) (x : t.D F64) : nan ∈ comps t x ↔ ∃ k, NaNAt t x k := by
  have h0 := zero_ne_nan
  unfold NaNAt
  simp only [← List.mem_iff_getElem?]
  cases t <;> simp [comps, promote, engabra, h0.symm]

theorem nan_mem_neg (t : Ty) (x : t.D F64) (h : nan ∈ comps t x) :
    nan ∈ comps t (negTy t x) ∧ nan ∈ comps t (reverseTy t x) ∧ nan ∈ comps t (oddverseTy t x) ∧
    nan ∈ comps t (dirverseTy t x) := by
  simp only [nan_mem_iff] at *
  obtain ⟨k, hk⟩ := h
  have := C12_unary t x k
  exact ⟨⟨k, this.1.2 hk⟩, ⟨k, this.2.1.2 hk⟩, ⟨k, this.2.2.1.2 hk⟩, ⟨k, this.2.2.2.2 hk⟩⟩

theorem nan_mem_dual (t : Ty) (x : t.D F64) (h : nan ∈ comps t x) :
    nan ∈ comps _ (dualTy t x) := by
  have hn : ∀ c : F64, nan = -c ↔ nan = c := by
    intro c; rw [F64.neg_def]; cases c <;> simp [F64.neg]
  cases t <;> simp only [comps, List.mem_cons, List.not_mem_nil, or_false] at h <;>
    simp only [dualTy, comps, engabra, List.mem_cons, List.not_mem_nil, or_false, hn] <;> tauto

/-- **C43.** If a variable which occurs in an expression has a NaN in any component, the value of
the expression has a NaN in some component, whatever the size of the expression and the types
involved. -/
theorem C43_nan_never_lost (env : Nat → Sigma fun t : Ty => t.D F64) (e : Expr)
    (r : Sigma fun t : Ty => t.D F64) (h : e.eval env = some r)
    (i : Nat) (hi : i ∈ e.vars) (hn : nan ∈ comps (env i).1 (env i).2) : nan ∈ comps r.1 r.2 := by
  induction e generalizing r with
  | var j =>
    simp only [Expr.vars, List.mem_singleton] at hi
    simp only [Expr.eval, Option.some.injEq] at h
    rw [← h, ← hi]; exact hn
  | mul a b iha ihb =>
    simp only [Expr.eval, Option.bind_eq_some_iff, Option.map_eq_some_iff] at h
    obtain ⟨x, hx, y, hy, rfl⟩ := h
    simp only [Expr.vars, List.mem_append] at hi
    exact C12_typed_product _ _ _ _ (hi.imp (iha x hx) (ihb y hy))
  | add a b iha ihb =>
    simp only [Expr.eval, Option.bind_eq_some_iff] at h
    obtain ⟨x, hx, y, hy, h⟩ := h
    simp only [Expr.vars, List.mem_append] at hi
    rcases hi with hi | hi
    · obtain ⟨k, hk⟩ := (nan_mem_iff _ _).1 (iha x hx hi)
      exact (nan_mem_iff _ _).2 ⟨k, C12_sum _ _ _ _ _ _ h k (Or.inl hk)⟩
    · obtain ⟨k, hk⟩ := (nan_mem_iff _ _).1 (ihb y hy hi)
      exact (nan_mem_iff _ _).2 ⟨k, C12_sum _ _ _ _ _ _ h k (Or.inr hk)⟩
  | sub a b iha ihb =>
    simp only [Expr.eval, Option.bind_eq_some_iff] at h
    obtain ⟨x, hx, y, hy, h⟩ := h
    simp only [Expr.vars, List.mem_append] at hi
    rcases hi with hi | hi
    · obtain ⟨k, hk⟩ := (nan_mem_iff _ _).1 (iha x hx hi)
      exact (nan_mem_iff _ _).2 ⟨k, C12_difference _ _ _ _ _ _ h k (Or.inl hk)⟩
    · obtain ⟨k, hk⟩ := (nan_mem_iff _ _).1 (ihb y hy hi)
      exact (nan_mem_iff _ _).2 ⟨k, C12_difference _ _ _ _ _ _ h k (Or.inr hk)⟩
  | neg a ih =>
    simp only [Expr.eval, Option.map_eq_some_iff] at h
    obtain ⟨x, hx, rfl⟩ := h
    exact (nan_mem_neg _ _ (ih x hx hi)).1
  | reverse a ih =>
    simp only [Expr.eval, Option.map_eq_some_iff] at h
    obtain ⟨x, hx, rfl⟩ := h
    exact (nan_mem_neg _ _ (ih x hx hi)).2.1
  | oddverse a ih =>
    simp only [Expr.eval, Option.map_eq_some_iff] at h
    obtain ⟨x, hx, rfl⟩ := h
    exact (nan_mem_neg _ _ (ih x hx hi)).2.2.1
  | dirverse a ih =>
    simp only [Expr.eval, Option.map_eq_some_iff] at h
    obtain ⟨x, hx, rfl⟩ := h
    exact (nan_mem_neg _ _ (ih x hx hi)).2.2.2
  | dual a ih =>
    simp only [Expr.eval, Option.map_eq_some_iff] at h
    obtain ⟨x, hx, rfl⟩ := h
    exact nan_mem_dual _ _ (ih x hx hi)

/-- **C43.** So if all components of the result are valid numbers, no variable used was null. -/
theorem C43_valid_inputs (env : Nat → Sigma fun t : Ty => t.D F64) (e : Expr)
    (r : Sigma fun t : Ty => t.D F64) (h : e.eval env = some r)
    (hv : ∀ c ∈ comps r.1 r.2, isValidDub c = true) (i : Nat) (hi : i ∈ e.vars) :
    nan ∉ comps (env i).1 (env i).2 := by
  intro hn
  have := hv _ (C43_nan_never_lost env e r h i hi hn)
  rw [isValidDub_nan] at this; cases this

/-- Variables of an example: a null vector, a trivector, bivectors. -/
noncomputable def nanEnv : Nat → Sigma fun t : Ty => t.D F64
  | 0 => ⟨.vec, gnullTy nan .vec⟩
  | 1 => ⟨.tri, gzeroTy .tri⟩
  | _ => ⟨.biv, gzeroTy .biv⟩

/-- A null vector used deep in an expression of other types. -/
example : ∃ r, (Expr.dual (.mul (.var 1) (.add (.var 2) (.mul (.var 0) (.var 0))))).eval nanEnv
      = some r ∧ nan ∈ comps r.1 r.2 := by
  obtain ⟨r, hr⟩ : ∃ r, (Expr.dual (.mul (.var 1) (.add (.var 2)
    (.mul (.var 0) (.var 0))))).eval nanEnv = some r := ⟨_, rfl⟩
  exact ⟨r, hr, C43_nan_never_lost _ _ r hr 0 (by simp [Expr.vars])
    (List.mem_cons_self : nan ∈ [nan, nan, nan])⟩

end Engabra
