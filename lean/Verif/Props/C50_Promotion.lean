import Verif.Lemmas.Terms

/-! # C50: what promotion to `MultiVector` does to the result of an operation in binary64

Over the reals a typed operation and the same operation on the promoted `MultiVector` operands agree
(C03, C04, C42).  In IEEE arithmetic they agree up to the sign of zeros for all sums and differences
and for 73 of the 100 products.  The other 27 overloads add their products in another order than
`MultiVector * MultiVector`, and for each of them there are operands with a different result. -/

namespace Engabra

open F64 (nan inf zero fin IsFin Finite HasVal)

/-- Specification: the operand types of the 27 products which can differ from the product of the
promoted operands. -/
def reordered : List (Ty × Ty) :=
  [(.vec, .spin), (.vec, .imsp), (.vec, .mv),
   (.biv, .spin), (.biv, .imsp), (.biv, .mv),
   (.spin, .vec), (.spin, .biv), (.spin, .spin), (.spin, .imsp), (.spin, .dplx), (.spin, .mv),
   (.imsp, .vec), (.imsp, .biv), (.imsp, .spin), (.imsp, .imsp), (.imsp, .dplx), (.imsp, .mv),
   (.dplx, .spin), (.dplx, .imsp), (.dplx, .dplx), (.dplx, .mv),
   (.mv, .vec), (.mv, .biv), (.mv, .spin), (.mv, .imsp), (.mv, .dplx)]

/-- The check, by running the model on variables. -/
theorem same_order (s t : Ty) (h : (s, t) ∉ reordered) : ∀ k,
    (cf (typedT s t) k).nf = (cf (promotedT s t) k).nf ∧ (cf (typedT s t) k).nf.ok = true := by
  revert h
  cases s <;> cases t <;> intro h <;> first
    | (refine absurd ?_ h; decide)
    | (refine forall_fin8 ?_ ?_ ?_ ?_ ?_ ?_ ?_ ?_ <;> decide)

theorem product_same (s t : Ty) (h : (s, t) ∉ reordered) (a : s.D F64) (b : t.D F64)
    (ha : FiniteTy s a) (hb : FiniteTy t b) (k : Fin 8) :
    Sz (cf (promote _ (mulTy s t a b)) k) (cf (promote s a * promote t b) k) := by
  rw [← typedT_eval, ← promotedT_eval]
  obtain ⟨h1, h2⟩ := same_order s t h k
  exact T.sound _ _ _ (fun _ => env2_finite ha hb) h1 h2

/-! ## The other 27 -/

/-- Values of the variables for which the two orders give different results, and the component. -/
def orderWitness : Ty → Ty → List ℤ × Fin 8
  | .vec, .spin => ([0, 2^54, 2^54, -1, 0, 0, 0, 0, 1, 0, 0, 0, -1, 0, -1, 0], 2)
  | .vec, .imsp => ([0, 1, 2^54, 2^54, 0, 0, 0, 0, 0, -1, 1, 1, 0, 0, 0, 1], 4)
  | .vec, .mv => ([0, 1, 2^54, 2^54, 0, 0, 0, 0, 0, -1, 1, 1, 0, 1, 1, 1], 4)
  | .biv, .spin => ([0, 0, 0, 0, 2^54, 1, 2^54, 0, 1, 0, 0, 0, 1, -1, 1, 0], 4)
  | .biv, .imsp => ([0, 0, 0, 0, 2^54, 1, 2^54, 0, 0, -1, 0, -1, 0, 0, 0, -1], 2)
  | .biv, .mv => ([0, 0, 0, 0, 2^54, 1, 2^54, 0, 1, 1, 0, -1, 1, -1, 1, -1], 4)
  | .spin, .vec => ([2^54, 0, 0, 0, -1, 1, -2^54, 0, 0, 1, 1, 1, 0, 0, 0, 0], 1)
  | .spin, .biv => ([-2^54, 0, 0, 0, -1, 2^54, 2^54, 0, 0, 0, 0, 0, 1, 1, 1, 0], 6)
  | .spin, .spin => ([-2^54, 0, 0, 0, -1, 2^54, 2^54, 0, 0, 0, 0, 0, 1, 1, 1, 0], 6)
  | .spin, .imsp => ([-2^54, 0, 0, 0, 0, -2^54, -1, 0, 0, -1, 1, 1, 0, 0, 0, 1], 3)
  | .spin, .dplx => ([-2^54, 0, 0, 0, -1, 2^54, 2^54, 0, 0, 0, -1, 0, 1, 1, 1, 0], 6)
  | .spin, .mv => ([-2^54, 0, 0, 0, 0, -2^54, -1, 0, 0, -1, 1, 1, 0, 1, 1, 1], 3)
  | .imsp, .vec => ([0, 1, 2^54, 2^54, 0, 0, 0, -1, 0, -1, 1, 1, 0, 0, 0, 0], 4)
  | .imsp, .biv => ([0, 0, -2^54, -2^54, 0, 0, 0, 1, 0, 0, 0, 0, 1, -1, -1, 0], 1)
  | .imsp, .spin => ([0, 2^54, 0, 2^54, 0, 0, 0, -1, 1, 0, 0, 0, 0, 1, -1, 0], 3)
  | .imsp, .imsp => ([0, 1, 2^54, 2^54, 0, 0, 0, -1, 0, -1, 1, 1, 0, 0, 0, 1], 4)
  | .imsp, .dplx => ([0, 1, 2^54, 2^54, 0, 0, 0, -1, 0, -1, 1, 1, 0, 1, 1, 0], 4)
  | .imsp, .mv => ([0, 1, 2^54, 2^54, 0, 0, 0, -1, 0, -1, 1, 1, 0, 1, 1, 1], 4)
  | .dplx, .spin => ([0, 2^54, 2^54, -1, -2^54, -1, -2^54, 0, 1, 0, 0, 0, -1, 0, -1, 0], 2)
  | .dplx, .imsp => ([0, 1, 2^54, 2^54, 0, -2^54, -1, 0, 0, -1, 1, 1, 0, 0, 0, 1], 4)
  | .dplx, .dplx => ([0, 1, 1, -2^54, 2^54, 1, 0, 0, 0, -1, -1, -1, -1, -1, -1, 0], 5)
  | .dplx, .mv => ([0, 1, 1, -2^54, 2^54, 1, 0, 0, 0, -1, -1, -1, -1, -1, -1, 0], 5)
  | .mv, .vec => ([-2^54, 1, 2^54, 2^54, 0, -2^54, -1, -1, 0, -1, 1, 1, 0, 0, 0, 0], 4)
  | .mv, .biv => ([-2^54, 0, 2^54, 1, -1, 2^54, 2^54, 2^54, 0, 0, 0, 0, 1, 1, 1, 0], 6)
  | .mv, .spin => ([-2^54, 0, 2^54, 1, -1, 2^54, 2^54, 2^54, 0, 0, 0, 0, 1, 1, 1, 0], 6)
  | .mv, .imsp => ([-2^54, 1, 2^54, 2^54, 0, -2^54, -1, -1, 0, -1, 1, 1, 0, 0, 0, 1], 4)
  | .mv, .dplx => ([2^54, 1, 1, -2^54, 2^54, 1, 0, 0, 0, -1, -1, -1, -1, -1, -1, 0], 1)
  | _, _ => ([], 0)

def witEnv (s t : Ty) (n : Nat) : ℤ := (orderWitness s t).1.getD n 0

def runDiffer (s t : Ty) : Bool :=
  match (cf (typedT s t) (orderWitness s t).2).run (witEnv s t),
    (cf (promotedT s t) (orderWitness s t).2).run (witEnv s t) with
  | some a, some b => a != b
  | _, _ => false

theorem witness_ok : ∀ p ∈ reordered, runDiffer p.1 p.2 = true ∧
    ∀ z ∈ (orderWitness p.1 p.2).1, rint z = some z := by
  decide

/-- The doubles of the witness. -/
noncomputable def witF (s t : Ty) (n : Nat) : F64 := F64.roundTo ((witEnv s t n : ℤ) : ℚ)

theorem witF_val (s t : Ty) (h : (s, t) ∈ reordered) (n : Nat) :
    HasVal (witF s t n) (witEnv s t n) := by
  have h1 : rint (witEnv s t n) = some (witEnv s t n) := by
    unfold witEnv
    rw [List.getD_eq_getElem?_getD]
    cases h2 : (orderWitness s t).1[n]? with
    | none => rfl
    | some z => exact (witness_ok _ h).2 z (List.mem_of_getElem? h2)
  obtain ⟨h2, h3⟩ := rint_sound h1
  obtain ⟨a, b⟩ := F64.roundTo_value (x := ((witEnv s t n : ℤ) : ℚ)) (by rw [h2]; exact h3)
  exact ⟨a, b.trans h2⟩

theorem map_typed (f : Nat → F64) (s t : Ty) : ∀ k, (cf (typedT s t) k).eval f =
    cf (promote _ (mulTy s t (mapTy (fun x => T.eval f x) s (sv s 0))
      (mapTy (fun x => T.eval f x) t (sv t 8)))) k := by
  cases s <;> cases t <;> exact forall_fin8 rfl rfl rfl rfl rfl rfl rfl rfl

theorem map_promoted (f : Nat → F64) (s t : Ty) : ∀ k, (cf (promotedT s t) k).eval f =
    cf (promote s (mapTy (fun x => T.eval f x) s (sv s 0)) *
      promote t (mapTy (fun x => T.eval f x) t (sv t 8))) k := by
  cases s <;> cases t <;> exact forall_fin8 rfl rfl rfl rfl rfl rfl rfl rfl

theorem map_finite (f : Nat → F64) (hf : ∀ n, (f n).Finite) (t : Ty) (m : Nat) :
    ∀ c ∈ comps t (mapTy (fun x => T.eval f x) t (sv t m)), c.Finite := by
  cases t <;> simp [comps, mapTy, sv, T.eval, hf]

theorem value_sz {x y : F64} (h : Sz x y) : x.value = y.value := by
  rcases h with rfl | ⟨s, t, rfl, rfl⟩ <;> rfl

/-- **C50.**  Products.  For finite operands the typed product and the product of the promoted
operands agree in all eight components, up to the sign of zeros (also when a result overflows),
exactly for the operand types not in the list of 27. -/
theorem C50_product (s t : Ty) :
    (∀ (a : s.D F64) (b : t.D F64), (∀ c ∈ comps s a, c.Finite) → (∀ c ∈ comps t b, c.Finite) →
      ∀ k, Sz (cf (promote _ (mulTy s t a b)) k) (cf (promote s a * promote t b) k))
    ↔ (s, t) ∉ reordered := by
  constructor
  · intro h hm
    have hv := witF_val s t hm
    have h1 := h _ _ (map_finite (witF s t) (fun n => (hv n).1) s 0)
      (map_finite (witF s t) (fun n => (hv n).1) t 8) (orderWitness s t).2
    rw [← map_typed, ← map_promoted] at h1
    have h2 := (witness_ok _ hm).1
    unfold runDiffer at h2
    split at h2
    · rename_i a b ha hb
      have h3 := T.run_sound _ _ hv _ _ ha
      have h4 := T.run_sound _ _ hv _ _ hb
      have h5 := value_sz h1
      rw [h3.2, h4.2] at h5
      have h6 : a = b := Int.cast_injective h5
      rw [h6] at h2
      simp at h2
    · cases h2
  · intro h a b ha hb
    exact product_same s t h a b (finiteTy_of _ _ ha) (finiteTy_of _ _ hb)

/-! ## Sums, differences, involutions -/

theorem add_zero_sz (s : Bool) (x : F64) : Sz (x + F64.zero s) x := by
  rw [F64.add_comm']; exact zero_add_sz s x

macro "sz_close" : tactic => `(tactic| first
  | with_reducible exact Sz.refl _
  | exact (zero_add_sz false _).symm
  | exact (add_zero_sz false _).symm
  | exact (add_zero_sz true _).symm
  | exact Or.inl (F64.add_comm' _ _)
  | exact F64.sub_anti _ _
  | exact (F64.sub_anti _ _).symm
  | exact Sz.zeros _ _
  | exact Sz.trans (Or.inl (F64.neg_neg'' _)) (add_zero_sz true _).symm
  | exact Sz.refl _)

/-- **C50.**  Sums: every typed sum agrees with the sum of the promoted operands up to the sign of
zeros, for all data, NaN and infinities included. -/
theorem C50_sum (s t r : Ty) (a : s.D F64) (b : t.D F64) (c : r.D F64)
    (h : addTy s t a b = some ⟨r, c⟩) : ∀ k,
    Sz (cf (promote r c) k) (cf (promote s a + promote t b) k) := by
  cases s <;> cases t <;> simp only [addTy, Option.some.injEq, reduceCtorEq] at h <;>
    (cases h
     apply forall_fin8 <;> simp only [cf_0, cf_1, cf_2, cf_3, cf_4, cf_5, cf_6, cf_7, engabra] <;>
      sz_close)

/-- **C50.**  Differences, other than the six of C05 with the sign reversed. -/
theorem C50_difference (s t r : Ty) (a : s.D F64) (b : t.D F64) (c : r.D F64)
    (hok : subReversed s t = false)
    (h : subTy s t a b = some ⟨r, c⟩) : ∀ k,
    Sz (cf (promote r c) k) (cf (promote s a - promote t b) k) := by
  cases s <;> cases t <;> simp only [subReversed, Bool.true_eq_false] at hok <;>
    simp only [subTy, Option.some.injEq, reduceCtorEq] at h <;>
    (cases h
     apply forall_fin8 <;> simp only [cf_0, cf_1, cf_2, cf_3, cf_4, cf_5, cf_6, cf_7, engabra] <;>
      sz_close)

/-- **C50.**  Negation, the three involutions and the dual. -/
theorem C50_unary (t : Ty) (a : t.D F64) (k : Fin 8) :
    Sz (cf (promote t (negTy t a)) k) (cf (-(promote t a)) k) ∧
    Sz (cf (promote t (reverseTy t a)) k) (cf (reverse (promote t a)) k) ∧
    Sz (cf (promote t (oddverseTy t a)) k) (cf (oddverse (promote t a)) k) ∧
    Sz (cf (promote t (dirverseTy t a)) k) (cf (dirverse (promote t a)) k) ∧
    Sz (cf (promote _ (dualTy t a)) k) (cf (dual (promote t a)) k) := by
  revert k
  cases t <;> apply forall_fin8 <;>
    simp only [cf_0, cf_1, cf_2, cf_3, cf_4, cf_5, cf_6, cf_7, engabra, negTy, reverseTy,
      oddverseTy, dirverseTy, dualTy] <;>
    refine ⟨?_, ?_, ?_, ?_, ?_⟩ <;> sz_close

/-! ## Expressions -/

/-- Equality of multivectors up to the signs of zeros is a congruence. -/
theorem mul_congr {x y z w : MultiVector F64} (h : ∀ k, Sz (cf x k) (cf y k))
    (h' : ∀ k, Sz (cf z k) (cf w k)) : ∀ k, Sz (cf (x * z) k) (cf (y * w) k) := by
  obtain ⟨a0, a1, a2, a3, a4, a5, a6, a7⟩ := all8 h
  obtain ⟨b0, b1, b2, b3, b4, b5, b6, b7⟩ := all8 h'
  clear h h'
  simp only [cf_0, cf_1, cf_2, cf_3, cf_4, cf_5, cf_6, cf_7] at *
  apply forall_fin8 <;>
    simp only [cf_0, cf_1, cf_2, cf_3, cf_4, cf_5, cf_6, cf_7, engabra] <;>
    (repeat' first
        | with_reducible assumption
        | with_reducible apply Sz.add
        | with_reducible apply Sz.sub
        | with_reducible apply Sz.neg
        | with_reducible apply Sz.mul)

theorem add_congr {x y z w : MultiVector F64} (h : ∀ k, Sz (cf x k) (cf y k))
    (h' : ∀ k, Sz (cf z k) (cf w k)) :
    (∀ k, Sz (cf (x + z) k) (cf (y + w) k)) ∧ ∀ k, Sz (cf (x - z) k) (cf (y - w) k) := by
  obtain ⟨a0, a1, a2, a3, a4, a5, a6, a7⟩ := all8 h
  obtain ⟨b0, b1, b2, b3, b4, b5, b6, b7⟩ := all8 h'
  clear h h'
  simp only [cf_0, cf_1, cf_2, cf_3, cf_4, cf_5, cf_6, cf_7] at *
  constructor <;> apply forall_fin8 <;>
    simp only [cf_0, cf_1, cf_2, cf_3, cf_4, cf_5, cf_6, cf_7, engabra] <;>
    (repeat' first
        | with_reducible assumption
        | with_reducible apply Sz.add
        | with_reducible apply Sz.sub)

theorem unary_congr {x y : MultiVector F64} (h : ∀ k, Sz (cf x k) (cf y k)) :
    (∀ k, Sz (cf (-x) k) (cf (-y) k)) ∧
    (∀ k, Sz (cf (reverse x) k) (cf (reverse y) k)) ∧
    (∀ k, Sz (cf (oddverse x) k) (cf (oddverse y) k)) ∧
    (∀ k, Sz (cf (dirverse x) k) (cf (dirverse y) k)) ∧
    ∀ k, Sz (cf (dual x) k) (cf (dual y) k) := by
  refine ⟨?_, ?_, ?_, ?_, ?_⟩
  · obtain ⟨a0, a1, a2, a3, a4, a5, a6, a7⟩ := cf_neg x
    obtain ⟨b0, b1, b2, b3, b4, b5, b6, b7⟩ := cf_neg y
    apply forall_fin8
    · rw [a0, b0]; exact (h 0).neg
    · rw [a1, b1]; exact (h 1).neg
    · rw [a2, b2]; exact (h 2).neg
    · rw [a3, b3]; exact (h 3).neg
    · rw [a4, b4]; exact (h 4).neg
    · rw [a5, b5]; exact (h 5).neg
    · rw [a6, b6]; exact (h 6).neg
    · rw [a7, b7]; exact (h 7).neg
  · obtain ⟨a0, a1, a2, a3, a4, a5, a6, a7⟩ := cf_reverse x
    obtain ⟨b0, b1, b2, b3, b4, b5, b6, b7⟩ := cf_reverse y
    apply forall_fin8
    · rw [a0, b0]; exact h 0
    · rw [a1, b1]; exact h 1
    · rw [a2, b2]; exact h 2
    · rw [a3, b3]; exact h 3
    · rw [a4, b4]; exact (h 4).neg
    · rw [a5, b5]; exact (h 5).neg
    · rw [a6, b6]; exact (h 6).neg
    · rw [a7, b7]; exact (h 7).neg
  · obtain ⟨a0, a1, a2, a3, a4, a5, a6, a7⟩ := cf_oddverse x
    obtain ⟨b0, b1, b2, b3, b4, b5, b6, b7⟩ := cf_oddverse y
    apply forall_fin8
    · rw [a0, b0]; exact h 0
    · rw [a1, b1]; exact (h 1).neg
    · rw [a2, b2]; exact (h 2).neg
    · rw [a3, b3]; exact (h 3).neg
    · rw [a4, b4]; exact h 4
    · rw [a5, b5]; exact h 5
    · rw [a6, b6]; exact h 6
    · rw [a7, b7]; exact (h 7).neg
  · obtain ⟨a0, a1, a2, a3, a4, a5, a6, a7⟩ := cf_dirverse x
    obtain ⟨b0, b1, b2, b3, b4, b5, b6, b7⟩ := cf_dirverse y
    apply forall_fin8
    · rw [a0, b0]; exact h 0
    · rw [a1, b1]; exact (h 1).neg
    · rw [a2, b2]; exact (h 2).neg
    · rw [a3, b3]; exact (h 3).neg
    · rw [a4, b4]; exact (h 4).neg
    · rw [a5, b5]; exact (h 5).neg
    · rw [a6, b6]; exact (h 6).neg
    · rw [a7, b7]; exact h 7
  · obtain ⟨a0, a1, a2, a3, a4, a5, a6, a7⟩ := cf_dual x
    obtain ⟨b0, b1, b2, b3, b4, b5, b6, b7⟩ := cf_dual y
    apply forall_fin8
    · rw [a0, b0]; exact (h 7).neg
    · rw [a1, b1]; exact (h 4).neg
    · rw [a2, b2]; exact (h 5).neg
    · rw [a3, b3]; exact (h 6).neg
    · rw [a4, b4]; exact h 1
    · rw [a5, b5]; exact h 2
    · rw [a6, b6]; exact h 3
    · rw [a7, b7]; exact h 0

/-- **C50.**  Whole expressions of any size: if no product in it is one of the 27, all factors of
products are finite, and no difference is one of the six of C05, the typed expression and the
expression on promoted operands have the same result up to the sign of zeros. -/
theorem C50_expression (env : Nat → Sigma fun t : Ty => t.D F64) (e : Expr)
    (hr : e.NoReversed env)
    (hp : ∀ a b, Expr.mul a b ∈ e.subs → ∀ x y, a.eval env = some x → b.eval env = some y →
      (x.1, y.1) ∉ reordered ∧ (∀ c ∈ comps x.1 x.2, c.Finite) ∧ ∀ c ∈ comps y.1 y.2, c.Finite)
    (r : Sigma fun t : Ty => t.D F64) (h : e.eval env = some r) : ∀ k,
    Sz (cf (promote r.1 r.2) k) (cf (e.evalMV fun i => promote (env i).1 (env i).2) k) := by
  induction e generalizing r with
  | var i =>
    simp only [Expr.eval, Option.some.injEq] at h
    subst h
    exact fun k => .refl _
  | mul a b iha ihb =>
    simp only [Expr.eval, Option.bind_eq_some_iff, Option.map_eq_some_iff] at h
    obtain ⟨x, hx, y, hy, rfl⟩ := h
    have ha := iha (hr.mono fun _ h => by simp [Expr.subs, h])
      (fun f g hfg => hp f g (by simp [Expr.subs, hfg])) x hx
    have hb := ihb (hr.mono fun _ h => by simp [Expr.subs, h])
      (fun f g hfg => hp f g (by simp [Expr.subs, hfg])) y hy
    obtain ⟨h1, h2, h3⟩ := hp a b (by simp [Expr.subs]) x y hx hy
    exact fun k => (product_same _ _ h1 _ _ (finiteTy_of _ _ h2) (finiteTy_of _ _ h3) k).trans
      (mul_congr ha hb k)
  | add a b iha ihb =>
    simp only [Expr.eval, Option.bind_eq_some_iff] at h
    obtain ⟨x, hx, y, hy, h⟩ := h
    have ha := iha (hr.mono fun _ h => by simp [Expr.subs, h])
      (fun f g hfg => hp f g (by simp [Expr.subs, hfg])) x hx
    have hb := ihb (hr.mono fun _ h => by simp [Expr.subs, h])
      (fun f g hfg => hp f g (by simp [Expr.subs, hfg])) y hy
    exact fun k => (C50_sum _ _ _ _ _ _ h k).trans ((add_congr ha hb).1 k)
  | sub a b iha ihb =>
    simp only [Expr.eval, Option.bind_eq_some_iff] at h
    obtain ⟨x, hx, y, hy, h⟩ := h
    have ha := iha (hr.mono fun _ h => by simp [Expr.subs, h])
      (fun f g hfg => hp f g (by simp [Expr.subs, hfg])) x hx
    have hb := ihb (hr.mono fun _ h => by simp [Expr.subs, h])
      (fun f g hfg => hp f g (by simp [Expr.subs, hfg])) y hy
    have hrev := hr a b (by simp [Expr.subs]) x y hx hy
    exact fun k => (C50_difference _ _ _ _ _ _ hrev h k).trans ((add_congr ha hb).2 k)
  | neg a ih =>
    simp only [Expr.eval, Option.map_eq_some_iff] at h
    obtain ⟨x, hx, rfl⟩ := h
    have ha := ih (hr.mono fun _ h => by simp [Expr.subs, h])
      (fun f g hfg => hp f g (by simp [Expr.subs, hfg])) x hx
    exact fun k => (C50_unary x.1 x.2 k).1.trans ((unary_congr ha).1 k)
  | reverse a ih =>
    simp only [Expr.eval, Option.map_eq_some_iff] at h
    obtain ⟨x, hx, rfl⟩ := h
    have ha := ih (hr.mono fun _ h => by simp [Expr.subs, h])
      (fun f g hfg => hp f g (by simp [Expr.subs, hfg])) x hx
    exact fun k => (C50_unary x.1 x.2 k).2.1.trans ((unary_congr ha).2.1 k)
  | oddverse a ih =>
    simp only [Expr.eval, Option.map_eq_some_iff] at h
    obtain ⟨x, hx, rfl⟩ := h
    have ha := ih (hr.mono fun _ h => by simp [Expr.subs, h])
      (fun f g hfg => hp f g (by simp [Expr.subs, hfg])) x hx
    exact fun k => (C50_unary x.1 x.2 k).2.2.1.trans ((unary_congr ha).2.2.1 k)
  | dirverse a ih =>
    simp only [Expr.eval, Option.map_eq_some_iff] at h
    obtain ⟨x, hx, rfl⟩ := h
    have ha := ih (hr.mono fun _ h => by simp [Expr.subs, h])
      (fun f g hfg => hp f g (by simp [Expr.subs, hfg])) x hx
    exact fun k => (C50_unary x.1 x.2 k).2.2.2.1.trans ((unary_congr ha).2.2.2.1 k)
  | dual a ih =>
    simp only [Expr.eval, Option.map_eq_some_iff] at h
    obtain ⟨x, hx, rfl⟩ := h
    have ha := ih (hr.mono fun _ h => by simp [Expr.subs, h])
      (fun f g hfg => hp f g (by simp [Expr.subs, hfg])) x hx
    exact fun k => (C50_unary x.1 x.2 k).2.2.2.2.trans ((unary_congr ha).2.2.2.2 k)

/-- What agreement up to the sign of zeros means to a user: if the data are not NaN, `==` of the two
numbers is true. -/
theorem C50_equal (x y : F64) (h : Sz x y) (hx : x ≠ nan) : Dbl.feq x y = true := by
  rcases h with rfl | ⟨s, t, rfl, rfl⟩
  · cases x with
    | nan => exact absurd rfl hx
    | inf s => rw [F64.feq_def]; simp [F64.feq]
    | zero s => rw [F64.feq_def]; simp [F64.feq]
    | fin v hv => rw [F64.feq_def]; simp [F64.feq]
  · rw [F64.feq_def]; rfl

/-- **C50.**  Finite operands are needed: with an infinite component the promoted product has NaN
(zero times infinity) where the typed product has none. -/
theorem C50_finite_needed : ∃ (a : Scalar F64) (b : Vector F64),
    (∀ c ∈ comps .vec (mulTy .sca .vec a b), c ≠ nan) ∧
    cf (promote .sca a * promote .vec b) 4 = nan := by
  refine ⟨⟨⟨inf false⟩⟩, ⟨⟨inf false, inf false, inf false⟩⟩, ?_, ?_⟩
  · intro c hc
    simp only [comps, mulTy, engabra, F64.mul_def, F64.mul, List.mem_cons, List.not_mem_nil,
      or_false] at hc
    rcases hc with rfl | rfl | rfl <;> simp
  · have zi : (0 : F64) * inf false = nan := rfl
    simp only [cf_4, engabra, zi, F64.add_nan, F64.nan_add, F64.sub_nan]

/-- Variables of an example: the vectors `(1, 1, 1)`, all others the bivector `(1, 1, 1)`. -/
noncomputable def onesEnv : Nat → Sigma fun t : Ty => t.D F64
  | 0 => ⟨.vec, ⟨⟨1, 1, 1⟩⟩⟩
  | _ => ⟨.biv, ⟨⟨1, 1, 1⟩⟩⟩

/-- `v * b + reverse(v)` meets the hypotheses of `C50_expression`. -/
example : ∃ r, (Expr.add (.mul (.var 0) (.var 1)) (.reverse (.var 0))).eval onesEnv = some r ∧
    ∀ k, Sz (cf (promote r.1 r.2) k) (cf ((Expr.add (.mul (.var 0) (.var 1))
      (.reverse (.var 0))).evalMV fun i => promote (onesEnv i).1 (onesEnv i).2) k) := by
  obtain ⟨r, hr⟩ : ∃ r, (Expr.add (.mul (.var 0) (.var 1)) (.reverse (.var 0))).eval onesEnv
    = some r := ⟨_, rfl⟩
  refine ⟨r, hr, C50_expression onesEnv _ (fun a b hab => by simp [Expr.subs] at hab) ?_ r hr⟩
  intro a b hab x y hx hy
  simp only [Expr.subs, List.mem_cons, List.mem_append, List.not_mem_nil, reduceCtorEq, or_false,
    false_or, Expr.mul.injEq] at hab
  obtain ⟨rfl, rfl⟩ := hab
  cases hx; cases hy
  have h1 : ∀ c ∈ ([1, 1, 1] : List F64), c.Finite := by simp [F64.hasVal_one.1]
  exact ⟨by decide, h1, h1⟩

/-- A product of a `Vector` and a `BiVector` through the promoted operands, with data that round. -/
example (a : Vector F64) (b : BiVector F64) (ha : ∀ c ∈ comps .vec a, c.Finite)
    (hb : ∀ c ∈ comps .biv b, c.Finite) (k : Fin 8) :
    Sz (cf (promote .imsp (a * b)) k) (cf (promote .vec a * promote .biv b) k) :=
  (C50_product .vec .biv).2 (by decide) a b ha hb k

end Engabra
