import Verif.Props.C44_ExprRounding
import Verif.Props.C13_C15_Norms
import Verif.Props.C22_Rotation
import Mathlib.Analysis.InnerProductSpace.Basic
import Mathlib.Analysis.SpecialFunctions.Pow.Real

/-! # C45: long products and long chains of rotations

Errors are measured by the Euclidean length over all components, so that they can be compared with
the length of the object itself. -/

namespace Engabra
open F64 (Finite)

/-- Specification: Euclidean length over the eight components. -/
noncomputable def len (m : MultiVector ℚ) : ℝ := √(∑ k : Fin 8, ((cf m k : ℚ) : ℝ) ^ 2)

theorem len_nonneg (m : MultiVector ℚ) : 0 ≤ len m := Real.sqrt_nonneg _

theorem len_sq (m : MultiVector ℚ) : len m ^ 2 = ∑ k : Fin 8, ((cf m k : ℚ) : ℝ) ^ 2 :=
  Real.sq_sqrt (Finset.sum_nonneg fun _ _ => sq_nonneg _)

theorem cf_le_len (m : MultiVector ℚ) (k : Fin 8) : |((cf m k : ℚ) : ℝ)| ≤ len m := by
  rw [← Real.sqrt_sq_eq_abs]
  exact Real.sqrt_le_sqrt (Finset.single_le_sum (f := fun k : Fin 8 => ((cf m k : ℚ) : ℝ) ^ 2)
    (fun _ _ => sq_nonneg _) (Finset.mem_univ k))

theorem len_le (m : MultiVector ℚ) {c : ℝ} (hc : 0 ≤ c) (h : ∀ k, |((cf m k : ℚ) : ℝ)| ≤ c) :
    len m ≤ 3 * c := by
  have h1 : ∑ k : Fin 8, ((cf m k : ℚ) : ℝ) ^ 2 ≤ ∑ _k : Fin 8, c ^ 2 :=
    Finset.sum_le_sum fun k _ => by
      rw [← sq_abs]; exact pow_le_pow_left₀ (abs_nonneg _) (h k) 2
  rw [Finset.sum_const, Finset.card_univ, Fintype.card_fin, nsmul_eq_mul] at h1
  rw [← Real.sqrt_sq (by positivity : 0 ≤ 3 * c)]
  refine Real.sqrt_le_sqrt (h1.trans ?_)
  push_cast; nlinarith [sq_nonneg c]

theorem len_add_le (x y : MultiVector ℚ) : len (x + y) ≤ len x + len y := by
  refine abs_le_of_sq_le_sq' ?_ (add_nonneg (len_nonneg _) (len_nonneg _)) |>.2
  have h := Real.sum_mul_le_sqrt_mul_sqrt Finset.univ (fun k : Fin 8 => ((cf x k : ℚ) : ℝ))
    (fun k : Fin 8 => ((cf y k : ℚ) : ℝ))
  rw [len_sq, add_sq, len_sq, len_sq]
  have e : ∑ k : Fin 8, ((cf (x + y) k : ℚ) : ℝ) ^ 2 = ∑ k : Fin 8, ((cf x k : ℚ) : ℝ) ^ 2
      + 2 * ∑ k : Fin 8, ((cf x k : ℚ) : ℝ) * ((cf y k : ℚ) : ℝ) + ∑ k : Fin 8, ((cf y k : ℚ) : ℝ) ^ 2 := by
    rw [Finset.mul_sum, ← Finset.sum_add_distrib, ← Finset.sum_add_distrib]
    refine Finset.sum_congr rfl fun k _ => ?_
    rw [cf_add]; push_cast; ring
  rw [e]
  have h' : ∑ k : Fin 8, ((cf x k : ℚ) : ℝ) * ((cf y k : ℚ) : ℝ) ≤ len x * len y := h
  linarith

theorem len_congr {x y : MultiVector ℚ} (h : ∀ k, |((cf x k : ℚ) : ℝ)| = |((cf y k : ℚ) : ℝ)|) :
    len x = len y := by
  unfold len
  congr 1
  exact Finset.sum_congr rfl fun k _ => by rw [← sq_abs, h, sq_abs]

/-- Basis element whose product with `i` is plus or minus `k`. -/
def partner (k i : Fin 8) : Fin 8 :=
  (![0, 1, 2, 6, 3, 5, 4, 7] : Fin 8 → Fin 8) ⟨(maskOf i ^^^ maskOf k) % 8, Nat.mod_lt _ (by decide)⟩

theorem partner_spec : ∀ k i j : Fin 8, maskOf i ^^^ maskOf j = maskOf k ↔ j = partner k i := by
  decide

theorem partner_invol (k : Fin 8) : Function.Involutive (partner k) := by
  unfold Function.Involutive; revert k; decide

theorem absMul_le (x y : MultiVector ℚ) (k : Fin 8) :
    ((absMul (cf x) (cf y) k : ℚ) : ℝ) ≤ len x * len y := by
  have e : absMul (cf x) (cf y) k = ∑ i : Fin 8, |cf x i| * |cf y (partner k i)| := by
    unfold absMul
    refine Finset.sum_congr rfl fun i _ => ?_
    simp only [partner_spec, Finset.sum_ite_eq', Finset.mem_univ, if_true]
  rw [e]
  push_cast
  refine (Real.sum_mul_le_sqrt_mul_sqrt _ _ _).trans (le_of_eq ?_)
  unfold len
  congr 2
  · exact Finset.sum_congr rfl fun i _ => sq_abs _
  · rw [← Equiv.sum_comp (partner_invol k).toPerm (fun j => ((cf y j : ℚ) : ℝ) ^ 2)]
    exact Finset.sum_congr rfl fun i _ => sq_abs _

theorem magSq_len (m : MultiVector ℚ) : ((magSq m : ℚ) : ℝ) = len m ^ 2 := by
  rw [len_sq, show magSq m = ∑ k : Fin 8, cf m k ^ 2 from ?_]
  · push_cast; rfl
  · simp only [Fin.sum_univ_eight, cf_0, cf_1, cf_2, cf_3, cf_4, cf_5, cf_6, cf_7, engabra]; ring

theorem len_mul (s t : Ty) (h : s.versor = true ∨ t.versor = true) (a : s.D ℚ) (b : t.D ℚ) :
    len (promote s a * promote t b) = len (promote s a) * len (promote t b) := by
  have h1 := C14_magSq_mul s t h a b
  rw [← magSq_promote, ← magSq_promote s, ← magSq_promote t, C03_typed_product_agrees] at h1
  have h2 : len (promote s a * promote t b) ^ 2 = (len (promote s a) * len (promote t b)) ^ 2 := by
    rw [mul_pow, ← magSq_len, ← magSq_len, ← magSq_len, h1]; push_cast; rfl
  exact (pow_left_inj₀ (len_nonneg _) (mul_nonneg (len_nonneg _) (len_nonneg _)) two_ne_zero).1 h2

theorem len_mul_right (X : MultiVector ℚ) (t : Ty) (h : t.versor = true) (b : t.D ℚ) :
    len (X * promote t b) = len X * len (promote t b) := len_mul .mv t (Or.inr h) X b
theorem len_mul_left (s : Ty) (X : MultiVector ℚ) (h : s.versor = true) (a : s.D ℚ) :
    len (promote s a * X) = len (promote s a) * len X := len_mul s .mv (Or.inl h) a X

theorem len_obj_right (X : MultiVector ℚ) (x : Sigma fun t : Ty => t.D F64)
    (h : x.1.versor = true) : len (X * exactObj x) = len X * len (exactObj x) :=
  len_mul_right X x.1 h _
theorem len_obj_left (X : MultiVector ℚ) (x : Sigma fun t : Ty => t.D F64)
    (h : x.1.versor = true) : len (exactObj x * X) = len X * len (exactObj x) :=
  (len_mul_left x.1 X h _).trans (mul_comm _ _)

theorem split_right (R A X E : MultiVector ℚ) : R - E * X = (R - A * X) + (A - E) * X := by mv_ring
theorem split_left (R A X E : MultiVector ℚ) : R - X * E = (R - X * A) + X * (A - E) := by mv_ring

/-- One product of any types: error relative to the lengths of the factors. -/
theorem product_len (s t : Ty) (a : s.D F64) (b : t.D F64) (fa : FiniteTy s a) (fb : FiniteTy t b)
    (h : len (exactObj ⟨s, a⟩) * len (exactObj ⟨t, b⟩) ≤ 2 ^ 1022) :
    FiniteTy _ (mulTy s t a b) ∧
    len (exactObj ⟨_, mulTy s t a b⟩ - exactObj ⟨s, a⟩ * exactObj ⟨t, b⟩)
      ≤ 27 * 2 ^ (-53 : ℤ) * (len (exactObj ⟨s, a⟩) * len (exactObj ⟨t, b⟩)) + 2 ^ (-1057 : ℤ) := by
  have hk : ∀ k, absMul (cf (exactObj ⟨s, a⟩)) (cf (exactObj ⟨t, b⟩)) k ≤ 2 ^ 1022 := fun k => by
    have := (absMul_le (exactObj ⟨s, a⟩) (exactObj ⟨t, b⟩) k).trans h
    exact_mod_cast this
  have hp := fun k => C33_product s t a b fa fb k (hk k)
  refine ⟨fun k => (hp k).1, ?_⟩
  have ht : (0 : ℝ) < 2 ^ (-1059 : ℤ) := zpow_pos two_pos _
  have hl : 0 ≤ len (exactObj ⟨s, a⟩) * len (exactObj ⟨t, b⟩) := mul_nonneg (len_nonneg _) (len_nonneg _)
  have hc : (0 : ℝ) ≤ 9 * 2 ^ (-53 : ℤ) * (len (exactObj ⟨s, a⟩) * len (exactObj ⟨t, b⟩))
      + 2 ^ (-1059 : ℤ) := by positivity
  refine (len_le _ hc fun k => ?_).trans ?_
  · have h2 := (hp k).2
    rw [cf_sub, show cf (exactObj ⟨_, mulTy s t a b⟩) k = (cf (promote _ (mulTy s t a b)) k).value
      from cf_val _ _ k]
    have h3 : |(((cf (promote _ (mulTy s t a b)) k).value
        - cf (exactObj ⟨s, a⟩ * exactObj ⟨t, b⟩) k : ℚ) : ℝ)|
        ≤ 9 * 2 ^ (-53 : ℤ) * ((absMul (cf (exactObj ⟨s, a⟩)) (cf (exactObj ⟨t, b⟩)) k : ℚ) : ℝ)
          + 2 ^ (-1059 : ℤ) := by
      have h4 := (Rat.cast_le (K := ℝ)).2 h2
      rw [Rat.cast_abs, Rat.cast_add, Rat.cast_mul, Rat.cast_mul, Rat.cast_zpow, Rat.cast_zpow,
        Rat.cast_ofNat, Rat.cast_ofNat] at h4
      exact h4
    refine h3.trans (add_le_add (mul_le_mul_of_nonneg_left (absMul_le _ _ k) (by positivity)) le_rfl)
  · have e : (2 : ℝ) ^ (-1057 : ℤ) = 4 * 2 ^ (-1059 : ℤ) := by
      rw [show (-1057 : ℤ) = 2 + -1059 by norm_num, zpow_add₀ two_ne_zero]; norm_num
    rw [e]; linarith

/-! ## Tracking an accumulator -/

/-- `acc` is within `((1 + 28 u)^n - 1) P` of `E`, whose length is at most `P`. -/
def Track (n : ℕ) (acc : Sigma fun t : Ty => t.D F64) (E : MultiVector ℚ) (P : ℝ) : Prop :=
  FiniteTy acc.1 acc.2 ∧ len (exactObj acc - E) ≤ ((1 + 28 * 2 ^ (-53 : ℤ)) ^ n - 1) * P ∧ len E ≤ P

theorem one_le_kpow (n : ℕ) : (1 : ℝ) ≤ (1 + 28 * 2 ^ (-53 : ℤ)) ^ n :=
  one_le_pow₀ (by have : (0 : ℝ) < 2 ^ (-53 : ℤ) := zpow_pos two_pos _; linarith)

theorem len_sub_add (x y : MultiVector ℚ) : len x ≤ len (x - y) + len y := by
  have := len_add_le (x - y) y
  rwa [show x - y + y = x by mv_ring] at this

theorem Track.len_le {n : ℕ} {acc : Sigma fun t : Ty => t.D F64} {E : MultiVector ℚ} {P : ℝ}
    (h : Track n acc E P) : len (exactObj acc) ≤ (1 + 28 * 2 ^ (-53 : ℤ)) ^ n * P := by
  have := len_sub_add (exactObj acc) E
  have := h.2.1; have := h.2.2
  linarith

theorem tiny_absorbed {Q : ℝ} (h : 2 ^ (-1000 : ℤ) ≤ Q) (n : ℕ) :
    (2 : ℝ) ^ (-1057 : ℤ) ≤ 2 ^ (-53 : ℤ) * ((1 + 28 * 2 ^ (-53 : ℤ)) ^ n * Q) := by
  have h0 : (0 : ℝ) < 2 ^ (-1000 : ℤ) := zpow_pos two_pos _
  have h1 : Q ≤ (1 + 28 * 2 ^ (-53 : ℤ)) ^ n * Q := by
    have := mul_le_mul_of_nonneg_right (one_le_kpow n) (h0.le.trans h)
    rwa [one_mul] at this
  calc (2 : ℝ) ^ (-1057 : ℤ) ≤ 2 ^ (-53 + -1000 : ℤ) :=
        zpow_le_zpow_right₀ one_le_two (by norm_num)
    _ = 2 ^ (-53 : ℤ) * 2 ^ (-1000 : ℤ) := zpow_add₀ two_ne_zero _ _
    _ ≤ _ := mul_le_mul_of_nonneg_left (h.trans h1) (zpow_pos two_pos _).le

theorem track_num {u K P r e f t la lx : ℝ} (hu : 0 ≤ u) (hr : lx = r) (hr0 : 0 ≤ r)
    (he : e ≤ (K - 1) * P) (hla : la ≤ K * P) (ht : t ≤ u * (K * (P * r)))
    (hf : f ≤ 27 * u * (la * lx) + t) : f + e * lx ≤ (K * (1 + 28 * u) - 1) * (P * r) := by
  subst hr
  have h1 := mul_le_mul_of_nonneg_right he hr0
  have h2 := mul_le_mul_of_nonneg_left (mul_le_mul_of_nonneg_right hla hr0)
    (by linarith : 0 ≤ 27 * u)
  nlinarith

theorem Track.right {n : ℕ} {acc : Sigma fun t : Ty => t.D F64} {E : MultiVector ℚ} {P : ℝ}
    (h : Track n acc E P) (x : Sigma fun t : Ty => t.D F64) (hx : x.1.versor = true)
    (fx : FiniteTy x.1 x.2) (hlo : 2 ^ (-1000 : ℤ) ≤ P * len (exactObj x))
    (hhi : (1 + 28 * 2 ^ (-53 : ℤ)) ^ n * (P * len (exactObj x)) ≤ 2 ^ 1022) :
    Track (n + 1) ⟨_, mulTy acc.1 x.1 acc.2 x.2⟩ (E * exactObj x) (P * len (exactObj x)) := by
  have hl := h.len_le
  obtain ⟨fa, he, hE⟩ := h
  have hx0 := len_nonneg (exactObj x)
  have hm := mul_le_mul_of_nonneg_right hl hx0
  obtain ⟨hf, hp⟩ := product_len acc.1 x.1 acc.2 x.2 fa fx (hm.trans (by rw [mul_assoc]; exact hhi))
  refine ⟨hf, ?_, ?_⟩
  · rw [split_right _ (exactObj acc)]
    refine (len_add_le _ _).trans ?_
    rw [len_obj_right _ _ hx, pow_succ]
    exact track_num (zpow_pos two_pos _).le rfl hx0 he hl (tiny_absorbed hlo n) hp
  · rw [len_obj_right _ _ hx]; exact mul_le_mul_of_nonneg_right hE hx0

theorem Track.left {n : ℕ} {acc : Sigma fun t : Ty => t.D F64} {E : MultiVector ℚ} {P : ℝ}
    (h : Track n acc E P) (x : Sigma fun t : Ty => t.D F64) (hx : x.1.versor = true)
    (fx : FiniteTy x.1 x.2) (hlo : 2 ^ (-1000 : ℤ) ≤ P * len (exactObj x))
    (hhi : (1 + 28 * 2 ^ (-53 : ℤ)) ^ n * (P * len (exactObj x)) ≤ 2 ^ 1022) :
    Track (n + 1) ⟨_, mulTy x.1 acc.1 x.2 acc.2⟩ (exactObj x * E) (P * len (exactObj x)) := by
  have hl := h.len_le
  obtain ⟨fa, he, hE⟩ := h
  have hx0 := len_nonneg (exactObj x)
  have hm := mul_le_mul_of_nonneg_right hl hx0
  obtain ⟨hf, hp⟩ := product_len x.1 acc.1 x.2 acc.2 fx fa
    (by rw [mul_comm]; exact hm.trans (by rw [mul_assoc]; exact hhi))
  refine ⟨hf, ?_, ?_⟩
  · rw [split_left _ (exactObj acc)]
    refine (len_add_le _ _).trans ?_
    rw [len_obj_left _ _ hx, pow_succ]
    rw [mul_comm (len (exactObj ⟨x.1, x.2⟩))] at hp
    exact track_num (zpow_pos two_pos _).le rfl hx0 he hl (tiny_absorbed hlo n) hp
  · rw [len_obj_left _ _ hx]; exact mul_le_mul_of_nonneg_right hE hx0


/-- One turn of a loop: multiply the accumulator by `x.2`, on the left if `x.1`. -/
noncomputable def mulStep (acc : Sigma fun t : Ty => t.D F64) (x : Bool × Sigma fun t : Ty => t.D F64) :
    Sigma fun t : Ty => t.D F64 :=
  if x.1 then ⟨_, mulTy x.2.1 acc.1 x.2.2 acc.2⟩ else ⟨_, mulTy acc.1 x.2.1 acc.2 x.2.2⟩

/-- The same in exact arithmetic. -/
def exactStep (E : MultiVector ℚ) (x : Bool × Sigma fun t : Ty => t.D F64) : MultiVector ℚ :=
  if x.1 then exactObj x.2 * E else E * exactObj x.2

/-- Product of the lengths of the factors. -/
noncomputable def lens (xs : List (Bool × Sigma fun t : Ty => t.D F64)) : ℝ :=
  (xs.map fun x => len (exactObj x.2)).prod

theorem Track.step {n : ℕ} {acc : Sigma fun t : Ty => t.D F64} {E : MultiVector ℚ} {P : ℝ}
    (h : Track n acc E P) (x : Bool × Sigma fun t : Ty => t.D F64) (hx : x.2.1.versor = true)
    (fx : FiniteTy x.2.1 x.2.2) (hlo : 2 ^ (-1000 : ℤ) ≤ P * len (exactObj x.2))
    (hhi : (1 + 28 * 2 ^ (-53 : ℤ)) ^ n * (P * len (exactObj x.2)) ≤ 2 ^ 1022) :
    Track (n + 1) (mulStep acc x) (exactStep E x) (P * len (exactObj x.2)) := by
  obtain ⟨b, x⟩ := x
  cases b
  · exact h.right x hx fx hlo hhi
  · exact h.left x hx fx hlo hhi

theorem Track.loop (xs : List (Bool × Sigma fun t : Ty => t.D F64))
    (hx : ∀ x ∈ xs, x.2.1.versor = true ∧ FiniteTy x.2.1 x.2.2) :
    ∀ (n : ℕ) (acc : Sigma fun t : Ty => t.D F64) (E : MultiVector ℚ) (P : ℝ), Track n acc E P →
    (∀ p, p <+: xs → p ≠ [] → 2 ^ (-1000 : ℤ) ≤ P * lens p ∧
      (1 + 28 * 2 ^ (-53 : ℤ)) ^ (n + p.length) * (P * lens p) ≤ 2 ^ 1022) →
    Track (n + xs.length) (xs.foldl mulStep acc) (xs.foldl exactStep E) (P * lens xs) := by
  induction xs with
  | nil => intro n acc E P h _; simpa [lens] using h
  | cons x xs ih =>
    intro n acc E P h hb
    have h1 := hb [x] ⟨xs, rfl⟩ (by simp)
    have e1 : lens [x] = len (exactObj x.2) := by simp [lens]
    rw [e1] at h1
    have h2 := h.step x (hx x (by simp)).1 (hx x (by simp)).2 h1.1
      ((mul_le_mul_of_nonneg_right (pow_le_pow_right₀ (by
        have : (0 : ℝ) < 2 ^ (-53 : ℤ) := zpow_pos two_pos _
        linarith) (by simp)) ((zpow_pos two_pos _).le.trans h1.1)).trans h1.2)
    have h3 := ih (fun y hy => hx y (by simp [hy])) _ _ _ _ h2 (fun p hp hne => by
      have h4 := hb (x :: p) (by simpa using hp) (by simp)
      have e2 : lens (x :: p) = len (exactObj x.2) * lens p := by simp [lens]
      rw [e2, ← mul_assoc, List.length_cons, ← add_assoc, add_right_comm] at h4
      exact h4)
    have e3 : lens (x :: xs) = len (exactObj x.2) * lens xs := by simp [lens]
    rw [e3, ← mul_assoc, List.length_cons, ← add_assoc, add_right_comm]
    exact h3

theorem Track.start (x0 : Sigma fun t : Ty => t.D F64) (h : FiniteTy x0.1 x0.2) :
    Track 0 x0 (exactObj x0) (len (exactObj x0)) := by
  refine ⟨h, ?_, le_rfl⟩
  rw [show exactObj x0 - exactObj x0 = (⟨gzero, gzero, gzero, gzero⟩ : MultiVector ℚ) by
    generalize exactObj x0 = X; mv_ring]
  rw [pow_zero, sub_self, zero_mul]
  refine le_of_eq ?_
  unfold len
  rw [Finset.sum_eq_zero, Real.sqrt_zero]
  intro k _
  have : ∀ k, cf (⟨gzero, gzero, gzero, gzero⟩ : MultiVector ℚ) k = 0 := by
    apply forall_fin8 <;> rfl
  rw [this]; simp

/-- **C45.**  A loop that multiplies an object of any type, on either side, by any number of
scalars, vectors, bivectors, trivectors, spinors, ... (every type apart from `DirPlex` and
`MultiVector`): as long as the exact partial products stay away from underflow and overflow, the
result is finite and differs from the exact product by a relative error of `(1 + 28 u)^n - 1`,
measured by length. -/
theorem C45_product_loop (x0 : Sigma fun t : Ty => t.D F64)
    (xs : List (Bool × Sigma fun t : Ty => t.D F64))
    (hx : ∀ x ∈ xs, x.2.1.versor = true)
    (hf : ∀ c ∈ comps x0.1 x0.2, c.Finite) (hfs : ∀ x ∈ xs, ∀ c ∈ comps x.2.1 x.2.2, c.Finite)
    (hb : ∀ p, p <+: xs → 2 ^ (-1000 : ℤ) ≤ len (exactObj x0) * lens p ∧
      (1 + 28 * 2 ^ (-53 : ℤ)) ^ p.length * (len (exactObj x0) * lens p) ≤ 2 ^ 1022) :
    (∀ k, (cf (promote (xs.foldl mulStep x0).1 (xs.foldl mulStep x0).2) k).Finite) ∧
    len (exactObj (xs.foldl mulStep x0) - xs.foldl exactStep (exactObj x0))
      ≤ ((1 + 28 * 2 ^ (-53 : ℤ)) ^ xs.length - 1) * (len (exactObj x0) * lens xs) := by
  have h := Track.loop xs (fun x h => ⟨hx x h, finiteTy_of _ _ (hfs x h)⟩) 0 x0 _ _
    (Track.start x0 (finiteTy_of _ _ hf)) (fun p hp _ => by rw [zero_add]; exact hb p hp)
  rw [zero_add] at h
  exact ⟨h.1, h.2.1⟩

/-! ## Factors of length about one -/

theorem lens_bounds {η : ℝ} (hη : η ≤ 1) (xs : List (Bool × Sigma fun t : Ty => t.D F64))
    (h : ∀ x ∈ xs, |len (exactObj x.2) - 1| ≤ η) :
    (1 - η) ^ xs.length ≤ lens xs ∧ lens xs ≤ (1 + η) ^ xs.length := by
  have hp : (0 : ℝ) ≤ 1 - η := by linarith
  induction xs with
  | nil => simp [lens]
  | cons x xs ih =>
    obtain ⟨h1, h2⟩ := ih fun y hy => h y (by simp [hy])
    have h3 := abs_le.1 (h x (by simp))
    have e3 : lens (x :: xs) = lens xs * len (exactObj x.2) := by simp [lens, mul_comm]
    rw [e3, List.length_cons, pow_succ, pow_succ]
    have h4 : (0 : ℝ) ≤ (1 - η) ^ xs.length := pow_nonneg hp _
    exact ⟨mul_le_mul h1 (by linarith) hp (h4.trans h1),
      mul_le_mul h2 (by linarith) (len_nonneg _) ((h4.trans h1).trans h2)⟩

/-- `(1 + k)^n ≤ 1 + 65/64 n k` as long as `n k ≤ 1/128`. -/
theorem pow_near_one {k : ℝ} (hk : 0 ≤ k) (n : ℕ) (h : n * k ≤ 1 / 128) :
    (1 + k) ^ n ≤ 1 + 65 / 64 * (n * k) := by
  have hk1 : k ≤ 1 ∨ n = 0 := by
    rcases Nat.eq_zero_or_pos n with h0 | h0
    · exact Or.inr h0
    · left
      have : (1 : ℝ) ≤ n := by exact_mod_cast h0
      nlinarith
  rcases hk1 with hk1 | rfl
  swap; · simp
  have hb := one_add_mul_le_pow (a := -k) (by linarith) n
  have h1 : (1 + k) ^ n * (1 + -k) ^ n ≤ 1 := by
    rw [← mul_pow]
    exact pow_le_one₀ (by nlinarith) (by nlinarith)
  have h2 : 0 ≤ (1 + k) ^ n := pow_nonneg (by linarith) n
  have h3 : (1 + k) ^ n * (1 - n * k) ≤ 1 := by
    refine (mul_le_mul_of_nonneg_left ?_ h2).trans h1
    linarith
  have h4 : 0 ≤ n * k := mul_nonneg (Nat.cast_nonneg _) hk
  nlinarith

theorem pow_near_one' {k : ℝ} (hk1 : k ≤ 1) (n : ℕ) : 1 - n * k ≤ (1 - k) ^ n := by
  have hb := one_add_mul_le_pow (a := -k) (by linarith) n
  rw [← sub_eq_add_neg] at hb
  linarith

/-- The two parts of the condition on the number of factors. -/
theorem split_num {n : ℕ} {η : ℝ} (hη : 0 ≤ η) (hn : n * (2 ^ (-48 : ℤ) + η) ≤ 1 / 128) :
    n * (28 * 2 ^ (-53 : ℤ)) ≤ (1 : ℝ) / 128 ∧ n * η ≤ 1 / 128 ∧ 0 ≤ n * η := by
  have hn0 : (0 : ℝ) ≤ n := Nat.cast_nonneg n
  have h1 : 0 ≤ n * η := mul_nonneg hn0 hη
  have e : (2 : ℝ) ^ (-48 : ℤ) = 32 * 2 ^ (-53 : ℤ) := by norm_num
  have h2 : 0 ≤ (n : ℝ) * 2 ^ (-53 : ℤ) := mul_nonneg hn0 (zpow_pos two_pos _).le
  rw [e] at hn
  refine ⟨?_, ?_, h1⟩ <;> nlinarith

/-- Numbers for the corollaries: `n` factors. -/
theorem drift_num {n : ℕ} {η : ℝ} (hη : 0 ≤ η) (hη1 : η ≤ 1)
    (hn : n * (2 ^ (-48 : ℤ) + η) ≤ 1 / 128) {L A e Q : ℝ} (hL : 0 ≤ L)
    (hQ1 : (1 - η) ^ n ≤ Q) (hQ2 : Q ≤ (1 + η) ^ n)
    (he : e ≤ ((1 + 28 * 2 ^ (-53 : ℤ)) ^ n - 1) * (L * Q))
    (h1 : A ≤ e + L * Q) (h2 : L * Q ≤ e + A) :
    e ≤ n * (29 * 2 ^ (-53 : ℤ)) * L ∧ |A - L| ≤ n * (29 * 2 ^ (-53 : ℤ) + 2 * η) * L := by
  have hn0 : (0 : ℝ) ≤ n := Nat.cast_nonneg n
  obtain ⟨n1, n2, n3⟩ := split_num hη hn
  have a1 := pow_near_one (k := 28 * 2 ^ (-53 : ℤ)) (by positivity) n n1
  have a2 := pow_near_one hη n n2
  have a3 := pow_near_one' hη1 n
  have b1 := one_le_kpow n
  set K : ℝ := (1 + 28 * 2 ^ (-53 : ℤ)) ^ n
  have eZ : (n : ℝ) * (28 * 2 ^ (-53 : ℤ)) = 28 * (n * 2 ^ (-53 : ℤ)) := by ring
  have e1 : (n : ℝ) * (29 * 2 ^ (-53 : ℤ)) = 29 * (n * 2 ^ (-53 : ℤ)) := by ring
  have e2 : (n : ℝ) * (29 * 2 ^ (-53 : ℤ) + 2 * η) = 29 * (n * 2 ^ (-53 : ℤ)) + 2 * (n * η) := by
    ring
  have Z0 : (0 : ℝ) ≤ n * 2 ^ (-53 : ℤ) := mul_nonneg hn0 (zpow_pos two_pos _).le
  rw [e1, e2]
  rw [eZ] at a1 n1
  generalize (n : ℝ) * 2 ^ (-53 : ℤ) = Z at *
  generalize (n : ℝ) * η = H at *
  have q1 : 1 - H ≤ Q := a3.trans hQ1
  have q2 : Q ≤ 1 + 65 / 64 * H := hQ2.trans a2
  have f1 : (K - 1) * Q ≤ 29 * Z := by
    have : (K - 1) * Q ≤ (65 / 64 * (28 * Z)) * (1 + 65 / 64 * H) :=
      mul_le_mul (by linarith) q2 (by linarith) (by positivity)
    nlinarith
  have f2 : e ≤ 29 * Z * L := by
    calc e ≤ (K - 1) * (L * Q) := he
      _ = ((K - 1) * Q) * L := by ring
      _ ≤ _ := mul_le_mul_of_nonneg_right f1 hL
  have zl : 0 ≤ Z * L := mul_nonneg Z0 hL
  have hl : 0 ≤ H * L := mul_nonneg n3 hL
  have g1 : L * Q ≤ L + 2 * (H * L) := by
    have := mul_le_mul_of_nonneg_left q2 hL; nlinarith
  have g2 : L - 2 * (H * L) ≤ L * Q := by
    have := mul_le_mul_of_nonneg_left q1 hL; nlinarith
  refine ⟨by linarith, ?_⟩
  rw [abs_le]; constructor <;> linarith

theorem pow_big_lo : (2 : ℝ) ^ (-1000 : ℤ) ≤ 2 ^ (-900 : ℤ) * (1 / 2) := by
  have : (2 : ℝ) ^ (-900 : ℤ) * (1 / 2) = 2 ^ (-901 : ℤ) := by
    rw [show (-901 : ℤ) = -900 + -1 by norm_num, zpow_add₀ two_ne_zero]; norm_num
  rw [this]; exact zpow_le_zpow_right₀ one_le_two (by norm_num)

theorem pow_big_hi : (2 : ℝ) * (2 ^ 900 * 2) ≤ 2 ^ 1022 := by
  have : (2 : ℝ) * (2 ^ 900 * 2) = 2 ^ 902 := by
    generalize h : 900 = n; rw [show 902 = 1 + n + 1 by omega, pow_succ, pow_add, pow_one, mul_assoc]
  rw [this]; exact pow_le_pow_right₀ one_le_two (by norm_num)

/-- Range of the partial products. -/
theorem range_ok {m : ℕ} {η : ℝ} (hη : 0 ≤ η) (hη1 : η ≤ 1)
    (hm : m * (2 ^ (-48 : ℤ) + η) ≤ 1 / 128) {L Q : ℝ} (hL1 : 2 ^ (-900 : ℤ) ≤ L)
    (hL2 : L ≤ 2 ^ 900) (h1 : (1 - η) ^ m ≤ Q) (h2 : Q ≤ (1 + η) ^ m) :
    2 ^ (-1000 : ℤ) ≤ L * Q ∧ (1 + 28 * 2 ^ (-53 : ℤ)) ^ m * (L * Q) ≤ 2 ^ 1022 := by
  obtain ⟨n1, n2, -⟩ := split_num hη hm
  have a1 := pow_near_one (k := 28 * 2 ^ (-53 : ℤ)) (by positivity) m n1
  have a2 := pow_near_one hη m n2
  have a3 := pow_near_one' hη1 m
  have k2 : (1 + 28 * 2 ^ (-53 : ℤ) : ℝ) ^ m ≤ 2 := by
    generalize (m : ℝ) * (28 * 2 ^ (-53 : ℤ)) = zz at *
    exact a1.trans (by linarith)
  have q1 : 1 / 2 ≤ Q := by have := a3.trans h1; linarith
  have q2 : Q ≤ 2 := by have := h2.trans a2; linarith
  have hL : 0 ≤ L := (zpow_pos two_pos _).le.trans hL1
  constructor
  · exact pow_big_lo.trans (mul_le_mul hL1 q1 (by norm_num) hL)
  · refine le_trans (mul_le_mul k2 (mul_le_mul hL2 q2 (by linarith) (by positivity))
      (mul_nonneg hL (by linarith)) (by norm_num)) pow_big_hi

theorem num_mono {m n : ℕ} {η : ℝ} (hη : 0 ≤ η) (h : m ≤ n)
    (hn : n * (2 ^ (-48 : ℤ) + η) ≤ (1 : ℝ) / 128) : m * (2 ^ (-48 : ℤ) + η) ≤ (1 : ℝ) / 128 :=
  (mul_le_mul_of_nonneg_right (Nat.cast_le.2 h)
    (add_nonneg (zpow_pos two_pos _).le hη)).trans hn

/-- **C45.**  Multiplying an object of any type `n` times, on either side, by objects of length one
up to `η` (spinors composing rotations, vectors composing reflections), as long as
`n (2^-48 + η) ≤ 1/128`: every component stays finite, the result is within `29 n u` (relative to
the length, `u = 2^-53`) of the exact product, and its length has drifted by at most
`n (29 u + 2 η)`. -/
theorem C45_unit_loop (η : ℝ) (hη : 0 ≤ η) (hη1 : η ≤ 1) (x0 : Sigma fun t : Ty => t.D F64)
    (xs : List (Bool × Sigma fun t : Ty => t.D F64))
    (hn : xs.length * (2 ^ (-48 : ℤ) + η) ≤ 1 / 128)
    (hx : ∀ x ∈ xs, x.2.1.versor = true)
    (hf : ∀ c ∈ comps x0.1 x0.2, c.Finite) (hfs : ∀ x ∈ xs, ∀ c ∈ comps x.2.1 x.2.2, c.Finite)
    (hu : ∀ x ∈ xs, |len (exactObj x.2) - 1| ≤ η)
    (hlo : 2 ^ (-900 : ℤ) ≤ len (exactObj x0)) (hhi : len (exactObj x0) ≤ 2 ^ 900) :
    (∀ k, (cf (promote (xs.foldl mulStep x0).1 (xs.foldl mulStep x0).2) k).Finite) ∧
    len (exactObj (xs.foldl mulStep x0) - xs.foldl exactStep (exactObj x0))
      ≤ xs.length * (29 * 2 ^ (-53 : ℤ)) * len (exactObj x0) ∧
    |len (exactObj (xs.foldl mulStep x0)) - len (exactObj x0)|
      ≤ xs.length * (29 * 2 ^ (-53 : ℤ) + 2 * η) * len (exactObj x0) := by
  have hb : ∀ p, p <+: xs → 2 ^ (-1000 : ℤ) ≤ len (exactObj x0) * lens p ∧
      (1 + 28 * 2 ^ (-53 : ℤ)) ^ p.length * (len (exactObj x0) * lens p) ≤ 2 ^ 1022 := fun p hp => by
    obtain ⟨h1, h2⟩ := lens_bounds hη1 p fun x h => hu x (hp.subset h)
    exact range_ok hη hη1 (num_mono hη hp.length_le hn) hlo hhi h1 h2
  obtain ⟨h1, h2⟩ := C45_product_loop x0 xs hx hf hfs hb
  refine ⟨h1, ?_⟩
  have hE : len (xs.foldl exactStep (exactObj x0)) = len (exactObj x0) * lens xs := by
    clear hb h1 h2 hu hfs hn hlo hhi hf hη hη1
    generalize exactObj x0 = E
    induction xs generalizing E with
    | nil => simp [lens]
    | cons x xs ih =>
      rw [List.foldl_cons, ih (fun y hy => hx y (by simp [hy]))]
      have e3 : lens (x :: xs) = len (exactObj x.2) * lens xs := by simp [lens]
      rw [e3, ← mul_assoc]
      congr 1
      obtain ⟨b, x⟩ := x
      cases b
      · exact len_obj_right _ _ (hx _ (by simp))
      · exact len_obj_left _ _ (hx (true, x) (by simp))
  obtain ⟨q1, q2⟩ := lens_bounds hη1 xs hu
  refine drift_num hη hη1 hn (len_nonneg _) q1 q2 h2 ?_ ?_
  · rw [← hE]; exact len_sub_add _ _
  · rw [← hE]
    refine (len_sub_add _ (exactObj (xs.foldl mulStep x0))).trans (le_of_eq ?_)
    congr 1
    apply len_congr
    intro k
    rw [cf_sub, cf_sub]; push_cast; rw [abs_sub_comm]

/-! ## Turning a vector again and again -/

/-- `(S * v * reverse(S)).theVec` in binary64. -/
noncomputable def rotate (S : Spinor F64) (v : Vector F64) : Vector F64 :=
  (S * v * reverse S).theVec

theorem exact_reverse (S : Spinor F64) :
    exactObj ⟨.spin, reverse S⟩ = promote .spin (reverse (valTy .spin S : Spinor ℚ)) := by
  have h : ∀ x : F64, (-x).value = -x.value := F64.value_neg
  simp only [exactObj, engabra, valTy, mapTy, h]

theorem len_exact_reverse (S : Spinor F64) :
    len (exactObj ⟨.spin, reverse S⟩) = len (exactObj ⟨.spin, S⟩) := by
  rw [exact_reverse]
  apply len_congr
  have h0 : ∀ S : Spinor ℚ, ∀ k, |cf (promote .spin (reverse S)) k| = |cf (promote .spin S) k| := by
    intro S
    apply forall_fin8 <;> simp only [cf_0, cf_1, cf_2, cf_3, cf_4, cf_5, cf_6, cf_7, engabra] <;>
      first | rfl | exact abs_neg _
  intro k
  exact_mod_cast h0 (valTy .spin S) k

theorem sandwich_exact (S : Spinor ℚ) (w : Vector ℚ) :
    promote .spin S * promote .vec w * promote .spin (reverse S) = promote .vec (sandwich S w) := by
  simp only [sandwich]; mv_ring

theorem project_le (y : ImSpin ℚ) (w : Vector ℚ) (k : Fin 8) :
    |cf (promote .vec y.theVec - promote .vec w) k|
      ≤ |cf (promote .imsp y - promote .vec w) k| := by
  revert k
  apply forall_fin8 <;> rw [cf_sub, cf_sub] <;>
    simp only [cf_0, cf_1, cf_2, cf_3, cf_4, cf_5, cf_6, cf_7, engabra] <;>
    first | exact le_rfl | (rw [sub_self, abs_zero]; exact abs_nonneg _)

theorem finite_project {y : ImSpin F64} (h : FiniteTy .imsp y) : FiniteTy .vec y.theVec := by
  have h0 : (0 : F64).Finite := F64.hasVal_zero'.1
  have b1 : y.theVec.theData.d0.Finite := h 1
  have b2 : y.theVec.theData.d1.Finite := h 2
  have b3 : y.theVec.theData.d2.Finite := h 3
  exact forall_fin8 h0 b1 b2 b3 h0 h0 h0 h0

theorem Track.project {n : ℕ} {y : ImSpin F64} {w : Vector ℚ} {P : ℝ}
    (h : Track n ⟨.imsp, y⟩ (promote .vec w) P) : Track n ⟨.vec, y.theVec⟩ (promote .vec w) P := by
  obtain ⟨h1, h2, h3⟩ := h
  refine ⟨finite_project h1, ?_, h3⟩
  have e1 : exactObj ⟨.vec, y.theVec⟩ = promote .vec (valTy .imsp y).theVec := rfl
  have e2 : exactObj ⟨.imsp, y⟩ = promote .imsp (valTy .imsp y) := rfl
  rw [e2] at h2
  rw [e1]
  refine le_trans (Real.sqrt_le_sqrt (Finset.sum_le_sum fun k _ => ?_)) h2
  have h4 := project_le (valTy .imsp y) w k
  rw [← Rat.cast_le (K := ℝ), Rat.cast_abs, Rat.cast_abs] at h4
  exact sq_le_sq.2 h4

theorem Track.rotate {n : ℕ} {v : Vector F64} {w : Vector ℚ} {P : ℝ}
    (h : Track n ⟨.vec, v⟩ (promote .vec w) P) (S : Spinor F64) (fS : FiniteTy .spin S)
    (hlo : 2 ^ (-1000 : ℤ) ≤ P * len (exactObj ⟨.spin, S⟩))
    (hhi : (1 + 28 * 2 ^ (-53 : ℤ)) ^ n * (P * len (exactObj ⟨.spin, S⟩)) ≤ 2 ^ 1022)
    (hlo' : 2 ^ (-1000 : ℤ) ≤ P * len (exactObj ⟨.spin, S⟩) * len (exactObj ⟨.spin, S⟩))
    (hhi' : (1 + 28 * 2 ^ (-53 : ℤ)) ^ (n + 1)
      * (P * len (exactObj ⟨.spin, S⟩) * len (exactObj ⟨.spin, S⟩)) ≤ 2 ^ 1022) :
    Track (n + 1 + 1) ⟨.vec, Engabra.rotate S v⟩ (promote .vec (sandwich (valTy .spin S) w))
      (P * len (exactObj ⟨.spin, S⟩) * len (exactObj ⟨.spin, S⟩)) := by
  have h1 := h.left ⟨.spin, S⟩ rfl fS hlo hhi
  have fR : FiniteTy .spin (reverse S) := by
    have h0 : (0 : F64).Finite := F64.hasVal_zero'.1
    have b0 : S.theSca.theData.d0.Finite := fS 0
    have b1 : S.theBiv.theData.d0.Finite := fS 4
    have b2 : S.theBiv.theData.d1.Finite := fS 5
    have b3 : S.theBiv.theData.d2.Finite := fS 6
    exact forall_fin8 b0 h0 h0 h0 (F64.neg_finite_iff.2 b1) (F64.neg_finite_iff.2 b2)
      (F64.neg_finite_iff.2 b3) h0
  have hr := len_exact_reverse S
  have h2 := h1.right ⟨.spin, reverse S⟩ rfl fR (by rw [hr]; exact hlo') (by rw [hr]; exact hhi')
  rw [hr, exact_reverse, show exactObj ⟨.spin, S⟩ = promote .spin (valTy .spin S) from rfl,
    sandwich_exact] at h2
  exact Track.project h2

theorem len_sandwich (S : Spinor F64) (w : Vector ℚ) :
    len (promote .vec (sandwich (valTy .spin S) w))
      = len (promote .vec w) * len (exactObj ⟨.spin, S⟩) * len (exactObj ⟨.spin, S⟩) := by
  rw [← sandwich_exact, ← exact_reverse, len_obj_right _ ⟨.spin, reverse S⟩ rfl, len_exact_reverse]
  congr 1
  exact len_obj_left _ ⟨.spin, S⟩ rfl

/-- **C45.**  Turning a vector by `n` spinors one after another (of length one up to `η`), each turn
computed as `(S * v * reverse(S)).theVec`, as long as `2 n (2^-48 + η) ≤ 1/128`: the components stay
finite, the position is within `58 n u` (relative to the length, `u = 2^-53`) of the exact one, and
the length has drifted by at most `n (58 u + 4 η)`. -/
theorem C45_rotate_loop (η : ℝ) (hη : 0 ≤ η) (hη1 : η ≤ 1) (v : Vector F64)
    (Ss : List (Spinor F64)) (hn : 2 * Ss.length * (2 ^ (-48 : ℤ) + η) ≤ 1 / 128)
    (hv : ∀ c ∈ comps .vec v, c.Finite) (hS : ∀ S ∈ Ss, ∀ c ∈ comps .spin S, c.Finite)
    (hu : ∀ S ∈ Ss, |len (exactObj ⟨.spin, S⟩) - 1| ≤ η)
    (hlo : 2 ^ (-900 : ℤ) ≤ len (exactObj ⟨.vec, v⟩)) (hhi : len (exactObj ⟨.vec, v⟩) ≤ 2 ^ 900) :
    (∀ c ∈ comps .vec (Ss.foldl (fun v S => rotate S v) v), c.Finite) ∧
    len (exactObj ⟨.vec, Ss.foldl (fun v S => rotate S v) v⟩
        - promote .vec (Ss.foldl (fun w S => sandwich (valTy .spin S) w) (valTy .vec v)))
      ≤ Ss.length * (58 * 2 ^ (-53 : ℤ)) * len (exactObj ⟨.vec, v⟩) ∧
    |len (exactObj ⟨.vec, Ss.foldl (fun v S => rotate S v) v⟩) - len (exactObj ⟨.vec, v⟩)|
      ≤ Ss.length * (58 * 2 ^ (-53 : ℤ) + 4 * η) * len (exactObj ⟨.vec, v⟩) := by
  have hn2 : ((2 * Ss.length : ℕ) : ℝ) * (2 ^ (-48 : ℤ) + η) ≤ 1 / 128 := by
    push_cast; exact hn
  clear hn
  set L := len (exactObj ⟨.vec, v⟩) with hLdef
  suffices h : ∀ (Ss : List (Spinor F64)) (k : ℕ) (u : Vector F64) (w : Vector ℚ) (Q : ℝ),
      ((2 * (k + Ss.length) : ℕ) : ℝ) * (2 ^ (-48 : ℤ) + η) ≤ 1 / 128 → (∀ S ∈ Ss, FiniteTy .spin S) →
      (∀ S ∈ Ss, |len (exactObj ⟨.spin, S⟩) - 1| ≤ η) →
      Track (2 * k) ⟨.vec, u⟩ (promote .vec w) (L * Q) → len (promote .vec w) = L * Q →
      (1 - η) ^ (2 * k) ≤ Q → Q ≤ (1 + η) ^ (2 * k) →
      ∃ Q', Track (2 * (k + Ss.length)) ⟨.vec, Ss.foldl (fun v S => rotate S v) u⟩
          (promote .vec (Ss.foldl (fun w S => sandwich (valTy .spin S) w) w)) (L * Q') ∧
        len (promote .vec (Ss.foldl (fun w S => sandwich (valTy .spin S) w) w)) = L * Q' ∧
        (1 - η) ^ (2 * (k + Ss.length)) ≤ Q' ∧
        Q' ≤ (1 + η) ^ (2 * (k + Ss.length)) by
    have hs := Track.start ⟨.vec, v⟩ (finiteTy_of _ _ hv)
    obtain ⟨Q, h1, h2, h3, h4⟩ := h Ss 0 v (valTy .vec v) 1 (by rw [zero_add]; exact hn2)
      (fun S h => finiteTy_of _ _ (hS S h)) hu (by rw [mul_one]; exact hs) (by rw [mul_one]; rfl)
      (by simp) (by simp)
    rw [zero_add] at h1 h3 h4
    have hd := drift_num (A := len (exactObj ⟨.vec, Ss.foldl (fun v S => rotate S v) v⟩)) hη hη1 hn2
      (len_nonneg _) h3 h4 h1.2.1 (by rw [← h2]; exact len_sub_add _ _) (by
      rw [← h2]
      refine (len_sub_add _ (exactObj ⟨.vec, Ss.foldl (fun v S => rotate S v) v⟩)).trans
        (le_of_eq ?_)
      congr 1
      apply len_congr
      intro k
      rw [cf_sub, cf_sub]; push_cast; rw [abs_sub_comm])
    have e : ((2 * Ss.length : ℕ) : ℝ) * (29 * 2 ^ (-53 : ℤ))
        = Ss.length * (58 * 2 ^ (-53 : ℤ)) := by push_cast; ring
    have e' : ((2 * Ss.length : ℕ) : ℝ) * (29 * 2 ^ (-53 : ℤ) + 2 * η)
        = Ss.length * (58 * 2 ^ (-53 : ℤ) + 4 * η) := by push_cast; ring
    rw [e, e'] at hd
    refine ⟨?_, hd⟩
    have hf := h1.1
    generalize Ss.foldl (fun v S => rotate S v) v = r at hf
    intro c hc
    simp only [comps, List.mem_cons, List.not_mem_nil, or_false] at hc
    rcases hc with rfl | rfl | rfl
    · exact hf 1
    · exact hf 2
    · exact hf 3
  clear hu hS hn2
  intro Ss
  induction Ss with
  | nil => intro k u w Q _ _ _ h1 h2 h3 h4; exact ⟨Q, h1, h2, h3, h4⟩
  | cons S Ss ih =>
    intro k u w Q hn hS hu h1 h2 h3 h4
    rw [List.length_cons] at hn
    set r := len (exactObj ⟨.spin, S⟩) with hr
    have hp : (0 : ℝ) ≤ 1 - η := by linarith
    have h50 : (0 : ℝ) ≤ 1 + η := by linarith
    have hr1 := abs_le.1 (hu S (by simp))
    rw [← hr] at hr1
    have r0 : 0 ≤ r := len_nonneg _
    have Q0 : 0 ≤ Q := (pow_nonneg hp _).trans h3
    have b1 : (1 - η) ^ (2 * k + 1) ≤ Q * r := by
      rw [pow_succ]; exact mul_le_mul h3 (by linarith) hp Q0
    have b2 : Q * r ≤ (1 + η) ^ (2 * k + 1) := by
      rw [pow_succ]; exact mul_le_mul h4 (by linarith) r0 (pow_nonneg h50 _)
    have b3 : (1 - η) ^ (2 * k + 1 + 1) ≤ Q * r * r := by
      rw [pow_succ _ (2 * k + 1)]; exact mul_le_mul b1 (by linarith) hp (mul_nonneg Q0 r0)
    have b4 : Q * r * r ≤ (1 + η) ^ (2 * k + 1 + 1) := by
      rw [pow_succ _ (2 * k + 1)]; exact mul_le_mul b2 (by linarith) r0 (pow_nonneg h50 _)
    have c1 := range_ok hη hη1 (num_mono hη (by omega) hn) hlo hhi b1 b2
    have c2 := range_ok hη hη1 (num_mono hη (by omega) hn) hlo hhi b3 b4
    have L0 : 0 ≤ L := len_nonneg _
    have e1 : L * Q * r = L * (Q * r) := by ring
    have e2 : L * Q * r * r = L * (Q * r * r) := by ring
    have kk : (1 : ℝ) ≤ 1 + 28 * 2 ^ (-53 : ℤ) := by norm_num
    have h5 := h1.rotate S (hS S (by simp)) (by rw [← hr, e1]; exact c1.1)
      (by
        rw [← hr, e1]
        exact (mul_le_mul_of_nonneg_right (pow_le_pow_right₀ kk (Nat.le_succ _))
          (mul_nonneg L0 (mul_nonneg Q0 r0))).trans c1.2)
      (by rw [← hr, e2]; exact c2.1)
      (by
        rw [← hr, e2]
        exact (mul_le_mul_of_nonneg_right (pow_le_pow_right₀ kk (Nat.le_succ _))
          (mul_nonneg L0 (mul_nonneg (mul_nonneg Q0 r0) r0))).trans c2.2)
    rw [← hr, e2] at h5
    obtain ⟨Q', g⟩ := ih (k + 1) (rotate S u) (sandwich (valTy .spin S) w) (Q * r * r)
      (by rw [show k + 1 + Ss.length = k + (Ss.length + 1) by ring]; exact hn) (fun T h => hS T (by simp [h])) (fun T h => hu T (by simp [h])) h5
      (by rw [len_sandwich, h2, ← hr, e2]) b3 b4
    rw [show k + 1 + Ss.length = k + (Ss.length + 1) by ring] at g
    exact ⟨Q', g⟩

/-! ## Exact composition of any number of rotations -/

section
variable {α : Type} [CommRing α]

/-- **C45.**  Turning a vector by the spinors of a list one after another is turning it once by
their product (latest on the left), whose squared magnitude is the product of theirs. -/
theorem C45_compose (Ss : List (Spinor α)) (v : Vector α) :
    Ss.foldl (fun w S => sandwich S w) v = sandwich (Ss.foldl (fun acc S => S * acc) gone) v ∧
    magSq (Ss.foldl (fun acc S => S * acc) (gone : Spinor α)) = (Ss.map magSq).prod := by
  constructor
  · suffices h : ∀ (T : Spinor α) (v : Vector α), Ss.foldl (fun w S => sandwich S w) (sandwich T v)
        = sandwich (Ss.foldl (fun acc S => S * acc) T) v by
      have := h gone v
      rwa [C22_one] at this
    induction Ss with
    | nil => intros; rfl
    | cons S Ss ih => intro T v; rw [List.foldl_cons, List.foldl_cons, ← C22_comp]; exact ih _ _
  · suffices h : ∀ T : Spinor α, magSq (Ss.foldl (fun acc S => S * acc) T)
        = (Ss.map magSq).prod * magSq T by
      rw [h, show magSq (gone : Spinor α) = 1 by simp only [engabra]; ring, mul_one]
    induction Ss with
    | nil => intro T; simp
    | cons S Ss ih =>
      intro T
      have e := C14_magSq_mul .spin .spin (Or.inl rfl) S T
      rw [List.foldl_cons, ih, List.map_cons, List.prod_cons]
      rw [show magSq (S * T) = magSq S * magSq T from e]
      ring

/-- **C45.**  So any number of unit spinors turn a vector without changing its length. -/
theorem C45_length (Ss : List (Spinor α)) (h : ∀ S ∈ Ss, magSq S = 1) (v : Vector α) :
    magSq (Ss.foldl (fun w S => sandwich S w) v) = magSq v := by
  rw [(C45_compose Ss v).1]
  refine C22_length _ ?_ v
  rw [(C45_compose Ss v).2]
  refine List.prod_eq_one fun x hx => ?_
  obtain ⟨S, hS, rfl⟩ := List.mem_map.1 hx
  exact h S hS
end

/-! ## The hypotheses are met -/

/-- A spinor with every component rounded to binary64. -/
noncomputable def rounded (s : Spinor ℚ) : Spinor F64 :=
  ⟨⟨⟨F64.roundTo s.theSca.theData.d0⟩⟩, ⟨⟨F64.roundTo s.theBiv.theData.d0,
    F64.roundTo s.theBiv.theData.d1, F64.roundTo s.theBiv.theData.d2⟩⟩⟩

theorem round_one {c : ℚ} (h : |c| ≤ 1) :
    (F64.roundTo c).Finite ∧ |(F64.roundTo c).value - c| ≤ 2 ^ (-53 : ℤ) := by
  have h1 := F64.roundTo_value (x := c) (F64.safe_lt (by linarith [F64.one_le_safe]))
  refine ⟨h1.1, ?_⟩
  rw [h1.2]
  have h2 := F64.rnVal_err_rel (K := ℚ) c
  rw [Rat.cast_id] at h2
  refine h2.trans (max_le ?_ (zpow_le_zpow_right₀ (by norm_num) (by norm_num)))
  have := mul_le_mul_of_nonneg_left h (F64.two_zpow_pos (K := ℚ) (-53)).le
  rwa [mul_one] at this

/-- Every exactly unit spinor, rounded to binary64, satisfies the hypotheses of the loops. -/
theorem rounded_unit (s : Spinor ℚ) (h : magSq s = 1) :
    (∀ c ∈ comps .spin (rounded s), c.Finite) ∧
    |len (exactObj ⟨.spin, rounded s⟩) - 1| ≤ 2 ^ (-50 : ℤ) := by
  have hs : len (promote .spin s) = 1 := by
    have := magSq_len (promote .spin s)
    rw [show magSq (promote .spin s) = 1 from (magSq_promote .spin s).trans h, Rat.cast_one] at this
    exact (pow_eq_one_iff_of_nonneg (len_nonneg _) two_ne_zero).1 this.symm
  have hc : ∀ k, |cf (promote .spin s) k| ≤ 1 := fun k => by
    have := cf_le_len (promote .spin s) k
    rw [hs] at this
    exact_mod_cast this
  have r0 := round_one (show |s.theSca.theData.d0| ≤ 1 from hc 0)
  have r4 := round_one (show |s.theBiv.theData.d0| ≤ 1 from hc 4)
  have r5 := round_one (show |s.theBiv.theData.d1| ≤ 1 from hc 5)
  have r6 := round_one (show |s.theBiv.theData.d2| ≤ 1 from hc 6)
  constructor
  · intro c hc
    simp only [comps, List.mem_cons, List.not_mem_nil, or_false] at hc
    rcases hc with rfl | rfl | rfl | rfl
    exacts [r0.1, r4.1, r5.1, r6.1]
  · have hz : |(0 : F64).value - 0| ≤ (2 : ℚ) ^ (-53 : ℤ) := by
      rw [F64.hasVal_zero'.2, sub_zero, abs_zero]; exact (F64.two_zpow_pos _).le
    have hz' : |(0 : ℚ) - 0| ≤ (2 : ℚ) ^ (-53 : ℤ) := by norm_num
    have hk : ∀ k, |cf (exactObj ⟨.spin, rounded s⟩) k - cf (promote .spin s) k|
        ≤ (2 : ℚ) ^ (-53 : ℤ) :=
      forall_fin8 r0.2 hz' hz' hz' r4.2 r5.2 r6.2 hz'
    have h1 : len (exactObj ⟨.spin, rounded s⟩ - promote .spin s) ≤ 3 * 2 ^ (-53 : ℤ) := by
      refine len_le _ (by positivity) fun k => ?_
      rw [cf_sub]
      have := (Rat.cast_le (K := ℝ)).2 (hk k)
      rw [Rat.cast_abs, Rat.cast_zpow, Rat.cast_ofNat] at this
      exact this
    have h2 : len (promote .spin s - exactObj ⟨.spin, rounded s⟩) ≤ 3 * 2 ^ (-53 : ℤ) := by
      refine le_trans (le_of_eq (len_congr fun k => ?_)) h1
      rw [cf_sub, cf_sub]; push_cast; rw [abs_sub_comm]
    have h3 := len_sub_add (exactObj ⟨.spin, rounded s⟩) (promote .spin s)
    have h4 := len_sub_add (promote .spin s) (exactObj ⟨.spin, rounded s⟩)
    rw [hs] at h3 h4
    have e : (2 : ℝ) ^ (-50 : ℤ) = 8 * 2 ^ (-53 : ℤ) := by norm_num
    have hp : (0 : ℝ) < 2 ^ (-53 : ℤ) := zpow_pos two_pos _
    rw [e, abs_le]
    constructor <;> linarith

theorem len_unit_vec : (∀ c ∈ comps .vec (e1 : Vector F64), c.Finite) ∧
    len (exactObj ⟨.vec, (e1 : Vector F64)⟩) = 1 := by
  constructor
  · exact finite_e1
  · unfold len
    simp only [Fin.sum_univ_eight, cf_e1]
    simp

/-- A million turns by the spinor `(3/5, 4/5 e31)` rounded to binary64: the vector `e1` keeps its
length up to `2^-26`. -/
example : |len (exactObj ⟨.vec, (List.replicate 1000000
      (rounded ⟨⟨⟨3/5⟩⟩, ⟨⟨0, 4/5, 0⟩⟩⟩)).foldl (fun v S => rotate S v) (e1 : Vector F64)⟩) - 1|
    ≤ 2 ^ (-26 : ℤ) := by
  obtain ⟨h1, h2⟩ := rounded_unit ⟨⟨⟨3/5⟩⟩, ⟨⟨0, 4/5, 0⟩⟩⟩ (by simp only [engabra]; norm_num)
  have hl : (2 : ℝ) ^ (-900 : ℤ) ≤ 1 := zpow_le_one_of_nonpos₀ one_le_two (by norm_num)
  have h := C45_rotate_loop (2 ^ (-50 : ℤ)) (by positivity) (by norm_num) (e1 : Vector F64) (List.replicate 1000000
      (rounded ⟨⟨⟨3/5⟩⟩, ⟨⟨0, 4/5, 0⟩⟩⟩)) (by rw [List.length_replicate]; norm_num)
    len_unit_vec.1
    (fun S hS => by rw [List.eq_of_mem_replicate hS]; exact h1)
    (fun S hS => by rw [List.eq_of_mem_replicate hS]; exact h2)
    (by rw [len_unit_vec.2]; exact hl) (by rw [len_unit_vec.2]; exact one_le_pow₀ one_le_two)
  have h3 := h.2.2
  rw [len_unit_vec.2, List.length_replicate] at h3
  refine h3.trans ?_
  norm_num

end Engabra
