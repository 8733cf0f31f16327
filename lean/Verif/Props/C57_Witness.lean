import Verif.Props.C57_Contraction

/-! # C57: squared magnitudes under contraction, what contraction breaks, and examples -/

namespace Engabra

open F64 (Finite HasVal uro tinyErr NN)

/-! ## Squared magnitudes -/

/-- Specification: `d` may be the result of `magSq(x)`, however the compiler contracts it. -/
def MagSqMayBe (t : Ty) (x : t.D F64) (d : F64) : Prop :=
  Contracted (varEnv fun _ => ⟨t, x⟩) (magSqTy t (sv t 0)) d

/-- Sums of squares of variables. -/
def T.sumSq : T → Bool
  | .zero => true
  | .mul (.var n) (.var m) => n == m
  | .add a b => a.sumSq && b.sumSq
  | _ => false

theorem magSq_sumSq (t : Ty) : (magSqTy t (sv t 0)).sumSq = true := by
  cases t <;> decide

theorem nn_fma {x z : F64} (hx : x ≠ .nan) (hz : NN z) : NN (F64.fma x x z) := by
  unfold F64.fma
  split_ifs with h1 h2 h3
  · exact Or.inr (Or.inl (by simp))
  · rw [Bool.and_self] at h1
    have hz0 : 0 ≤ z.value := by
      rcases hz with rfl | rfl | ⟨v, hv, rfl, h⟩
      · exact le_rfl
      · exact le_rfl
      · exact h.le
    exact F64.nn_roundTo (lt_of_le_of_ne (add_nonneg (mul_self_nonneg _) hz0) (Ne.symm h3))
  · exact hz
  · exact F64.nn_add (F64.nn_sq hx) hz

theorem sumSq_prodOf {t : T} (h : t.sumSq = true) {s : Bool} {a b : T}
    (e : t.prodOf = some (s, a, b)) : s = false ∧ ∃ n, a = .var n ∧ b = .var n := by
  unfold T.sumSq at h
  split at h
  · cases e
  · rename_i n m
    cases e
    exact ⟨rfl, n, rfl, by rw [beq_iff_eq] at h; rw [h]⟩
  · cases e
  · cases h

theorem sumSq_nn {env : Nat → F64} (hn : ∀ n, env n ≠ .nan) (t : T) (ht : t.sumSq = true) (c : F64)
    (hc : Contracted env t c) : NN c := by
  induction t generalizing c with
  | zero => cases hc; exact Or.inr (Or.inl rfl)
  | var n => cases ht
  | neg a ih => cases ht
  | sub a b iha ihb => cases ht
  | mul a b iha ihb =>
    obtain ⟨-, n, rfl, rfl⟩ := sumSq_prodOf ht rfl
    cases hc with
    | mul h1 h2 => cases h1; cases h2; exact F64.nn_sq (hn n)
  | add a b iha ihb =>
    have ht' := ht
    simp only [T.sumSq, Bool.and_eq_true] at ht'
    cases hc with
    | add h1 h2 => exact F64.nn_add (iha ht'.1 _ h1) (ihb ht'.2 _ h2)
    | addFusedLeft e h1 h2 h3 =>
      obtain ⟨rfl, n, rfl, rfl⟩ := sumSq_prodOf ht'.1 e
      cases h1; cases h2
      exact nn_fma (hn n) (ihb ht'.2 _ h3)
    | addFusedRight e h1 h2 h3 =>
      obtain ⟨rfl, n, rfl, rfl⟩ := sumSq_prodOf ht'.2 e
      cases h1; cases h2
      exact nn_fma (hn n) (iha ht'.1 _ h3)

theorem varEnv_const (t : Ty) (x : t.D F64) (n : Nat) :
    ∃ k, varEnv (fun _ => ⟨t, x⟩) n = cf (promote t x) k := ⟨_, rfl⟩

theorem comps_ne_nan (t : Ty) (x : t.D F64) (h : F64.nan ∉ comps t x) : ∀ k, cf (promote t x) k ≠ .nan := by
  have h0 : (0 : F64) ≠ .nan := fun h => by cases h
  cases t <;> simp only [comps, List.mem_cons, List.not_mem_nil, or_false, not_or] at h <;>
    apply forall_fin8 <;> simp only [cf_0, cf_1, cf_2, cf_3, cf_4, cf_5, cf_6, cf_7, engabra] <;>
    first | exact h0 | (intro e; simp_all)

/-- A squared magnitude is never negative and never NaN (unless a component is NaN), so the square
root in `magnitude` is defined however the compiler contracts the sum. -/
theorem C57_magSq_nonneg (t : Ty) (x : t.D F64) (hx : F64.nan ∉ comps t x) (d : F64)
    (h : MagSqMayBe t x d) : d = .inf false ∨ (d.Finite ∧ 0 ≤ d.value) := by
  have hn : ∀ n, varEnv (fun _ => (⟨t, x⟩ : Sigma fun t : Ty => t.D F64)) n ≠ .nan := fun n => by
    obtain ⟨k, hk⟩ := varEnv_const t x n
    rw [hk]; exact comps_ne_nan t x hx k
  rcases sumSq_nn hn _ (magSq_sumSq t) d h with rfl | rfl | ⟨v, hv, rfl, h0⟩
  · exact Or.inl rfl
  · exact Or.inr ⟨trivial, le_rfl⟩
  · exact Or.inr ⟨trivial, h0.le⟩

def sqMon : List (List Nat) :=
  [[0, 0], [1, 1], [2, 2], [3, 3], [4, 4], [5, 5], [6, 6], [7, 7]]

theorem magSq_within (t : Ty) : (magSqTy t (sv t 0)).within 8 sqMon = true := by
  cases t <;> decide

theorem magSq_sv (t : Ty) : magSqTy t (sv t 0)
    = (magSqTy t (sv t 0)).ev (env8 0 (cf (promote t (sv t 0))) (cf (promote t (sv t 0)))) := by
  cases t <;> rfl

theorem magSq_map {α : Type} [Add α] [Sub α] [Mul α] [Neg α] [Zero α] (q : Nat → α) (t : Ty)
    (a : t.D T) : magSqTy t (mapTy (T.ev q) t a) = (magSqTy t a).ev q := by
  cases t <;> rfl

theorem magSq_sum (t : Ty) (x : t.D ℚ) : magSqTy t x = ∑ k, (cf (promote t x) k) ^ 2 := by
  rw [Fin.sum_univ_eight]
  cases t <;> simp only [cf_0, cf_1, cf_2, cf_3, cf_4, cf_5, cf_6, cf_7, engabra, magSqTy] <;> ring

theorem magSq_exact (t : Ty) (x : t.D F64) :
    (magSqTy t (sv t 0)).ev (fun n => (varEnv (fun _ => ⟨t, x⟩) n).value)
      = ∑ k, ((cf (promote t x) k).value) ^ 2 := by
  have h := congrFun (symEnv_map (fun _ => (⟨t, x⟩ : Sigma fun t : Ty => t.D F64)) F64.value) 0
  have h' : mapTy (T.ev fun n => (varEnv (fun _ => ⟨t, x⟩) n).value) t (sv t 0) = mapTy F64.value t x := by
    have := Sigma.mk.inj_iff.1 h
    exact eq_of_heq this.2
  rw [← magSq_map, h', magSq_sum]
  simp only [← cf_val]; rfl

/-- A squared magnitude is accurate to nine units `2^-53`, however the compiler contracts it. -/
theorem C57_magSq (t : Ty) (x : t.D F64) (hx : ∀ c ∈ comps t x, c.Finite)
    (hs : ∑ k, ((cf (promote t x) k).value) ^ 2 ≤ 2 ^ 1022) (d : F64) (h : MagSqMayBe t x d) :
    d.Finite ∧ |d.value - ∑ k, ((cf (promote t x) k).value) ^ 2|
      ≤ 9 * 2 ^ (-53 : ℤ) * ∑ k, ((cf (promote t x) k).value) ^ 2 + 2 ^ (-1059 : ℤ) := by
  set A : Fin 8 → ℚ := fun k => |(cf (promote t x) k).value| with hA
  have hf := finiteTy_of t x hx
  have g : ∀ k, Good (varEnv fun _ => (⟨t, x⟩ : Sigma fun t : Ty => t.D F64))
      (cf (promote t (sv t 0)) k)
      ((cf (promote t (sv t 0)) k).ev fun n => (varEnv (fun _ => ⟨t, x⟩) n).value) (A k) (A k) := by
    intro k
    have hz : ∀ k : Fin 8, cf (promote t (sv t 0)) k = .var k ∨ cf (promote t (sv t 0)) k = .zero := by
      cases t <;> decide
    have e := varEnv_at (fun _ => (⟨t, x⟩ : Sigma fun t : Ty => t.D F64)) 0 k
    rw [mul_zero, Nat.zero_add] at e
    have e' : A k = |(varEnv (fun _ => (⟨t, x⟩ : Sigma fun t : Ty => t.D F64)) k).value| := by rw [e]
    rw [e']
    rcases hz k with h | h <;> rw [h]
    · exact Good.var (by rw [e]; exact hf k)
    · exact (Good.zero _).widen (abs_nonneg _) (by rw [sub_self, sub_self])
  have m : monSum (env8 0 A A) sqMon = ∑ k, ((cf (promote t x) k).value) ^ 2 := by
    rw [Fin.sum_univ_eight]
    simp only [monSum, sqMon, env8, List.map_cons, List.map_nil, List.prod_cons, List.prod_nil,
      List.sum_cons, List.sum_nil, hA, mul_one, abs_mul_abs_self]
    ring
  have h0 : 0 ≤ ∑ k, ((cf (promote t x) k).value) ^ 2 := Finset.sum_nonneg fun k _ => sq_nonneg _
  have r := op_good g g (fun k => ⟨abs_nonneg _, le_rfl⟩) (fun k => ⟨abs_nonneg _, le_rfl⟩)
    (magSq_within t) le_rfl (by rw [m]; exact hs)
  rw [← magSq_sv, magSq_exact, m] at r
  obtain ⟨h1, h2⟩ := r.1 d h
  refine ⟨h1, h2.1.trans ?_⟩
  have := flat8 h0
  linarith

/-! ## What contraction breaks -/

/-- The vector `(a, a, 0)` with `a = 2^27 + 1`. -/
noncomputable def fmaVec : Vector F64 := ⟨⟨intDub (2 ^ 27 + 1), intDub (2 ^ 27 + 1), 0⟩⟩

theorem rn_square : F64.rnVal (((2 : ℚ) ^ 27 + 1) * (2 ^ 27 + 1)) = 2 ^ 54 + 2 ^ 28 := by
  rw [rnVal_of (e := 2) (n := 2 ^ 52 + 2 ^ 26) (by norm_num) (by norm_num) (by norm_num)
    (by rw [abs_lt]; constructor <;> norm_num)]
  norm_num

/-- `v * v` has no bivector part when every operation is rounded on its own, but it may have the
bivector part `e12` when `v1 * w2 - v2 * w1` is contracted: antisymmetry is lost. -/
theorem C57_fails_square :
    (∃ r, (Expr.mul (.var 0) (.var 0)).eval (fun _ => ⟨.vec, fmaVec⟩) = some r ∧
      (cf (promote r.1 r.2) 6).value = 0) ∧
    ∃ d, (Expr.mul (.var 0) (.var 0)).MayBe (fun _ => ⟨.vec, fmaVec⟩) 6 d ∧
      d.Finite ∧ d.value = 1 := by
  have ha : HasVal (intDub (2 ^ 27 + 1)) (2 ^ 27 + 1) := by
    have := intDub_val (2 ^ 27 + 1) (by norm_num)
    rwa [show (((2 ^ 27 + 1 : ℤ)) : ℚ) = 2 ^ 27 + 1 by norm_num] at this
  have hb : |F64.rnVal (((2 : ℚ) ^ 27 + 1) * (2 ^ 27 + 1))| < 2 ^ 1024 := by
    rw [rn_square, abs_of_pos (by norm_num)]
    exact lt_trans (by norm_num : (2 : ℚ) ^ 54 + 2 ^ 28 < 2 ^ 55)
      (pow_lt_pow_right₀ (by norm_num) (by norm_num))
  have hp : HasVal (intDub (2 ^ 27 + 1) * intDub (2 ^ 27 + 1)) (2 ^ 54 + 2 ^ 28) := by
    have := F64.mul_spec ha.1 ha.1 (by rw [ha.2]; exact hb)
    rw [ha.2, rn_square] at this
    exact this
  refine ⟨⟨_, rfl, ?_⟩, ?_⟩
  · show (intDub (2 ^ 27 + 1) * intDub (2 ^ 27 + 1) - intDub (2 ^ 27 + 1) * intDub (2 ^ 27 + 1)).value = 0
    rw [F64.sub_self' hp.1]; rfl
  · refine ⟨F64.fma (F64.sgn false (varEnv (fun _ => ⟨.vec, fmaVec⟩) 1))
      (varEnv (fun _ => ⟨.vec, fmaVec⟩) 2) (F64.neg (F64.mul (varEnv (fun _ => ⟨.vec, fmaVec⟩) 2)
        (varEnv (fun _ => ⟨.vec, fmaVec⟩) 1))), ⟨_, rfl, ?_⟩, ?_⟩
    · exact Contracted.subFusedLeft (p := .mul (.var 1) (.var 2)) (c := .mul (.var 2) (.var 1)) rfl
        (.var 1) (.var 2) (.mul (.var 2) (.var 1))
    · have e1 : varEnv (fun _ => (⟨.vec, fmaVec⟩ : Sigma fun t : Ty => t.D F64)) 1 = intDub (2 ^ 27 + 1) := rfl
      have e2 : varEnv (fun _ => (⟨.vec, fmaVec⟩ : Sigma fun t : Ty => t.D F64)) 2 = intDub (2 ^ 27 + 1) := rfl
      rw [e1, e2]
      have hn : HasVal (F64.neg (F64.mul (intDub (2 ^ 27 + 1)) (intDub (2 ^ 27 + 1)))) (-(2 ^ 54 + 2 ^ 28)) :=
        hp.neg
      have hv : (F64.sgn false (intDub (2 ^ 27 + 1))).value * (intDub (2 ^ 27 + 1)).value
          + (F64.neg (F64.mul (intDub (2 ^ 27 + 1)) (intDub (2 ^ 27 + 1)))).value = 1 := by
        rw [hn.2, show F64.sgn false (intDub (2 ^ 27 + 1)) = intDub (2 ^ 27 + 1) from rfl, ha.2]
        norm_num
      have h1 : F64.rnVal (1 : ℚ) = 1 := F64.rnVal_exact ⟨1, 0, by norm_num, by norm_num, by norm_num⟩
      have := fma_spec (x := F64.sgn false (intDub (2 ^ 27 + 1))) (by exact ha.1) ha.1 hn.1
        (by rw [hv, h1, abs_one]; exact one_lt_pow₀ (by norm_num) (by norm_num))
      rw [hv, h1] at this
      exact this

/-! ## Examples -/

/-- `(x * y) * reverse(x) + y` with integers: exact however it is contracted. -/
example (k : Fin 8) (d : F64)
    (h : (Expr.add (.mul (.mul (.var 0) (.var 1)) (.reverse (.var 0))) (.var 1)).MayBe intEnv k d) :
    d.value = cf ((Expr.add (.mul (.mul (.var 0) (.var 1)) (.reverse (.var 0))) (.var 1)).evalMV
      (exactEnv intEnv)) k := by
  refine (C57_small_integers intEnv 11 (by norm_num) _ ?_ (fun i _ => intEnv_ok i)
    (by norm_num [Expr.cap]) k d h).2
  intro a b hab; simp [Expr.subs] at hab

/-- The expression of that example compiles and has a value. -/
example (k : Fin 8) : ∃ d,
    (Expr.add (.mul (.mul (.var 0) (.var 1)) (.reverse (.var 0))) (.var 1)).MayBe intEnv k d := by
  obtain ⟨r, hr⟩ : ∃ r, (Expr.add (.mul (.mul (.var 0) (.var 1)) (.reverse (.var 0))) (.var 1)).eval
    intEnv = some r := ⟨_, rfl⟩
  exact ⟨_, C57_uncontracted _ _ r hr k⟩

/-- The hypotheses of the error bound hold for `(v * v) * v` with the vector of `C57_fails_square`. -/
example (k : Fin 8) (d : F64)
    (h : (Expr.mul (.mul (.var 0) (.var 0)) (.var 0)).MayBe (fun _ => ⟨.vec, fmaVec⟩) k d) : d.Finite := by
  refine (C57_bounded_operands (fun _ => ⟨.vec, fmaVec⟩) (2 ^ 28) _ ?_ ?_ ?_ k d h).1
  · intro a b hab; simp [Expr.subs] at hab
  · intro i _ c hc
    have ha := intDub_val (2 ^ 27 + 1) (by norm_num)
    simp only [comps, fmaVec, List.mem_cons, List.not_mem_nil, or_false] at hc
    rcases hc with rfl | rfl | rfl
    · refine ⟨ha.1, ?_⟩; rw [ha.2]; norm_num
    · refine ⟨ha.1, ?_⟩; rw [ha.2]; norm_num
    · refine ⟨trivial, ?_⟩; rw [F64.hasVal_zero'.2]; norm_num
  · intro f hf
    have big : 2 ^ 100 ≤ 2 ^ 1022 := Nat.pow_le_pow_right (by norm_num) (by norm_num)
    refine le_trans ?_ big
    simp only [Expr.subs, List.cons_append, List.nil_append, List.mem_cons, List.not_mem_nil,
      or_false] at hf
    rcases hf with rfl | rfl | rfl | rfl | rfl <;> norm_num [Expr.fusedCap]

/-- `magSq` of that vector. -/
example (d : F64) (h : MagSqMayBe .vec fmaVec d) : d.Finite ∧ 0 ≤ d.value := by
  have ha := intDub_val (2 ^ 27 + 1) (by norm_num)
  have hf : ∀ c ∈ comps .vec fmaVec, c.Finite := by
    intro c hc
    simp only [comps, fmaVec, List.mem_cons, List.not_mem_nil, or_false] at hc
    rcases hc with rfl | rfl | rfl
    · exact ha.1
    · exact ha.1
    · trivial
  have h1 := C57_magSq .vec fmaVec hf (by
    have h0 : (0 : F64).value = 0 := F64.hasVal_zero'.2
    simp only [Fin.sum_univ_eight, cf_0, cf_1, cf_2, cf_3, cf_4, cf_5, cf_6, cf_7, promote, fmaVec,
      engabra, h0, ha.2]
    refine le_trans ?_ (pow_le_pow_right₀ (by norm_num) (by norm_num : 100 ≤ 1022))
    norm_num) d h
  rcases C57_magSq_nonneg .vec fmaVec (fun hn => F64.finite_ne_nan (hf _ hn) rfl) d h with rfl | h2
  · exact absurd h1.1 id
  · exact h2

end Engabra
