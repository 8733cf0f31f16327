import Verif.Model.AnyRounding
import Verif.Props.C57_Contraction

/-! # C84: any rounding mode, any contraction, any excess precision -/

namespace Engabra

open F64 (Finite HasVal Rep)

/-- Specification: `r` may be component `k` of the result of the expression, whatever the rounding
mode, the contraction and the precision of intermediate results. -/
def Expr.AnyBe (env : Nat → Sigma fun t : Ty => t.D F64) (e : Expr) (k : Fin 8) (r : ℚ) : Prop :=
  ∃ s, e.eval (symEnv env) = some s ∧
    Rounded Between (fun n => (varEnv env n).value) (cf (promote s.1 s.2) k) r

/-- Specification: the expression on absolute values, every product inflated by `1 + 9 v` and every
sum by `1 + v`, where `v = 2^-52`, and an underflow term in both. -/
def Expr.anyBound (m : Nat → Fin 8 → ℚ) : Expr → Fin 8 → ℚ
  | .var i => fun k => |m i k|
  | .mul a b => fun k =>
      (1 + 9 * 2 ^ (-52 : ℤ)) * absMul (a.anyBound m) (b.anyBound m) k + 2 ^ (-1058 : ℤ)
  | .add a b => fun k =>
      (1 + 2 ^ (-52 : ℤ)) * (a.anyBound m k + b.anyBound m k) + 2 ^ (-1072 : ℤ)
  | .sub a b => fun k =>
      (1 + 2 ^ (-52 : ℤ)) * (a.anyBound m k + b.anyBound m k) + 2 ^ (-1072 : ℤ)
  | .neg a => a.anyBound m
  | .reverse a => a.anyBound m
  | .oddverse a => a.anyBound m
  | .dirverse a => a.anyBound m
  | .dual a => absDual (a.anyBound m)

/-! ## One rounding -/

theorem roundUp_neg (q : ℚ) : roundUp (-q) = -roundDown q := by
  unfold roundUp roundDown
  have : F64.ulpExp (-q) = F64.ulpExp q := by unfold F64.ulpExp; rw [abs_neg]
  rw [this, neg_div, Int.ceil_neg]
  push_cast; ring

theorem rep_neg {w : ℚ} (h : Rep w) : Rep (-w) := by
  obtain ⟨m, e, h1, h2, h3⟩ := h
  exact ⟨-m, e, by rwa [abs_neg], h2, by rw [h3]; push_cast; ring⟩

theorem scaled_lt (q : ℚ) : |q / (2 : ℚ) ^ F64.ulpExp q| < 2 ^ 53 := F64.scaled_abs q

theorem roundUp_rep (q : ℚ) : Rep (roundUp q) := by
  refine ⟨_, F64.ulpExp q, ?_, F64.ulpExp_ge q, rfl⟩
  have h := abs_lt.1 (scaled_lt q)
  have h1 : ⌈q / (2 : ℚ) ^ F64.ulpExp q⌉ ≤ 2 ^ 53 := by
    rw [Int.ceil_le]; push_cast; exact h.2.le
  have h2 : -2 ^ 53 ≤ ⌈q / (2 : ℚ) ^ F64.ulpExp q⌉ := by
    have : ((-2 ^ 53 : ℤ) : ℚ) ≤ (⌈q / (2 : ℚ) ^ F64.ulpExp q⌉ : ℤ) := by
      refine le_trans ?_ (Int.le_ceil _)
      push_cast; exact h.1.le
    exact_mod_cast this
  exact abs_le.2 ⟨h2, h1⟩

theorem le_roundUp (q : ℚ) : q ≤ roundUp q := by
  have hp := F64.two_zpow_pos (K := ℚ) (F64.ulpExp q)
  unfold roundUp
  rw [← div_le_iff₀ hp]
  exact Int.le_ceil _

theorem roundUp_lt (q : ℚ) : roundUp q < q + (2 : ℚ) ^ F64.ulpExp q := by
  have hp := F64.two_zpow_pos (K := ℚ) (F64.ulpExp q)
  unfold roundUp
  rw [← lt_div_iff₀ hp, add_div, div_self hp.ne']
  exact Int.ceil_lt_add_one _

theorem roundUp_least {q w : ℚ} (hw : Rep w) (h : q ≤ w) : roundUp q ≤ w := by
  by_cases hx : q = 0
  · subst hx
    simpa [roundUp] using h
  have hp := F64.two_zpow_pos (K := ℚ) (F64.ulpExp q)
  have key : ∀ n : ℤ, q ≤ n * (2 : ℚ) ^ F64.ulpExp q → roundUp q ≤ n * (2 : ℚ) ^ F64.ulpExp q := by
    intro n hn
    unfold roundUp
    refine mul_le_mul_of_nonneg_right ?_ hp.le
    have : ⌈q / (2 : ℚ) ^ F64.ulpExp q⌉ ≤ n := by rw [Int.ceil_le, div_le_iff₀ hp]; exact hn
    exact_mod_cast this
  obtain ⟨m, f, hm, hf, hv⟩ := hw
  rcases le_or_gt (F64.ulpExp q) f with hle | hlt
  · obtain ⟨k, hk⟩ := Int.eq_ofNat_of_zero_le (sub_nonneg.2 hle)
    have e : w = ((m * 2 ^ k : ℤ) : ℚ) * (2 : ℚ) ^ F64.ulpExp q := by
      have e2 : f = (k : ℤ) + F64.ulpExp q := by omega
      rw [hv, e2, zpow_add₀ (by norm_num), zpow_natCast]
      push_cast; ring
    rw [e] at h ⊢
    exact key _ h
  · have hu := F64.ulp_le_abs q hx (by omega)
    have e52 : (2 : ℚ) ^ (F64.ulpExp q + 52) = ((2 ^ 52 : ℤ) : ℚ) * (2 : ℚ) ^ F64.ulpExp q := by
      rw [zpow_add₀ (by norm_num), mul_comm]; norm_num
    have hb : |w| ≤ (2 : ℚ) ^ (F64.ulpExp q + 52) := by
      have hp : |(2 : ℚ) ^ f| = (2 : ℚ) ^ f := abs_of_pos (F64.two_zpow_pos _)
      rw [hv, abs_mul, hp]
      calc |(m : ℚ)| * (2 : ℚ) ^ f ≤ (2 : ℚ) ^ (53 : ℤ) * (2 : ℚ) ^ f := by
            apply mul_le_mul_of_nonneg_right _ (F64.two_zpow_pos _).le
            rw [← Int.cast_abs]
            exact_mod_cast hm
        _ = (2 : ℚ) ^ (53 + f) := (zpow_add₀ (by norm_num) _ _).symm
        _ ≤ _ := zpow_le_zpow_right₀ (by norm_num) (by omega)
    rw [abs_le] at hb
    rcases le_total 0 q with h0 | h0
    · rw [abs_of_nonneg h0] at hu
      have hq : w = (2 : ℚ) ^ (F64.ulpExp q + 52) := le_antisymm hb.2 (hu.trans h)
      rw [hq, e52] at h ⊢
      exact key _ h
    · rw [abs_of_nonpos h0] at hu
      refine le_trans ?_ hb.1
      have := key (-2 ^ 52) (by push_cast at e52 ⊢; linarith)
      push_cast at this e52
      linarith

theorem roundDown_rep (q : ℚ) : Rep (roundDown q) := by
  have := rep_neg (roundUp_rep (-q))
  rwa [roundUp_neg, neg_neg] at this

theorem roundDown_le (q : ℚ) : roundDown q ≤ q := by
  have := le_roundUp (-q)
  rw [roundUp_neg] at this; linarith

theorem lt_roundDown (q : ℚ) : q - (2 : ℚ) ^ F64.ulpExp q < roundDown q := by
  have := roundUp_lt (-q)
  have e : F64.ulpExp (-q) = F64.ulpExp q := by unfold F64.ulpExp; rw [abs_neg]
  rw [roundUp_neg, e] at this; linarith

theorem roundDown_greatest {q w : ℚ} (hw : Rep w) (h : w ≤ q) : w ≤ roundDown q := by
  have := roundUp_least (rep_neg hw) (neg_le_neg h)
  rw [roundUp_neg] at this; linarith

/-- The rounding modes of the standard header `<cfenv>` are what their names say. -/
theorem C84_mode_meaning (q : ℚ) :
    (Rep (roundUp q) ∧ q ≤ roundUp q ∧ ∀ w, Rep w → q ≤ w → roundUp q ≤ w) ∧
    (Rep (roundDown q) ∧ roundDown q ≤ q ∧ ∀ w, Rep w → w ≤ q → w ≤ roundDown q) ∧
    (Rep (roundZero q) ∧ |roundZero q| ≤ |q| ∧ ∀ w, Rep w → |w| ≤ |q| → |w| ≤ |roundZero q|) := by
  refine ⟨⟨roundUp_rep q, le_roundUp q, fun w hw h => roundUp_least hw h⟩,
    ⟨roundDown_rep q, roundDown_le q, fun w hw h => roundDown_greatest hw h⟩, ?_⟩
  have hw' : ∀ w, Rep w → Rep |w| := fun w hw => by
    rcases abs_choice w with h | h <;> rw [h]
    · exact hw
    · exact rep_neg hw
  unfold roundZero
  split_ifs with h0
  · have h1 := roundDown_greatest F64.rep_zero h0
    refine ⟨roundDown_rep q, ?_, fun w hw h => ?_⟩
    · rw [abs_of_nonneg h1, abs_of_nonneg h0]; exact roundDown_le q
    · rw [abs_of_nonneg h0] at h
      rw [abs_of_nonneg h1]; exact roundDown_greatest (hw' w hw) h
  · rw [not_le] at h0
    have h1 := roundUp_least F64.rep_zero h0.le
    refine ⟨roundUp_rep q, ?_, fun w hw h => ?_⟩
    · rw [abs_of_nonpos h1, abs_of_neg h0]; linarith [le_roundUp q]
    · rw [abs_of_neg h0] at h
      rw [abs_of_nonpos h1]
      have := roundUp_least (rep_neg (hw' w hw)) (q := q) (by linarith)
      linarith

/-- **C84**, what is covered, one operation: all rounding modes; exact evaluation (and so fused
operations); any faithful rounding to any format that has all binary64 numbers; rounding again on
storing. -/
theorem C84_modes (q : ℚ) :
    Between q q ∧ Between q (F64.rnVal q) ∧ Between q (roundUp q) ∧ Between q (roundDown q) ∧
    Between q (roundZero q) ∧
    (∀ (P : ℚ → Prop) (r : ℚ), (∀ w, Rep w → P w) →
      (∀ w, P w → (q ≤ w → r ≤ w) ∧ (w ≤ q → w ≤ r)) → Between q r) ∧
    (∀ r r' : ℚ, Between q r → Between r r' → Between q r') := by
  have up : Between q (roundUp q) := fun w hw => by
    rw [Rat.cast_id]
    exact ⟨roundUp_least hw, fun h => h.trans (le_roundUp q)⟩
  have dn : Between q (roundDown q) := fun w hw => by
    rw [Rat.cast_id]
    exact ⟨fun h => (roundDown_le q).trans h, roundDown_greatest hw⟩
  refine ⟨fun w _ => by rw [Rat.cast_id]; exact ⟨id, id⟩, fun w hw => ?_, up, dn, ?_, ?_, ?_⟩
  · exact ⟨F64.rnVal_le_rep hw, F64.rep_le_rnVal hw⟩
  · unfold roundZero; split_ifs
    · exact dn
    · exact up
  · intro P r hP h w hw
    rw [Rat.cast_id]
    exact h w (hP w hw)
  · intro r r' h h' w hw
    have a := h w hw
    have b := h' w hw
    rw [Rat.cast_id] at a b
    exact ⟨fun x => b.1 (a.1 x), fun x => b.2 (a.2 x)⟩

theorem between_err {q r : ℚ} (h : Between q r) :
    |r - q| ≤ (2 : ℚ) ^ (-52 : ℤ) * |q| + 2 ^ (-1074 : ℤ) := by
  have h1 := (h _ (roundUp_rep q)).1 (by rw [Rat.cast_id]; exact le_roundUp q)
  have h2 := (h _ (roundDown_rep q)).2 (by rw [Rat.cast_id]; exact roundDown_le q)
  by_cases hx : q = 0
  · subst hx
    have e1 : roundUp 0 = 0 := by simp [roundUp]
    have e2 : roundDown 0 = 0 := by simp [roundDown]
    rw [e1] at h1; rw [e2] at h2
    rw [le_antisymm h1 h2, sub_self, abs_zero]
    positivity
  have h3 := roundUp_lt q
  have h4 := lt_roundDown q
  have h5 : (2 : ℚ) ^ F64.ulpExp q ≤ (2 : ℚ) ^ (-52 : ℤ) * |q| + 2 ^ (-1074 : ℤ) := by
    refine (F64.ulp_bound q hx).trans (max_le ?_ ?_)
    · exact le_add_of_nonneg_right (F64.two_zpow_pos _).le
    · exact le_add_of_nonneg_left (mul_nonneg (F64.two_zpow_pos _).le (abs_nonneg _))
  generalize (2 : ℚ) ^ (-52 : ℤ) * |q| + 2 ^ (-1074 : ℤ) = B at *
  rw [abs_le]; constructor <;> linarith

theorem between_rep {q r : ℚ} (h : Between q r) (hq : Rep q) : r = q := by
  have := h q hq
  rw [Rat.cast_id] at this
  exact le_antisymm (this.1 le_rfl) (this.2 le_rfl)

theorem Rounded.mono {R S : ℚ → ℚ → Prop} (h : ∀ q r, R q r → S q r) {env : Nat → ℚ} {t : T} {r : ℚ}
    (hr : Rounded R env t r) : Rounded S env t r := by
  induction hr with
  | zero => exact .zero
  | var n => exact .var n
  | neg _ ih => exact .neg ih
  | add _ _ h' iha ihb => exact .add iha ihb (h _ _ h')
  | sub _ _ h' iha ihb => exact .sub iha ihb (h _ _ h')
  | mul _ _ h' iha ihb => exact .mul iha ihb (h _ _ h')

/-! ## The error bound -/

/-- The unit and the underflow term. -/
def vro : ℚ := 2 ^ (-52 : ℤ)
def tinyR : ℚ := 2 ^ (-1074 : ℤ)
theorem vro_pos : 0 < vro := F64.two_zpow_pos _
theorem tinyR_pos : 0 < tinyR := F64.two_zpow_pos _

/-- All evaluations of `t` are near `q`. -/
def GoodR (env : Nat → ℚ) (t : T) (q U A : ℚ) : Prop :=
  ∀ r, Rounded Between env t r → Near r q U A

theorem GoodR.widen {env : Nat → ℚ} {t : T} {q U A U' A' : ℚ} (h : GoodR env t q U A)
    (hA : A ≤ A') (hU : U - A ≤ U' - A') : GoodR env t q U' A' :=
  fun r hr => ⟨(h r hr).1.trans hU, (h r hr).2.trans hA⟩

theorem GoodR.mono {env : Nat → ℚ} {t : T} {q U A U' : ℚ} (h : GoodR env t q U A) (hU : U ≤ U') :
    GoodR env t q U' A := fun r hr => (h r hr).mono hU

theorem GoodR.zero (env : Nat → ℚ) : GoodR env .zero 0 0 0 := by
  intro r hr; cases hr; exact Near.zero

theorem GoodR.var (env : Nat → ℚ) (n : Nat) : GoodR env (.var n) (env n) |env n| |env n| := by
  intro r hr; cases hr; simp [Near]

theorem GoodR.neg {env : Nat → ℚ} {t : T} {q U A : ℚ} (h : GoodR env t q U A) :
    GoodR env (.neg t) (-q) U A := by
  intro r hr
  cases hr with
  | neg h' => exact (h _ h').neg

theorem Near.between {p q U A r : ℚ} (h : Near p q U A) (hr : Between p r) :
    Near r q ((1 + vro) * U + tinyR) A := by
  refine ⟨?_, h.2⟩
  have h1 : |r - p| ≤ vro * |p| + tinyR := between_err hr
  have h2 := mul_le_mul_of_nonneg_left h.abs_le vro_pos.le
  have h3 := abs_sub_le r p q
  have h4 := h.1
  linarith

theorem GoodR.addLike {env : Nat → ℚ} {a b : T} {q U A r V B : ℚ} (h : GoodR env a q U A)
    (k : GoodR env b r V B) : GoodR env (.add a b) (q + r) ((1 + vro) * (U + V) + tinyR) (A + B) := by
  intro c hc
  cases hc with
  | add ha hb hr => exact ((h _ ha).add (k _ hb)).between hr

theorem GoodR.subLike {env : Nat → ℚ} {a b : T} {q U A r V B : ℚ} (h : GoodR env a q U A)
    (k : GoodR env b r V B) : GoodR env (.sub a b) (q - r) ((1 + vro) * (U + V) + tinyR) (A + B) := by
  intro c hc
  cases hc with
  | sub ha hb hr => exact ((h _ ha).sub (k _ hb)).between hr

theorem GoodR.mulLike {env : Nat → ℚ} {a b : T} {q U A r V B : ℚ} (h : GoodR env a q U A)
    (k : GoodR env b r V B) : GoodR env (.mul a b) (q * r) ((1 + vro) * (U * V) + tinyR) (A * B) := by
  intro c hc
  cases hc with
  | mul ha hb hr => exact ((h _ ha).mul (k _ hb)).between hr

theorem atom_goodR {env : Nat → ℚ} {σ : Nat → T} {q U A : Nat → ℚ}
    (h : ∀ n, GoodR env (σ n) (q n) (U n) (A n)) (t : T) (ht : t.atom = true) :
    GoodR env (t.ev σ) (t.ev q) (t.absv U) (t.absv A) := by
  induction t with
  | zero => exact GoodR.zero env
  | var n => exact h n
  | neg a ih => exact (ih ht).neg
  | add a b iha ihb => cases ht
  | sub a b iha ihb => cases ht
  | mul a b iha ihb => cases ht

/-- Bound for a flat term of depth `d` and absolute sum `X`. -/
def flatBoundR (d : Nat) (X : ℚ) : ℚ := (1 + vro) ^ d * X + (4 ^ d - 1) * tinyR

theorem flatBoundR_mono {d e : Nat} (hd : d ≤ e) {X Y : ℚ} (h0 : 0 ≤ X) (hX : X ≤ Y) :
    flatBoundR d X ≤ flatBoundR e Y := by
  unfold flatBoundR
  have h1 : (1 + vro) ^ d ≤ (1 + vro) ^ e := pow_le_pow_right₀ (by linarith [vro_pos]) hd
  have h2 : (4 : ℚ) ^ d ≤ 4 ^ e := pow_le_pow_right₀ (by norm_num) hd
  have h3 : 0 ≤ (1 + vro) ^ e := by have := vro_pos; positivity
  exact add_le_add (mul_le_mul h1 hX h0 h3)
    (mul_le_mul_of_nonneg_right (by linarith) tinyR_pos.le)

theorem flatBoundR_step (d : Nat) (X Y : ℚ) :
    (1 + vro) * (flatBoundR d X + flatBoundR d Y) + tinyR ≤ flatBoundR (d + 1) (X + Y) := by
  unfold flatBoundR
  have hu : vro ≤ 1 / 2 := by unfold vro; norm_num
  have h0 := vro_pos
  have hF : (1 : ℚ) ≤ 4 ^ d := one_le_pow₀ (by norm_num)
  have hη := tinyR_pos
  rw [pow_succ, pow_succ]
  generalize (1 + vro) ^ d = P at *
  generalize (4 : ℚ) ^ d = F at *
  generalize tinyR = η at *
  generalize vro = u at *
  have : (1 + u) * (2 * ((F - 1) * η)) ≤ 3 * ((F - 1) * η) := by
    have h : 0 ≤ (F - 1) * η := mul_nonneg (by linarith) hη.le
    nlinarith
  have h2 : η ≤ F * η := le_mul_of_one_le_left hη.le hF
  nlinarith

theorem flat_goodR {env : Nat → ℚ} {σ : Nat → T} {q U A : Nat → ℚ}
    (h : ∀ n, GoodR env (σ n) (q n) (U n) (A n)) (hU : ∀ n, 0 ≤ U n) (t : T) (ht : t.flat = true) :
    GoodR env (t.ev σ) (t.ev q) (flatBoundR t.depth (t.absv U)) (t.absv A) := by
  induction t with
  | zero => exact (GoodR.zero env).mono (by simp [flatBoundR, T.depth, T.absv])
  | var n => exact (h n).mono (by simp [flatBoundR, T.depth, T.absv])
  | neg a ih => exact (ih ht).neg
  | add a b iha ihb =>
    rw [T.flat, Bool.and_eq_true] at ht
    have ga := (iha ht.1).mono (flatBoundR_mono (le_max_left _ b.depth) (T.absv_nonneg hU a) le_rfl)
    have gb := (ihb ht.2).mono (flatBoundR_mono (le_max_right a.depth _) (T.absv_nonneg hU b) le_rfl)
    exact (ga.addLike gb).mono (flatBoundR_step (max a.depth b.depth) (a.absv U) (b.absv U))
  | sub a b iha ihb =>
    rw [T.flat, Bool.and_eq_true] at ht
    have ga := (iha ht.1).mono (flatBoundR_mono (le_max_left _ b.depth) (T.absv_nonneg hU a) le_rfl)
    have gb := (ihb ht.2).mono (flatBoundR_mono (le_max_right a.depth _) (T.absv_nonneg hU b) le_rfl)
    exact (ga.subLike gb).mono (flatBoundR_step (max a.depth b.depth) (a.absv U) (b.absv U))
  | mul a b iha ihb =>
    rw [T.flat, Bool.and_eq_true] at ht
    refine ((atom_goodR h a ht.1).mulLike (atom_goodR h b ht.2)).mono ?_
    simp only [T.depth, T.absv, flatBoundR, pow_one]
    linarith [tinyR_pos]

theorem op_goodR {env : Nat → ℚ} {q : Nat → ℚ} {a b : MultiVector T} {U A V B : Fin 8 → ℚ}
    (ga : ∀ k, GoodR env (cf a k) ((cf a k).ev q) (U k) (A k))
    (gb : ∀ k, GoodR env (cf b k) ((cf b k).ev q) (V k) (B k))
    (hA : ∀ k, 0 ≤ A k ∧ A k ≤ U k) (hB : ∀ k, 0 ≤ B k ∧ B k ≤ V k)
    {F : T} {d : Nat} {L : List (List Nat)} (hF : F.within d L = true) :
    GoodR env (F.ev (env8 0 (cf a) (cf b))) ((F.ev (env8 0 (cf a) (cf b))).ev q)
      (flatBoundR d (monSum (env8 0 U V) L)) (monSum (env8 0 A B) L) := by
  unfold T.within at hF
  simp only [Bool.and_eq_true, decide_eq_true_eq] at hF
  obtain ⟨⟨h1, h2⟩, h3⟩ := hF
  obtain ⟨R, hR⟩ := absv_sub h3
  have n0 : ∀ n, 0 ≤ env8 0 A B n ∧ env8 0 A B n ≤ env8 0 U V n := fun n =>
    env8_rel (P := fun a u (_ _ : ℚ) => 0 ≤ a ∧ a ≤ u) (x'' := A) (y'' := A) (z'' := 0)
      (u := A) (v := A) (w := 0) n hA hB ⟨le_rfl, le_rfl⟩
  have g : ∀ n, GoodR env (env8 0 (cf a) (cf b) n) ((env8 0 (cf a) (cf b) n).ev q)
      (env8 0 U V n) (env8 0 A B n) := fun n =>
    env8_rel (P := fun t u a (_ : ℚ) => GoodR env t (t.ev q) u a) (u := A) (v := A) (w := 0)
      n ga gb (GoodR.zero env)
  have mR := monSum_mono (fun n => (n0 n).1) (fun n => (n0 n).2) R
  have hU := hR (env8 0 U V)
  have hA' := hR (env8 0 A B)
  have vU := T.absv_nonneg (fun n => (n0 n).1.trans (n0 n).2) F
  have fl := flat_goodR g (fun n => (n0 n).1.trans (n0 n).2) F h1
  rw [T.ev_ev]
  refine fl.widen (by linarith) ?_
  have h4 : flatBoundR F.depth (F.absv (env8 0 U V)) ≤ flatBoundR d (F.absv (env8 0 U V)) :=
    flatBoundR_mono h2 vU le_rfl
  have h5 : flatBoundR d (F.absv (env8 0 U V)) + monSum (env8 0 U V) R
      ≤ flatBoundR d (monSum (env8 0 U V) L) := by
    unfold flatBoundR
    rw [← hU, mul_add]
    have h6 : (1 : ℚ) ≤ (1 + vro) ^ d := one_le_pow₀ (by linarith [vro_pos])
    have h7 := mul_le_mul_of_nonneg_right h6 (mR.1.trans mR.2)
    linarith
  linarith

theorem flatR8 {X : ℚ} (hX : 0 ≤ X) :
    flatBoundR 8 X ≤ (1 + 9 * 2 ^ (-52 : ℤ)) * X + 2 ^ (-1058 : ℤ) := by
  have h1 : (1 + vro) ^ 8 ≤ 1 + 9 * 2 ^ (-52 : ℤ) := by unfold vro; norm_num
  have h2 : (4 ^ 8 : ℚ) * tinyR = 2 ^ (-1058 : ℤ) := by
    unfold tinyR
    rw [show (-1058 : ℤ) = 16 + -1074 from by norm_num only, zpow_add₀ (by norm_num)]
    refine congrArg (· * (2 : ℚ) ^ (-1074 : ℤ)) ?_
    norm_num
  unfold flatBoundR
  have := mul_le_mul_of_nonneg_right h1 hX
  rw [← h2]
  linarith [tinyR_pos]

theorem flatR1 (X : ℚ) : flatBoundR 1 X ≤ (1 + 2 ^ (-52 : ℤ)) * X + 2 ^ (-1072 : ℤ) := by
  have h2 : 4 * tinyR = 2 ^ (-1072 : ℤ) := by
    unfold tinyR
    rw [show (4 : ℚ) = 2 ^ (2 : ℤ) by norm_num, ← zpow_add₀ (by norm_num)]; norm_num
  unfold flatBoundR
  rw [show vro = 2 ^ (-52 : ℤ) from rfl]
  have := tinyR_pos
  linarith

theorem anyBound_le (m : Nat → Fin 8 → ℚ) (e : Expr) : ∀ k,
    0 ≤ e.absEval m k ∧ e.absEval m k ≤ e.anyBound m k := by
  have z : ∀ n : ℤ, (0 : ℚ) ≤ 2 ^ n := fun n => by positivity
  induction e with
  | var i => exact fun k => ⟨abs_nonneg _, le_rfl⟩
  | mul a b iha ihb =>
    intro k
    refine ⟨absMul_nonneg _ _ _, ?_⟩
    have h1 := absMul_mono
      (fun i => by rw [abs_of_nonneg (iha i).1, abs_of_nonneg ((iha i).1.trans (iha i).2)]
                   exact (iha i).2)
      (fun i => by rw [abs_of_nonneg (ihb i).1, abs_of_nonneg ((ihb i).1.trans (ihb i).2)]
                   exact (ihb i).2) k
      (x := a.absEval m) (y := b.absEval m) (x' := a.anyBound m) (y' := b.anyBound m)
    have h2 := mul_nonneg (z (-52)) (absMul_nonneg (a.anyBound m) (b.anyBound m) k)
    have h3 := z (-1058)
    simp only [Expr.absEval, Expr.anyBound]
    generalize (2 : ℚ) ^ (-52 : ℤ) = u at *
    generalize (2 : ℚ) ^ (-1058 : ℤ) = v at *
    linarith
  | add a b iha ihb =>
    intro k
    obtain ⟨a1, a2⟩ := iha k
    obtain ⟨b1, b2⟩ := ihb k
    have h2 := mul_nonneg (z (-52)) (add_nonneg (a1.trans a2) (b1.trans b2))
    have h3 := z (-1072)
    simp only [Expr.absEval, Expr.anyBound]
    generalize (2 : ℚ) ^ (-52 : ℤ) = u at *
    generalize (2 : ℚ) ^ (-1072 : ℤ) = v at *
    exact ⟨by linarith, by linarith⟩
  | sub a b iha ihb =>
    intro k
    obtain ⟨a1, a2⟩ := iha k
    obtain ⟨b1, b2⟩ := ihb k
    have h2 := mul_nonneg (z (-52)) (add_nonneg (a1.trans a2) (b1.trans b2))
    have h3 := z (-1072)
    simp only [Expr.absEval, Expr.anyBound]
    generalize (2 : ℚ) ^ (-52 : ℤ) = u at *
    generalize (2 : ℚ) ^ (-1072 : ℤ) = v at *
    exact ⟨by linarith, by linarith⟩
  | neg a ih => exact ih
  | reverse a ih => exact ih
  | oddverse a ih => exact ih
  | dirverse a ih => exact ih
  | dual a ih => exact forall_fin8 (ih 7) (ih 4) (ih 5) (ih 6) (ih 1) (ih 2) (ih 3) (ih 0)

theorem signs_goodR {env : Nat → ℚ} {q : Nat → ℚ} {s t : T} {U A : ℚ}
    (h : GoodR env t (t.ev q) U A) (hA : 0 ≤ A ∧ A ≤ U)
    (hs : SameOrNeg s t) : GoodR env s (s.ev q) U A := by
  rcases hs with rfl | rfl | rfl
  · exact h
  · exact h.neg
  · exact (GoodR.zero env).widen hA.1 (by linarith)

theorem expr_goodR (env : Nat → Sigma fun t : Ty => t.D F64) (e : Expr)
    (r : Sigma fun t : Ty => t.D T) (h : e.eval (symEnv env) = some r) (k : Fin 8) :
    GoodR (fun n => (varEnv env n).value) (cf (promote r.1 r.2) k)
      ((cf (promote r.1 r.2) k).ev fun n => (varEnv env n).value)
      (e.anyBound (fun i => cf (exactEnv env i)) k) (e.absEval (fun i => cf (exactEnv env i)) k) := by
  have hle := fun f : Expr => anyBound_le (fun i => cf (exactEnv env i)) f
  induction e generalizing r k with
  | var i =>
    simp only [Expr.eval, Option.some.injEq] at h
    subst h
    have hz : ∀ k, cf (promote (symEnv env i).1 (symEnv env i).2) k = .var (8 * i + k) ∨
        cf (promote (symEnv env i).1 (symEnv env i).2) k = .zero := by
      unfold symEnv
      generalize (env i).1 = t
      cases t <;> refine forall_fin8 ?_ ?_ ?_ ?_ ?_ ?_ ?_ ?_ <;>
        first | exact Or.inl rfl | exact Or.inr rfl
    have e1 : cf (exactEnv env i) k = (varEnv env (8 * i + k)).value := by
      rw [varEnv_at, ← cf_val]
    simp only [Expr.anyBound, Expr.absEval, e1]
    rcases hz k with e | e <;> rw [e]
    · exact GoodR.var _ _
    · exact (GoodR.zero _).widen (abs_nonneg _) (by rw [sub_self, sub_self])
  | mul a b iha ihb =>
    simp only [Expr.eval, Option.bind_eq_some_iff, Option.map_eq_some_iff] at h
    obtain ⟨x, hx, y, hy, rfl⟩ := h
    have mU := monSum_prod (fun k => (hle a k).1.trans (hle a k).2)
      (fun k => (hle b k).1.trans (hle b k).2) k
    have mA := monSum_prod (fun k => (hle a k).1) (fun k => (hle b k).1) k
    have nU := absMul_nonneg (a.anyBound fun i => cf (exactEnv env i))
      (b.anyBound fun i => cf (exactEnv env i)) k
    dsimp only
    rw [typedT_ev]
    have g := op_goodR (iha x hx) (ihb y hy) (hle a) (hle b) (typedT_within x.1 y.1 k)
    rw [mU, mA] at g
    exact g.mono (flatR8 nU)
  | add a b iha ihb =>
    simp only [Expr.eval, Option.bind_eq_some_iff] at h
    obtain ⟨x, hx, y, hy, h⟩ := h
    have mU := monSum_sum (a.anyBound fun i => cf (exactEnv env i))
      (b.anyBound fun i => cf (exactEnv env i)) k
    have mA := monSum_sum (a.absEval fun i => cf (exactEnv env i))
      (b.absEval fun i => cf (exactEnv env i)) k
    rw [sumT_ev _ _ _ _ _ h]
    have g := op_goodR (iha x hx) (ihb y hy) (hle a) (hle b) (sumT_within x.1 y.1 k)
    rw [mU, mA] at g
    exact g.mono (flatR1 _)
  | sub a b iha ihb =>
    simp only [Expr.eval, Option.bind_eq_some_iff] at h
    obtain ⟨x, hx, y, hy, h⟩ := h
    have mU := monSum_sum (a.anyBound fun i => cf (exactEnv env i))
      (b.anyBound fun i => cf (exactEnv env i)) k
    have mA := monSum_sum (a.absEval fun i => cf (exactEnv env i))
      (b.absEval fun i => cf (exactEnv env i)) k
    rw [diffT_ev _ _ _ _ _ h]
    have g := op_goodR (iha x hx) (ihb y hy) (hle a) (hle b) (diffT_within x.1 y.1 k)
    rw [mU, mA] at g
    exact g.mono (flatR1 _)
  | neg a ih =>
    simp only [Expr.eval, Option.map_eq_some_iff] at h
    obtain ⟨x, hx, rfl⟩ := h
    exact signs_goodR (ih x hx k) (hle a k) (neg_comps x.1 x.2 k)
  | reverse a ih =>
    simp only [Expr.eval, Option.map_eq_some_iff] at h
    obtain ⟨x, hx, rfl⟩ := h
    exact signs_goodR (ih x hx k) (hle a k) (reverse_comps x.1 x.2 k)
  | oddverse a ih =>
    simp only [Expr.eval, Option.map_eq_some_iff] at h
    obtain ⟨x, hx, rfl⟩ := h
    exact signs_goodR (ih x hx k) (hle a k) (oddverse_comps x.1 x.2 k)
  | dirverse a ih =>
    simp only [Expr.eval, Option.map_eq_some_iff] at h
    obtain ⟨x, hx, rfl⟩ := h
    exact signs_goodR (ih x hx k) (hle a k) (dirverse_comps x.1 x.2 k)
  | dual a ih =>
    simp only [Expr.eval, Option.map_eq_some_iff] at h
    obtain ⟨x, hx, rfl⟩ := h
    have hk := hle a (dualIx k)
    simp only [Expr.anyBound, Expr.absEval, absDual_ix]
    exact signs_goodR (ih x hx (dualIx k)) hk (dual_comps x.1 x.2 k)

/-- **C84**: whatever the rounding mode, the contraction and the precision of intermediate results,
each component of the result of an expression is within `anyBound - absEval` of the exact value. -/
theorem C84_expression (env : Nat → Sigma fun t : Ty => t.D F64) (e : Expr)
    (hr : e.NoReversed env) (k : Fin 8) (r : ℚ) (h : e.AnyBe env k r) :
    |r - cf (e.evalMV (exactEnv env)) k|
      ≤ e.anyBound (fun i => cf (exactEnv env i)) k - e.absEval (fun i => cf (exactEnv env i)) k := by
  obtain ⟨s, hs, hd⟩ := h
  rw [← exact_value env e hr s hs k]
  exact (expr_goodR env e s hs k r hd).1

/-- **C84**: when nothing can overflow: every value is at most `anyBound` in size. -/
theorem C84_size (env : Nat → Sigma fun t : Ty => t.D F64) (e : Expr) (k : Fin 8) (r : ℚ)
    (h : e.AnyBe env k r) : |r| ≤ e.anyBound (fun i => cf (exactEnv env i)) k := by
  obtain ⟨s, hs, hd⟩ := h
  exact (expr_goodR env e s hs k r hd).abs_le

/-- **C84**: two builds or two modes differ by at most twice the bound. -/
theorem C84_two (env : Nat → Sigma fun t : Ty => t.D F64) (e : Expr)
    (hr : e.NoReversed env) (k : Fin 8) (r r' : ℚ) (h : e.AnyBe env k r) (h' : e.AnyBe env k r') :
    |r - r'| ≤ 2 * (e.anyBound (fun i => cf (exactEnv env i)) k
      - e.absEval (fun i => cf (exactEnv env i)) k) := by
  have h1 := C84_expression env e hr k r h
  have h2 := C84_expression env e hr k r' h'
  rw [abs_sub_comm] at h2
  have := abs_sub_le r (cf (e.evalMV (exactEnv env)) k) r'
  linarith

/-- **C84**: one product, all hundred pairs of operand types. -/
theorem C84_product (s t : Ty) (x : s.D F64) (y : t.D F64) (k : Fin 8) (r : ℚ)
    (h : (Expr.mul (.var 0) (.var 1)).AnyBe (fun i => if i = 0 then ⟨s, x⟩ else ⟨t, y⟩) k r) :
    |r - cf (promote s (valTy s x) * promote t (valTy t y)) k|
      ≤ 9 * 2 ^ (-52 : ℤ) * absMul (cf (promote s (valTy s x))) (cf (promote t (valTy t y))) k
        + 2 ^ (-1058 : ℤ) := by
  set env : Nat → Sigma fun t : Ty => t.D F64 := fun i => if i = 0 then ⟨s, x⟩ else ⟨t, y⟩ with he
  have a1 : absMul (fun k => |cf (exactEnv env 0) k|) (fun k => |cf (exactEnv env 1) k|) k
      = absMul (cf (promote s (valTy s x))) (cf (promote t (valTy t y))) k := by
    unfold absMul; simp only [abs_abs]; rfl
  have := C84_expression env (.mul (.var 0) (.var 1)) (by intro a b hab; simp [Expr.subs] at hab) k r h
  refine this.trans (le_of_eq ?_)
  simp only [Expr.anyBound, Expr.absEval]
  rw [a1]; ring

/-! ## The model of binary64 arithmetic, with every contraction, is covered -/

theorem fma_finite {x y z : F64} (h : (F64.fma x y z).Finite) :
    x.Finite ∧ y.Finite ∧ z.Finite ∧ (F64.fma x y z).value = F64.rnVal (x.value * y.value + z.value) := by
  have hxy : x.Finite ∧ y.Finite := by
    by_contra hc
    have e : (x.isFin && y.isFin) = false := by
      rw [Bool.eq_false_iff, Ne, Bool.and_eq_true, isFin_iff, isFin_iff]; exact hc
    unfold F64.fma at h
    rw [e, if_neg (by simp)] at h
    have h1 := F64.add_finite (x := F64.mul x y) (y := z) h
    exact hc (F64.mul_finite (x := x) (y := y) h1.1)
  have hz : z.Finite := by
    by_contra hc
    unfold F64.fma at h
    rw [(isFin_iff x).2 hxy.1, (isFin_iff y).2 hxy.2, Bool.and_self, if_pos rfl,
      if_neg (by rw [isFin_iff]; exact hc)] at h
    exact hc h
  refine ⟨hxy.1, hxy.2, hz, ?_⟩
  by_cases h0 : x.value * y.value + z.value = 0
  · unfold F64.fma
    rw [(isFin_iff x).2 hxy.1, (isFin_iff y).2 hxy.2, Bool.and_self, if_pos rfl, (isFin_iff z).2 hz,
      if_pos rfl, if_pos h0, h0, F64.rnVal_zero]
    rfl
  · have e : F64.fma x y z = F64.roundTo (x.value * y.value + z.value) := by
      unfold F64.fma
      rw [(isFin_iff x).2 hxy.1, (isFin_iff y).2 hxy.2, Bool.and_self, if_pos rfl, (isFin_iff z).2 hz,
        if_pos rfl, if_neg h0]
    rw [e] at h ⊢
    exact (F64.roundTo_value (F64.roundTo_finite h)).2

theorem prod_rounded {env : Nat → ℚ} {p a b : T} {s : Bool} (e : p.prodOf = some (s, a, b)) {x y : ℚ}
    (hx : Rounded Between env a x) (hy : Rounded Between env b y) :
    Rounded Between env p (sgq s (x * y)) := by
  induction p generalizing s a b with
  | zero => cases e
  | var n => cases e
  | add _ _ => cases e
  | sub _ _ => cases e
  | mul a' b' =>
    simp only [T.prodOf, Option.some.injEq, Prod.mk.injEq] at e
    obtain ⟨rfl, rfl, rfl⟩ := e
    exact .mul hx hy (C84_modes (x * y)).1
  | neg a' ih =>
    simp only [T.prodOf, Option.map_eq_some_iff] at e
    obtain ⟨⟨s', a'', b''⟩, e1, e2⟩ := e
    simp only [Prod.mk.injEq] at e2
    obtain ⟨rfl, rfl, rfl⟩ := e2
    rw [sgq_not]
    exact .neg (ih e1 hx hy)

theorem sgn_finite {s : Bool} {x : F64} (h : (F64.sgn s x).Finite) :
    x.Finite ∧ (F64.sgn s x).value = sgq s x.value := by
  cases s
  · exact ⟨h, rfl⟩
  · have hx : x.Finite := F64.neg_finite_iff.1 h
    exact ⟨hx, (sgn_val true (HasVal.of hx)).2⟩

theorem contracted_rounded {env : Nat → F64} {t : T} {c : F64} (h : Contracted env t c)
    (hc : c.Finite) : Rounded Between (fun n => (env n).value) t c.value := by
  have near := fun q : ℚ => (C84_modes q).2.1
  induction h with
  | zero => exact .zero
  | var n => exact .var n
  | neg _ ih =>
    rename_i x _
    have : (F64.neg x).value = -x.value := F64.neg_value x
    rw [this]
    exact .neg (ih (F64.neg_finite_iff.1 hc))
  | add _ _ iha ihb =>
    rename_i x y _ _
    obtain ⟨h1, h2⟩ := F64.add_finite (x := x) (y := y) hc
    have : (F64.add x y).value = _ := F64.add_value (x := x) (y := y) hc
    rw [this]
    exact .add (iha h1) (ihb h2) (near _)
  | sub _ _ iha ihb =>
    rename_i x y _ _
    obtain ⟨h1, h2⟩ := F64.add_finite (x := x) (y := F64.neg y) hc
    have : (F64.add x (F64.neg y)).value = _ := F64.add_value (x := x) (y := F64.neg y) hc
    have e : (F64.neg y).value = -y.value := F64.neg_value y
    rw [this, e, ← sub_eq_add_neg]
    exact .sub (iha h1) (ihb (F64.neg_finite_iff.1 h2)) (near _)
  | mul _ _ iha ihb =>
    rename_i x y _ _
    obtain ⟨h1, h2⟩ := F64.mul_finite (x := x) (y := y) hc
    have : (F64.mul x y).value = _ := F64.mul_value (x := x) (y := y) hc
    rw [this]
    exact .mul (iha h1) (ihb h2) (near _)
  | addFusedLeft e _ _ _ iha ihb ihc =>
    obtain ⟨h1, h2, h3, h4⟩ := fma_finite hc
    obtain ⟨h5, h6⟩ := sgn_finite h1
    rw [h4, h6, sgq_mul]
    exact .add (prod_rounded e (iha h5) (ihb h2)) (ihc h3) (near _)
  | addFusedRight e _ _ _ iha ihb ihc =>
    obtain ⟨h1, h2, h3, h4⟩ := fma_finite hc
    obtain ⟨h5, h6⟩ := sgn_finite h1
    rw [h4, h6, sgq_mul, add_comm]
    exact .add (ihc h3) (prod_rounded e (iha h5) (ihb h2)) (near _)
  | subFusedLeft e _ _ _ iha ihb ihc =>
    rename_i z _ _ _
    obtain ⟨h1, h2, h3, h4⟩ := fma_finite hc
    obtain ⟨h5, h6⟩ := sgn_finite h1
    have ez : (F64.neg z).value = -z.value := F64.neg_value z
    rw [h4, h6, sgq_mul, ez, ← sub_eq_add_neg]
    exact .sub (prod_rounded e (iha h5) (ihb h2)) (ihc (F64.neg_finite_iff.1 h3)) (near _)
  | subFusedRight e _ _ _ iha ihb ihc =>
    obtain ⟨h1, h2, h3, h4⟩ := fma_finite hc
    obtain ⟨h5, h6⟩ := sgn_finite h1
    rw [h4, h6, sgq_mul, sgq_not, neg_add_eq_sub]
    exact .sub (ihc h3) (prod_rounded e (iha h5) (ihb h2)) (near _)

/-- **C84**, what is covered, whole expressions: every finite result that the program can have with
round to nearest and any contraction (C57); in particular what the model of C01 .. C56 computes. -/
theorem C84_covers (env : Nat → Sigma fun t : Ty => t.D F64) (e : Expr) (k : Fin 8) (d : F64)
    (hd : d.Finite) (h : e.MayBe env k d) : e.AnyBe env k d.value := by
  obtain ⟨r, hr, hc⟩ := h
  exact ⟨r, hr, contracted_rounded hc hd⟩

/-! ## Integers -/

/-- All evaluations of `t` are the integer `q`. -/
def GoodZ (env : Nat → ℚ) (t : T) (q A : ℚ) : Prop :=
  |q| ≤ A ∧ (∃ n : ℤ, q = n) ∧ ∀ r, Rounded Between env t r → r = q

theorem GoodZ.widen {env : Nat → ℚ} {t : T} {q A A' : ℚ} (h : GoodZ env t q A) (hA : A ≤ A') :
    GoodZ env t q A' := ⟨h.1.trans hA, h.2⟩

theorem GoodZ.zero (env : Nat → ℚ) : GoodZ env .zero 0 0 :=
  ⟨by rw [abs_zero], ⟨0, by simp⟩, fun r hr => by cases hr; rfl⟩

theorem GoodZ.neg {env : Nat → ℚ} {t : T} {q A : ℚ} (h : GoodZ env t q A) :
    GoodZ env (.neg t) (-q) A := by
  obtain ⟨h1, ⟨n, hn⟩, h3⟩ := h
  refine ⟨by rwa [abs_neg], ⟨-n, by rw [hn]; push_cast; rfl⟩, fun r hr => ?_⟩
  cases hr with
  | neg h' => rw [h3 _ h']

theorem between_int {q r : ℚ} (h : Between q r) (hi : ∃ n : ℤ, q = n) (hq : |q| ≤ 2 ^ 53) : r = q := by
  obtain ⟨n, rfl⟩ := hi
  refine between_rep h (F64.rep_int n ?_)
  have : ((|n| : ℤ) : ℚ) ≤ ((2 ^ 53 : ℤ) : ℚ) := by push_cast; exact hq
  exact_mod_cast this

theorem GoodZ.addLike {env : Nat → ℚ} {a b : T} {q A r B : ℚ} (h : GoodZ env a q A)
    (k : GoodZ env b r B) (hs : A + B ≤ 2 ^ 53) : GoodZ env (.add a b) (q + r) (A + B) := by
  obtain ⟨h1, ⟨n, hn⟩, h3⟩ := h
  obtain ⟨k1, ⟨m, hm⟩, k3⟩ := k
  have hb : |q + r| ≤ A + B := (abs_add_le _ _).trans (add_le_add h1 k1)
  have hi : ∃ j : ℤ, q + r = j := ⟨n + m, by rw [hn, hm]; push_cast; rfl⟩
  refine ⟨hb, hi, fun c hc => ?_⟩
  cases hc with
  | add ha hb' hr =>
    rw [h3 _ ha, k3 _ hb'] at hr
    exact between_int hr hi (hb.trans hs)

theorem GoodZ.subLike {env : Nat → ℚ} {a b : T} {q A r B : ℚ} (h : GoodZ env a q A)
    (k : GoodZ env b r B) (hs : A + B ≤ 2 ^ 53) : GoodZ env (.sub a b) (q - r) (A + B) := by
  obtain ⟨h1, ⟨n, hn⟩, h3⟩ := h
  obtain ⟨k1, ⟨m, hm⟩, k3⟩ := k
  have hb : |q - r| ≤ A + B := (abs_sub _ _).trans (add_le_add h1 k1)
  have hi : ∃ j : ℤ, q - r = j := ⟨n - m, by rw [hn, hm]; push_cast; rfl⟩
  refine ⟨hb, hi, fun c hc => ?_⟩
  cases hc with
  | sub ha hb' hr =>
    rw [h3 _ ha, k3 _ hb'] at hr
    exact between_int hr hi (hb.trans hs)

theorem GoodZ.mulLike {env : Nat → ℚ} {a b : T} {q A r B : ℚ} (h : GoodZ env a q A)
    (k : GoodZ env b r B) (hs : A * B ≤ 2 ^ 53) : GoodZ env (.mul a b) (q * r) (A * B) := by
  obtain ⟨h1, ⟨n, hn⟩, h3⟩ := h
  obtain ⟨k1, ⟨m, hm⟩, k3⟩ := k
  have hb : |q * r| ≤ A * B := by
    rw [abs_mul]; exact mul_le_mul h1 k1 (abs_nonneg _) ((abs_nonneg _).trans h1)
  have hi : ∃ j : ℤ, q * r = j := ⟨n * m, by rw [hn, hm]; push_cast; rfl⟩
  refine ⟨hb, hi, fun c hc => ?_⟩
  cases hc with
  | mul ha hb' hr =>
    rw [h3 _ ha, k3 _ hb'] at hr
    exact between_int hr hi (hb.trans hs)

theorem flat_intZ {env : Nat → ℚ} {σ : Nat → T} {q A : Nat → ℚ}
    (h : ∀ n, GoodZ env (σ n) (q n) (A n)) (t : T)
    (ht : t.flat = true) (hs : t.absv A ≤ 2 ^ 53) : GoodZ env (t.ev σ) (t.ev q) (t.absv A) := by
  have hA : ∀ n, 0 ≤ A n := fun n => (abs_nonneg _).trans (h n).1
  have atom : ∀ t : T, t.atom = true → GoodZ env (t.ev σ) (t.ev q) (t.absv A) := by
    intro t ht
    induction t with
    | zero => exact GoodZ.zero env
    | var n => exact h n
    | neg a ih => exact (ih ht).neg
    | add a b iha ihb => cases ht
    | sub a b iha ihb => cases ht
    | mul a b iha ihb => cases ht
  induction t with
  | zero => exact GoodZ.zero env
  | var n => exact h n
  | neg a ih => exact (ih ht hs).neg
  | add a b iha ihb =>
    rw [T.flat, Bool.and_eq_true] at ht
    have ha := T.absv_nonneg hA a
    have hb := T.absv_nonneg hA b
    have hs' : a.absv A + b.absv A ≤ 2 ^ 53 := hs
    exact (iha ht.1 (by linarith)).addLike (ihb ht.2 (by linarith)) hs'
  | sub a b iha ihb =>
    rw [T.flat, Bool.and_eq_true] at ht
    have ha := T.absv_nonneg hA a
    have hb := T.absv_nonneg hA b
    have hs' : a.absv A + b.absv A ≤ 2 ^ 53 := hs
    exact (iha ht.1 (by linarith)).subLike (ihb ht.2 (by linarith)) hs'
  | mul a b iha ihb =>
    rw [T.flat, Bool.and_eq_true] at ht
    exact (atom a ht.1).mulLike (atom b ht.2) hs

theorem op_intZ {env : Nat → ℚ} {q : Nat → ℚ} {a b : MultiVector T} {A B : Fin 8 → ℚ}
    (ga : ∀ k, GoodZ env (cf a k) ((cf a k).ev q) (A k))
    (gb : ∀ k, GoodZ env (cf b k) ((cf b k).ev q) (B k))
    {F : T} {d : Nat} {L : List (List Nat)} (hF : F.within d L = true)
    (hs : monSum (env8 0 A B) L ≤ 2 ^ 53) :
    GoodZ env (F.ev (env8 0 (cf a) (cf b))) ((F.ev (env8 0 (cf a) (cf b))).ev q)
      (monSum (env8 0 A B) L) := by
  unfold T.within at hF
  simp only [Bool.and_eq_true, decide_eq_true_eq] at hF
  obtain ⟨⟨h1, -⟩, h3⟩ := hF
  obtain ⟨R, hR⟩ := absv_sub h3
  have g : ∀ n, GoodZ env (env8 0 (cf a) (cf b) n) ((env8 0 (cf a) (cf b) n).ev q)
      (env8 0 A B n) := fun n =>
    env8_rel (P := fun t a (_ _ : ℚ) => GoodZ env t (t.ev q) a) (u := A) (v := A) (w := 0)
      (x'' := A) (y'' := A) (z'' := 0) n ga gb (GoodZ.zero env)
  have n0 : ∀ n, 0 ≤ env8 0 A B n := fun n => (abs_nonneg _).trans (g n).1
  have mR := monSum_mono n0 (fun n => le_rfl) R
  have hA' := hR (env8 0 A B)
  rw [T.ev_ev]
  exact (flat_intZ g F h1 (by linarith)).widen (by linarith)

theorem signs_intZ {env : Nat → ℚ} {q : Nat → ℚ} {s t : T} {A : ℚ}
    (h : GoodZ env t (t.ev q) A) (hs : SameOrNeg s t) : GoodZ env s (s.ev q) A := by
  rcases hs with rfl | rfl | rfl
  · exact h
  · exact h.neg
  · exact (GoodZ.zero env).widen ((abs_nonneg _).trans h.1)

theorem expr_intZ (env : Nat → Sigma fun t : Ty => t.D F64) (e : Expr)
    (hv : ∀ i ∈ e.vars, ∀ c ∈ comps (env i).1 (env i).2, ∃ n : ℤ, c.value = n)
    (hb : ∀ f ∈ e.subs, ∀ k, f.absEval (fun i => cf (exactEnv env i)) k ≤ 2 ^ 53)
    (r : Sigma fun t : Ty => t.D T) (h : e.eval (symEnv env) = some r) (k : Fin 8) :
    GoodZ (fun n => (varEnv env n).value) (cf (promote r.1 r.2) k)
      ((cf (promote r.1 r.2) k).ev fun n => (varEnv env n).value)
      (e.absEval (fun i => cf (exactEnv env i)) k) := by
  have h0 := fun f : Expr => absEval_nonneg (fun i => cf (exactEnv env i)) f
  induction e generalizing r k with
  | var i =>
    simp only [Expr.eval, Option.some.injEq] at h
    subst h
    have hg := comps_grid _ _ 0 (fun c hc => by
      obtain ⟨n, h2⟩ := hv i (by simp [Expr.vars]) c hc
      exact ⟨n, by rw [h2, zpow_zero, mul_one]⟩) k
    have hz : ∀ k, cf (promote (symEnv env i).1 (symEnv env i).2) k = .var (8 * i + k) ∨
        cf (promote (symEnv env i).1 (symEnv env i).2) k = .zero := by
      unfold symEnv
      generalize (env i).1 = t
      cases t <;> refine forall_fin8 ?_ ?_ ?_ ?_ ?_ ?_ ?_ ?_ <;>
        first | exact Or.inl rfl | exact Or.inr rfl
    rw [← varEnv_at] at hg
    have e1 : cf (exactEnv env i) k = (varEnv env (8 * i + k)).value := by
      rw [varEnv_at, ← cf_val]
    simp only [Expr.absEval, e1]
    rcases hz k with e | e <;> rw [e]
    · refine ⟨le_rfl, ?_, fun r hr => by cases hr; rfl⟩
      obtain ⟨n, hn⟩ := hg
      exact ⟨n, by rw [T.ev, hn, zpow_zero, mul_one]⟩
    · exact (GoodZ.zero _).widen (abs_nonneg _)
  | mul a b iha ihb =>
    simp only [Expr.eval, Option.bind_eq_some_iff, Option.map_eq_some_iff] at h
    obtain ⟨x, hx, y, hy, rfl⟩ := h
    have ga := iha (fun i hi => hv i (by simp [Expr.vars, hi])) (fun f hf => hb f (by simp [Expr.subs, hf])) x hx
    have gb := ihb (fun i hi => hv i (by simp [Expr.vars, hi])) (fun f hf => hb f (by simp [Expr.subs, hf])) y hy
    have hbk := hb _ (List.mem_cons_self : Expr.mul a b ∈ (Expr.mul a b).subs) k
    have mA := monSum_prod (h0 a) (h0 b) k
    dsimp only
    rw [typedT_ev]
    have g := op_intZ ga gb (typedT_within x.1 y.1 k) (by rw [mA]; exact hbk)
    rwa [mA] at g
  | add a b iha ihb =>
    simp only [Expr.eval, Option.bind_eq_some_iff] at h
    obtain ⟨x, hx, y, hy, h⟩ := h
    have ga := iha (fun i hi => hv i (by simp [Expr.vars, hi])) (fun f hf => hb f (by simp [Expr.subs, hf])) x hx
    have gb := ihb (fun i hi => hv i (by simp [Expr.vars, hi])) (fun f hf => hb f (by simp [Expr.subs, hf])) y hy
    have hbk := hb _ (List.mem_cons_self : Expr.add a b ∈ (Expr.add a b).subs) k
    have mA := monSum_sum (a.absEval fun i => cf (exactEnv env i))
      (b.absEval fun i => cf (exactEnv env i)) k
    rw [sumT_ev _ _ _ _ _ h]
    have g := op_intZ ga gb (sumT_within x.1 y.1 k) (by rw [mA]; exact hbk)
    rwa [mA] at g
  | sub a b iha ihb =>
    simp only [Expr.eval, Option.bind_eq_some_iff] at h
    obtain ⟨x, hx, y, hy, h⟩ := h
    have ga := iha (fun i hi => hv i (by simp [Expr.vars, hi])) (fun f hf => hb f (by simp [Expr.subs, hf])) x hx
    have gb := ihb (fun i hi => hv i (by simp [Expr.vars, hi])) (fun f hf => hb f (by simp [Expr.subs, hf])) y hy
    have hbk := hb _ (List.mem_cons_self : Expr.sub a b ∈ (Expr.sub a b).subs) k
    have mA := monSum_sum (a.absEval fun i => cf (exactEnv env i))
      (b.absEval fun i => cf (exactEnv env i)) k
    rw [diffT_ev _ _ _ _ _ h]
    have g := op_intZ ga gb (diffT_within x.1 y.1 k) (by rw [mA]; exact hbk)
    rwa [mA] at g
  | neg a ih =>
    simp only [Expr.eval, Option.map_eq_some_iff] at h
    obtain ⟨x, hx, rfl⟩ := h
    exact signs_intZ (ih (fun i hi => hv i hi) (fun f hf => hb f (by simp [Expr.subs, hf])) x hx k)
      (neg_comps x.1 x.2 k)
  | reverse a ih =>
    simp only [Expr.eval, Option.map_eq_some_iff] at h
    obtain ⟨x, hx, rfl⟩ := h
    exact signs_intZ (ih (fun i hi => hv i hi) (fun f hf => hb f (by simp [Expr.subs, hf])) x hx k)
      (reverse_comps x.1 x.2 k)
  | oddverse a ih =>
    simp only [Expr.eval, Option.map_eq_some_iff] at h
    obtain ⟨x, hx, rfl⟩ := h
    exact signs_intZ (ih (fun i hi => hv i hi) (fun f hf => hb f (by simp [Expr.subs, hf])) x hx k)
      (oddverse_comps x.1 x.2 k)
  | dirverse a ih =>
    simp only [Expr.eval, Option.map_eq_some_iff] at h
    obtain ⟨x, hx, rfl⟩ := h
    exact signs_intZ (ih (fun i hi => hv i hi) (fun f hf => hb f (by simp [Expr.subs, hf])) x hx k)
      (dirverse_comps x.1 x.2 k)
  | dual a ih =>
    simp only [Expr.eval, Option.map_eq_some_iff] at h
    obtain ⟨x, hx, rfl⟩ := h
    have g := ih (fun i hi => hv i hi) (fun f hf => hb f (by simp [Expr.subs, hf])) x hx
    simp only [Expr.absEval, absDual_ix]
    exact signs_intZ (g (dualIx k)) (dual_comps x.1 x.2 k)

/-- **C84**: integer data whose results fit in 53 bits are computed exactly in every rounding mode,
with every contraction and every excess precision. -/
theorem C84_integers (env : Nat → Sigma fun t : Ty => t.D F64) (e : Expr)
    (hr : e.NoReversed env)
    (hv : ∀ i ∈ e.vars, ∀ c ∈ comps (env i).1 (env i).2, ∃ n : ℤ, c.value = n)
    (hb : ∀ f ∈ e.subs, ∀ k, f.absEval (fun i => cf (exactEnv env i)) k ≤ 2 ^ 53)
    (k : Fin 8) (r : ℚ) (h : e.AnyBe env k r) : r = cf (e.evalMV (exactEnv env)) k := by
  obtain ⟨s, hs, hd⟩ := h
  rw [(expr_intZ env e hv hb s hs k).2.2 r hd]
  exact exact_value env e hr s hs k

/-! ## Magnitudes -/

/-- Specification: `s` may be the value of `magSq(x)`, if results are rounded by `R`. -/
def MagSqAnyBe (R : ℚ → ℚ → Prop) (t : Ty) (x : t.D F64) (s : ℚ) : Prop :=
  Rounded R (fun n => (varEnv (fun _ => ⟨t, x⟩) n).value) (magSqTy t (sv t 0)) s

/-- A sum of squares of variables. -/
def T.sos : T → Bool
  | .zero => true
  | .add a b => a.sos && b.sos
  | .mul (.var m) (.var n) => decide (m = n)
  | _ => false

theorem sos_mul {a b : T} (h : (T.mul a b).sos = true) : ∃ n, a = .var n ∧ b = .var n := by
  cases a <;> cases b <;> try (cases h; done)
  simp only [T.sos, decide_eq_true_eq] at h
  subst h
  exact ⟨_, rfl, rfl⟩

theorem magSq_sos (t : Ty) : (magSqTy t (sv t 0)).sos = true := by cases t <;> rfl

theorem magSq_mapT {α : Type} [Add α] [Sub α] [Mul α] [Neg α] [Zero α] (q : Nat → α) (t : Ty)
    (a : t.D T) : (magSqTy t a).ev q = magSqTy t (mapTy (T.ev q) t a) := by cases t <;> rfl

theorem magSq_ev (t : Ty) (x : t.D F64) :
    (magSqTy t (sv t 0)).ev (fun n => (varEnv (fun _ => ⟨t, x⟩) n).value) = magSqTy t (valTy t x) := by
  rw [magSq_mapT]
  have h := congrFun (symEnv_map (fun _ => (⟨t, x⟩ : Sigma fun t : Ty => t.D F64)) F64.value) 0
  unfold mapS symEnv at h
  simp only [Sigma.mk.injEq, heq_eq_eq, true_and] at h
  rw [← show mapTy F64.value t x = valTy t x from rfl, ← h]

theorem sos_down {env : Nat → ℚ} {t : T} (ht : t.sos = true) {r : ℚ}
    (h : Rounded (fun q r => r ≤ q) env t r) : r ≤ t.ev env := by
  induction h with
  | zero => exact le_rfl
  | var n => cases ht
  | neg _ _ => cases ht
  | sub _ _ _ _ _ => cases ht
  | add _ _ hr iha ihb =>
    rw [T.sos, Bool.and_eq_true] at ht
    exact hr.trans (add_le_add (iha ht.1) (ihb ht.2))
  | mul ha hb hr _ _ =>
    obtain ⟨n, rfl, rfl⟩ := sos_mul ht
    cases ha; cases hb
    exact hr

theorem sos_up {env : Nat → ℚ} {t : T} (ht : t.sos = true) {r : ℚ}
    (h : Rounded (fun q r => q ≤ r) env t r) : t.ev env ≤ r := by
  induction h with
  | zero => exact le_rfl
  | var n => cases ht
  | neg _ _ => cases ht
  | sub _ _ _ _ _ => cases ht
  | add _ _ hr iha ihb =>
    rw [T.sos, Bool.and_eq_true] at ht
    exact (add_le_add (iha ht.1) (ihb ht.2)).trans hr
  | mul ha hb hr _ _ =>
    obtain ⟨n, rfl, rfl⟩ := sos_mul ht
    cases ha; cases hb
    exact hr

/-- **C84**: `magSq` computed with `FE_DOWNWARD` and with `FE_UPWARD` encloses the exact value. -/
theorem C84_magSq_enclosed (t : Ty) (x : t.D F64) (lo hi : ℚ)
    (hl : MagSqAnyBe (fun q r => r = roundDown q) t x lo)
    (hh : MagSqAnyBe (fun q r => r = roundUp q) t x hi) :
    lo ≤ ((comps t (valTy t x)).map fun c => c ^ 2).sum ∧
      ((comps t (valTy t x)).map fun c => c ^ 2).sum ≤ hi := by
  rw [← C13_magSq_sum_of_squares, ← magSq_ev]
  exact ⟨sos_down (magSq_sos t) (hl.mono fun q r h => h ▸ roundDown_le q),
    sos_up (magSq_sos t) (hh.mono fun q r h => h ▸ le_roundUp q)⟩

theorem magSq_flat (t : Ty) : (magSqTy t (sv t 0)).flat = true ∧ (magSqTy t (sv t 0)).depth ≤ 8 := by
  cases t <;> decide

theorem sos_absv {env : Nat → ℚ} {t : T} (ht : t.sos = true) :
    t.absv (fun n => |env n|) = t.ev env := by
  induction t with
  | zero => rfl
  | var n => cases ht
  | neg _ _ => cases ht
  | sub _ _ _ _ => cases ht
  | add a b iha ihb =>
    rw [T.sos, Bool.and_eq_true] at ht
    rw [T.absv, iha ht.1, ihb ht.2]; rfl
  | mul a b _ _ =>
    obtain ⟨n, rfl, rfl⟩ := sos_mul ht
    simp only [T.absv, T.ev, abs_mul_abs_self]

theorem T.ev_var (t : T) : t.ev T.var = t := by
  induction t with
  | zero => rfl
  | var n => rfl
  | add a b iha ihb => show T.add _ _ = _; rw [iha, ihb]
  | sub a b iha ihb => show T.sub _ _ = _; rw [iha, ihb]
  | mul a b iha ihb => show T.mul _ _ = _; rw [iha, ihb]
  | neg a ih => show T.neg _ = _; rw [ih]

/-- **C84**: relative error of `magSq`. -/
theorem C84_magSq (t : Ty) (x : t.D F64) (s : ℚ) (h : MagSqAnyBe Between t x s) :
    |s - ((comps t (valTy t x)).map fun c => c ^ 2).sum|
      ≤ 9 * 2 ^ (-52 : ℤ) * ((comps t (valTy t x)).map fun c => c ^ 2).sum + 2 ^ (-1058 : ℤ) := by
  rw [← C13_magSq_sum_of_squares]
  set env : Nat → ℚ := fun n => (varEnv (fun _ => (⟨t, x⟩ : Sigma fun t : Ty => t.D F64)) n).value with he
  have g := flat_goodR (env := env) (σ := T.var) (q := env) (U := fun n => |env n|)
    (A := fun n => |env n|) (GoodR.var env) (fun n => abs_nonneg _) _ (magSq_flat t).1
  rw [T.ev_var, magSq_ev t x, sos_absv (magSq_sos t), magSq_ev t x] at g
  have hn : 0 ≤ magSqTy t (valTy t x) := C13_magSq_nonneg t _
  have h1 := (g s h).1
  have h2 := flatBoundR_mono (magSq_flat t).2 hn le_rfl
  have h3 := flatR8 hn
  linarith

theorem between_up {q : ℝ} {r : ℚ} (h : Between q r) (hq : 0 ≤ q) :
    (r : ℝ) ≤ q + (2 ^ (-52 : ℤ) * q + 2 ^ (-1074 : ℤ)) := by
  refine le_of_forall_pos_le_add fun ε hε => ?_
  obtain ⟨p, h1, h2⟩ := exists_rat_btwn (show q < q + ε / 2 by linarith)
  have h3 := (h _ (roundUp_rep p)).1 (h1.le.trans (by exact_mod_cast le_roundUp p))
  have h4 := between_err (C84_modes p).2.2.1
  have hp : 0 ≤ p := by
    have : (0 : ℝ) < p := lt_of_le_of_lt hq h1
    exact_mod_cast this.le
  rw [abs_of_nonneg hp] at h4
  have h5 : r ≤ p + ((2 : ℚ) ^ (-52 : ℤ) * p + 2 ^ (-1074 : ℤ)) := by
    have := (abs_le.1 h4).2
    linarith
  have h6 : (r : ℝ) ≤ p + ((2 : ℝ) ^ (-52 : ℤ) * p + 2 ^ (-1074 : ℤ)) := by
    have := (Rat.cast_le (K := ℝ)).2 h5
    push_cast at this
    exact this
  have h7 : (2 : ℝ) ^ (-52 : ℤ) * p ≤ 2 ^ (-52 : ℤ) * q + ε / 2 := by
    have a : (2 : ℝ) ^ (-52 : ℤ) ≤ 1 := zpow_le_one_of_nonpos₀ (by norm_num) (by norm_num)
    have b : (0 : ℝ) < 2 ^ (-52 : ℤ) := by positivity
    have c : (2 : ℝ) ^ (-52 : ℤ) * p ≤ 2 ^ (-52 : ℤ) * (q + ε / 2) :=
      mul_le_mul_of_nonneg_left h2.le b.le
    have d : (2 : ℝ) ^ (-52 : ℤ) * (ε / 2) ≤ 1 * (ε / 2) := mul_le_mul_of_nonneg_right a (by linarith)
    linarith
  generalize (2 : ℝ) ^ (-1074 : ℤ) = z at *
  generalize (2 : ℝ) ^ (-52 : ℤ) = v at *
  linarith

theorem between_down {q : ℝ} {r : ℚ} (h : Between q r) (hq : 0 ≤ q) :
    q - (2 ^ (-52 : ℤ) * q + 2 ^ (-1074 : ℤ)) ≤ (r : ℝ) := by
  have r0 : 0 ≤ r := (h 0 F64.rep_zero).2 (by rw [Rat.cast_zero]; exact hq)
  have b : (0 : ℝ) < 2 ^ (-52 : ℤ) := by positivity
  have b' : (0 : ℝ) < 2 ^ (-1074 : ℤ) := by positivity
  rcases hq.eq_or_lt with h0 | h0
  · rw [← h0]
    have : (0 : ℝ) ≤ r := by exact_mod_cast r0
    linarith
  refine le_of_forall_pos_le_add fun ε hε => ?_
  obtain ⟨p, h1, h2⟩ := exists_rat_btwn (show max 0 (q - ε) < q from max_lt h0 (by linarith))
  have h3 := (h _ (roundDown_rep p)).2 (le_trans (by exact_mod_cast roundDown_le p) h2.le)
  have h4 := between_err (C84_modes p).2.2.2.1
  have hp : 0 ≤ p := by
    have : (0 : ℝ) < p := lt_of_le_of_lt (le_max_left _ _) h1
    exact_mod_cast this.le
  rw [abs_of_nonneg hp] at h4
  have h5 : p - ((2 : ℚ) ^ (-52 : ℤ) * p + 2 ^ (-1074 : ℤ)) ≤ r := by
    have := (abs_le.1 h4).1
    linarith
  have h6 : (p : ℝ) - ((2 : ℝ) ^ (-52 : ℤ) * p + 2 ^ (-1074 : ℤ)) ≤ r := by
    have := (Rat.cast_le (K := ℝ)).2 h5
    push_cast at this
    exact this
  have h7 : (2 : ℝ) ^ (-52 : ℤ) * p ≤ 2 ^ (-52 : ℤ) * q := mul_le_mul_of_nonneg_left h2.le b.le
  have h8 := lt_of_le_of_lt (le_max_right 0 (q - ε)) h1
  linarith

/-- **C84**: `magnitude`, any rounding of `magSq` and any rounding of the square root; operands whose
norm is at least `2^-400`. -/
theorem C84_magnitude (t : Ty) (x : t.D F64) (s m : ℚ) (h : MagSqAnyBe Between t x s)
    (hm : Between (√(s : ℝ)) m) (E : ℝ)
    (hE : E = √((((comps t (valTy t x)).map fun c => c ^ 2).sum : ℚ) : ℝ))
    (hlow : (2 : ℝ) ^ (-400 : ℤ) ≤ E) :
    |(m : ℝ) - E| ≤ 7 * 2 ^ (-52 : ℤ) * E := by
  have h1 := C84_magSq t x s h
  have hn : 0 ≤ ((comps t (valTy t x)).map fun c => c ^ 2).sum := by
    rw [← C13_magSq_sum_of_squares]; exact C13_magSq_nonneg t _
  generalize ((comps t (valTy t x)).map fun c => c ^ 2).sum = S at *
  have p4 : (0 : ℝ) < 2 ^ (-400 : ℤ) := by positivity
  have E0 : 0 < E := lt_of_lt_of_le p4 hlow
  have hS : (S : ℝ) = E * E := by
    rw [hE, Real.mul_self_sqrt (by exact_mod_cast hn)]
  have h2 : |(s : ℝ) - E * E| ≤ 9 * 2 ^ (-52 : ℤ) * (E * E) + 2 ^ (-1058 : ℤ) := by
    have := (Rat.cast_le (K := ℝ)).2 h1
    push_cast at this
    rw [← hS]; exact this
  have h3 : (2 : ℝ) ^ (-1058 : ℤ) ≤ 2 ^ (-258 : ℤ) * (E * E) := by
    have : (2 : ℝ) ^ (-1058 : ℤ) = 2 ^ (-258 : ℤ) * (2 ^ (-400 : ℤ) * 2 ^ (-400 : ℤ)) := by
      rw [← zpow_add₀ two_ne_zero, ← zpow_add₀ two_ne_zero]; norm_num
    rw [this]
    exact mul_le_mul_of_nonneg_left (mul_le_mul hlow hlow p4.le E0.le) (by positivity)
  have hv : (2 : ℝ) ^ (-258 : ℤ) ≤ 2 ^ (-52 : ℤ) / 2 := by
    have : (2 : ℝ) ^ (-52 : ℤ) / 2 = 2 ^ (-53 : ℤ) := by norm_num
    rw [this]
    exact zpow_le_zpow_right₀ (by norm_num) (by norm_num)
  have ht : (2 : ℝ) ^ (-1074 : ℤ) ≤ 2 ^ (-52 : ℤ) / 4 * E := by
    have a : (2 : ℝ) ^ (-1074 : ℤ) = 2 ^ (-674 : ℤ) * 2 ^ (-400 : ℤ) := by
      rw [← zpow_add₀ two_ne_zero]; norm_num
    have b : (2 : ℝ) ^ (-52 : ℤ) / 4 = 2 ^ (-54 : ℤ) := by norm_num
    rw [a, b]
    exact mul_le_mul (zpow_le_zpow_right₀ (by norm_num) (by norm_num)) hlow p4.le (by positivity)
  have v0 : (0 : ℝ) < 2 ^ (-52 : ℤ) := by positivity
  have v1 : (2 : ℝ) ^ (-52 : ℤ) ≤ 1 / 1000 := by norm_num
  have u := between_up hm (Real.sqrt_nonneg _)
  have d := between_down hm (Real.sqrt_nonneg _)
  generalize (2 : ℝ) ^ (-52 : ℤ) = v at *
  generalize (2 : ℝ) ^ (-1074 : ℤ) = z at *
  generalize (2 : ℝ) ^ (-258 : ℤ) = w at *
  have EE : 0 < E * E := mul_pos E0 E0
  have h4 : |(s : ℝ) - E * E| ≤ 19 / 2 * v * (E * E) := by
    have := mul_le_mul_of_nonneg_right hv EE.le
    linarith
  have hs0 : (0 : ℝ) ≤ s := by
    have a := (abs_le.1 h4).1
    have b := mul_le_mul_of_nonneg_right v1 EE.le
    linarith
  set y := √(s : ℝ) with hy
  have y0 : 0 ≤ y := Real.sqrt_nonneg _
  have hyy : y * y = s := Real.mul_self_sqrt hs0
  rw [← hyy] at h4
  have h5 := abs_le.1 h4
  -- lower and upper bound for the square root
  have lo : (1 - 5 * v) * E ≤ y := by
    by_contra hc
    rw [not_le] at hc
    have a : y * y ≤ (1 - 5 * v) * E * ((1 - 5 * v) * E) := mul_self_le_mul_self y0 hc.le
    have b : v * v * (E * E) ≤ v * (1 / 1000) * (E * E) :=
      mul_le_mul_of_nonneg_right (mul_le_mul_of_nonneg_left v1 v0.le) EE.le
    have c : 0 < v * (E * E) := mul_pos v0 EE
    nlinarith
  have hi : y ≤ (1 + 5 * v) * E := by
    by_contra hc
    rw [not_le] at hc
    have a : (1 + 5 * v) * E * ((1 + 5 * v) * E) ≤ y * y := mul_self_le_mul_self (by positivity) hc.le
    have b : 0 ≤ v * v * (E * E) := by positivity
    have c : 0 < v * (E * E) := mul_pos v0 EE
    nlinarith
  have vy : v * y ≤ v * (1 + 5 / 1000) * E := by
    have : y ≤ (1 + 5 / 1000) * E := hi.trans (mul_le_mul_of_nonneg_right (by linarith) E0.le)
    have := mul_le_mul_of_nonneg_left this v0.le
    linarith
  have vE : 0 < v * E := mul_pos v0 E0
  rw [abs_le]
  constructor <;> nlinarith

/-- **C84**: `magnitude` computed with `FE_DOWNWARD` and with `FE_UPWARD` encloses the exact value. -/
theorem C84_magnitude_enclosed (t : Ty) (x : t.D F64) (lo hi mlo mhi : ℚ)
    (hl : MagSqAnyBe (fun q r => r = roundDown q) t x lo) (hml : (mlo : ℝ) ≤ √(lo : ℝ))
    (hh : MagSqAnyBe (fun q r => r = roundUp q) t x hi) (hmh : √(hi : ℝ) ≤ (mhi : ℝ)) :
    (mlo : ℝ) ≤ √((((comps t (valTy t x)).map fun c => c ^ 2).sum : ℚ) : ℝ) ∧
      √((((comps t (valTy t x)).map fun c => c ^ 2).sum : ℚ) : ℝ) ≤ mhi := by
  obtain ⟨h1, h2⟩ := C84_magSq_enclosed t x lo hi hl hh
  exact ⟨hml.trans (Real.sqrt_le_sqrt (by exact_mod_cast h1)),
    (Real.sqrt_le_sqrt (by exact_mod_cast h2)).trans hmh⟩

/-- With a small bound on integer operands only. -/
theorem C84_small_integers (env : Nat → Sigma fun t : Ty => t.D F64) (M : ℕ) (hM : 1 ≤ M) (e : Expr)
    (hr : e.NoReversed env)
    (hv : ∀ i ∈ e.vars, ∀ c ∈ comps (env i).1 (env i).2,
      c.Finite ∧ ∃ n : ℤ, c.value = n ∧ |n| ≤ M)
    (hc : e.cap M ≤ 2 ^ 53) (k : Fin 8) (r : ℚ) (h : e.AnyBe env k r) :
    r = cf (e.evalMV (exactEnv env)) k := by
  refine C84_integers env e hr (fun i hi c hc => ?_) (absEval_cap env M hM e hv hc) k r h
  obtain ⟨-, n, h2, -⟩ := hv i hi c hc
  exact ⟨n, h2⟩

/-! ## The hypotheses are met -/

/-- A computation has a result in each rounding mode. -/
theorem rounded_exists {R : ℚ → ℚ → Prop} (hR : ∀ q, ∃ r, R q r) (env : Nat → ℚ) (t : T) :
    ∃ r, Rounded R env t r := by
  induction t with
  | zero => exact ⟨_, .zero⟩
  | var n => exact ⟨_, .var n⟩
  | neg a ih => exact ⟨_, .neg ih.choose_spec⟩
  | add a b iha ihb =>
    obtain ⟨x, hx⟩ := iha
    obtain ⟨y, hy⟩ := ihb
    exact ⟨_, .add hx hy (hR _).choose_spec⟩
  | sub a b iha ihb =>
    obtain ⟨x, hx⟩ := iha
    obtain ⟨y, hy⟩ := ihb
    exact ⟨_, .sub hx hy (hR _).choose_spec⟩
  | mul a b iha ihb =>
    obtain ⟨x, hx⟩ := iha
    obtain ⟨y, hy⟩ := ihb
    exact ⟨_, .mul hx hy (hR _).choose_spec⟩

/-- The hypotheses of the enclosure theorems are met by every value of every type. -/
example (t : Ty) (x : t.D F64) : ∃ lo hi, MagSqAnyBe (fun q r => r = roundDown q) t x lo ∧
    MagSqAnyBe (fun q r => r = roundUp q) t x hi := by
  obtain ⟨lo, h1⟩ := rounded_exists (R := fun q r => r = roundDown q) (fun q => ⟨roundDown q, rfl⟩)
    (fun n => (varEnv (fun _ => (⟨t, x⟩ : Sigma fun t : Ty => t.D F64)) n).value) (magSqTy t (sv t 0))
  obtain ⟨hi, h2⟩ := rounded_exists (R := fun q r => r = roundUp q) (fun q => ⟨roundUp q, rfl⟩)
    (fun n => (varEnv (fun _ => (⟨t, x⟩ : Sigma fun t : Ty => t.D F64)) n).value) (magSqTy t (sv t 0))
  exact ⟨lo, hi, h1, h2⟩

/-- `(x * y) * (x * z)` with the integer vectors of C49. -/
example : ∃ r, (Expr.mul (.mul (.var 0) (.var 1)) (.mul (.var 0) (.var 2))).AnyBe intEnv 0 r ∧
    r = cf ((Expr.mul (.mul (.var 0) (.var 1)) (.mul (.var 0) (.var 2))).evalMV (exactEnv intEnv)) 0 := by
  obtain ⟨s, hs⟩ : ∃ s, (Expr.mul (.mul (.var 0) (.var 1)) (.mul (.var 0) (.var 2))).eval
    (symEnv intEnv) = some s := ⟨_, rfl⟩
  obtain ⟨r, hr⟩ := rounded_exists (R := Between) (fun q => ⟨_, (C84_modes q).2.2.1⟩)
    (fun n => (varEnv intEnv n).value) (cf (promote s.1 s.2) 0)
  refine ⟨r, ⟨s, hs, hr⟩, C84_small_integers intEnv 11 (by norm_num) _ ?_ (fun i _ => intEnv_ok i)
    (by norm_num [Expr.cap]) 0 r ⟨s, hs, hr⟩⟩
  intro a b hab
  simp [Expr.subs] at hab

/-- The modes differ: one third. -/
example : roundDown (1 / 3) < roundUp (1 / 3) := by
  refine lt_of_le_of_ne ((roundDown_le _).trans (le_roundUp _)) fun h => ?_
  have h1 : roundUp (1 / 3) = 1 / 3 :=
    le_antisymm (h ▸ roundDown_le (1 / 3)) (le_roundUp _)
  obtain ⟨m, e, -, -, h2⟩ := h1 ▸ roundUp_rep (1 / 3)
  rcases le_total 0 e with he | he
  · obtain ⟨n, rfl⟩ := Int.eq_ofNat_of_zero_le he
    have : (1 : ℤ) = 3 * (m * 2 ^ n) := by
      have : (1 : ℚ) = 3 * (m * 2 ^ n) := by rw [zpow_natCast] at h2; linarith
      exact_mod_cast this
    omega
  · obtain ⟨n, hn⟩ := Int.eq_ofNat_of_zero_le (neg_nonneg.2 he)
    have e1 : e = -(n : ℤ) := by omega
    rw [e1, zpow_neg, zpow_natCast] at h2
    have : (2 : ℤ) ^ n = 3 * m := by
      have h3 : (2 : ℚ) ^ n = 3 * m := by field_simp at h2; linarith
      exact_mod_cast h3
    have h4 : (3 : ℤ) ∣ 2 ^ n := ⟨m, this⟩
    have h5 : (3 : ℕ) ∣ 2 := Nat.prime_three.dvd_of_dvd_pow (n := n) (by exact_mod_cast h4)
    omega

end Engabra
