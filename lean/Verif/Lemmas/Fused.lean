import Verif.Lemmas.Terms
import Verif.Props.C49_Exact

/-! # Error bounds for contracted evaluations of terms -/

namespace Engabra

open F64 (Finite HasVal uro tinyErr)

theorem isFin_iff (x : F64) : x.isFin = true ↔ x.Finite := by
  cases x <;> simp [F64.isFin, F64.Finite]

theorem fma_spec {x y z : F64} (hx : x.Finite) (hy : y.Finite) (hz : z.Finite)
    (h : |F64.rnVal (x.value * y.value + z.value)| < 2 ^ 1024) :
    HasVal (F64.fma x y z) (F64.rnVal (x.value * y.value + z.value)) := by
  unfold F64.fma
  rw [(isFin_iff x).2 hx, (isFin_iff y).2 hy, (isFin_iff z).2 hz, Bool.and_self, if_pos rfl, if_pos rfl]
  split_ifs with h0
  · rw [h0, F64.rnVal_zero]; exact ⟨trivial, rfl⟩
  · exact F64.roundTo_value h

/-- Sign of a product. -/
def sgq (s : Bool) (q : ℚ) : ℚ := if s then -q else q

theorem sgn_val {x : F64} {q : ℚ} (s : Bool) (h : HasVal x q) : HasVal (F64.sgn s x) (sgq s q) := by
  cases s
  · exact h
  · exact h.neg

theorem sgq_mul (s : Bool) (q r : ℚ) : sgq s q * r = sgq s (q * r) := by
  cases s
  · rfl
  · exact neg_mul q r

theorem sgq_not (s : Bool) (q : ℚ) : sgq (!s) q = - sgq s q := by
  cases s
  · rfl
  · exact (neg_neg q).symm

/-- All contracted evaluations of `t`, and, if `t` is a product, the exact product of all contracted
evaluations of its factors, are near `q`. -/
def Good (env : Nat → F64) (t : T) (q U A : ℚ) : Prop :=
  (∀ c, Contracted env t c → c.Finite ∧ Near c.value q U A) ∧
  (∀ s a b, t.prodOf = some (s, a, b) → ∀ x y, Contracted env a x → Contracted env b y →
    x.Finite ∧ y.Finite ∧ Near (sgq s (x.value * y.value)) q U A)

theorem Near.mono {p p' U A U' : ℚ} (h : Near p p' U A) (hU : U ≤ U') : Near p p' U' A :=
  ⟨h.1.trans (by linarith), h.2⟩

theorem Good.mono {env : Nat → F64} {t : T} {q U A U' : ℚ} (h : Good env t q U A) (hU : U ≤ U') :
    Good env t q U' A :=
  ⟨fun c hc => ⟨(h.1 c hc).1, (h.1 c hc).2.mono hU⟩,
   fun s a b e x y hx hy => ⟨(h.2 s a b e x y hx hy).1, (h.2 s a b e x y hx hy).2.1,
    (h.2 s a b e x y hx hy).2.2.mono hU⟩⟩

theorem Good.zero (env : Nat → F64) : Good env .zero 0 0 0 := by
  refine ⟨fun c hc => ?_, fun s a b e => by cases e⟩
  cases hc
  exact ⟨trivial, Near.zero⟩

theorem Good.var {env : Nat → F64} {n : Nat} (h : (env n).Finite) :
    Good env (.var n) (env n).value |(env n).value| |(env n).value| := by
  refine ⟨fun c hc => ?_, fun s a b e => by cases e⟩
  cases hc
  exact ⟨h, by simp [Near]⟩

theorem Good.neg {env : Nat → F64} {t : T} {q U A : ℚ} (h : Good env t q U A) :
    Good env (.neg t) (-q) U A := by
  refine ⟨fun c hc => ?_, fun s a b e x y hx hy => ?_⟩
  · cases hc with
    | neg h' =>
      obtain ⟨f, n⟩ := h.1 _ h'
      refine ⟨F64.neg_finite_iff.2 f, ?_⟩
      rw [F64.neg_value]; exact n.neg
  · simp only [T.prodOf, Option.map_eq_some_iff] at e
    obtain ⟨⟨s', a', b'⟩, e1, e2⟩ := e
    simp only [Prod.mk.injEq] at e2
    obtain ⟨rfl, rfl, rfl⟩ := e2
    obtain ⟨f1, f2, n⟩ := h.2 _ _ _ e1 x y hx hy
    refine ⟨f1, f2, ?_⟩
    rw [sgq_not]; exact n.neg

theorem Near.round {p q U A : ℚ} (h : Near p q U A) :
    Near (F64.rnVal p) q ((1 + uro) * U + tinyErr) A := by
  refine ⟨?_, h.2⟩
  have h1 := F64.rn_err' p
  have h2 := mul_le_mul_of_nonneg_left h.abs_le F64.uro_pos.le
  have h3 := abs_sub_le (F64.rnVal p) p q
  have h4 := h.1
  linarith

theorem round_fin {p q U A : ℚ} (h : Near p q U A) (hU : U ≤ 2 * F64.safe) :
    |F64.rnVal p| < 2 ^ 1024 := F64.safe_lt (h.abs_le.trans hU)

theorem Good.addLike {env : Nat → F64} {a b : T} {q U A r V B : ℚ} (h : Good env a q U A)
    (k : Good env b r V B) (hs : U + V ≤ 2 * F64.safe) :
    Good env (.add a b) (q + r) ((1 + uro) * (U + V) + tinyErr) (A + B) := by
  refine ⟨fun c hc => ?_, fun s a b e => by cases e⟩
  cases hc with
  | add ha hb =>
    obtain ⟨f1, n1⟩ := h.1 _ ha
    obtain ⟨f2, n2⟩ := k.1 _ hb
    have n := n1.add n2
    have := F64.add_spec f1 f2 (round_fin n hs)
    exact ⟨this.1, by rw [this.2]; exact n.round⟩
  | addFusedLeft e ha hb hc =>
    rename_i s x y z
    obtain ⟨f1, f2, n1⟩ := h.2 _ _ _ e _ _ ha hb
    obtain ⟨f3, n2⟩ := k.1 _ hc
    have n := n1.add n2
    have hx := sgn_val s (HasVal.of f1)
    have hv : (F64.sgn s x).value * y.value = sgq s (x.value * y.value) := by rw [hx.2, sgq_mul]
    have := fma_spec hx.1 f2 f3 (by rw [hv]; exact round_fin n hs)
    rw [hv] at this
    exact ⟨this.1, by rw [this.2]; exact n.round⟩
  | addFusedRight e ha hb hc =>
    rename_i s x y z
    obtain ⟨f1, f2, n1⟩ := k.2 _ _ _ e _ _ ha hb
    obtain ⟨f3, n2⟩ := h.1 _ hc
    have n := n2.add n1
    have hx := sgn_val s (HasVal.of f1)
    have hv : (F64.sgn s x).value * y.value = sgq s (x.value * y.value) := by rw [hx.2, sgq_mul]
    have := fma_spec hx.1 f2 f3 (by rw [hv, add_comm]; exact round_fin n hs)
    rw [hv, add_comm] at this
    exact ⟨this.1, by rw [this.2]; exact n.round⟩

theorem Good.subLike {env : Nat → F64} {a b : T} {q U A r V B : ℚ} (h : Good env a q U A)
    (k : Good env b r V B) (hs : U + V ≤ 2 * F64.safe) :
    Good env (.sub a b) (q - r) ((1 + uro) * (U + V) + tinyErr) (A + B) := by
  refine ⟨fun c hc => ?_, fun s a b e => by cases e⟩
  cases hc with
  | sub ha hb =>
    obtain ⟨f1, n1⟩ := h.1 _ ha
    obtain ⟨f2, n2⟩ := k.1 _ hb
    have n := n1.sub n2
    rw [sub_eq_add_neg] at n
    have g : HasVal (F64.neg _) _ := (HasVal.of f2).neg
    have := F64.add_spec f1 g.1 (by rw [g.2]; exact round_fin n hs)
    exact ⟨this.1, by rw [this.2, g.2]; exact n.round⟩
  | subFusedLeft e ha hb hc =>
    rename_i s x y z
    obtain ⟨f1, f2, n1⟩ := h.2 _ _ _ e _ _ ha hb
    obtain ⟨f3, n2⟩ := k.1 _ hc
    have n := n1.sub n2
    rw [sub_eq_add_neg] at n
    have g : HasVal (F64.neg _) _ := (HasVal.of f3).neg
    have hx := sgn_val s (HasVal.of f1)
    have hv : (F64.sgn s x).value * y.value = sgq s (x.value * y.value) := by rw [hx.2, sgq_mul]
    have := fma_spec hx.1 f2 g.1 (by rw [hv, g.2]; exact round_fin n hs)
    rw [hv, g.2] at this
    exact ⟨this.1, by rw [this.2]; exact n.round⟩
  | subFusedRight e ha hb hc =>
    rename_i s x y z
    obtain ⟨f1, f2, n1⟩ := k.2 _ _ _ e _ _ ha hb
    obtain ⟨f3, n2⟩ := h.1 _ hc
    have n := n2.sub n1
    rw [sub_eq_add_neg, add_comm] at n
    have hx := sgn_val (!s) (HasVal.of f1)
    have hv : (F64.sgn (!s) x).value * y.value = - sgq s (x.value * y.value) := by
      rw [hx.2, sgq_mul, sgq_not]
    have := fma_spec hx.1 f2 f3 (by rw [hv]; exact round_fin n hs)
    rw [hv] at this
    exact ⟨this.1, by rw [this.2]; exact n.round⟩

theorem Good.mulLike {env : Nat → F64} {a b : T} {q U A r V B : ℚ} (h : Good env a q U A)
    (k : Good env b r V B) (hs : U * V ≤ 2 * F64.safe) :
    Good env (.mul a b) (q * r) ((1 + uro) * (U * V) + tinyErr) (A * B) := by
  refine ⟨fun c hc => ?_, fun s a' b' e x y hx hy => ?_⟩
  · cases hc with
    | mul ha hb =>
      obtain ⟨f1, n1⟩ := h.1 _ ha
      obtain ⟨f2, n2⟩ := k.1 _ hb
      have n := n1.mul n2
      have := F64.mul_spec f1 f2 (round_fin n hs)
      exact ⟨this.1, by rw [this.2]; exact n.round⟩
  · simp only [T.prodOf, Option.some.injEq, Prod.mk.injEq] at e
    obtain ⟨rfl, rfl, rfl⟩ := e
    obtain ⟨f1, n1⟩ := h.1 _ hx
    obtain ⟨f2, n2⟩ := k.1 _ hy
    refine ⟨f1, f2, (n1.mul n2).mono ?_⟩
    have hp : 0 ≤ U * V := mul_nonneg (n1.nonneg.trans n1.le) (n2.nonneg.trans n2.le)
    have := mul_nonneg F64.uro_pos.le hp
    linarith [F64.tinyErr_pos]

/-! ## Flat terms: sums of products of at most two variables -/

/-- A variable or zero, up to sign. -/
def T.atom : T → Bool
  | .zero => true
  | .var _ => true
  | .neg a => a.atom
  | _ => false

/-- Products only of atoms. -/
def T.flat : T → Bool
  | .zero => true
  | .var _ => true
  | .neg a => a.flat
  | .add a b => a.flat && b.flat
  | .sub a b => a.flat && b.flat
  | .mul a b => a.atom && b.atom

/-- Number of roundings on the longest path. -/
def T.depth : T → Nat
  | .zero => 0
  | .var _ => 0
  | .neg a => a.depth
  | .add a b => max a.depth b.depth + 1
  | .sub a b => max a.depth b.depth + 1
  | .mul _ _ => 1

/-- The term on absolute values. -/
def T.absv (U : Nat → ℚ) : T → ℚ
  | .zero => 0
  | .var n => U n
  | .neg a => a.absv U
  | .add a b => a.absv U + b.absv U
  | .sub a b => a.absv U + b.absv U
  | .mul a b => a.absv U * b.absv U

theorem T.absv_nonneg {U : Nat → ℚ} (h : ∀ n, 0 ≤ U n) (t : T) : 0 ≤ t.absv U := by
  induction t with
  | zero => exact le_rfl
  | var n => exact h n
  | neg a ih => exact ih
  | add a b iha ihb => exact add_nonneg iha ihb
  | sub a b iha ihb => exact add_nonneg iha ihb
  | mul a b iha ihb => exact mul_nonneg iha ihb

theorem atom_good {env : Nat → F64} {σ : Nat → T} {q U A : Nat → ℚ}
    (h : ∀ n, Good env (σ n) (q n) (U n) (A n)) (t : T) (ht : t.atom = true) :
    Good env (t.ev σ) (t.ev q) (t.absv U) (t.absv A) := by
  induction t with
  | zero => exact Good.zero env
  | var n => exact h n
  | neg a ih => exact (ih ht).neg
  | add a b iha ihb => cases ht
  | sub a b iha ihb => cases ht
  | mul a b iha ihb => cases ht

/-- Bound for a flat term of depth `d` and absolute sum `X`. -/
def flatBound (d : Nat) (X : ℚ) : ℚ := (1 + uro) ^ d * X + (4 ^ d - 1) * tinyErr

theorem flatBound_mono {d e : Nat} (hd : d ≤ e) {X Y : ℚ} (h0 : 0 ≤ X) (hX : X ≤ Y) :
    flatBound d X ≤ flatBound e Y := by
  unfold flatBound
  have h1 : (1 + uro) ^ d ≤ (1 + uro) ^ e := pow_le_pow_right₀ (by linarith [F64.uro_pos]) hd
  have h2 : (4 : ℚ) ^ d ≤ 4 ^ e := pow_le_pow_right₀ (by norm_num) hd
  have h3 : 0 ≤ (1 + uro) ^ e := by have := F64.uro_pos; positivity
  exact add_le_add (mul_le_mul h1 hX h0 h3)
    (mul_le_mul_of_nonneg_right (by linarith) F64.tinyErr_pos.le)

theorem flatBound_step (d : Nat) (X Y : ℚ) :
    (1 + uro) * (flatBound d X + flatBound d Y) + tinyErr ≤ flatBound (d + 1) (X + Y) := by
  unfold flatBound
  have hu : uro ≤ 1 / 2 := by rw [F64.uro_eq]; norm_num
  have h0 := F64.uro_pos
  have hF : (1 : ℚ) ≤ 4 ^ d := one_le_pow₀ (by norm_num)
  have hη := F64.tinyErr_pos
  rw [pow_succ, pow_succ]
  generalize (1 + uro) ^ d = P at *
  generalize (4 : ℚ) ^ d = F at *
  generalize tinyErr = η at *
  generalize uro = u at *
  have : (1 + u) * (2 * ((F - 1) * η)) ≤ 3 * ((F - 1) * η) := by
    have h : 0 ≤ (F - 1) * η := mul_nonneg (by linarith) hη.le
    nlinarith
  have h2 : η ≤ F * η := le_mul_of_one_le_left hη.le hF
  nlinarith

theorem flatBound_safe {d : Nat} (hd : d ≤ 8) {X : ℚ} (h0 : 0 ≤ X) (hX : X ≤ F64.safe) :
    flatBound d X ≤ 2 * F64.safe := by
  refine (flatBound_mono hd h0 hX).trans ?_
  unfold flatBound
  have h1 := mul_le_mul_of_nonneg_right F64.uro_pow_le (by linarith : 0 ≤ F64.safe)
  have ht : (4 ^ 8 - 1) * tinyErr ≤ 1 / 4 := by
    unfold F64.tinyErr
    have h : (2 : ℚ) ^ (-1075 : ℤ) ≤ 2 ^ (-18 : ℤ) :=
      zpow_le_zpow_right₀ (by norm_num) (by norm_num)
    have h2 : (2 : ℚ) ^ (-18 : ℤ) = 1 / 262144 := by norm_num
    rw [h2] at h
    linarith
  have := F64.one_le_safe
  linarith

theorem flat_room {d : Nat} {X Y : ℚ} (hX : 0 ≤ X) (hY : 0 ≤ Y) :
    flatBound d X + flatBound d Y ≤ flatBound (d + 1) (X + Y) := by
  refine le_trans ?_ (flatBound_step d X Y)
  have h : ∀ Z : ℚ, 0 ≤ Z → 0 ≤ flatBound d Z := fun Z hZ => by
    have := flatBound_mono (Nat.zero_le d) hZ le_rfl
    refine le_trans ?_ this
    simpa [flatBound] using hZ
  have h1 := mul_nonneg F64.uro_pos.le (add_nonneg (h X hX) (h Y hY))
  linarith [F64.tinyErr_pos]

theorem flat_good {env : Nat → F64} {σ : Nat → T} {q U A : Nat → ℚ}
    (h : ∀ n, Good env (σ n) (q n) (U n) (A n)) (hU : ∀ n, 0 ≤ U n) (t : T) (ht : t.flat = true)
    (hd : t.depth ≤ 8) (hs : t.absv U ≤ F64.safe) :
    Good env (t.ev σ) (t.ev q) (flatBound t.depth (t.absv U)) (t.absv A) := by
  induction t with
  | zero => exact (Good.zero env).mono (by simp [flatBound, T.depth, T.absv])
  | var n => exact (h n).mono (by simp [flatBound, T.depth, T.absv])
  | neg a ih => exact (ih ht hd hs).neg
  | add a b iha ihb =>
    rw [T.flat, Bool.and_eq_true] at ht
    have ha := T.absv_nonneg hU a
    have hb := T.absv_nonneg hU b
    have hs' : a.absv U + b.absv U ≤ F64.safe := hs
    have hd' : max a.depth b.depth + 1 ≤ 8 := hd
    have ga := (iha ht.1 (by omega) (by linarith)).mono (flatBound_mono (le_max_left _ b.depth) ha le_rfl)
    have gb := (ihb ht.2 (by omega) (by linarith)).mono (flatBound_mono (le_max_right a.depth _) hb le_rfl)
    have key := flatBound_step (max a.depth b.depth) (a.absv U) (b.absv U)
    refine (ga.addLike gb ?_).mono key
    exact (flat_room ha hb).trans (flatBound_safe hd' (add_nonneg ha hb) hs')
  | sub a b iha ihb =>
    rw [T.flat, Bool.and_eq_true] at ht
    have ha := T.absv_nonneg hU a
    have hb := T.absv_nonneg hU b
    have hs' : a.absv U + b.absv U ≤ F64.safe := hs
    have hd' : max a.depth b.depth + 1 ≤ 8 := hd
    have ga := (iha ht.1 (by omega) (by linarith)).mono (flatBound_mono (le_max_left _ b.depth) ha le_rfl)
    have gb := (ihb ht.2 (by omega) (by linarith)).mono (flatBound_mono (le_max_right a.depth _) hb le_rfl)
    have key := flatBound_step (max a.depth b.depth) (a.absv U) (b.absv U)
    refine (ga.subLike gb ?_).mono key
    exact (flat_room ha hb).trans (flatBound_safe hd' (add_nonneg ha hb) hs')
  | mul a b iha ihb =>
    rw [T.flat, Bool.and_eq_true] at ht
    have hs' : a.absv U * b.absv U ≤ F64.safe := hs
    refine ((atom_good h a ht.1).mulLike (atom_good h b ht.2) (by linarith [F64.one_le_safe])).mono ?_
    simp only [T.depth, T.absv, flatBound, pow_one]
    linarith [F64.tinyErr_pos]

/-! ## Integers -/

/-- All contracted evaluations of `t` are the integer `q`. -/
def GoodI (env : Nat → F64) (t : T) (q A : ℚ) : Prop :=
  |q| ≤ A ∧ (∃ n : ℤ, q = n) ∧ (∀ c, Contracted env t c → HasVal c q) ∧
  (∀ s a b, t.prodOf = some (s, a, b) → ∀ x y, Contracted env a x → Contracted env b y →
    x.Finite ∧ y.Finite ∧ sgq s (x.value * y.value) = q)

theorem int_exact {q : ℚ} (h : ∃ n : ℤ, q = n) (hq : |q| ≤ 2 ^ 53) :
    F64.rnVal q = q ∧ |q| < 2 ^ 1024 := by
  obtain ⟨n, rfl⟩ := h
  have h1 : |n| ≤ 2 ^ 53 := by
    have : ((|n| : ℤ) : ℚ) ≤ ((2 ^ 53 : ℤ) : ℚ) := by push_cast; exact hq
    exact_mod_cast this
  exact ⟨F64.rnVal_exact (F64.rep_int n h1),
    hq.trans_lt (pow_lt_pow_right₀ (by norm_num) (by norm_num))⟩

theorem GoodI.widen {env : Nat → F64} {t : T} {q A A' : ℚ} (h : GoodI env t q A) (hA : A ≤ A') :
    GoodI env t q A' := ⟨h.1.trans hA, h.2⟩

theorem GoodI.zero (env : Nat → F64) : GoodI env .zero 0 0 := by
  refine ⟨by rw [abs_zero], ⟨0, by simp⟩, fun c hc => ?_, fun s a b e => by cases e⟩
  cases hc
  exact ⟨trivial, rfl⟩

theorem GoodI.neg {env : Nat → F64} {t : T} {q A : ℚ} (h : GoodI env t q A) :
    GoodI env (.neg t) (-q) A := by
  obtain ⟨h1, ⟨n, hn⟩, h3, h4⟩ := h
  refine ⟨by rwa [abs_neg], ⟨-n, by rw [hn]; push_cast; rfl⟩, fun c hc => ?_,
    fun s a b e x y hx hy => ?_⟩
  · cases hc with
    | neg h' => exact (h3 _ h').neg
  · simp only [T.prodOf, Option.map_eq_some_iff] at e
    obtain ⟨⟨s', a', b'⟩, e1, e2⟩ := e
    simp only [Prod.mk.injEq] at e2
    obtain ⟨rfl, rfl, rfl⟩ := e2
    obtain ⟨f1, f2, n⟩ := h4 _ _ _ e1 x y hx hy
    exact ⟨f1, f2, by rw [sgq_not, n]⟩

theorem fma_int {x y z : F64} {s : Bool} {q r : ℚ} (f1 : x.Finite) (f2 : y.Finite)
    (e : sgq s (x.value * y.value) = q) (hz : HasVal z r) (hi : ∃ n : ℤ, q + r = n)
    (hb : |q + r| ≤ 2 ^ 53) : HasVal (F64.fma (F64.sgn s x) y z) (q + r) := by
  obtain ⟨g1, g2⟩ := int_exact hi hb
  have hx := sgn_val s (HasVal.of f1)
  have hv : (F64.sgn s x).value * y.value + z.value = q + r := by rw [hx.2, sgq_mul, e, hz.2]
  have := fma_spec hx.1 f2 hz.1 (by rw [hv, g1]; exact g2)
  rwa [hv, g1] at this

theorem GoodI.addLike {env : Nat → F64} {a b : T} {q A r B : ℚ} (h : GoodI env a q A)
    (k : GoodI env b r B) (hs : A + B ≤ 2 ^ 53) : GoodI env (.add a b) (q + r) (A + B) := by
  obtain ⟨h1, ⟨n, hn⟩, h3, h4⟩ := h
  obtain ⟨k1, ⟨m, hm⟩, k3, k4⟩ := k
  have hb : |q + r| ≤ A + B := (abs_add_le _ _).trans (add_le_add h1 k1)
  have hi : ∃ j : ℤ, q + r = j := ⟨n + m, by rw [hn, hm]; push_cast; rfl⟩
  obtain ⟨g1, g2⟩ := int_exact hi (hb.trans hs)
  refine ⟨hb, hi, fun c hc => ?_, fun s a b e => by cases e⟩
  cases hc with
  | add ha hb' =>
    have e1 := h3 _ ha
    have e2 := k3 _ hb'
    have := F64.add_spec e1.1 e2.1 (by rw [e1.2, e2.2, g1]; exact g2)
    rw [e1.2, e2.2, g1] at this
    exact this
  | addFusedLeft e ha hb' hc =>
    obtain ⟨f1, f2, n1⟩ := h4 _ _ _ e _ _ ha hb'
    exact fma_int f1 f2 n1 (k3 _ hc) hi (hb.trans hs)
  | addFusedRight e ha hb' hc =>
    obtain ⟨f1, f2, n1⟩ := k4 _ _ _ e _ _ ha hb'
    rw [add_comm] at hi hb ⊢
    exact fma_int f1 f2 n1 (h3 _ hc) hi (hb.trans hs)

theorem GoodI.subLike {env : Nat → F64} {a b : T} {q A r B : ℚ} (h : GoodI env a q A)
    (k : GoodI env b r B) (hs : A + B ≤ 2 ^ 53) : GoodI env (.sub a b) (q - r) (A + B) := by
  obtain ⟨h1, ⟨n, hn⟩, h3, h4⟩ := h
  obtain ⟨k1, ⟨m, hm⟩, k3, k4⟩ := k
  have hb : |q - r| ≤ A + B := (abs_sub _ _).trans (add_le_add h1 k1)
  have hi : ∃ j : ℤ, q - r = j := ⟨n - m, by rw [hn, hm]; push_cast; rfl⟩
  obtain ⟨g1, g2⟩ := int_exact hi (hb.trans hs)
  refine ⟨hb, hi, fun c hc => ?_, fun s a b e => by cases e⟩
  cases hc with
  | sub ha hb' =>
    have e1 := h3 _ ha
    have e2 : HasVal (F64.neg _) _ := (k3 _ hb').neg
    have := F64.add_spec e1.1 e2.1 (by rw [e1.2, e2.2, ← sub_eq_add_neg, g1]; exact g2)
    rw [e1.2, e2.2, ← sub_eq_add_neg, g1] at this
    exact this
  | subFusedLeft e ha hb' hc =>
    obtain ⟨f1, f2, n1⟩ := h4 _ _ _ e _ _ ha hb'
    rw [sub_eq_add_neg] at hi hb ⊢
    exact fma_int f1 f2 n1 (k3 _ hc).neg hi (hb.trans hs)
  | subFusedRight e ha hb' hc =>
    obtain ⟨f1, f2, n1⟩ := k4 _ _ _ e _ _ ha hb'
    rw [sub_eq_add_neg, add_comm] at hi hb ⊢
    exact fma_int f1 f2 (by rw [sgq_not, n1]) (h3 _ hc) hi (hb.trans hs)

theorem GoodI.mulLike {env : Nat → F64} {a b : T} {q A r B : ℚ} (h : GoodI env a q A)
    (k : GoodI env b r B) (hs : A * B ≤ 2 ^ 53) : GoodI env (.mul a b) (q * r) (A * B) := by
  obtain ⟨h1, ⟨n, hn⟩, h3, h4⟩ := h
  obtain ⟨k1, ⟨m, hm⟩, k3, k4⟩ := k
  have hb : |q * r| ≤ A * B := by
    rw [abs_mul]; exact mul_le_mul h1 k1 (abs_nonneg _) ((abs_nonneg _).trans h1)
  have hi : ∃ j : ℤ, q * r = j := ⟨n * m, by rw [hn, hm]; push_cast; rfl⟩
  obtain ⟨g1, g2⟩ := int_exact hi (hb.trans hs)
  refine ⟨hb, hi, fun c hc => ?_, fun s a' b' e x y hx hy => ?_⟩
  · cases hc with
    | mul ha hb' =>
      have e1 := h3 _ ha
      have e2 := k3 _ hb'
      have := F64.mul_spec e1.1 e2.1 (by rw [e1.2, e2.2, g1]; exact g2)
      rw [e1.2, e2.2, g1] at this
      exact this
  · simp only [T.prodOf, Option.some.injEq, Prod.mk.injEq] at e
    obtain ⟨rfl, rfl, rfl⟩ := e
    have e1 := h3 _ hx
    have e2 := k3 _ hy
    exact ⟨e1.1, e2.1, by rw [e1.2, e2.2]; rfl⟩

theorem flat_int {env : Nat → F64} {σ : Nat → T} {q A : Nat → ℚ}
    (h : ∀ n, GoodI env (σ n) (q n) (A n)) (t : T)
    (ht : t.flat = true) (hs : t.absv A ≤ 2 ^ 53) : GoodI env (t.ev σ) (t.ev q) (t.absv A) := by
  have hA : ∀ n, 0 ≤ A n := fun n => (abs_nonneg _).trans (h n).1
  have atom : ∀ t : T, t.atom = true → GoodI env (t.ev σ) (t.ev q) (t.absv A) := by
    intro t ht
    induction t with
    | zero => exact GoodI.zero env
    | var n => exact h n
    | neg a ih => exact (ih ht).neg
    | add a b iha ihb => cases ht
    | sub a b iha ihb => cases ht
    | mul a b iha ihb => cases ht
  induction t with
  | zero => exact GoodI.zero env
  | var n => exact h n
  | neg a ih => exact (ih ht hs).neg
  | add a b iha ihb =>
    rw [T.flat, Bool.and_eq_true] at ht
    have ha := T.absv_nonneg hA a
    have hb := T.absv_nonneg hA b
    have hs' : a.absv A + b.absv A ≤ 2 ^ 53 := hs
    exact (iha ht.1 (by linarith)).addLike (ihb ht.2 (by linarith)) hs'
  | sub a b iha ihb =>
    rw [T.flat, Bool.and_eq_true] at ht
    have ha := T.absv_nonneg hA a
    have hb := T.absv_nonneg hA b
    have hs' : a.absv A + b.absv A ≤ 2 ^ 53 := hs
    exact (iha ht.1 (by linarith)).subLike (ihb ht.2 (by linarith)) hs'
  | mul a b iha ihb =>
    rw [T.flat, Bool.and_eq_true] at ht
    exact (atom a ht.1).mulLike (atom b ht.2) hs

/-! ## Monomials -/

/-- Product of monomials, smaller variable first. -/
def monMul (x y : List Nat) : List Nat := if y.headD 0 < x.headD 0 then y ++ x else x ++ y

theorem monMul_prod (U : Nat → ℚ) (x y : List Nat) :
    ((monMul x y).map U).prod = (x.map U).prod * (y.map U).prod := by
  unfold monMul
  split_ifs <;> simp only [List.map_append, List.prod_append]
  exact mul_comm _ _

/-- Monomials of a term, without signs. -/
def T.mon : T → List (List Nat)
  | .zero => []
  | .var n => [[n]]
  | .neg a => a.mon
  | .add a b => a.mon ++ b.mon
  | .sub a b => a.mon ++ b.mon
  | .mul a b => a.mon.flatMap fun x => b.mon.map fun y => monMul x y

/-- Sum of monomials. -/
def monSum (U : Nat → ℚ) (L : List (List Nat)) : ℚ := (L.map fun m => (m.map U).prod).sum

theorem monSum_append (U : Nat → ℚ) (L M : List (List Nat)) :
    monSum U (L ++ M) = monSum U L + monSum U M := by simp [monSum]

theorem monSum_map (U : Nat → ℚ) (x : List Nat) (M : List (List Nat)) :
    monSum U (M.map fun y => monMul x y) = (x.map U).prod * monSum U M := by
  induction M with
  | nil => simp [monSum]
  | cons m M ih =>
    have : monSum U ((m :: M).map fun y => monMul x y)
        = (x.map U).prod * (m.map U).prod + monSum U (M.map fun y => monMul x y) := by
      simp [monSum, monMul_prod]
    rw [this, ih]
    simp [monSum]
    ring

theorem monSum_flatMap (U : Nat → ℚ) (L M : List (List Nat)) :
    monSum U (L.flatMap fun x => M.map fun y => monMul x y) = monSum U L * monSum U M := by
  induction L with
  | nil => simp [monSum]
  | cons m L ih =>
    rw [List.flatMap_cons, monSum_append, ih, monSum_map]
    simp [monSum]
    ring

theorem absv_mon (U : Nat → ℚ) (t : T) : t.absv U = monSum U t.mon := by
  induction t with
  | zero => rfl
  | var n => simp [T.absv, T.mon, monSum]
  | neg a ih => exact ih
  | add a b iha ihb => rw [T.absv, T.mon, monSum_append, iha, ihb]
  | sub a b iha ihb => rw [T.absv, T.mon, monSum_append, iha, ihb]
  | mul a b iha ihb => rw [T.absv, T.mon, monSum_flatMap, iha, ihb]

theorem monSum_mono {U A : Nat → ℚ} (h0 : ∀ n, 0 ≤ A n) (h : ∀ n, A n ≤ U n) (L : List (List Nat)) :
    0 ≤ monSum A L ∧ monSum A L ≤ monSum U L := by
  have key : ∀ m : List Nat, 0 ≤ (m.map A).prod ∧ (m.map A).prod ≤ (m.map U).prod := by
    intro m
    induction m with
    | nil => simp
    | cons x m ih =>
      simp only [List.map_cons, List.prod_cons]
      exact ⟨mul_nonneg (h0 x) ih.1, mul_le_mul (h x) ih.2 ih.1 ((h0 x).trans (h x))⟩
  induction L with
  | nil => simp [monSum]
  | cons m L ih =>
    have e : ∀ V : Nat → ℚ, monSum V (m :: L) = (m.map V).prod + monSum V L := fun V => by simp [monSum]
    rw [e, e]
    exact ⟨add_nonneg (key m).1 ih.1, add_le_add (key m).2 ih.2⟩

/-- The monomials of `t` are among those of `L`. -/
theorem absv_sub {t : T} {L : List (List Nat)} (h : t.mon.Subperm L) :
    ∃ R : List (List Nat), ∀ U : Nat → ℚ, t.absv U + monSum U R = monSum U L := by
  obtain ⟨M, hp, hs⟩ := h
  obtain ⟨R, hR⟩ := hs.exists_perm_append
  refine ⟨R, fun U => ?_⟩
  rw [absv_mon, ← monSum_append]
  have e : (t.mon ++ R).Perm L := (hp.symm.append_right R).trans hR.symm
  exact (e.map _).sum_eq

end Engabra
