import Verif.Props.C67_Attitude
import Mathlib.Analysis.Calculus.MeanValue
import Mathlib.Analysis.SpecialFunctions.Trigonometric.Deriv

/-! # C81: attitudes from angular rates

A body turns with the angular rate `ω(t)`, a rotation vector in the axes of the body.  A direction
that is fixed in space then has coordinates `p(t)` in these axes which obey `p' = p × ω`.  The loop
`S = direction(S * exp(.5*B))`, with the angle `B = -h*ω` of every step of length `h`, keeps the
attitude of the body: `S * v * reverse(S)` takes coordinates in the body at the end to coordinates
at the beginning. -/

namespace Engabra

open F64 (Finite HasVal)
open Spec

/-- Specification: the three coordinates have the derivative `d` at `t`. -/
def HasDeriv3 (p : ℝ → V3 ℝ) (d : V3 ℝ) (t : ℝ) : Prop :=
  HasDerivAt (fun t => (p t).x) d.x t ∧ HasDerivAt (fun t => (p t).y) d.y t ∧
    HasDerivAt (fun t => (p t).z) d.z t

/-- Specification: between the times `a` and `b`, `p` are the coordinates, in axes that turn with
the angular rate `ω`, of a direction which is fixed in space. -/
def FixedInSpace (ω p : ℝ → V3 ℝ) (a b : ℝ) : Prop :=
  ∀ t ∈ Set.Icc a b, HasDeriv3 p (cross (p t) (ω t)) t

/-! ## Vectors -/

theorem norm3_nonneg (a : V3 ℝ) : 0 ≤ norm3 a := Real.sqrt_nonneg _

theorem norm3_sq (a : V3 ℝ) : norm3 a ^ 2 = dot a a :=
  Real.sq_sqrt (add_nonneg (add_nonneg (mul_self_nonneg _) (mul_self_nonneg _)) (mul_self_nonneg _))

theorem norm3_smul (s : ℝ) (a : V3 ℝ) : norm3 (smul s a) = |s| * norm3 a := by
  unfold norm3
  rw [show dot (smul s a) (smul s a) = s ^ 2 * dot a a by simp only [dot, smul]; ring,
    Real.sqrt_mul (sq_nonneg _), Real.sqrt_sq_eq_abs]

theorem dot_abs_le (a b : V3 ℝ) : |dot a b| ≤ norm3 a * norm3 b := by
  have h : dot a b ^ 2 ≤ (norm3 a * norm3 b) ^ 2 := by
    rw [mul_pow, norm3_sq, norm3_sq]
    simp only [dot]
    nlinarith [sq_nonneg (a.x * b.y - a.y * b.x), sq_nonneg (a.y * b.z - a.z * b.y),
      sq_nonneg (a.z * b.x - a.x * b.z)]
  exact abs_le_of_sq_le_sq h (mul_nonneg (norm3_nonneg _) (norm3_nonneg _))

theorem norm3_cross_le (a b : V3 ℝ) : norm3 (cross a b) ≤ norm3 a * norm3 b := by
  have h0 : 0 ≤ dot a a := by rw [← norm3_sq]; positivity
  rw [norm3, norm3, norm3, ← Real.sqrt_mul h0]
  apply Real.sqrt_le_sqrt
  simp only [dot, cross]
  nlinarith [sq_nonneg (a.x * b.x + a.y * b.y + a.z * b.z)]

theorem norm3_add_le (a b : V3 ℝ) : norm3 (Spec.add a b) ≤ norm3 a + norm3 b := by
  have h := dist3_tri a ⟨0, 0, 0⟩ (smul (-1) b)
  have e1 : sub3 a (smul (-1) b) = Spec.add a b := by
    simp only [sub3, smul, Spec.add, V3.mk.injEq]; refine ⟨?_, ?_, ?_⟩ <;> ring
  have e2 : sub3 a ⟨0, 0, 0⟩ = a := by simp [sub3]
  have e3 : sub3 ⟨0, 0, 0⟩ (smul (-1) b) = b := by simp [sub3, smul]
  rwa [dist3, dist3, dist3, e1, e2, e3] at h

theorem norm3_zero : norm3 ⟨0, 0, 0⟩ = 0 := by simp [norm3, dot]

theorem eq_zero3 {A : V3 ℝ} (h0 : norm3 A = 0) : A = ⟨0, 0, 0⟩ := by
  have h1 := comp_le_norm3 A
  rw [h0] at h1
  obtain ⟨x, y, z⟩ := A
  simp only [abs_nonpos_iff] at h1
  simp [h1.1, h1.2.1, h1.2.2]

/-! ## Turns by a multiple of an angle -/

theorem turn_dist (A a b : V3 ℝ) : dist3 (turn A a) (turn A b) = dist3 a b := by
  refine turns_dist (R := expR 0 (⟨⟨A.x / 2, A.y / 2, A.z / 2⟩⟩ : BiVector ℝ)) (length_expR_zero _)
    (fun v => ?_) a b
  rw [sandwich_exp]
  congr 1
  obtain ⟨x, y, z⟩ := A
  simp only [V3.mk.injEq]
  refine ⟨?_, ?_, ?_⟩ <;> ring

theorem turn_norm (A a : V3 ℝ) : norm3 (turn A a) = norm3 a := by
  have h := turn_dist A a ⟨0, 0, 0⟩
  have e : turn A ⟨0, 0, 0⟩ = ⟨0, 0, 0⟩ := by simp [turn, Spec.add, smul, cross, dot]
  have e2 : ∀ a : V3 ℝ, sub3 a ⟨0, 0, 0⟩ = a := fun a => by simp [sub3]
  rwa [e, dist3, dist3, e2, e2] at h

/-- The turn by `s*A` with smooth coefficients. -/
theorem turn_coeffs (A : V3 ℝ) : ∃ c σ κ : ℝ → ℝ,
    (∀ s, HasDerivAt c (-(dot A A) * σ s) s) ∧ (∀ s, HasDerivAt σ (c s) s) ∧
    (∀ s, HasDerivAt κ (σ s) s) ∧ c 0 = 1 ∧ σ 0 = 0 ∧ κ 0 = 0 ∧
    ∀ s v, turn (smul s A) v
      = Spec.add (Spec.add (smul (c s) v) (smul (σ s) (cross v A))) (smul (κ s * dot A v) A) := by
  by_cases h0 : norm3 A = 0
  · have hA := eq_zero3 h0
    subst hA
    refine ⟨fun _ => 1, fun s => s, fun s => s ^ 2 / 2, ?_, ?_, ?_, rfl, rfl, by simp, ?_⟩
    · intro s; simpa [dot] using hasDerivAt_const s (1 : ℝ)
    · intro s; exact hasDerivAt_id s
    · intro s
      have := (hasDerivAt_pow 2 s).div_const 2
      simpa using this
    · intro s v; simp [turn, smul, Spec.add, cross, dot, norm3]
  · have hd := norm3_sq A
    set θ := norm3 A with hθ
    have hl : ∀ s, HasDerivAt (fun s => θ * s) θ s := fun s => by
      simpa using (hasDerivAt_id s).const_mul θ
    refine ⟨fun s => Real.cos (θ * s), fun s => Real.sin (θ * s) / θ,
      fun s => (1 - Real.cos (θ * s)) / θ ^ 2, ?_, ?_, ?_, by simp, by simp, by simp, ?_⟩
    · intro s
      have := (Real.hasDerivAt_cos (θ * s)).comp s (hl s)
      refine this.congr_deriv ?_
      rw [← hd]; field_simp
    · intro s
      have := ((Real.hasDerivAt_sin (θ * s)).comp s (hl s)).div_const θ
      refine this.congr_deriv ?_
      field_simp
    · intro s
      have := (((Real.hasDerivAt_cos (θ * s)).comp s (hl s)).const_sub 1).div_const (θ ^ 2)
      refine this.congr_deriv ?_
      field_simp
    · intro s v
      have hn : norm3 (smul s A) = |s| * θ := norm3_smul s A
      rcases eq_or_ne s 0 with rfl | hs
      · simp [turn, smul, Spec.add, cross, dot, norm3]
      · have hs' : |s| ≠ 0 := abs_ne_zero.2 hs
        have hc : Real.cos (|s| * θ) = Real.cos (θ * s) := by
          rcases abs_choice s with h | h <;> rw [h]
          · rw [mul_comm]
          · rw [neg_mul, Real.cos_neg, mul_comm]
        have hsn : Real.sin (|s| * θ) / (|s| * θ) * s = Real.sin (θ * s) / θ := by
          rcases abs_choice s with h | h <;> rw [h]
          · rw [mul_comm s θ]; field_simp
          · rw [neg_mul, Real.sin_neg, mul_comm s θ]; field_simp
        have hk : (1 - Real.cos (|s| * θ)) / (|s| * θ) ^ 2 * s ^ 2 = (1 - Real.cos (θ * s)) / θ ^ 2 := by
          rw [hc, mul_pow, sq_abs]; field_simp
        unfold turn
        simp only [hn]
        rw [← hsn, ← hk, ← hc]
        simp only [Spec.add, smul, cross, dot, V3.mk.injEq]
        refine ⟨?_, ?_, ?_⟩ <;> ring

/-- Derivative of a turning vector seen from axes that turn steadily. -/
theorem turn_deriv (A : V3 ℝ) (p : ℝ → V3 ℝ) (d : V3 ℝ) (s : ℝ) (hp : HasDeriv3 p d s) :
    HasDeriv3 (fun s => turn (smul s A) (p s)) (turn (smul s A) (Spec.add d (cross (p s) A))) s := by
  obtain ⟨c, σ, κ, hc, hσ, hκ, -, -, -, hf⟩ := turn_coeffs A
  obtain ⟨hx, hy, hz⟩ := hp
  have hdot : HasDerivAt (fun s => dot A (p s)) (dot A d) s :=
    ((hx.const_mul A.x).add (hy.const_mul A.y)).add (hz.const_mul A.z)
  refine ⟨?_, ?_, ?_⟩
  · simp only [hf]
    have h := ((((hc s).mul hx).add ((hσ s).mul ((hy.mul_const A.z).sub (hz.mul_const A.y)))).add
      ((((hκ s).mul hdot)).mul_const A.x))
    refine h.congr_deriv ?_
    simp only [Spec.add, smul, cross, dot, Pi.sub_apply]; ring
  · simp only [hf]
    have h := ((((hc s).mul hy).add ((hσ s).mul ((hz.mul_const A.x).sub (hx.mul_const A.z)))).add
      ((((hκ s).mul hdot)).mul_const A.y))
    refine h.congr_deriv ?_
    simp only [Spec.add, smul, cross, dot, Pi.sub_apply]; ring
  · simp only [hf]
    have h := ((((hc s).mul hz).add ((hσ s).mul ((hx.mul_const A.y).sub (hy.mul_const A.x)))).add
      ((((hκ s).mul hdot)).mul_const A.z))
    refine h.congr_deriv ?_
    simp only [Spec.add, smul, cross, dot, Pi.sub_apply]; ring

theorem turn_zero (A v : V3 ℝ) : turn (smul 0 A) v = v := by
  obtain ⟨c, σ, κ, -, -, -, c0, s0, k0, hf⟩ := turn_coeffs A
  rw [hf, c0, s0, k0]
  simp [Spec.add, smul]

theorem turn_one (A v : V3 ℝ) : turn (smul 1 A) v = turn A v := by
  congr 1; simp [smul]

theorem HasDeriv3.dot_const {p : ℝ → V3 ℝ} {d : V3 ℝ} {s : ℝ} (h : HasDeriv3 p d s) (w : V3 ℝ) :
    HasDerivAt (fun s => dot w (p s)) (dot w d) s :=
  ((h.1.const_mul w.x).add (h.2.1.const_mul w.y)).add (h.2.2.const_mul w.z)

theorem HasDeriv3.cross_const {p : ℝ → V3 ℝ} {d : V3 ℝ} {s : ℝ} (h : HasDeriv3 p d s) (w : V3 ℝ) :
    HasDeriv3 (fun s => cross (p s) w) (cross d w) s :=
  ⟨(h.2.1.mul_const w.z).sub (h.2.2.mul_const w.y), (h.2.2.mul_const w.x).sub (h.1.mul_const w.z),
    (h.1.mul_const w.y).sub (h.2.1.mul_const w.x)⟩

theorem HasDeriv3.shift {p : ℝ → V3 ℝ} {d : V3 ℝ} {a s : ℝ} (h : HasDeriv3 p d (a + s)) :
    HasDeriv3 (fun s => p (a + s)) d s := by
  have k : ∀ {f : ℝ → ℝ} {d : ℝ}, HasDerivAt f d (a + s) → HasDerivAt (fun s => f (a + s)) d s := by
    intro f d hf
    exact hf.comp_const_add a s
  exact ⟨k h.1, k h.2.1, k h.2.2⟩

/-! ## Increments of functions of one variable -/

theorem incr_le {g g' B B' : ℝ → ℝ} {x y : ℝ} (hxy : x ≤ y)
    (hg : ∀ s ∈ Set.Icc x y, HasDerivAt g (g' s) s) (hB : ∀ s ∈ Set.Icc x y, HasDerivAt B (B' s) s)
    (h : ∀ s ∈ Set.Icc x y, g' s ≤ B' s) : g y - g x ≤ B y - B x := by
  have hm : MonotoneOn (fun s => B s - g s) (Set.Icc x y) := by
    refine monotoneOn_of_deriv_nonneg (convex_Icc x y) ?_ ?_ ?_
    · exact fun s hs => ((hB s hs).sub (hg s hs)).continuousAt.continuousWithinAt
    · rw [interior_Icc]
      exact fun s hs => ((hB s (Set.Ioo_subset_Icc_self hs)).sub
        (hg s (Set.Ioo_subset_Icc_self hs))).differentiableAt.differentiableWithinAt
    · rw [interior_Icc]
      intro s hs
      have hs' := Set.Ioo_subset_Icc_self hs
      have := ((hB s hs').sub (hg s hs')).deriv
      change 0 ≤ deriv (B - g) s
      rw [this]
      linarith [h s hs']
  have := hm ⟨le_rfl, hxy⟩ ⟨hxy, le_rfl⟩ hxy
  dsimp only at this
  linarith

/-- First order, with a sample at `x`. -/
theorem incr_first {g g' : ℝ → ℝ} {h x C L e : ℝ} (hx : x ∈ Set.Icc 0 h) (hC : 0 ≤ C) (hL : 0 ≤ L)
    (hg : ∀ s ∈ Set.Icc 0 h, HasDerivAt g (g' s) s)
    (hb : ∀ s ∈ Set.Icc 0 h, g' s ≤ C * (L * |s - x| + e)) :
    g h - g 0 ≤ C * (L / 2 * h ^ 2 + e * h) := by
  have hid : ∀ s : ℝ, HasDerivAt (fun s : ℝ => s) 1 s := fun s => hasDerivAt_id s
  have hq : ∀ s : ℝ, HasDerivAt (fun s : ℝ => (s - x) ^ 2 / 2) (s - x) s := fun s => by
    have := (((hid s).sub_const x).pow 2).div_const 2
    refine this.congr_deriv ?_
    norm_num
  have h1 := incr_le (g := g) (g' := g') (B := fun s => C * (-L * ((s - x) ^ 2 / 2) + e * s))
    (B' := fun s => C * (-L * (s - x) + e * 1)) hx.1 (fun s hs => hg s ⟨hs.1, hs.2.trans hx.2⟩)
    (fun s _ => (((hq s).const_mul (-L)).add ((hid s).const_mul e)).const_mul C)
    (fun s hs => (hb s ⟨hs.1, hs.2.trans hx.2⟩).trans (le_of_eq (by
      rw [abs_of_nonpos (by linarith [hs.2])]; ring)))
  have h2 := incr_le (g := g) (g' := g') (B := fun s => C * (L * ((s - x) ^ 2 / 2) + e * s))
    (B' := fun s => C * (L * (s - x) + e * 1)) hx.2 (fun s hs => hg s ⟨hx.1.trans hs.1, hs.2⟩)
    (fun s _ => (((hq s).const_mul L).add ((hid s).const_mul e)).const_mul C)
    (fun s hs => (hb s ⟨hx.1.trans hs.1, hs.2⟩).trans (le_of_eq (by
      rw [abs_of_nonneg (by linarith [hs.1])]; ring)))
  have h3 : C * (L * (x * (h - x))) ≥ 0 :=
    mul_nonneg hC (mul_nonneg hL (mul_nonneg hx.1 (by linarith [hx.2])))
  nlinarith

/-- Second order, with a sample in the middle. -/
theorem incr_second {g f f' r : ℝ → ℝ} {h R K e : ℝ} (hh : 0 ≤ h)
    (hg : ∀ s ∈ Set.Icc 0 h, HasDerivAt g ((s - h / 2) * f s + r s) s)
    (hf : ∀ s ∈ Set.Icc 0 h, HasDerivAt f (f' s) s)
    (hr : ∀ s ∈ Set.Icc 0 h, |r s| ≤ R * (s - h / 2) ^ 2 / 2 + e)
    (hK : ∀ s ∈ Set.Icc 0 h, |f' s| ≤ K) :
    g h - g 0 ≤ (R / 24 + K / 6) * h ^ 3 + e * h := by
  have hid : ∀ s : ℝ, HasDerivAt (fun s : ℝ => s) 1 s := fun s => hasDerivAt_id s
  have hq : ∀ s : ℝ, HasDerivAt (fun s : ℝ => (s - h / 2) ^ 2 / 2) (s - h / 2) s := fun s => by
    have := (((hid s).sub_const (h / 2)).pow 2).div_const 2
    refine this.congr_deriv ?_
    norm_num
  have hc : ∀ s : ℝ, HasDerivAt (fun s : ℝ => (s - h / 2) ^ 3 / 6) ((s - h / 2) ^ 2 / 2) s := fun s => by
    have := (((hid s).sub_const (h / 2)).pow 3).div_const 6
    refine this.congr_deriv ?_
    norm_num
    ring
  have h1 := incr_le (g := fun s => g s - (s - h / 2) ^ 2 / 2 * f s)
    (g' := fun s => ((s - h / 2) * f s + r s) - ((s - h / 2) * f s + (s - h / 2) ^ 2 / 2 * f' s))
    (B := fun s => (R + K) * ((s - h / 2) ^ 3 / 6) + e * s)
    (B' := fun s => (R + K) * ((s - h / 2) ^ 2 / 2) + e * 1) hh
    (fun s hs => (hg s hs).sub ((hq s).mul (hf s hs)))
    (fun s _ => ((hc s).const_mul (R + K)).add ((hid s).const_mul e))
    (fun s hs => by
      have a1 := (abs_le.1 (hr s hs)).2
      have a2 := (abs_le.1 (hK s hs)).1
      nlinarith [sq_nonneg (s - h / 2)])
  have h2 := incr_le (g := f) (g' := f') (B := fun s => K * s) (B' := fun _ => K * 1) hh hf
    (fun s _ => (hid s).const_mul K) (fun s hs => by linarith [(abs_le.1 (hK s hs)).2])
  nlinarith [sq_nonneg h]

/-! ## One step -/

theorem fixed_norm {ω p : ℝ → V3 ℝ} {a b : ℝ} (hp : FixedInSpace ω p a b) {t : ℝ}
    (ht : t ∈ Set.Icc a b) : norm3 (p t) = norm3 (p a) := by
  have hd : ∀ s ∈ Set.Icc a t, HasDerivAt (fun s => dot (p s) (p s)) 0 s := by
    intro s hs
    obtain ⟨hx, hy, hz⟩ := hp s ⟨hs.1, hs.2.trans ht.2⟩
    have := ((hx.mul hx).add (hy.mul hy)).add (hz.mul hz)
    refine this.congr_deriv ?_
    simp only [cross]; ring
  have h0 : ∀ s ∈ Set.Icc a t, HasDerivAt (fun _ : ℝ => (0 : ℝ)) 0 s := fun s _ => hasDerivAt_const s 0
  have h1 := incr_le ht.1 hd h0 (fun _ _ => le_rfl)
  have h2 := incr_le ht.1 h0 hd (fun _ _ => le_rfl)
  unfold norm3
  congr 1
  linarith

/-- The derivative of a component of the coordinates, turned back steadily. -/
theorem back_deriv {ω p : ℝ → V3 ℝ} {a h : ℝ} (hp : FixedInSpace ω p a (a + h)) (α w : V3 ℝ) {s : ℝ}
    (hs : s ∈ Set.Icc 0 h) :
    HasDerivAt (fun s => dot w (turn (smul s α) (p (a + s))))
      (dot w (turn (smul s α) (cross (p (a + s)) (Spec.add (ω (a + s)) α)))) s := by
  have h1 := (hp (a + s) ⟨by linarith [hs.1], by linarith [hs.2]⟩).shift
  have h2 := (turn_deriv α (fun s => p (a + s)) _ s h1).dot_const w
  refine h2.congr_deriv ?_
  congr 2
  simp only [Spec.add, cross, V3.mk.injEq]
  refine ⟨?_, ?_, ?_⟩ <;> ring

/-- From components to distances. -/
theorem dist_of_dot {a b : V3 ℝ} {D : ℝ} (hD : 0 ≤ D)
    (h : ∀ w, dot w a - dot w b ≤ norm3 w * D) : dist3 a b ≤ D := by
  have h1 := h (sub3 a b)
  have e : dot (sub3 a b) a - dot (sub3 a b) b = dist3 a b ^ 2 := by
    rw [dist3, norm3_sq]; simp only [dot, sub3]; ring
  rw [e, ← dist3] at h1
  by_contra hc
  push Not at hc
  have := hD.trans_lt hc
  nlinarith

theorem turn_smul_angle {h : ℝ} (hh : 0 < h) (B v : V3 ℝ) :
    turn (smul h (smul (1 / h) B)) v = turn B v := by
  congr 1
  obtain ⟨x, y, z⟩ := B
  simp only [smul, V3.mk.injEq]
  refine ⟨?_, ?_, ?_⟩ <;> field_simp

theorem rate_error {h η : ℝ} (hh : 0 < h) {B q : V3 ℝ} (hB : dist3 B (smul (-h) q) ≤ η * h) :
    norm3 (Spec.add q (smul (1 / h) B)) ≤ η := by
  have e : sub3 B (smul (-h) q) = smul h (Spec.add q (smul (1 / h) B)) := by
    simp only [sub3, smul, Spec.add, V3.mk.injEq]
    refine ⟨?_, ?_, ?_⟩ <;> field_simp <;> ring
  rw [dist3, e, norm3_smul, abs_of_pos hh, mul_comm η] at hB
  exact le_of_mul_le_mul_left hB hh

/-- One step with a sample anywhere in it. -/
theorem step_first {ω p : ℝ → V3 ℝ} {a h ξ L η : ℝ} (hh : 0 < h) (hL : 0 ≤ L) (hη : 0 ≤ η)
    (hp : FixedInSpace ω p a (a + h)) (hξ : ξ ∈ Set.Icc a (a + h))
    (hω : ∀ t ∈ Set.Icc a (a + h), dist3 (ω t) (ω ξ) ≤ L * |t - ξ|)
    {B : V3 ℝ} (hB : dist3 B (smul (-h) (ω ξ)) ≤ η * h) :
    dist3 (turn B (p (a + h))) (p a) ≤ (L / 2 * h ^ 2 + η * h) * norm3 (p a) := by
  have hα := rate_error hh hB
  rw [← turn_smul_angle hh B]
  generalize smul (1 / h) B = α at *
  refine dist_of_dot (by have := norm3_nonneg (p a); positivity) fun w => ?_
  have key := incr_first (g := fun s => dot w (turn (smul s α) (p (a + s)))) (h := h) (x := ξ - a)
    (C := norm3 w * norm3 (p a)) (L := L) (e := η) ⟨by linarith [hξ.1], by linarith [hξ.2]⟩
    (mul_nonneg (norm3_nonneg _) (norm3_nonneg _)) hL (fun s hs => back_deriv hp α w hs) ?_
  · rw [turn_zero, add_zero] at key
    refine key.trans (le_of_eq (by ring))
  · intro s hs
    have ht : a + s ∈ Set.Icc a (a + h) := ⟨by linarith [hs.1], by linarith [hs.2]⟩
    refine (le_abs_self _).trans ((dot_abs_le _ _).trans ?_)
    rw [turn_norm, mul_assoc]
    refine mul_le_mul_of_nonneg_left ((norm3_cross_le _ _).trans ?_) (norm3_nonneg _)
    rw [fixed_norm hp ht]
    refine mul_le_mul_of_nonneg_left ?_ (norm3_nonneg _)
    have e : Spec.add (ω (a + s)) α = Spec.add (sub3 (ω (a + s)) (ω ξ)) (Spec.add (ω ξ) α) := by
      simp only [Spec.add, sub3, V3.mk.injEq]
      refine ⟨?_, ?_, ?_⟩ <;> ring
    rw [e]
    refine (norm3_add_le _ _).trans (add_le_add ?_ hα)
    have := hω (a + s) ht
    rwa [dist3, show a + s - ξ = s - (ξ - a) by ring] at this

/-- The rate near the middle of a step. -/
theorem rate_taylor {ω ω' : ℝ → V3 ℝ} {x y m L : ℝ} (hm : m ∈ Set.Icc x y)
    (hω : ∀ t ∈ Set.Icc x y, HasDeriv3 ω (ω' t) t)
    (hL : ∀ t ∈ Set.Icc x y, dist3 (ω' t) (ω' m) ≤ L * |t - m|) (hL0 : 0 ≤ L) {t : ℝ}
    (ht : t ∈ Set.Icc x y) :
    norm3 (sub3 (sub3 (ω t) (ω m)) (smul (t - m) (ω' m))) ≤ L * (t - m) ^ 2 / 2 := by
  have e0 : ∀ a : V3 ℝ, sub3 a ⟨0, 0, 0⟩ = a := fun a => by simp [sub3]
  have e1 : ∀ a : V3 ℝ, norm3 a = dist3 a ⟨0, 0, 0⟩ := fun a => by rw [dist3, e0]
  rw [e1]
  refine dist_of_dot (by positivity) fun w => ?_
  have hid : ∀ s : ℝ, HasDerivAt (fun s : ℝ => s) 1 s := fun s => hasDerivAt_id s
  have hq : ∀ s : ℝ, HasDerivAt (fun s : ℝ => (s - m) ^ 2 / 2) (s - m) s := fun s => by
    have := (((hid s).sub_const m).pow 2).div_const 2
    refine this.congr_deriv ?_
    norm_num
  have hd : ∀ s ∈ Set.Icc x y, HasDerivAt (fun s => dot w (ω s) - (s - m) * dot w (ω' m))
      (dot w (sub3 (ω' s) (ω' m))) s := by
    intro s hs
    have := ((hω s hs).dot_const w).sub (((hid s).sub_const m).mul_const (dot w (ω' m)))
    refine this.congr_deriv ?_
    simp only [dot, sub3]; ring
  have hb : ∀ s ∈ Set.Icc x y, |dot w (sub3 (ω' s) (ω' m))| ≤ norm3 w * (L * |s - m|) := fun s hs =>
    (dot_abs_le _ _).trans (mul_le_mul_of_nonneg_left (hL s hs) (norm3_nonneg _))
  have ez : dot w (⟨0, 0, 0⟩ : V3 ℝ) = 0 := by simp [dot]
  have ee : dot w (sub3 (sub3 (ω t) (ω m)) (smul (t - m) (ω' m)))
      = (dot w (ω t) - (t - m) * dot w (ω' m)) - (dot w (ω m) - (m - m) * dot w (ω' m)) := by
    simp only [dot, sub3, smul]; ring
  rw [ez, ee, sub_zero]
  rcases le_total m t with hmt | htm
  · have sub : ∀ s ∈ Set.Icc m t, s ∈ Set.Icc x y := fun s hs => ⟨hm.1.trans hs.1, hs.2.trans ht.2⟩
    have := incr_le hmt (fun s hs => hd s (sub s hs))
      (B := fun s => norm3 w * L * ((s - m) ^ 2 / 2)) (B' := fun s => norm3 w * L * (s - m))
      (fun s _ => (hq s).const_mul _) (fun s hs => by
        refine ((le_abs_self _).trans (hb s (sub s hs))).trans (le_of_eq ?_)
        rw [abs_of_nonneg (by linarith [hs.1])]; ring)
    refine this.trans (le_of_eq ?_)
    ring
  · have sub : ∀ s ∈ Set.Icc t m, s ∈ Set.Icc x y := fun s hs => ⟨ht.1.trans hs.1, hs.2.trans hm.2⟩
    have := incr_le htm (B := fun s => dot w (ω s) - (s - m) * dot w (ω' m))
      (fun s _ => (hq s).const_mul (norm3 w * L)) (fun s hs => hd s (sub s hs)) (fun s hs => by
        have := (abs_le.1 (hb s (sub s hs))).1
        rw [abs_of_nonpos (by linarith [hs.2])] at this
        linarith)
    linarith

/-- One step with a sample in the middle of it. -/
theorem step_second {ω ω' p : ℝ → V3 ℝ} {a h L A W η : ℝ} (hh : 0 < h) (hL : 0 ≤ L) (hη : 0 ≤ η)
    (hp : FixedInSpace ω p a (a + h))
    (hd : ∀ t ∈ Set.Icc a (a + h), HasDeriv3 ω (ω' t) t)
    (hω : ∀ t ∈ Set.Icc a (a + h), dist3 (ω' t) (ω' (a + h / 2)) ≤ L * |t - (a + h / 2)|)
    (hW : ∀ t ∈ Set.Icc a (a + h), norm3 (ω t) ≤ W) (hA : norm3 (ω' (a + h / 2)) ≤ A)
    {B : V3 ℝ} (hB : dist3 B (smul (-h) (ω (a + h / 2))) ≤ η * h) :
    dist3 (turn B (p (a + h))) (p a)
      ≤ ((L / 24 + A * (2 * W + η) / 6) * h ^ 3 + η * h) * norm3 (p a) := by
  have hα := rate_error hh hB
  rw [← turn_smul_angle hh B]
  generalize smul (1 / h) B = α at *
  have hA0 := (norm3_nonneg _).trans hA
  have hm : a + h / 2 ∈ Set.Icc a (a + h) := ⟨by linarith, by linarith⟩
  have hW0 := (norm3_nonneg _).trans (hW _ hm)
  have hα2 : norm3 α ≤ W + η := by
    have e : α = Spec.add (smul (-1) (ω (a + h / 2))) (Spec.add (ω (a + h / 2)) α) := by
      obtain ⟨x, y, z⟩ := α
      simp only [Spec.add, smul, V3.mk.injEq]
      refine ⟨?_, ?_, ?_⟩ <;> ring
    rw [e]
    refine (norm3_add_le _ _).trans (add_le_add ?_ hα)
    rw [norm3_smul, abs_neg, abs_one, one_mul]
    exact hW _ hm
  refine dist_of_dot (by have := norm3_nonneg (p a); positivity) fun w => ?_
  have hN : ∀ s ∈ Set.Icc 0 h, ∀ q, |dot w (turn (smul s α) q)| ≤ norm3 w * norm3 q := fun s _ q => by
    have := dot_abs_le w (turn (smul s α) q)
    rwa [turn_norm] at this
  have hlin : ∀ s, ∀ x y z : V3 ℝ, ∀ k : ℝ, dot w (turn (smul s α) (cross x (Spec.add (smul k y) z)))
      = k * dot w (turn (smul s α) (cross x y)) + dot w (turn (smul s α) (cross x z)) := by
    intro s x y z k
    simp only [turn, dot, Spec.add, smul, cross]; ring
  have key := incr_second (g := fun s => dot w (turn (smul s α) (p (a + s)))) (h := h)
    (f := fun s => dot w (turn (smul s α) (cross (p (a + s)) (ω' (a + h / 2)))))
    (f' := fun s => dot w (turn (smul s α) (Spec.add (cross (cross (p (a + s)) (ω (a + s))) (ω' (a + h / 2)))
      (cross (cross (p (a + s)) (ω' (a + h / 2))) α))))
    (r := fun s => dot w (turn (smul s α) (cross (p (a + s))
      (Spec.add (sub3 (sub3 (ω (a + s)) (ω (a + h / 2))) (smul (s - h / 2) (ω' (a + h / 2))))
        (Spec.add (ω (a + h / 2)) α)))))
    (R := norm3 w * norm3 (p a) * L) (K := norm3 w * norm3 (p a) * (A * (2 * W + η)))
    (e := norm3 w * norm3 (p a) * η) hh.le ?_ ?_ ?_ ?_
  · rw [turn_zero, add_zero] at key
    refine key.trans (le_of_eq (by ring))
  · intro s hs
    refine (back_deriv hp α w hs).congr_deriv ?_
    rw [← hlin]
    congr 3
    simp only [Spec.add, sub3, smul, V3.mk.injEq]
    refine ⟨?_, ?_, ?_⟩ <;> ring
  · intro s hs
    have h1 := ((hp (a + s) ⟨by linarith [hs.1], by linarith [hs.2]⟩).shift).cross_const (ω' (a + h / 2))
    exact (turn_deriv α _ _ s h1).dot_const w
  · intro s hs
    have ht : a + s ∈ Set.Icc a (a + h) := ⟨by linarith [hs.1], by linarith [hs.2]⟩
    refine (hN s hs _).trans ?_
    have h1 := norm3_cross_le (p (a + s))
      (Spec.add (sub3 (sub3 (ω (a + s)) (ω (a + h / 2))) (smul (s - h / 2) (ω' (a + h / 2))))
        (Spec.add (ω (a + h / 2)) α))
    rw [fixed_norm hp ht] at h1
    have h2 := rate_taylor hm hd hω hL ht
    rw [show a + s - (a + h / 2) = s - h / 2 by ring] at h2
    have h3 := h1.trans (mul_le_mul_of_nonneg_left ((norm3_add_le _ _).trans (add_le_add h2 hα))
      (norm3_nonneg _))
    refine (mul_le_mul_of_nonneg_left h3 (norm3_nonneg w)).trans (le_of_eq (by ring))
  · intro s hs
    have ht : a + s ∈ Set.Icc a (a + h) := ⟨by linarith [hs.1], by linarith [hs.2]⟩
    refine (hN s hs _).trans ?_
    rw [mul_assoc]
    refine mul_le_mul_of_nonneg_left ((norm3_add_le _ _).trans ?_) (norm3_nonneg w)
    have hpn := norm3_nonneg (p a)
    have h1 : norm3 (cross (cross (p (a + s)) (ω (a + s))) (ω' (a + h / 2))) ≤ norm3 (p a) * W * A := by
      refine (norm3_cross_le _ _).trans (mul_le_mul ?_ hA (norm3_nonneg _) (by positivity))
      refine (norm3_cross_le _ _).trans ?_
      rw [fixed_norm hp ht]
      exact mul_le_mul_of_nonneg_left (hW _ ht) hpn
    have h2 : norm3 (cross (cross (p (a + s)) (ω' (a + h / 2))) α) ≤ norm3 (p a) * A * (W + η) := by
      refine (norm3_cross_le _ _).trans (mul_le_mul ?_ hα2 (norm3_nonneg _) (by positivity))
      refine (norm3_cross_le _ _).trans ?_
      rw [fixed_norm hp ht]
      exact mul_le_mul_of_nonneg_left hA hpn
    refine (add_le_add h1 h2).trans (le_of_eq (by ring))

/-! ## Any number of steps -/

/-- Specification: the time taken by a list of steps (length of the step, angle used for it). -/
def duration {β : Type} (l : List (ℝ × β)) : ℝ := (l.map Prod.fst).sum

/-- Specification: consecutive steps from the time `a` on, each with the property `P` (beginning,
length, angle). -/
def Steps (P : ℝ → ℝ → V3 ℝ → Prop) : ℝ → List (ℝ × V3 ℝ) → Prop
  | _, [] => True
  | a, (h, B) :: l => 0 < h ∧ P a h B ∧ Steps P (a + h) l

/-- Specification: steps of length `h ≤ H`, with an angle within `η*h` of `-h*ω(ξ)` for some time
`ξ` within the step. -/
def Sampled (ω : ℝ → V3 ℝ) (H η : ℝ) : ℝ → List (ℝ × V3 ℝ) → Prop :=
  Steps fun a h B => h ≤ H ∧ ∃ ξ ∈ Set.Icc a (a + h), dist3 B (smul (-h) (ω ξ)) ≤ η * h

/-- Specification: the same with the rate taken in the middle of every step. -/
def MidSampled (ω : ℝ → V3 ℝ) (H η : ℝ) : ℝ → List (ℝ × V3 ℝ) → Prop :=
  Steps fun a h B => h ≤ H ∧ dist3 B (smul (-h) (ω (a + h / 2))) ≤ η * h

theorem steps_duration {P : ℝ → ℝ → V3 ℝ → Prop} (l : List (ℝ × V3 ℝ)) :
    ∀ a, Steps P a l → 0 ≤ duration l := by
  induction l with
  | nil => intro a _; simp [duration]
  | cons s l ih =>
    obtain ⟨h, B⟩ := s
    rintro a ⟨h1, -, h3⟩
    have := ih _ h3
    simp only [duration, List.map_cons, List.sum_cons] at this ⊢
    linarith

theorem FixedInSpace.mono {ω p : ℝ → V3 ℝ} {a b c d : ℝ} (h : FixedInSpace ω p a b) (hc : a ≤ c)
    (hd : d ≤ b) : FixedInSpace ω p c d := fun t ht => h t ⟨hc.trans ht.1, ht.2.trans hd⟩

/-- Steps whose errors are proportional to their lengths. -/
theorem steps_sum {P : ℝ → ℝ → V3 ℝ → Prop} {ω p : ℝ → V3 ℝ} {b E N : ℝ} (l : List (ℝ × V3 ℝ)) :
    ∀ a, Steps P a l → a + duration l = b → FixedInSpace ω p a b → norm3 (p a) = N →
    (∀ a' h B, a ≤ a' → a' + h ≤ b → 0 < h → P a' h B → norm3 (p a') = N →
      dist3 (turn B (p (a' + h))) (p a') ≤ E * h * N) →
    dist3 (turns (l.map Prod.snd) (p b)) (p a) ≤ E * duration l * N := by
  induction l with
  | nil =>
    intro a _ hb _ _ _
    have : b = a := by simpa [duration] using hb.symm
    subst this
    simp [duration, turns, dist3, sub3, norm3, dot]
  | cons s l ih =>
    obtain ⟨h, B⟩ := s
    rintro a ⟨h1, h2, h3⟩ hb hp hN hE
    have hdur := steps_duration l _ h3
    have e : duration ((h, B) :: l) = h + duration l := by simp [duration]
    rw [e] at hb ⊢
    have hmem : a + h ∈ Set.Icc a b := ⟨by linarith, by linarith⟩
    have h4 := ih (a + h) h3 (by linarith) (hp.mono (by linarith) le_rfl)
      ((fixed_norm hp hmem).trans hN) (fun a' h' B' ha => hE a' h' B' (by linarith))
    have h5 := hE a h B le_rfl hmem.2 h1 h2 hN
    have e2 : turns (((h, B) :: l).map Prod.snd) (p b) = turn B (turns (l.map Prod.snd) (p b)) := rfl
    rw [e2]
    refine (dist3_tri _ (turn B (p (a + h))) _).trans ?_
    rw [turn_dist]
    refine (add_le_add h4 h5).trans (le_of_eq (by ring))

/-- **C81.**  Rates sampled anywhere in every step: the exact turns take the coordinates at the end
to those at the beginning with an error of the first order in the length of the steps, plus the
error of the rates. -/
theorem C81_sampled (ω p : ℝ → V3 ℝ) (a b L H η : ℝ) (l : List (ℝ × V3 ℝ)) (hL : 0 ≤ L) (hη : 0 ≤ η)
    (hl : Sampled ω H η a l) (hb : a + duration l = b) (hp : FixedInSpace ω p a b)
    (hω : ∀ t ∈ Set.Icc a b, ∀ u ∈ Set.Icc a b, dist3 (ω t) (ω u) ≤ L * |t - u|) :
    dist3 (turns (l.map Prod.snd) (p b)) (p a) ≤ (L / 2 * H + η) * duration l * norm3 (p a) := by
  refine steps_sum l a hl hb hp rfl ?_
  rintro a' h B ha hb' hh ⟨hH, ξ, hξ, hB⟩ hN
  have hsub : ∀ t ∈ Set.Icc a' (a' + h), t ∈ Set.Icc a b := fun t ht => ⟨ha.trans ht.1, ht.2.trans hb'⟩
  refine (step_first hh hL hη (hp.mono ha hb') hξ
    (fun t ht => hω t (hsub t ht) ξ (hsub ξ hξ)) hB).trans ?_
  rw [hN]
  refine mul_le_mul_of_nonneg_right ?_ (norm3_nonneg _)
  have : L / 2 * h * h ≤ L / 2 * H * h := by gcongr
  linarith

/-- **C81.**  Rates taken in the middle of every step, and differentiable: the error is of the
second order in the length of the steps.  `W` and `A` bound the rate and its derivative, which has
the Lipschitz constant `L`. -/
theorem C81_midpoint (ω ω' p : ℝ → V3 ℝ) (a b L A W H η : ℝ) (l : List (ℝ × V3 ℝ)) (hL : 0 ≤ L)
    (hη : 0 ≤ η) (hl : MidSampled ω H η a l) (hb : a + duration l = b) (hp : FixedInSpace ω p a b)
    (hd : ∀ t ∈ Set.Icc a b, HasDeriv3 ω (ω' t) t)
    (hω : ∀ t ∈ Set.Icc a b, ∀ u ∈ Set.Icc a b, dist3 (ω' t) (ω' u) ≤ L * |t - u|)
    (hW : ∀ t ∈ Set.Icc a b, norm3 (ω t) ≤ W) (hA : ∀ t ∈ Set.Icc a b, norm3 (ω' t) ≤ A) :
    dist3 (turns (l.map Prod.snd) (p b)) (p a)
      ≤ ((L / 24 + A * (2 * W + η) / 6) * H ^ 2 + η) * duration l * norm3 (p a) := by
  refine steps_sum l a hl hb hp rfl ?_
  rintro a' h B ha hb' hh ⟨hH, hB⟩ hN
  have hsub : ∀ t ∈ Set.Icc a' (a' + h), t ∈ Set.Icc a b := fun t ht => ⟨ha.trans ht.1, ht.2.trans hb'⟩
  have hm : a' + h / 2 ∈ Set.Icc a' (a' + h) := ⟨by linarith, by linarith⟩
  have hA0 := (norm3_nonneg _).trans (hA _ (hsub _ hm))
  have hW0 := (norm3_nonneg _).trans (hW _ (hsub _ hm))
  refine (step_second hh hL hη (hp.mono ha hb') (fun t ht => hd t (hsub t ht))
    (fun t ht => hω t (hsub t ht) _ (hsub _ hm)) (fun t ht => hW t (hsub t ht)) (hA _ (hsub _ hm))
    hB).trans ?_
  rw [hN]
  refine mul_le_mul_of_nonneg_right ?_ (norm3_nonneg _)
  have : (L / 24 + A * (2 * W + η) / 6) * h ^ 2 * h ≤ (L / 24 + A * (2 * W + η) / 6) * H ^ 2 * h := by
    gcongr
  linarith

theorem eq_of_dist3 {a b : V3 ℝ} (h : dist3 a b ≤ 0) : a = b := by
  have h1 := eq_zero3 (le_antisymm h (norm3_nonneg _))
  obtain ⟨x, y, z⟩ := a
  obtain ⟨x', y', z'⟩ := b
  simp only [sub3, V3.mk.injEq, sub_eq_zero] at h1
  simp [h1.1, h1.2.1, h1.2.2]

theorem steps_const (c : V3 ℝ) (hs : List ℝ) (hpos : ∀ h ∈ hs, 0 < h) :
    ∀ a, Sampled (fun _ => c) hs.sum 0 a (hs.map fun h => (h, smul (-h) c)) := by
  have key : ∀ (hs : List ℝ) (H : ℝ), (∀ h ∈ hs, 0 < h ∧ h ≤ H) →
      ∀ a, Sampled (fun _ => c) H 0 a (hs.map fun h => (h, smul (-h) c)) := by
    intro hs
    induction hs with
    | nil => exact fun _ _ _ => trivial
    | cons h hs ih =>
      intro H hH a
      refine ⟨(hH h (by simp)).1, ⟨(hH h (by simp)).2, a, ⟨le_rfl, by linarith [(hH h (by simp)).1]⟩, ?_⟩,
        ih H (fun h' hh' => hH h' (by simp [hh'])) _⟩
      simp [dist3, sub3, norm3, dot]
  refine key hs _ fun h hh => ⟨hpos h hh, ?_⟩
  exact List.single_le_sum (fun x hx => (hpos x hx).le) h hh

/-- **C81.**  A constant rate is integrated without error, whatever the steps. -/
theorem C81_constant (c : V3 ℝ) (p : ℝ → V3 ℝ) (a : ℝ) (hs : List ℝ) (hpos : ∀ h ∈ hs, 0 < h)
    (hp : FixedInSpace (fun _ => c) p a (a + hs.sum)) :
    turns (hs.map fun h => smul (-h) c) (p (a + hs.sum)) = p a := by
  have hdur : duration (hs.map fun h => (h, smul (-h) c)) = hs.sum := by
    simp [duration, List.map_map, Function.comp_def]
  have h := C81_sampled (fun _ => c) p a (a + hs.sum) 0 hs.sum 0 (hs.map fun h => (h, smul (-h) c))
    le_rfl le_rfl (steps_const c hs hpos a) (by rw [hdur]) hp (by simp [dist3, sub3, norm3, dot])
  rw [List.map_map] at h
  refine eq_of_dist3 (h.trans (le_of_eq (by ring)))

/-! ## The loop in binary64 -/

theorem gyro_loop [LibM F64] {ε Θ : ℝ} (hε0 : 0 ≤ ε) (hΘ0 : 0 ≤ Θ) (hlib : LibmOk ε)
    (l : List (ℝ × BiVector F64)) (h : ∀ s ∈ l, Angle s.2 ∧ norm3 (bivVal s.2) ≤ Θ)
    (hε : ε ≤ 1 / 100) (hΘ : Θ ≤ 2 ^ 40) (hn : steadyErr l.length ε Θ ≤ 1 / 64)
    (v : Vector F64) (fv : ∀ c ∈ comps .vec v, c.Finite) (hv : norm3 (vecVal v) ≤ 2 ^ 1000)
    {pa pb : V3 ℝ} {ν D : ℝ} (hν : dist3 (vecVal v) pb ≤ ν)
    (hD : dist3 (turns ((l.map fun s => (s.1, bivVal s.2)).map Prod.snd) pb) pa ≤ D) :
    let S := steadyAttitude (l.map Prod.snd)
    let w : ImSpin F64 := S * v * reverse S
    (∀ k, (cf (promote .imsp w) k).Finite) ∧
    dist3 (vecVal w.theVec) pa
      ≤ D + ν + steadyErr l.length ε Θ * norm3 (vecVal v) + 2 ^ (-1055 : ℤ) := by
  have key := C67_steady_turns ε Θ hε0 hΘ0 hlib (l.map Prod.snd) (fun A hA => by
    obtain ⟨s, hs, rfl⟩ := List.mem_map.1 hA
    exact h s hs) hε hΘ (by rwa [List.length_map]) v fv hv
  rw [List.length_map] at key
  intro S w
  obtain ⟨k1, k2, -⟩ := key
  refine ⟨k1, ?_⟩
  have e : List.map bivVal (List.map Prod.snd l) = (l.map fun s => (s.1, bivVal s.2)).map Prod.snd := by
    rw [List.map_map, List.map_map]; rfl
  rw [e] at k2
  have hiso : ∀ (As : List (V3 ℝ)) (x y : V3 ℝ), dist3 (turns As x) (turns As y) = dist3 x y := by
    intro As x y
    induction As with
    | nil => rfl
    | cons A As ih => exact (turn_dist A _ _).trans ih
  have t1 := dist3_tri (vecVal w.theVec)
    (turns ((l.map fun s => (s.1, bivVal s.2)).map Prod.snd) (vecVal v)) pa
  have t2 := dist3_tri (turns ((l.map fun s => (s.1, bivVal s.2)).map Prod.snd) (vecVal v))
    (turns ((l.map fun s => (s.1, bivVal s.2)).map Prod.snd) pb) pa
  rw [hiso] at t2
  change dist3 (vecVal w.theVec) _ ≤ _ at k2
  linarith only [t1, t2, k2, hν, hD]

/-- **C81.**  The loop `S = direction(S * exp(.5*B))` in double precision with rates sampled
anywhere in every step, `v` the end coordinates to within `ν`: the error is the sum of the step
error, the sensor error, `ν` and the rounding errors, which grow linearly with the number of
steps. -/
theorem C81_sampled_binary64 [LibM F64] (ε Θ : ℝ) (hε0 : 0 ≤ ε) (hΘ0 : 0 ≤ Θ) (hlib : LibmOk ε)
    (l : List (ℝ × BiVector F64)) (h : ∀ s ∈ l, Angle s.2 ∧ norm3 (bivVal s.2) ≤ Θ)
    (hε : ε ≤ 1 / 100) (hΘ : Θ ≤ 2 ^ 40) (hn : steadyErr l.length ε Θ ≤ 1 / 64)
    (v : Vector F64) (fv : ∀ c ∈ comps .vec v, c.Finite) (hv : norm3 (vecVal v) ≤ 2 ^ 1000)
    (ω p : ℝ → V3 ℝ) (a b L H η ν : ℝ) (hL : 0 ≤ L) (hη : 0 ≤ η)
    (hl : Sampled ω H η a (l.map fun s => (s.1, bivVal s.2))) (hb : a + duration l = b)
    (hp : FixedInSpace ω p a b)
    (hω : ∀ t ∈ Set.Icc a b, ∀ u ∈ Set.Icc a b, dist3 (ω t) (ω u) ≤ L * |t - u|)
    (hν : dist3 (vecVal v) (p b) ≤ ν) :
    let S := steadyAttitude (l.map Prod.snd)
    let w : ImSpin F64 := S * v * reverse S
    (∀ k, (cf (promote .imsp w) k).Finite) ∧
    dist3 (vecVal w.theVec) (p a)
      ≤ (L / 2 * H + η) * duration l * norm3 (p a) + ν
        + steadyErr l.length ε Θ * norm3 (vecVal v) + 2 ^ (-1055 : ℤ) := by
  have hdur : duration (l.map fun s => (s.1, bivVal s.2)) = duration l := by
    simp [duration, List.map_map, Function.comp_def]
  have hD := C81_sampled ω p a b L H η (l.map fun s => (s.1, bivVal s.2)) hL hη hl (by rw [hdur, hb]) hp hω
  rw [hdur] at hD
  exact gyro_loop hε0 hΘ0 hlib l h hε hΘ hn v fv hv hν hD

/-- **C81.**  The same with the rates taken in the middle of the steps: second order. -/
theorem C81_midpoint_binary64 [LibM F64] (ε Θ : ℝ) (hε0 : 0 ≤ ε) (hΘ0 : 0 ≤ Θ) (hlib : LibmOk ε)
    (l : List (ℝ × BiVector F64)) (h : ∀ s ∈ l, Angle s.2 ∧ norm3 (bivVal s.2) ≤ Θ)
    (hε : ε ≤ 1 / 100) (hΘ : Θ ≤ 2 ^ 40) (hn : steadyErr l.length ε Θ ≤ 1 / 64)
    (v : Vector F64) (fv : ∀ c ∈ comps .vec v, c.Finite) (hv : norm3 (vecVal v) ≤ 2 ^ 1000)
    (ω ω' p : ℝ → V3 ℝ) (a b L A W H η ν : ℝ) (hL : 0 ≤ L) (hη : 0 ≤ η)
    (hl : MidSampled ω H η a (l.map fun s => (s.1, bivVal s.2))) (hb : a + duration l = b)
    (hp : FixedInSpace ω p a b) (hd : ∀ t ∈ Set.Icc a b, HasDeriv3 ω (ω' t) t)
    (hω : ∀ t ∈ Set.Icc a b, ∀ u ∈ Set.Icc a b, dist3 (ω' t) (ω' u) ≤ L * |t - u|)
    (hW : ∀ t ∈ Set.Icc a b, norm3 (ω t) ≤ W) (hA : ∀ t ∈ Set.Icc a b, norm3 (ω' t) ≤ A)
    (hν : dist3 (vecVal v) (p b) ≤ ν) :
    let S := steadyAttitude (l.map Prod.snd)
    let w : ImSpin F64 := S * v * reverse S
    (∀ k, (cf (promote .imsp w) k).Finite) ∧
    dist3 (vecVal w.theVec) (p a)
      ≤ ((L / 24 + A * (2 * W + η) / 6) * H ^ 2 + η) * duration l * norm3 (p a) + ν
        + steadyErr l.length ε Θ * norm3 (vecVal v) + 2 ^ (-1055 : ℤ) := by
  have hdur : duration (l.map fun s => (s.1, bivVal s.2)) = duration l := by
    simp [duration, List.map_map, Function.comp_def]
  have hD := C81_midpoint ω ω' p a b L A W H η (l.map fun s => (s.1, bivVal s.2)) hL hη hl
    (by rw [hdur, hb]) hp hd hω hW hA
  rw [hdur] at hD
  exact gyro_loop hε0 hΘ0 hlib l h hε hΘ hn v fv hv hν hD

/-! ## The hypotheses are met -/

/-- A body that turns faster and faster about its third axis. -/
noncomputable def spinUp (t : ℝ) : V3 ℝ := ⟨0, 0, 2 * t⟩

/-- A fixed direction seen from it. -/
noncomputable def seen (t : ℝ) : V3 ℝ := ⟨Real.cos (t ^ 2), -Real.sin (t ^ 2), 0⟩

theorem seen_fixed (a b : ℝ) : FixedInSpace spinUp seen a b := by
  intro t _
  have hq : HasDerivAt (fun t : ℝ => t ^ 2) (2 * t) t := by simpa using hasDerivAt_pow 2 t
  refine ⟨?_, ?_, ?_⟩
  · refine ((Real.hasDerivAt_cos (t ^ 2)).comp t hq).congr_deriv ?_
    simp only [cross, seen, spinUp]; ring
  · refine ((Real.hasDerivAt_sin (t ^ 2)).comp t hq).neg.congr_deriv ?_
    simp only [cross, seen, spinUp]; ring
  · refine (hasDerivAt_const t (0 : ℝ)).congr_deriv ?_
    simp only [cross, seen, spinUp]; ring

theorem spinUp_deriv (t : ℝ) : HasDeriv3 spinUp ⟨0, 0, 2⟩ t := by
  refine ⟨hasDerivAt_const t 0, hasDerivAt_const t 0, ?_⟩
  have h : HasDerivAt (fun t : ℝ => 2 * t) (2 * 1) t := (hasDerivAt_id t).const_mul 2
  exact h.congr_deriv (mul_one _)

theorem norm3_axis (z : ℝ) : norm3 ⟨0, 0, z⟩ = |z| := by
  simp [norm3, dot, Real.sqrt_mul_self_eq_abs]

/-- `C81_sampled` and `C81_midpoint` for it, with two steps of one second. -/
example : (∀ t ∈ Set.Icc (0 : ℝ) 2, ∀ u ∈ Set.Icc (0 : ℝ) 2, dist3 (spinUp t) (spinUp u) ≤ 2 * |t - u|) ∧
    MidSampled spinUp 1 0 0 [(1, ⟨0, 0, -1⟩), (1, ⟨0, 0, -3⟩)] ∧
    Sampled spinUp 1 0 0 [(1, ⟨0, 0, -2⟩), (1, ⟨0, 0, -4⟩)] ∧
    (∀ t ∈ Set.Icc (0 : ℝ) 2, norm3 (spinUp t) ≤ 4) ∧
    duration [((1 : ℝ), (⟨0, 0, -1⟩ : V3 ℝ)), (1, ⟨0, 0, -3⟩)] = 2 := by
  refine ⟨fun t _ u _ => ?_, ?_, ?_, fun t ht => ?_, ?_⟩
  · rw [dist3, show sub3 (spinUp t) (spinUp u) = ⟨0, 0, 2 * (t - u)⟩ by
      simp only [sub3, spinUp, V3.mk.injEq]; refine ⟨by ring, by ring, by ring⟩, norm3_axis, abs_mul]
    norm_num
  · simp only [MidSampled, Steps, spinUp, dist3, sub3, smul]
    norm_num [norm3_axis]
  · simp only [Sampled, Steps]
    refine ⟨by norm_num, ⟨le_rfl, 1, ⟨by norm_num, by norm_num⟩, ?_⟩, by norm_num,
      ⟨le_rfl, 2, ⟨by norm_num, by norm_num⟩, ?_⟩, trivial⟩ <;>
    · simp only [spinUp, dist3, sub3, smul]
      norm_num [norm3_axis]
  · rw [spinUp, norm3_axis, abs_le]
    constructor <;> linarith [ht.1, ht.2]
  · norm_num [duration]

/-- A million steps of one second of a body with the rate `-1` about its third axis, in double
precision with a correctly rounded library: the direction seen along the first axis at the end is
taken to where it was at the beginning, to seven digits. -/
example : letI := refLibM
    let S := steadyAttitude (List.replicate 1000000 (⟨⟨0, 0, 1⟩⟩ : BiVector F64))
    let w : ImSpin F64 := S * (⟨⟨1, 0, 0⟩⟩ : Vector F64) * reverse S
    dist3 (vecVal w.theVec) ⟨Real.cos 1000000, -Real.sin 1000000, 0⟩ ≤ 2 / 10000000 := by
  let _ := refLibM
  have f1 := F64.hasVal_one
  have f0 := F64.hasVal_zero'
  have hv : vecVal (⟨⟨1, 0, 0⟩⟩ : Vector F64) = ⟨1, 0, 0⟩ := by simp [vecVal, f1.2, f0.2]
  have hB : bivVal (⟨⟨0, 0, 1⟩⟩ : BiVector F64) = ⟨0, 0, 1⟩ := by simp [bivVal, f1.2, f0.2]
  have hnv : norm3 (⟨1, 0, 0⟩ : V3 ℝ) = 1 := by simp [norm3, dot]
  have hst : ∀ (n : ℕ) (a : ℝ), Sampled (fun _ => ⟨0, 0, -1⟩) 1 0 a
      ((List.replicate n ((1 : ℝ), (⟨⟨0, 0, 1⟩⟩ : BiVector F64))).map fun s => (s.1, bivVal s.2)) := by
    intro n
    induction n with
    | zero => exact fun _ => trivial
    | succ n ih =>
      intro a
      refine ⟨one_pos, ⟨le_rfl, a, ⟨le_rfl, by linarith⟩, ?_⟩, ih _⟩
      rw [hB]
      simp [dist3, sub3, smul, norm3, dot]
  have hdur : duration (List.replicate 1000000 ((1 : ℝ), (⟨⟨0, 0, 1⟩⟩ : BiVector F64))) = 1000000 := by
    rw [duration, List.map_replicate, List.sum_replicate]; norm_num
  have hp : FixedInSpace (fun _ => ⟨0, 0, -1⟩)
      (fun t => ⟨Real.cos (t - 1000000), Real.sin (t - 1000000), 0⟩) 0 1000000 := by
    intro t _
    have hq : HasDerivAt (fun t : ℝ => t - 1000000) 1 t := (hasDerivAt_id t).sub_const _
    refine ⟨?_, ?_, ?_⟩
    · refine ((Real.hasDerivAt_cos _).comp t hq).congr_deriv ?_
      simp only [cross]; ring
    · refine ((Real.hasDerivAt_sin _).comp t hq).congr_deriv ?_
      simp only [cross]; ring
    · refine (hasDerivAt_const t (0 : ℝ)).congr_deriv ?_
      simp only [cross]; ring
  have hK : steadyErr (List.replicate 1000000 ((1 : ℝ), (⟨⟨0, 0, 1⟩⟩ : BiVector F64))).length
      (2 ^ (-53 : ℤ)) 2 ≤ 1 / 10000000 := by
    rw [List.length_replicate]
    unfold steadyErr; norm_num
  have key := (C81_sampled_binary64 (2 ^ (-53 : ℤ)) 2 (by positivity) (by norm_num) refLibM_ok.1
    (List.replicate 1000000 (1, ⟨⟨0, 0, 1⟩⟩)) (by
      intro s hs
      rw [List.eq_of_mem_replicate hs]; exact angle_e12) (by norm_num) (by norm_num)
    (hK.trans (by norm_num)) ⟨⟨1, 0, 0⟩⟩ (by
      intro c hc
      simp only [comps, List.mem_cons, List.not_mem_nil, or_false] at hc
      rcases hc with rfl | rfl | rfl
      · exact f1.1
      · exact f0.1
      · exact f0.1) (by rw [hv, hnv]; exact one_le_pow₀ one_le_two) _ _ 0 1000000 0 1 0 0 le_rfl le_rfl
    (hst _ 0) (by rw [hdur]; ring) hp (by simp [dist3, sub3, norm3, dot])
    (by rw [hv]; simp [dist3, sub3, norm3, dot])).2
  rw [List.map_replicate] at key
  simp only [zero_sub, Real.cos_neg, Real.sin_neg] at key
  refine key.trans ?_
  rw [hv, hnv]
  have h2 : (2 : ℝ) ^ (-1055 : ℤ) ≤ 2 ^ (-30 : ℤ) := zpow_le_zpow_right₀ one_le_two (by norm_num)
  have h3 : (2 : ℝ) ^ (-30 : ℤ) ≤ 1 / 10000000 := by norm_num
  have h4 := h2.trans h3
  generalize (2 : ℝ) ^ (-1055 : ℤ) = z at *
  linarith

end Engabra
