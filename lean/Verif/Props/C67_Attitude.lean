import Verif.Lemmas.Renorm

/-! # C67: attitudes that are updated and renormalised for ever

The loop `S = direction(R * S)` (or `direction(S * R)`) in binary64, with any number of turns: the
usual way to integrate an attitude.  Without `direction` the length of the spinor drifts with the
number of products (C45); with it, it does not. -/

namespace Engabra

open F64 (Finite HasVal)
open Spec

/-- `S = direction(R * S)` for a factor marked `true`, `S = direction(S * R)` for the others. -/
noncomputable def renormLoop (S : Spinor F64) (Rs : List (Bool × Spinor F64)) : Spinor F64 :=
  Rs.foldl (fun S R => directionTy .spin (if R.1 then R.2 * S else S * R.2)) S

/-- Specification: the same with exact unit spinors and no rounding. -/
noncomputable def exactLoop (E : Spinor ℝ) (Rs : List (Bool × Spinor F64)) : Spinor ℝ :=
  Rs.foldl (fun E R => if R.1 then unitS (realTy .spin R.2) * E else E * unitS (realTy .spin R.2)) E

/-- Specification: finite and of a length between `2^-240` and `2^240`. -/
def Moderate240 (S : Spinor F64) : Prop :=
  (∀ c ∈ comps .spin S, c.Finite) ∧
    (2 : ℝ) ^ (-240 : ℤ) ≤ euclid .spin S ∧ euclid .spin S ≤ 2 ^ (240 : ℤ)

theorem moderate_of_unit {S : Spinor F64} (f : FiniteTy .spin S)
    (h : |euclid .spin S - 1| ≤ 10 * uR) : Moderate240 S := by
  have hu1 := uR_small
  obtain ⟨h1, h2⟩ := abs_le.1 h
  refine ⟨finite_spin f, ?_, ?_⟩
  · have : (2 : ℝ) ^ (-240 : ℤ) ≤ 2 ^ (-1 : ℤ) := zpow_le_zpow_right₀ (by norm_num) (by norm_num)
    refine this.trans ?_
    have e : (2 : ℝ) ^ (-1 : ℤ) = 1 / 2 := by norm_num
    rw [e]
    generalize uR = u at *
    linarith only [h1, hu1]
  · have : (2 : ℝ) ^ (1 : ℤ) ≤ 2 ^ (240 : ℤ) := zpow_le_zpow_right₀ (by norm_num) (by norm_num)
    refine le_trans ?_ this
    rw [zpow_one]
    generalize uR = u at *
    linarith only [h2, hu1]

/-- One turn. -/
theorem renorm_turn {S : Spinor F64} (R : Bool × Spinor F64) (hS : Moderate240 S)
    (hR : Moderate240 R.2) :
    let q := directionTy .spin (if R.1 then R.2 * S else S * R.2)
    FiniteTy .spin q ∧ |euclid .spin q - 1| ≤ 10 * uR ∧
    length .mv (realMV .spin q - promote .spin (if R.1 then
      unitS (realTy .spin R.2) * unitS (realTy .spin S) else
      unitS (realTy .spin S) * unitS (realTy .spin R.2))) ≤ 65 * uR := by
  obtain ⟨b, R⟩ := R
  cases b
  · exact renorm_step S R (Or.inr ⟨rfl, rfl⟩) rfl (finiteTy_of .spin R hR.1) (finiteTy_of .spin S hS.1)
      hR.2.1 hR.2.2 hS.2.1 hS.2.2
  · exact renorm_step R S (Or.inl ⟨rfl, rfl⟩) rfl (finiteTy_of .spin R hR.1) (finiteTy_of .spin S hS.1)
      hR.2.1 hR.2.2 hS.2.1 hS.2.2

theorem renorm_unit (Rs : List (Bool × Spinor F64)) (hR : ∀ R ∈ Rs, Moderate240 R.2) :
    ∀ S : Spinor F64, FiniteTy .spin S → |euclid .spin S - 1| ≤ 10 * uR →
      FiniteTy .spin (renormLoop S Rs) ∧ |euclid .spin (renormLoop S Rs) - 1| ≤ 10 * uR := by
  induction Rs with
  | nil => exact fun S f h => ⟨f, h⟩
  | cons R Rs ih =>
    intro S f h
    obtain ⟨g1, g2, -⟩ := renorm_turn R (moderate_of_unit f h) (hR R (by simp))
    exact ih (fun R' h' => hR R' (by simp [h'])) _ g1 g2

/-- **C67.**  After any positive number of turns, with factors of any length between `2^-240` and
`2^240`, the attitude is finite and a unit spinor to ten roundings. -/
theorem C67_unit (S : Spinor F64) (R : Bool × Spinor F64) (Rs : List (Bool × Spinor F64))
    (hS : Moderate240 S) (hR : ∀ R' ∈ R :: Rs, Moderate240 R'.2) :
    (∀ c ∈ comps .spin (renormLoop S (R :: Rs)), c.Finite) ∧
    |euclid .spin (renormLoop S (R :: Rs)) - 1| ≤ 10 * 2 ^ (-53 : ℤ) := by
  obtain ⟨g1, g2, -⟩ := renorm_turn R hS (hR R (by simp))
  obtain ⟨h1, h2⟩ := renorm_unit Rs (fun R' h' => hR R' (by simp [h'])) _ g1 g2
  exact ⟨finite_spin h1, h2⟩

theorem length_spin_sub (a b : Spinor ℝ) :
    length .spin (a - b) = length .mv (promote .spin a - promote .spin b) := by
  rw [← length_promote]
  congr 1
  mv_ring

/-- **C67.**  The error of the attitude grows at most linearly: 75 roundings for every turn. -/
theorem C67_drift (S : Spinor F64) (E : Spinor ℝ) (Rs : List (Bool × Spinor F64))
    (fS : ∀ c ∈ comps .spin S, c.Finite) (hS : |euclid .spin S - 1| ≤ 10 * 2 ^ (-53 : ℤ))
    (hR : ∀ R ∈ Rs, Moderate240 R.2) :
    length .spin (realTy .spin (renormLoop S Rs) - exactLoop E Rs)
      ≤ length .spin (realTy .spin S - E) + Rs.length * (75 * 2 ^ (-53 : ℤ)) := by
  change |_| ≤ 10 * uR at hS
  change _ ≤ _ + _ * (75 * uR)
  have fS' := finiteTy_of .spin S fS
  clear fS
  induction Rs generalizing S E with
  | nil => exact le_of_eq (by simp [renormLoop, exactLoop])
  | cons R Rs ih =>
    have hm := moderate_of_unit fS' hS
    have hm' := hR R (by simp)
    obtain ⟨g1, g2, g3⟩ := renorm_turn R hm hm'
    have hR0 : 0 < length .spin (realTy .spin R.2) := by
      rw [length_realTy]; exact lt_of_lt_of_le (F64.two_zpow_pos _) hm'.2.1
    have hS0 : 0 < length .spin (realTy .spin S) := by
      rw [length_realTy]; exact lt_of_lt_of_le (F64.two_zpow_pos _) hm.2.1
    have hlt : length .mv (promote .spin (unitS (realTy .spin S)) - promote .spin E)
        ≤ 10 * uR + length .spin (realTy .spin S - E) := by
      rw [length_spin_sub]
      refine (length_tri _ (promote .spin (realTy .spin S)) _).trans (add_le_add ?_ le_rfl)
      rw [unitS_self hS0, length_realTy]; exact hS
    refine (ih _ (if R.1 then unitS (realTy .spin R.2) * E else E * unitS (realTy .spin R.2))
      (fun R' h' => hR R' (by simp [h'])) g2 g1).trans ?_
    have key : length .spin (realTy .spin (directionTy .spin (if R.1 then R.2 * S else S * R.2))
        - (if R.1 then unitS (realTy .spin R.2) * E else E * unitS (realTy .spin R.2)))
        ≤ 75 * uR + length .spin (realTy .spin S - E) := by
      rw [length_spin_sub]
      refine (length_tri _ _ _).trans ((add_le_add g3 (c := _) (d := 10 * uR + length .spin (realTy .spin S - E)) ?_).trans
        (le_of_eq (by ring)))
      refine le_trans (le_of_eq ?_) hlt
      generalize unitS (realTy .spin S) = U
      have hX := length_unitS hR0
      generalize unitS (realTy .spin R.2) = X at *
      have e1 : promote .spin (X * U) - promote .spin (X * E)
          = promote .spin X * (promote .spin U - promote .spin E) := by mv_ring
      have e2 : promote .spin (U * X) - promote .spin (E * X)
          = (promote .spin U - promote .spin E) * promote .spin X := by mv_ring
      rcases R.1 with _ | _
      · simp only [Bool.false_eq_true, if_false]
        rw [e2, length_mul_right .spin rfl, hX, mul_one]
      · simp only [if_true]
        rw [e1, length_mul_left .spin rfl, hX, one_mul]
    rw [List.length_cons]
    push_cast
    linarith only [key]

/-- **C67.**  However long it has run, the attitude turns all vectors by one and the same exact
rotation `v ↦ U v reverse(U)`, up to 75 roundings. -/
theorem C67_rigid (S : Spinor F64) (R : Bool × Spinor F64) (Rs : List (Bool × Spinor F64))
    (hS : Moderate240 S) (hR : ∀ R' ∈ R :: Rs, Moderate240 R'.2) :
    ∃ U : Spinor ℝ, length .spin U = 1 ∧ ∀ v : Vector F64, (∀ c ∈ comps .vec v, c.Finite) →
      norm3 (vecVal v) ≤ 2 ^ 1000 →
      let T := renormLoop S (R :: Rs)
      let w : ImSpin F64 := T * v * reverse T
      (∀ k, (cf (promote .imsp w) k).Finite) ∧
      dist3 (vecVal w.theVec) (sandwich U (realTy .vec v)).xyz
        ≤ 75 * 2 ^ (-53 : ℤ) * norm3 (vecVal v) + 2 ^ (-1055 : ℤ) ∧
      |(w.theTri.theData.d0.value : ℝ)|
        ≤ 75 * 2 ^ (-53 : ℤ) * norm3 (vecVal v) + 2 ^ (-1055 : ℤ) := by
  obtain ⟨f, hu⟩ := C67_unit S R Rs hS hR
  generalize renormLoop S (R :: Rs) = T at *
  have fT := finiteTy_of .spin T f
  have hm := moderate_of_unit fT hu
  have hT0 : 0 < length .spin (realTy .spin T) := by
    rw [length_realTy]; exact lt_of_lt_of_le (F64.two_zpow_pos _) hm.2.1
  have hu0 := uR_nonneg
  have hu1 := uR_small
  have hu2 := uR_le
  have hd : length .mv (realMV .spin T - promote .spin (unitS (realTy .spin T))) ≤ 10 * uR := by
    rw [length_mv_sub_comm]
    refine (unitS_self hT0).le.trans ?_
    rw [length_realTy]; exact hu
  refine ⟨unitS (realTy .spin T), length_unitS hT0, fun v fv hv => ?_⟩
  obtain ⟨g1, g2⟩ := sandwich_est .vec v fT (finiteTy_of .vec v fv) (length_unitS hT0) hd (by
    generalize uR = u at *; linarith only [hu1]) (by rw [euclid_vec3]; exact hv)
  intro T' w
  refine ⟨g1, ?_⟩
  rw [show realMV .vec v = promote .vec (realTy .vec v) from rfl, vec_sandwich, euclid_vec3] at g2
  have hg : length .mv (realMV .imsp w - promote .vec (sandwich (unitS (realTy .spin T)) (realTy .vec v)))
      ≤ 75 * 2 ^ (-53 : ℤ) * norm3 (vecVal v) + 2 ^ (-1055 : ℤ) := by
    refine le_trans (show _ ≤ _ from g2) (add_le_add (mul_le_mul_of_nonneg_right ?_
      (Real.sqrt_nonneg _)) le_rfl)
    change _ ≤ 75 * uR
    generalize uR = u at *
    have h2 : u ^ 2 ≤ 1 / 1000000 * u := by
      rw [pow_two]; exact mul_le_mul_of_nonneg_right hu2 hu0
    have h3 : u ^ 3 ≤ u ^ 2 := pow_le_pow_of_le_one hu0 (hu1.trans (by norm_num)) (by norm_num)
    have h4 : u ^ 4 ≤ u ^ 2 := pow_le_pow_of_le_one hu0 (hu1.trans (by norm_num)) (by norm_num)
    have e : (1 + 10 * u) ^ 2 * (1 + 27 * u) ^ 2 - 1
        = 74 * u + 1909 * u ^ 2 + 19980 * u ^ 3 + 72900 * u ^ 4 := by ring
    rw [e]
    linarith only [h2, h3, h4, hu0]
  exact ⟨(imsp_parts w _).1.trans hg, (imsp_parts w _).2.trans hg⟩

/-! ## Attitudes from angular increments -/

/-- `S = direction(S * exp(.5*A))` for every angle of the list, from the identity. -/
noncomputable def steadyAttitude [LibM F64] (As : List (BiVector F64)) : Spinor F64 :=
  As.foldl (fun S A => directionTy .spin
    (S * expBiv ((Dbl.lit (1 / 2) : F64) * A : BiVector F64) : Spinor F64)) gone

theorem steady_eq [LibM F64] (As : List (BiVector F64)) :
    steadyAttitude As
      = renormLoop gone (As.map fun A => (false, expBiv ((Dbl.lit (1 / 2) : F64) * A : BiVector F64))) := by
  unfold steadyAttitude renormLoop
  rw [List.foldl_map]
  simp only [Bool.false_eq_true, if_false]

theorem gone_unit : FiniteTy .spin (gone : Spinor F64) ∧ realTy .spin (gone : Spinor F64) = gone ∧
    length .spin (gone : Spinor ℝ) = 1 := by
  have h1 : HasVal (1 : F64) 1 := F64.hasVal_one
  have h0 : HasVal (0 : F64) 0 := F64.hasVal_zero'
  refine ⟨finiteTy_of .spin _ ?_, ?_, ?_⟩
  · simp only [comps, engabra, List.mem_cons, List.not_mem_nil, or_false, forall_eq_or_imp, forall_eq]
    exact ⟨h1.1, h0.1, h0.1, h0.1⟩
  · simp only [realTy, mapTy, engabra, h1.2, h0.2, Rat.cast_one, Rat.cast_zero]
  · rw [length_eq]
    simp only [magSqTy, engabra]; norm_num

theorem small_angle {ε Θ : ℝ} (hε : ε ≤ 1 / 100) (hΘ : Θ ≤ 2 ^ 40) :
    22 / 10 * ε + (20 + 6 * Θ) * uR ≤ 1 / 2 := by
  have h1 : (20 + 6 * Θ) * uR ≤ (20 + 6 * 2 ^ 40) * uR :=
    mul_le_mul_of_nonneg_right (by linarith only [hΘ]) uR_nonneg
  have h2 : ((20 + 6 * 2 ^ 40) * uR : ℝ) ≤ 1 / 100 := by unfold uR; norm_num
  exact (add_le_add (mul_le_mul_of_nonneg_left hε (by norm_num)) (h1.trans h2)).trans (by norm_num)

theorem length_mv_self (X : MultiVector ℝ) : length .mv (X - X) = 0 := by
  rw [length_eq, show magSqTy .mv (X - X) = 0 by simp only [magSqTy, engabra]; ring, Real.sqrt_zero]

/-- The factor made of one angle. -/
theorem angle_moderate [LibM F64] {ε Θ : ℝ} (hε0 : 0 ≤ ε) (hε : ε ≤ 1 / 100) (hlib : LibmOk ε)
    (A : BiVector F64) (h : Angle A) (hA : norm3 (bivVal A) ≤ Θ)
    (hs : 22 / 10 * ε + (20 + 6 * Θ) * uR ≤ 1 / 2) :
    Moderate240 (expBiv ((Dbl.lit (1 / 2) : F64) * A : BiVector F64)) ∧
    ∃ X : Spinor ℝ, length .spin X = 1 ∧ (∀ v : Vector ℝ, (sandwich X v).xyz = turn (bivVal A) v.xyz) ∧
      length .mv (promote .spin (unitS (realTy .spin
        (expBiv ((Dbl.lit (1 / 2) : F64) * A : BiVector F64)))) - promote .spin X)
        ≤ 2 * (22 / 10 * ε + (20 + 6 * Θ) * uR) := by
  obtain ⟨X, x1, x2, x3, x4⟩ := angle_near hε0 hε hlib A h hA
  generalize expBiv ((Dbl.lit (1 / 2) : F64) * A : BiVector F64) = Q at *
  generalize 22 / 10 * ε + (20 + 6 * Θ) * uR = d at *
  have e1 := length_le_add (realMV .spin Q) (promote .spin X)
  have e2 := length_le_add (promote .spin X) (realMV .spin Q)
  rw [length_mv_sub_comm (promote .spin _)] at e2
  rw [length_realMV, length_promote, x1] at e1 e2
  have l1 : 1 / 2 ≤ euclid .spin Q := by linarith only [e2, x4, hs]
  have l2 : euclid .spin Q ≤ 2 := by linarith only [e1, x4, hs]
  refine ⟨⟨finite_spin x3, ?_, ?_⟩, X, x1, x2, ?_⟩
  · refine le_trans (zpow_le_zpow_right₀ (n := -1) (by norm_num) (by norm_num)) (le_trans ?_ l1)
    norm_num
  · refine l2.trans (le_trans ?_ (zpow_le_zpow_right₀ (m := 1) (by norm_num) (by norm_num)))
    norm_num
  · have hX : unitS X = X := by
      unfold unitS
      rw [x1]
      simp only [mapTy, div_one]
    have h5 := unitS_near (x := realTy .spin Q) (y := X) (by rw [length_realTy]; linarith only [l1])
      (by rw [x1]; norm_num)
    rw [hX, x1, div_one] at h5
    exact h5.trans (mul_le_mul_of_nonneg_left x4 zero_le_two)

/-- **C67.**  `S = direction(S * exp(.5*A))` repeated for any angles, without a limit on their
number: the attitude remains a unit spinor to ten roundings. -/
theorem C67_steady_unit [LibM F64] (ε Θ : ℝ) (hε0 : 0 ≤ ε) (hε : ε ≤ 1 / 100) (hlib : LibmOk ε)
    (As : List (BiVector F64)) (h : ∀ A ∈ As, Angle A ∧ norm3 (bivVal A) ≤ Θ) (hΘ : Θ ≤ 2 ^ 40) :
    (∀ c ∈ comps .spin (steadyAttitude As), c.Finite) ∧
    |euclid .spin (steadyAttitude As) - 1| ≤ 10 * 2 ^ (-53 : ℤ) := by
  have hs : 22 / 10 * ε + (20 + 6 * Θ) * uR ≤ 1 / 2 := small_angle hε hΘ
  obtain ⟨g1, g2, g3⟩ := gone_unit
  rw [steady_eq]
  obtain ⟨f, k⟩ := renorm_unit (As.map fun A => (false, expBiv ((Dbl.lit (1 / 2) : F64) * A : BiVector F64)))
    (fun R hR => by
      obtain ⟨A, hA, rfl⟩ := List.mem_map.1 hR
      exact (angle_moderate hε0 hε hlib A (h A hA).1 (h A hA).2 hs).1) gone g1 (by
      rw [← length_realTy, g2, g3, sub_self, abs_zero]
      exact mul_nonneg (by norm_num) uR_nonneg)
  exact ⟨finite_spin f, k⟩

/-- Specification: relative error after `n` angles of size at most `Θ`, with the library's `sin` and
`cos` accurate to `ε`. -/
noncomputable def steadyErr (n : ℕ) (ε Θ : ℝ) : ℝ :=
  n * (9 * ε + (240 + 25 * Θ) * 2 ^ (-53 : ℤ)) + 57 * 2 ^ (-53 : ℤ)

theorem steady_near [LibM F64] {ε Θ : ℝ} (hε0 : 0 ≤ ε) (hε : ε ≤ 1 / 100) (hlib : LibmOk ε)
    (hs : 22 / 10 * ε + (20 + 6 * Θ) * uR ≤ 1 / 2) (As : List (BiVector F64)) :
    ∀ (S : Spinor F64) (E : Spinor ℝ) (rot : V3 ℝ → V3 ℝ),
      (∀ A ∈ As, Angle A ∧ norm3 (bivVal A) ≤ Θ) → FiniteTy .spin S →
      |euclid .spin S - 1| ≤ 10 * uR → length .spin E = 1 →
      (∀ v : Vector ℝ, (sandwich E v).xyz = rot v.xyz) →
      ∃ E' : Spinor ℝ, length .spin E' = 1 ∧
        (∀ v : Vector ℝ, (sandwich E' v).xyz = rot (turns (As.map bivVal) v.xyz)) ∧
        length .spin (realTy .spin (renormLoop S (As.map fun A =>
          (false, expBiv ((Dbl.lit (1 / 2) : F64) * A : BiVector F64)))) - E')
          ≤ length .spin (realTy .spin S - E)
            + As.length * (75 * uR + 2 * (22 / 10 * ε + (20 + 6 * Θ) * uR)) := by
  induction As with
  | nil =>
    intro S E rot _ _ _ h1 h2
    exact ⟨E, h1, h2, le_of_eq (by simp [renormLoop])⟩
  | cons A As ih =>
    intro S E rot hA fS hS h1 h2
    obtain ⟨hm, X, x1, x2, x3⟩ := angle_moderate hε0 hε hlib A (hA A (by simp)).1 (hA A (by simp)).2 hs
    have hstep := C67_drift S E [(false, expBiv ((Dbl.lit (1 / 2) : F64) * A : BiVector F64))]
      (finite_spin fS) hS (by simpa using hm)
    obtain ⟨g1, g2, -⟩ := renorm_turn (false, expBiv ((Dbl.lit (1 / 2) : F64) * A : BiVector F64))
      (moderate_of_unit fS hS) hm
    obtain ⟨E', e1, e2, e3⟩ := ih _ (E * X) (fun v => rot (turn (bivVal A) v))
      (fun B hB => hA B (by simp [hB])) g1 g2 (by rw [length_spin_mul, h1, x1, one_mul])
      (fun v => by rw [C22_comp, h2, x2])
    refine ⟨E', e1, e2, e3.trans ?_⟩
    have key : length .spin (realTy .spin (renormLoop S
        [(false, expBiv ((Dbl.lit (1 / 2) : F64) * A : BiVector F64))]) - E * X)
        ≤ length .spin (realTy .spin S - E)
          + (75 * uR + 2 * (22 / 10 * ε + (20 + 6 * Θ) * uR)) := by
      rw [length_spin_sub] at hstep ⊢
      refine (length_tri _ _ _).trans ((add_le_add hstep (c := _)
        (d := 2 * (22 / 10 * ε + (20 + 6 * Θ) * uR)) ?_).trans (le_of_eq ?_))
      · refine le_trans (le_of_eq ?_) x3
        simp only [exactLoop, List.foldl_cons, List.foldl_nil, Bool.false_eq_true, if_false]
        generalize unitS (realTy .spin (expBiv ((Dbl.lit (1 / 2) : F64) * A : BiVector F64))) = U
        rw [show promote .spin (E * U) - promote .spin (E * X)
          = promote .spin E * (promote .spin U - promote .spin X) by mv_ring,
          length_mul_left .spin rfl, h1, one_mul]
      · rw [List.length_singleton]
        unfold uR
        push_cast; ring
    rw [List.length_cons]
    push_cast
    have e : (As.length + 1 : ℝ) * (75 * uR + 2 * (22 / 10 * ε + (20 + 6 * Θ) * uR))
        = As.length * (75 * uR + 2 * (22 / 10 * ε + (20 + 6 * Θ) * uR))
          + (75 * uR + 2 * (22 / 10 * ε + (20 + 6 * Θ) * uR)) := by ring
    rw [e]
    exact (add_le_add key le_rfl).trans (le_of_eq (by ring))

/-- **C67.**  Vectors turned by the renormalised attitude are the vectors turned by the exact
rotations of Euclidean space, up to an error that grows linearly with the number of turns. -/
theorem C67_steady_turns [LibM F64] (ε Θ : ℝ) (hε0 : 0 ≤ ε) (hΘ0 : 0 ≤ Θ) (hlib : LibmOk ε)
    (As : List (BiVector F64)) (h : ∀ A ∈ As, Angle A ∧ norm3 (bivVal A) ≤ Θ)
    (hε : ε ≤ 1 / 100) (hΘ : Θ ≤ 2 ^ 40) (hn : steadyErr As.length ε Θ ≤ 1 / 64)
    (v : Vector F64) (fv : ∀ c ∈ comps .vec v, c.Finite) (hv : norm3 (vecVal v) ≤ 2 ^ 1000) :
    let w : ImSpin F64 := steadyAttitude As * v * reverse (steadyAttitude As)
    (∀ k, (cf (promote .imsp w) k).Finite) ∧
    dist3 (vecVal w.theVec) (turns (As.map bivVal) (vecVal v))
      ≤ steadyErr As.length ε Θ * norm3 (vecVal v) + 2 ^ (-1055 : ℤ) ∧
    |(w.theTri.theData.d0.value : ℝ)|
      ≤ steadyErr As.length ε Θ * norm3 (vecVal v) + 2 ^ (-1055 : ℤ) := by
  have hu0 := uR_nonneg
  have hu2 := uR_le
  have hs : 22 / 10 * ε + (20 + 6 * Θ) * uR ≤ 1 / 2 := small_angle hε hΘ
  obtain ⟨o1, o2, o3⟩ := gone_unit
  obtain ⟨E, e1, e2, e3⟩ := steady_near hε0 hε hlib hs As gone gone id h o1 (by
      rw [← length_realTy, o2, o3, sub_self, abs_zero]
      exact mul_nonneg (by norm_num) uR_nonneg) o3 (fun v => by rw [C22_one]; rfl)
  rw [o2, ← steady_eq, length_spin_sub gone, length_mv_self, zero_add, length_spin_sub] at e3
  obtain ⟨f, -⟩ := C67_steady_unit ε Θ hε0 hε hlib As h hΘ
  generalize steadyAttitude As = T at *
  set n := As.length
  have hn0 : (0 : ℝ) ≤ n := Nat.cast_nonneg _
  have hD : (n : ℝ) * (75 * uR + 2 * (22 / 10 * ε + (20 + 6 * Θ) * uR))
      ≤ 100 / 201 * (steadyErr n ε Θ - 57 * uR) := by
    change _ ≤ 100 / 201 * (n * (9 * ε + (240 + 25 * Θ) * uR) + 57 * uR - 57 * uR)
    have a1 : 0 ≤ n * ε := by positivity
    have a2 : 0 ≤ n * uR := by positivity
    have a3 : 0 ≤ n * (Θ * uR) := by positivity
    have q1 : (n : ℝ) * (75 * uR + 2 * (22 / 10 * ε + (20 + 6 * Θ) * uR))
        = 44 / 10 * (n * ε) + 115 * (n * uR) + 12 * (n * (Θ * uR)) := by ring
    have q2 : 100 / 201 * ((n : ℝ) * (9 * ε + (240 + 25 * Θ) * uR) + 57 * uR - 57 * uR)
        = 100 / 201 * (9 * (n * ε) + 240 * (n * uR) + 25 * (n * (Θ * uR))) := by ring
    rw [q1, q2]
    generalize (n : ℝ) * ε = p at *
    generalize (n : ℝ) * uR = q at *
    generalize (n : ℝ) * (Θ * uR) = r at *
    linarith only [a1, a2, a3]
  have hD0 : 0 ≤ (n : ℝ) * (75 * uR + 2 * (22 / 10 * ε + (20 + 6 * Θ) * uR)) := by positivity
  generalize (n : ℝ) * (75 * uR + 2 * (22 / 10 * ε + (20 + 6 * Θ) * uR)) = D at *
  generalize steadyErr n ε Θ = K at *
  obtain ⟨g1, g2⟩ := sandwich_est .vec v (finiteTy_of .spin T f) (finiteTy_of .vec v fv) e1 e3 (by
    generalize uR = u at *; linarith only [hD, hn, hu0]) (by rw [euclid_vec3]; exact hv)
  intro w
  refine ⟨g1, ?_⟩
  rw [show realMV .vec v = promote .vec (realTy .vec v) from rfl, vec_sandwich, euclid_vec3] at g2
  have hx : (sandwich E (realTy .vec v)).xyz = turns (As.map bivVal) (vecVal v) := e2 _
  have hg : length .mv (realMV .imsp w - promote .vec (sandwich E (realTy .vec v)))
      ≤ K * norm3 (vecVal v) + 2 ^ (-1055 : ℤ) := by
    refine le_trans (show _ ≤ _ from g2) (add_le_add (mul_le_mul_of_nonneg_right ?_
      (Real.sqrt_nonneg _)) le_rfl)
    generalize uR = u at *
    have hD1 : D ≤ 1 / 100 := by linarith only [hD, hn, hu0]
    have h1 : (1 + D) ^ 2 ≤ 1 + 201 / 100 * D := by nlinarith only [hD0, hD1]
    have h2 : (1 + 27 * u) ^ 2 ≤ 1 + 55 * u := by nlinarith only [hu0, hu2]
    have h3 : (1 + D) ^ 2 * (1 + 27 * u) ^ 2 ≤ (1 + 201 / 100 * D) * (1 + 55 * u) :=
      mul_le_mul h1 h2 (by positivity) (by positivity)
    have h4 : D * u ≤ 1 / 100 * u := mul_le_mul_of_nonneg_right hD1 hu0
    nlinarith only [h3, h4, hD, hu0]
  rw [← hx]
  exact ⟨(imsp_parts w _).1.trans hg, (imsp_parts w _).2.trans hg⟩

/-! ## Why `direction` is needed -/

/-- **C67.**  Without `direction` a factor that is too long by only forty roundings makes the
attitude grow beyond any use. -/
theorem C67_plain_diverges (R : Spinor F64) (fR : ∀ c ∈ comps .spin R, c.Finite)
    (h1 : 1 + 40 * 2 ^ (-53 : ℤ) ≤ euclid .spin R) (h2 : euclid .spin R ≤ 2) :
    ∃ n : ℕ, 2 ^ (240 : ℤ) < euclid .spin ((fun S : Spinor F64 => R * S)^[n] gone) := by
  change 1 + 40 * uR ≤ _ at h1
  by_contra hcon
  push Not at hcon
  have hu0 := uR_nonneg
  have hu1 := uR_le
  have key : ∀ n : ℕ, FiniteTy .spin ((fun S : Spinor F64 => R * S)^[n] gone) ∧
      (1 + 10 * uR) ^ n ≤ euclid .spin ((fun S : Spinor F64 => R * S)^[n] gone) := by
    intro n
    induction n with
    | zero =>
      obtain ⟨g1, g2, g3⟩ := gone_unit
      refine ⟨g1, ?_⟩
      rw [pow_zero, Function.iterate_zero, id, ← length_realTy, g2, g3]
    | succ n ih =>
      obtain ⟨i1, i2⟩ := ih
      have i3 := hcon n
      rw [Function.iterate_succ', Function.comp]
      generalize (fun S : Spinor F64 => R * S)^[n] gone = S at *
      have hS1 : 1 ≤ euclid .spin S := (one_le_pow₀ (by linarith only [hu0])).trans i2
      have hp1 : euclid .spin S ≤ euclid .spin R * euclid .spin S := by
        have := mul_le_mul_of_nonneg_right (le_trans (by linarith only [hu0] : (1 : ℝ) ≤ 1 + 40 * uR) h1)
          (zero_le_one.trans hS1)
        rwa [one_mul] at this
      have hp2 : euclid .spin R * euclid .spin S ≤ 2 ^ 1022 := by
        calc euclid .spin R * euclid .spin S ≤ 2 * 2 ^ (240 : ℤ) :=
              mul_le_mul h2 i3 (zero_le_one.trans hS1) (by norm_num)
          _ = 2 ^ (241 : ℤ) := by
              rw [show (241 : ℤ) = 1 + 240 from by norm_num only, zpow_add₀ (by norm_num), zpow_one]
          _ ≤ 2 ^ (1022 : ℤ) := zpow_le_zpow_right₀ (by norm_num) (by norm_num)
          _ = _ := by rw [← zpow_natCast]; rfl
      obtain ⟨g1, g2⟩ := product_real .spin .spin R S (finiteTy_of .spin R fR) i1 hp2
      refine ⟨g1, ?_⟩
      have e2 := length_le_add (realMV .spin R * realMV .spin S) (realMV .spin (R * S))
      rw [length_mv_sub_comm (realMV .spin R * realMV .spin S), length_realMV,
        show realMV .spin R * realMV .spin S = promote .spin (realTy .spin R) * realMV .spin S from rfl,
        length_mul_left .spin rfl, length_realTy, length_realMV] at e2
      have g3 : euclid .spin R * euclid .spin S
          ≤ 27 * uR * (euclid .spin R * euclid .spin S) + 2 ^ (-1057 : ℤ) + euclid .spin (R * S) :=
        e2.trans (add_le_add g2 le_rfl)
      have ht : (2 : ℝ) ^ (-1057 : ℤ) ≤ uR := zpow_le_zpow_right₀ (by norm_num) (by norm_num)
      have hq : (1 + 40 * uR) * euclid .spin S ≤ euclid .spin R * euclid .spin S :=
        mul_le_mul_of_nonneg_right h1 (zero_le_one.trans hS1)
      change _ ≤ euclid .spin (R * S)
      rw [pow_succ]
      generalize (2 : ℝ) ^ (-1057 : ℤ) = τ at *
      generalize uR = u at *
      generalize euclid .spin (R * S) = z at *
      generalize euclid .spin R * euclid .spin S = q at *
      generalize euclid .spin S = s at *
      have i4 : (1 + 10 * u) ^ n * (1 + 10 * u) ≤ s * (1 + 10 * u) :=
        mul_le_mul_of_nonneg_right i2 (by linarith only [hu0])
      refine i4.trans ?_
      have hus : u ≤ u * s := by
        have := mul_le_mul_of_nonneg_left hS1 hu0; linarith only [this]
      have huu : u * u * s ≤ 1 / 1000000 * (u * s) := by
        have := mul_le_mul_of_nonneg_right hu1 (mul_nonneg hu0 (zero_le_one.trans hS1))
        linarith only [this]
      have hk : (1 - 27 * u) * ((1 + 40 * u) * s) ≤ (1 - 27 * u) * q :=
        mul_le_mul_of_nonneg_left hq (by linarith only [hu1])
      have hk' : (1 - 27 * u) * ((1 + 40 * u) * s) = s + 13 * (u * s) - 1080 * (u * u * s) := by ring
      rw [hk'] at hk
      linarith only [hk, g3, ht, hus, huu, hu0]
  obtain ⟨n, hn⟩ := pow_unbounded_of_one_lt ((2 : ℝ) ^ (240 : ℤ)) (show (1 : ℝ) < 1 + 10 * uR by
    have : 0 < uR := F64.two_zpow_pos _
    linarith only [this])
  exact absurd (((key n).2.trans (hcon n))) (not_le.2 hn)

/-! ## The hypotheses are met -/

theorem one_plus_e23 : (∀ c ∈ comps .spin (⟨⟨⟨1⟩⟩, ⟨⟨1, 0, 0⟩⟩⟩ : Spinor F64), c.Finite) ∧
    euclid .spin (⟨⟨⟨1⟩⟩, ⟨⟨1, 0, 0⟩⟩⟩ : Spinor F64) = √2 := by
  have f1 := F64.hasVal_one
  have f0 := F64.hasVal_zero'
  refine ⟨?_, ?_⟩
  · rw [show comps .spin (⟨⟨⟨1⟩⟩, ⟨⟨1, 0, 0⟩⟩⟩ : Spinor F64) = [1, 1, 0, 0] from rfl]
    simp only [List.mem_cons, List.not_mem_nil, or_false, forall_eq_or_imp, forall_eq]
    exact ⟨f1.1, f1.1, f0.1, f0.1⟩
  · unfold euclid sqSum
    rw [show comps .spin (⟨⟨⟨1⟩⟩, ⟨⟨1, 0, 0⟩⟩⟩ : Spinor F64) = [1, 1, 0, 0] from rfl]
    simp only [List.map_cons, List.map_nil, List.sum_cons, List.sum_nil, f1.2, f0.2]
    norm_num

theorem one_plus_e23_moderate : Moderate240 (⟨⟨⟨1⟩⟩, ⟨⟨1, 0, 0⟩⟩⟩ : Spinor F64) := by
  obtain ⟨h1, h2⟩ := one_plus_e23
  refine ⟨h1, ?_, ?_⟩
  · rw [h2]
    refine le_trans (zpow_le_zpow_right₀ (n := 0) (by norm_num) (by norm_num)) ?_
    rw [zpow_zero]
    exact Real.one_le_sqrt.2 (by norm_num)
  · rw [h2]
    refine le_trans ?_ (zpow_le_zpow_right₀ (m := 1) (by norm_num) (by norm_num))
    rw [zpow_one]
    exact Real.sqrt_le_iff.2 ⟨by norm_num, by norm_num⟩

/-- `S = direction(R * S)` with `R = 1 + e23`, and `direction(S * R)` in between, for ever. -/
example (n : ℕ) :
    let R : Spinor F64 := ⟨⟨⟨1⟩⟩, ⟨⟨1, 0, 0⟩⟩⟩
    |euclid .spin (renormLoop R ((true, R) :: List.replicate n (false, R))) - 1| ≤ 10 * 2 ^ (-53 : ℤ) :=
  (C67_unit _ _ _ one_plus_e23_moderate (by
    intro R hR
    rcases List.mem_cons.1 hR with rfl | hR
    · exact one_plus_e23_moderate
    · rw [List.eq_of_mem_replicate hR]; exact one_plus_e23_moderate)).2

/-- Without `direction` the same factor overflows any bound. -/
example : ∃ n : ℕ, 2 ^ (240 : ℤ)
    < euclid .spin ((fun S : Spinor F64 => (⟨⟨⟨1⟩⟩, ⟨⟨1, 0, 0⟩⟩⟩ : Spinor F64) * S)^[n] gone) := by
  obtain ⟨h1, h2⟩ := one_plus_e23
  refine C67_plain_diverges _ h1 ?_ ?_
  · rw [h2]
    refine Real.le_sqrt_of_sq_le ?_
    norm_num
  · rw [h2]; exact Real.sqrt_le_iff.2 ⟨by norm_num, by norm_num⟩

/-- Any number of angular increments `(1,1,1)` with a correctly rounded library. -/
example (n : ℕ) : letI := refLibM
    |euclid .spin (steadyAttitude (List.replicate n (⟨⟨1, 1, 1⟩⟩ : BiVector F64))) - 1|
      ≤ 10 * 2 ^ (-53 : ℤ) := by
  let _ := refLibM
  exact (C67_steady_unit (2 ^ (-53 : ℤ)) 2 (by positivity) (by norm_num) refLibM_ok.1 _ (by
    intro A hA
    rw [List.eq_of_mem_replicate hA]; exact angle_ones) (by norm_num)).2

/-- A million of them turn every vector as they should, to seven digits. -/
example (v : Vector F64) (fv : ∀ c ∈ comps .vec v, c.Finite) (hv : norm3 (vecVal v) ≤ 2 ^ 1000) :
    letI := refLibM
    let As := List.replicate 1000000 (⟨⟨1, 1, 1⟩⟩ : BiVector F64)
    let w : ImSpin F64 := steadyAttitude As * v * reverse (steadyAttitude As)
    dist3 (vecVal w.theVec) (turns (As.map bivVal) (vecVal v))
      ≤ 1 / 10000000 * norm3 (vecVal v) + 2 ^ (-1055 : ℤ) := by
  let _ := refLibM
  intro As w
  have hK : steadyErr As.length (2 ^ (-53 : ℤ)) 2 ≤ 1 / 10000000 := by
    rw [List.length_replicate]
    unfold steadyErr; norm_num
  refine ((C67_steady_turns (2 ^ (-53 : ℤ)) 2 (by positivity) (by norm_num) refLibM_ok.1 As (by
    intro A hA
    rw [List.eq_of_mem_replicate hA]; exact angle_ones) (by norm_num) (by norm_num)
    (hK.trans (by norm_num)) v fv hv).2.1).trans ?_
  exact add_le_add (mul_le_mul_of_nonneg_right hK (Real.sqrt_nonneg _)) le_rfl

end Engabra
