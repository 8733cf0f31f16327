import Verif.Props.C23_C24_LogSqrt

/-! # C75: interpolation between attitudes -/

namespace Engabra
open XR Spec

/-! ## Specification -/

/-- `exp(t * logG2(T * reverse(S))) * S`: from attitude `S` (`t = 0`) to attitude `T` (`t = 1`). -/
noncomputable def interp (S T : Spinor XR) (t : XR) : Spinor XR :=
  expSpin (t * logG2 (T * reverse S)) * S

/-- Euclidean inner product of the four components. -/
def inner4 (S T : Spinor ℝ) : ℝ :=
  S.theSca.theData.d0 * T.theSca.theData.d0 + S.theBiv.theData.d0 * T.theBiv.theData.d0 +
    S.theBiv.theData.d1 * T.theBiv.theData.d1 + S.theBiv.theData.d2 * T.theBiv.theData.d2

/-- Angle between two unit spinors. -/
noncomputable def arc (S T : Spinor ℝ) : ℝ := Real.arccos (inner4 S T)

/-- Textbook spherical linear interpolation. -/
noncomputable def slerp (S T : Spinor ℝ) (t : ℝ) : Spinor ℝ :=
  (Real.sin ((1 - t) * arc S T) / Real.sin (arc S T) : ℝ) * S +
    ((Real.sin (t * arc S T) / Real.sin (arc S T) : ℝ) * T : Spinor ℝ)

/-- Two unit spinors, neither equal nor opposite as far as `logG2` can tell, whose relative attitude is
in the range of normal doubles. -/
structure Apart (S T : Spinor ℝ) : Prop where
  unitS : magSq S = 1
  unitT : magSq T = 1
  sca : Valid (inner4 S T)
  biv : Valid (T * reverse S).theBiv.theData.d0
  first : FirstOk (T * reverse S).theBiv
  off : |inner4 S T| ≤ 1 - eps

/-- A parameter value that is zero or of moderate size. -/
def Frac (t : ℝ) : Prop := t = 0 ∨ (1 / 2 ^ 60 ≤ |t| ∧ |t| ≤ 2 ^ 60)

/-! ## Closed form -/

theorem rel_sca (S T : Spinor ℝ) : (T * reverse S).theSca.theData.d0 = inner4 S T := by
  unfold inner4; simp only [engabra]; ring

theorem rel_unit {S T : Spinor ℝ} (hS : magSq S = 1) (hT : magSq T = 1) :
    length .spin (T * reverse S) = 1 := by
  rw [length_eq]
  have : magSqTy .spin (T * reverse S) = magSq T * magSq S := by
    simp only [magSqTy, engabra]; ring
  rw [this, hS, hT, one_mul, Real.sqrt_one]

theorem expOk_scaled (θ t : ℝ) (B : BiVector ℝ) (h1 : 1 / 2 ^ 26 ≤ θ) (h2 : θ ≤ 8) (ht : Frac t)
    (hb : 0 < length .biv B) (h : FirstOk B) : ExpOk ((t * (θ / length .biv B) : ℝ) * B : BiVector ℝ) := by
  have hθ : 0 < θ := lt_of_lt_of_le (by positivity) h1
  rcases ht with rfl | ⟨t1, t2⟩
  · have e : ((0 * (θ / length .biv B) : ℝ) * B : BiVector ℝ) = gzero := by
      ext <;> simp [engabra]
    rw [e]
    exact ⟨Or.inl rfl, Or.inl rfl⟩
  have tp : 0 < |t| := lt_of_lt_of_le (by positivity) t1
  have hl : length .biv ((t * (θ / length .biv B) : ℝ) * B) = |t| * θ := by
    rw [length_smul_biv, abs_mul, abs_of_pos (div_pos hθ hb)]; field_simp
  have hlow : (1 : ℝ) / 2 ^ 86 ≤ |t| * θ := by
    calc (1 : ℝ) / 2 ^ 86 = 1 / 2 ^ 60 * (1 / 2 ^ 26) := by norm_num
      _ ≤ _ := by gcongr
  apply expOk_of
  · rw [hl]
    refine lt_of_lt_of_le ?_ hlow
    exact one_div_lt_one_div_of_lt (by positivity) (pow_lt_pow_right₀ (by norm_num) (by norm_num))
  · rw [hl]
    have e : ((t * (θ / length .biv B) : ℝ) * B).theData.d0 = t * (θ / length .biv B) * B.theData.d0 := rfl
    rw [e]
    rcases h with h | h
    · left; rw [h, mul_zero]
    · right
      constructor
      · rw [abs_mul, abs_mul, abs_of_pos (div_pos hθ hb)]
        calc (1 : ℝ) / 2 ^ 900 ≤ 1 / 2 ^ 86 * (1 / 2 ^ 800) := by
              rw [div_mul_div_comm, one_mul, ← pow_add]
              exact one_div_le_one_div_of_le (by positivity)
                (pow_le_pow_right₀ (by norm_num) (by norm_num))
          _ ≤ |t| * θ * (1 / 2 ^ 800) := by gcongr
          _ = |t| * (θ / length .biv B) * (1 / 2 ^ 800 * length .biv B) := by field_simp
          _ ≤ _ := by gcongr
      · calc |t| * θ ≤ 2 ^ 60 * 8 := by gcongr
          _ ≤ 2 ^ 100 := by norm_num

/-- The relative rotation over the fraction `t` of the way. -/
noncomputable def rotS (S T : Spinor ℝ) (t : ℝ) : Spinor ℝ :=
  expR 0 ((t * (arc S T / length .biv (T * reverse S).theBiv) : ℝ) * (T * reverse S).theBiv)

theorem apart_facts {S T : Spinor ℝ} (h : Apart S T) :
    eps < length .spin (T * reverse S) ∧
    |(T * reverse S).theSca.theData.d0| ≤ (1 - eps) * length .spin (T * reverse S) ∧
    0 < length .biv (T * reverse S).theBiv ∧
    angleOf (T * reverse S) = arc S T ∧ 1 / 2 ^ 26 ≤ arc S T ∧ arc S T < Real.pi ∧
    Real.cos (arc S T) = inner4 S T ∧ Real.sin (arc S T) = length .biv (T * reverse S).theBiv := by
  have hu := rel_unit h.unitS h.unitT
  have hr : eps < length .spin (T * reverse S) := by rw [hu, eps_val]; norm_num
  have hc : |(T * reverse S).theSca.theData.d0| ≤ (1 - eps) * length .spin (T * reverse S) := by
    rw [hu, mul_one, rel_sca]; exact h.off
  have ha := angle_bounds _ hr hc
  obtain ⟨c1, c2⟩ := cos_sin_angle _ hr
  rw [hu, div_one] at c1 c2
  have harc : angleOf (T * reverse S) = arc S T := by
    unfold arc
    rw [← rel_sca, ← c1, Real.arccos_cos (le_trans (by positivity) ha.1) ha.2.le]
  rw [harc] at ha c1 c2
  exact ⟨hr, hc, biv_pos _ hr hc, harc, ha.1, ha.2, by rw [c1, rel_sca], c2⟩

theorem expStep_ok {S T : Spinor ℝ} (h : Apart S T) {t : ℝ} (ht : Frac t) :
    expSpin (val t * logG2 (lift .spin T * reverse (lift .spin S))) = lift .spin (rotS S T t) := by
  obtain ⟨hr, hc, hbp, harc, h1, h2, -, -⟩ := apart_facts h
  have hW : (lift .spin T * reverse (lift .spin S) : Spinor XR) = lift .spin (T * reverse S) := rfl
  rw [hW, logG2_general _ _ (by rw [rel_sca]; exact h.sca) h.biv hr hc, rel_unit h.unitS h.unitT,
    Real.log_one, harc]
  have hs : (val t * (lift .spin (⟨⟨⟨0⟩⟩, (arc S T / length .biv (T * reverse S).theBiv : ℝ) *
      (T * reverse S).theBiv⟩ : Spinor ℝ) : Spinor XR) : Spinor XR) = lift .spin ⟨⟨⟨t * 0⟩⟩,
        t * ((arc S T / length .biv (T * reverse S).theBiv : ℝ) *
      (T * reverse S).theBiv)⟩ := smul_lift .spin t _
  have e1 : (t * ((arc S T / length .biv (T * reverse S).theBiv : ℝ) *
      (T * reverse S).theBiv) : BiVector ℝ) =
      (t * (arc S T / length .biv (T * reverse S).theBiv) : ℝ) * (T * reverse S).theBiv := by
    ext <;> simp only [engabra] <;> ring
  rw [hs, e1, expSpin_ok _ _ (expOk_scaled _ _ _ h1 (h2.le.trans (by linarith [Real.pi_lt_four])) ht hbp
    h.first), mul_zero]
  rfl

theorem rotS_add (S T : Spinor ℝ) (t u : ℝ) : rotS S T (t + u) = rotS S T t * rotS S T u := by
  unfold rotS
  rw [expR_mul_plane, add_zero, add_mul]

theorem slerp_eq {S T : Spinor ℝ} (h : Apart S T) (t : ℝ) : slerp S T t = rotS S T t * S := by
  obtain ⟨-, -, hbp, -, -, -, hcos, hsin⟩ := apart_facts h
  have hS := h.unitS
  unfold rotS slerp
  rw [mul_div_assoc', expR_dir _ _ _ hbp, Real.exp_zero, one_mul, one_mul,
    show (1 - t) * arc S T = arc S T - t * arc S T by ring, Real.sin_sub, hcos, ← hsin]
  have hsin : Real.sin (arc S T) ≠ 0 := by rw [hsin]; exact hbp.ne'
  simp only [engabra] at hS
  generalize Real.sin (arc S T) = sn at *
  generalize Real.sin (t * arc S T) = st at *
  generalize Real.cos (t * arc S T) = ct at *
  unfold inner4
  obtain ⟨⟨⟨s0⟩⟩, ⟨⟨s1, s2, s3⟩⟩⟩ := S
  obtain ⟨⟨⟨t0⟩⟩, ⟨⟨t1, t2, t3⟩⟩⟩ := T
  simp only at hS
  ext <;> simp only [engabra] <;> field_simp
  · linear_combination -(st * t0 * hS)
  · linear_combination -(st * t1 * hS)
  · linear_combination -(st * t2 * hS)
  · linear_combination -(st * t3 * hS)

/-! ## C75 -/

/-- **C75.** The library expression is spherical linear interpolation. -/
theorem C75_slerp (S T : Spinor ℝ) (h : Apart S T) (t : ℝ) (ht : Frac t) :
    interp (lift .spin S) (lift .spin T) (val t) = lift .spin (slerp S T t) := by
  unfold interp
  rw [expStep_ok h ht, slerp_eq h]
  exact mul_lift .spin .spin _ _

theorem slerp_zero {S T : Spinor ℝ} (h : Apart S T) : slerp S T 0 = S := by
  obtain ⟨-, -, hbp, -, -, -, -, hsin⟩ := apart_facts h
  unfold slerp
  rw [zero_mul, Real.sin_zero, sub_zero, one_mul, div_self (by rw [hsin]; exact hbp.ne'), zero_div]
  ext <;> simp only [engabra] <;> ring

theorem slerp_one {S T : Spinor ℝ} (h : Apart S T) : slerp S T 1 = T := by
  obtain ⟨-, -, hbp, -, -, -, -, hsin⟩ := apart_facts h
  unfold slerp
  rw [sub_self, zero_mul, Real.sin_zero, one_mul, div_self (by rw [hsin]; exact hbp.ne'), zero_div]
  ext <;> simp only [engabra] <;> ring

theorem frac_zero : Frac 0 := Or.inl rfl

theorem frac_of {t : ℝ} (h1 : 1 / 2 ^ 60 ≤ |t|) (h2 : |t| ≤ 2 ^ 60) : Frac t := Or.inr ⟨h1, h2⟩

theorem frac_one : Frac 1 := frac_of (by norm_num) (by norm_num)

/-- **C75.** It starts at `S` and ends at `T`. -/
theorem C75_ends (S T : Spinor ℝ) (h : Apart S T) :
    interp (lift .spin S) (lift .spin T) (val 0) = lift .spin S ∧
    interp (lift .spin S) (lift .spin T) (val 1) = lift .spin T := by
  rw [C75_slerp S T h 0 frac_zero, C75_slerp S T h 1 frac_one, slerp_zero h, slerp_one h]
  exact ⟨rfl, rfl⟩

theorem inner4_slerp {S T : Spinor ℝ} (h : Apart S T) (t u : ℝ) :
    inner4 (slerp S T t) (slerp S T u) = Real.cos ((t - u) * arc S T) := by
  obtain ⟨-, -, hbp, -, -, -, hcos, hsin⟩ := apart_facts h
  have hsin : Real.sin (arc S T) ≠ 0 := by rw [hsin]; exact hbp.ne'
  have hS := h.unitS
  have hT := h.unitT
  unfold slerp
  rw [show (1 - t) * arc S T = arc S T - t * arc S T by ring,
    show (1 - u) * arc S T = arc S T - u * arc S T by ring, sub_mul, Real.sin_sub, Real.sin_sub,
    Real.cos_sub]
  have key : ∀ a b c d : ℝ, inner4 (a * S + (b * T : Spinor ℝ)) (c * S + (d * T : Spinor ℝ)) =
      a * c * magSq S + b * d * magSq T + (a * d + b * c) * inner4 S T := by
    intro a b c d
    unfold inner4; simp only [engabra]; ring
  rw [key, hS, hT, ← hcos]
  have p1 := Real.cos_sq_add_sin_sq (arc S T)
  generalize Real.sin (arc S T) = sn at *
  generalize Real.cos (arc S T) = cn at *
  generalize Real.sin (t * arc S T) = st at *
  generalize Real.cos (t * arc S T) = ct at *
  generalize Real.sin (u * arc S T) = su at *
  generalize Real.cos (u * arc S T) = cu at *
  field_simp
  linear_combination (-(st * su)) * p1

/-- **C75.** Every intermediate value is a unit spinor, and the motion is even: the angle between two
intermediate attitudes is proportional to the difference of the parameters. -/
theorem C75_even (S T : Spinor ℝ) (h : Apart S T) (t u : ℝ) (ht : Frac t) (hu : Frac u) :
    ∃ G H : Spinor ℝ, interp (lift .spin S) (lift .spin T) (val t) = lift .spin G ∧
      interp (lift .spin S) (lift .spin T) (val u) = lift .spin H ∧ magSq G = 1 ∧ magSq H = 1 ∧
      inner4 G H = Real.cos ((t - u) * arc S T) := by
  have hm : ∀ G : Spinor ℝ, magSq G = inner4 G G := by
    intro G; unfold inner4; simp only [engabra]; ring
  refine ⟨_, _, C75_slerp S T h t ht, C75_slerp S T h u hu, ?_, ?_, inner4_slerp h t u⟩
  · rw [hm, inner4_slerp h, sub_self, zero_mul, Real.cos_zero]
  · rw [hm, inner4_slerp h, sub_self, zero_mul, Real.cos_zero]

/-- **C75.** Constant rate: a further fraction `u` of the way is one more rotation by the same factor,
wherever one is. -/
theorem C75_rate (S T : Spinor ℝ) (h : Apart S T) (t u : ℝ) (ht : Frac t) (hu : Frac u)
    (htu : Frac (t + u)) :
    interp (lift .spin S) (lift .spin T) (val (t + u)) =
      expSpin (val u * logG2 (lift .spin T * reverse (lift .spin S))) *
        interp (lift .spin S) (lift .spin T) (val t) := by
  rw [C75_slerp S T h _ htu, C75_slerp S T h _ ht, expStep_ok h hu, slerp_eq h, slerp_eq h, add_comm,
    rotS_add]
  refine (congrArg (lift .spin) ?_).trans (mul_lift .spin .spin (rotS S T u) (rotS S T t * S)).symm
  change _ = mulTy .spin .spin _ _
  simp only [mulTy]
  mv_ring

theorem frac_inv {n : ℕ} (h1 : 1 ≤ n) (h2 : n ≤ 2 ^ 60) : Frac (1 / n) := by
  have h1' : (1 : ℝ) ≤ n := by exact_mod_cast h1
  have h2' : (n : ℝ) ≤ 2 ^ 60 := by exact_mod_cast h2
  have hp : (0 : ℝ) < n := by linarith
  refine frac_of ?_ ?_ <;> rw [abs_of_pos (by positivity)]
  · exact one_div_le_one_div_of_le hp h2'
  · rw [div_le_iff₀ hp]; nlinarith

/-- **C75.** `n` equal steps lead from `S` to `T`; with `S` the identity this is the `n`-th root of a
rotation. -/
theorem C75_steps (S T : Spinor ℝ) (h : Apart S T) (n : ℕ) (h1 : 1 ≤ n) (h2 : n ≤ 2 ^ 60) :
    (fun X : Spinor XR => expSpin (val (1 / n) * logG2 (lift .spin T * reverse (lift .spin S))) * X)^[n]
      (lift .spin S) = lift .spin T := by
  have hp : (n : ℝ) ≠ 0 := by
    have : (1 : ℝ) ≤ n := by exact_mod_cast h1
    linarith
  rw [expStep_ok h (frac_inv h1 h2)]
  have key : ∀ k : ℕ, (fun X : Spinor XR => (lift .spin (rotS S T (1 / n)) : Spinor XR) * X)^[k]
      (lift .spin S) = lift .spin (slerp S T (k / n)) := by
    intro k
    induction k with
    | zero => rw [Function.iterate_zero, id, Nat.cast_zero, zero_div, slerp_zero h]
    | succ k ih =>
      rw [Function.iterate_succ_apply', ih]
      refine (mul_lift .spin .spin (rotS S T (1 / n)) (slerp S T (k / n))).trans (congrArg (lift .spin) ?_)
      change mulTy .spin .spin _ _ = _
      simp only [mulTy]
      rw [slerp_eq h, slerp_eq h, show ((k + 1 : ℕ) : ℝ) / n = 1 / n + k / n by push_cast; ring, rotS_add]
      mv_ring
  rw [key, div_self hp, slerp_one h]

theorem apart_symm {S T : Spinor ℝ} (h : Apart S T) : Apart T S := by
  have hd : inner4 T S = inner4 S T := by unfold inner4; ring
  have hb : (S * reverse T).theBiv.theData.d0 = -(T * reverse S).theBiv.theData.d0 := by
    simp only [engabra]; ring
  have hl : length .biv (S * reverse T).theBiv = length .biv (T * reverse S).theBiv := by
    rw [length_eq, length_eq]; congr 1; simp only [magSqTy, engabra]; ring
  refine ⟨h.unitT, h.unitS, hd ▸ h.sca, ?_, ?_, hd ▸ h.off⟩
  · rw [hb]; exact valid_neg.2 h.biv
  · unfold FirstOk
    rw [hb, hl, abs_neg, neg_eq_zero]
    exact h.first

/-- **C75.** The way back is the same way. -/
theorem C75_back (S T : Spinor ℝ) (h : Apart S T) (t : ℝ) (ht : Frac t) (ht' : Frac (1 - t)) :
    interp (lift .spin T) (lift .spin S) (val (1 - t)) = interp (lift .spin S) (lift .spin T) (val t) := by
  rw [C75_slerp S T h t ht, C75_slerp T S (apart_symm h) _ ht']
  congr 1
  have hd : arc T S = arc S T := by unfold arc inner4; congr 1; ring
  unfold slerp
  rw [hd, sub_sub_cancel]
  mv_ring

/-- **C75.** Half way is the normalised sum. -/
theorem C75_middle (S T : Spinor ℝ) (h : Apart S T) :
    interp (lift .spin S) (lift .spin T) (val (1 / 2)) =
      lift .spin ((1 / length .spin (S + T) : ℝ) * (S + T)) := by
  rw [C75_slerp S T h _ (frac_of (by rw [abs_of_pos] <;> norm_num) (by rw [abs_of_pos] <;> norm_num))]
  congr 1
  obtain ⟨-, -, hbp, -, h1, h2, hcos, hsin⟩ := apart_facts h
  have ha : 0 < arc S T := lt_of_lt_of_le (by positivity) h1
  have hc : 0 < Real.cos (arc S T / 2) :=
    Real.cos_pos_of_mem_Ioo ⟨by linarith, by linarith⟩
  have hs : 0 < Real.sin (arc S T / 2) := Real.sin_pos_of_pos_of_lt_pi (by linarith) (by linarith)
  have hl : length .spin (S + T) = 2 * Real.cos (arc S T / 2) := by
    rw [length_eq]
    have : magSqTy .spin (S + T) = (2 * Real.cos (arc S T / 2)) ^ 2 := by
      have e : magSqTy .spin (S + T) = magSq S + magSq T + 2 * inner4 S T := by
        unfold inner4; simp only [magSqTy, engabra]; ring
      rw [e, h.unitS, h.unitT, ← hcos, show arc S T = 2 * (arc S T / 2) by ring, Real.cos_two_mul,
        show 2 * (arc S T / 2) / 2 = arc S T / 2 by ring]
      ring
    rw [this, Real.sqrt_sq (by positivity)]
  have hd : Real.sin (arc S T) = 2 * Real.sin (arc S T / 2) * Real.cos (arc S T / 2) := by
    rw [← Real.sin_two_mul]; congr 1; ring
  unfold slerp
  rw [hl, hd, show (1 - 1 / 2 : ℝ) * arc S T = arc S T / 2 by ring,
    show (1 / 2 : ℝ) * arc S T = arc S T / 2 by ring,
    show Real.sin (arc S T / 2) / (2 * Real.sin (arc S T / 2) * Real.cos (arc S T / 2)) =
      1 / (2 * Real.cos (arc S T / 2)) by field_simp]
  ext <;> simp only [engabra] <;> ring

theorem slerp_right {S T R : Spinor ℝ} (hR : magSq R = 1) (t : ℝ) :
    slerp (S * R) (T * R) t = slerp S T t * R := by
  have hd : inner4 (S * R) (T * R) = inner4 S T := by
    have : inner4 (S * R) (T * R) = inner4 S T * magSq R := by
      unfold inner4; simp only [engabra]; ring
    rw [this, hR, mul_one]
  unfold slerp arc
  rw [hd]
  generalize Real.sin _ / _ = a
  generalize Real.sin _ / _ = b
  mv_ring

theorem slerp_left {S T R : Spinor ℝ} (hR : magSq R = 1) (t : ℝ) :
    slerp (R * S) (R * T) t = R * slerp S T t := by
  have hd : inner4 (R * S) (R * T) = inner4 S T := by
    have : inner4 (R * S) (R * T) = inner4 S T * magSq R := by
      unfold inner4; simp only [engabra]; ring
    rw [this, hR, mul_one]
  unfold slerp arc
  rw [hd]
  generalize Real.sin _ / _ = a
  generalize Real.sin _ / _ = b
  mv_ring

theorem apart_right {S T R : Spinor ℝ} (h : Apart S T) (hR : magSq R = 1) : Apart (S * R) (T * R) := by
  have hm : ∀ S : Spinor ℝ, magSq (S * R) = magSq S := by
    intro S
    have : magSq (S * R) = magSq S * magSq R := by simp only [engabra]; ring
    rw [this, hR, mul_one]
  have hd : inner4 (S * R) (T * R) = inner4 S T := by
    have : inner4 (S * R) (T * R) = inner4 S T * magSq R := by
      unfold inner4; simp only [engabra]; ring
    rw [this, hR, mul_one]
  have hW : T * R * reverse (S * R) = (T * reverse S : Spinor ℝ) := by
    have : T * R * reverse (S * R) = (magSq R * (T * reverse S : Spinor ℝ) : Spinor ℝ) := by mv_ring
    rw [this, hR]; mv_ring
  exact ⟨by rw [hm]; exact h.unitS, by rw [hm]; exact h.unitT, by rw [hd]; exact h.sca,
    by rw [hW]; exact h.biv, by rw [hW]; exact h.first, by rw [hd]; exact h.off⟩

/-- **C75.** Independence of the frame: turning both attitudes on either side turns every intermediate
attitude with them. -/
theorem C75_frame (S T R : Spinor ℝ) (h : Apart S T) (hR : magSq R = 1) (t : ℝ) (ht : Frac t) :
    (interp (lift .spin (S * R)) (lift .spin (T * R)) (val t) =
      interp (lift .spin S) (lift .spin T) (val t) * lift .spin R) ∧
    (Apart (R * S) (R * T) → interp (lift .spin (R * S)) (lift .spin (R * T)) (val t) =
      lift .spin R * interp (lift .spin S) (lift .spin T) (val t)) := by
  rw [C75_slerp S T h t ht]
  refine ⟨?_, fun h' => ?_⟩
  · rw [C75_slerp _ _ (apart_right h hR) t ht, slerp_right hR]
    exact (mul_lift .spin .spin _ _).symm
  · rw [C75_slerp _ _ h' t ht, slerp_left hR]
    exact (mul_lift .spin .spin _ _).symm

theorem sin_three (α β x : ℝ) : Real.sin α * Real.sin x + Real.sin β * Real.sin (x + (α + β)) =
    Real.sin (α + β) * Real.sin (x + β) := by
  rw [Real.sin_add x (α + β), Real.sin_add α β, Real.cos_add α β, Real.sin_add x β]
  have h := Real.cos_sq_add_sin_sq β
  linear_combination -(Real.sin α * Real.sin x) * h

/-- **C75.** Interpolating between two intermediate attitudes gives the same path. -/
theorem C75_between (S T : Spinor ℝ) (h : Apart S T) (a b u : ℝ) (ha : Frac a) (hb : Frac b)
    (hu : Frac u) (hab : Frac ((1 - u) * a + u * b)) (h1 : a < b) (h2 : b ≤ a + 1) :
    ∃ A B : Spinor ℝ, interp (lift .spin S) (lift .spin T) (val a) = lift .spin A ∧
      interp (lift .spin S) (lift .spin T) (val b) = lift .spin B ∧
      (Apart A B → interp (lift .spin A) (lift .spin B) (val u) =
        interp (lift .spin S) (lift .spin T) (val ((1 - u) * a + u * b))) := by
  refine ⟨_, _, C75_slerp S T h a ha, C75_slerp S T h b hb, fun h' => ?_⟩
  rw [C75_slerp _ _ h' u hu, C75_slerp S T h _ hab]
  congr 1
  obtain ⟨-, -, hbp, -, k1, k2, hcos, hsin⟩ := apart_facts h
  have k0 : 0 < arc S T := lt_of_lt_of_le (by positivity) k1
  have hsin : Real.sin (arc S T) ≠ 0 := by rw [hsin]; exact hbp.ne'
  have hA : arc (slerp S T a) (slerp S T b) = (b - a) * arc S T := by
    conv_lhs => unfold arc
    rw [inner4_slerp h, ← Real.cos_neg, ← neg_mul, neg_sub, Real.arccos_cos]
    · exact mul_nonneg (by linarith) k0.le
    · nlinarith
  have hsA : Real.sin ((b - a) * arc S T) ≠ 0 := by
    apply ne_of_gt
    apply Real.sin_pos_of_pos_of_lt_pi
    · exact mul_pos (by linarith) k0
    · nlinarith
  have hL : slerp (slerp S T a) (slerp S T b) u =
      (Real.sin ((1 - u) * ((b - a) * arc S T)) / Real.sin ((b - a) * arc S T) : ℝ) * slerp S T a +
      ((Real.sin (u * ((b - a) * arc S T)) / Real.sin ((b - a) * arc S T) : ℝ) * slerp S T b :
        Spinor ℝ) := by
    rw [← hA]; rfl
  rw [hL]
  have main : ∀ x : ℝ, Real.sin ((1 - u) * ((b - a) * arc S T)) / Real.sin ((b - a) * arc S T)
        * Real.sin (x + a * arc S T) +
      Real.sin (u * ((b - a) * arc S T)) / Real.sin ((b - a) * arc S T)
        * Real.sin (x + b * arc S T) =
      Real.sin (x + ((1 - u) * a + u * b) * arc S T) := by
    intro x
    have e := sin_three ((1 - u) * ((b - a) * arc S T)) (u * ((b - a) * arc S T)) (x + a * arc S T)
    rw [show (1 - u) * ((b - a) * arc S T) + u * ((b - a) * arc S T) = (b - a) * arc S T by ring,
      show x + a * arc S T + (b - a) * arc S T = x + b * arc S T by ring,
      show x + a * arc S T + u * ((b - a) * arc S T) = x + ((1 - u) * a + u * b) * arc S T by ring] at e
    rw [div_mul_eq_mul_div, div_mul_eq_mul_div, ← add_div, e]
    field_simp
  have m0 := main 0
  have m1 := main (-arc S T)
  have neg : ∀ c : ℝ, Real.sin ((1 - c) * arc S T) = -Real.sin (-arc S T + c * arc S T) := by
    intro c; rw [← Real.sin_neg]; congr 1; ring
  simp only [zero_add] at m0
  unfold slerp
  rw [neg a, neg b, neg, ← m0, ← m1]
  ext <;> simp only [engabra] <;> ring

/-! ## A case that meets the hypotheses -/

theorem valid_ordinary {x : ℝ} (h1 : 1 / 32 ≤ |x|) (h2 : |x| ≤ 4) : Valid x := by
  right
  constructor
  · rw [div_le_iff₀ (by positivity)]
    have : (64 : ℝ) ≤ 2 ^ 1022 := by
      calc (64 : ℝ) = 2 ^ 6 := by norm_num
        _ ≤ 2 ^ 1022 := pow_le_pow_right₀ (by norm_num) (by norm_num)
    generalize (2 : ℝ) ^ 1022 = b at *
    nlinarith
  · have : (8 : ℝ) ≤ 2 ^ 1024 := by
      calc (8 : ℝ) = 2 ^ 3 := by norm_num
        _ ≤ 2 ^ 1024 := pow_le_pow_right₀ (by norm_num) (by norm_num)
    generalize (2 : ℝ) ^ 1024 = b at *
    linarith

/-- A sufficient condition for `Apart` on numbers of ordinary size. -/
theorem apart_of {S T : Spinor ℝ} (hS : magSq S = 1) (hT : magSq T = 1) (h1 : 1 / 32 ≤ |inner4 S T|)
    (h2 : |inner4 S T| ≤ 31 / 32) (h3 : 1 / 32 ≤ |(T * reverse S).theBiv.theData.d0|) : Apart S T := by
  have hu := rel_unit hS hT
  have hsq : length .biv (T * reverse S).theBiv ≤ 1 := by
    have h := spin_sq (T * reverse S)
    rw [hu] at h
    have hb : length .biv (T * reverse S).theBiv ^ 2 = (T * reverse S).theBiv.theData.d0 ^ 2
        + (T * reverse S).theBiv.theData.d1 ^ 2 + (T * reverse S).theBiv.theData.d2 ^ 2 := by
      rw [length_sq]; simp only [magSqTy, engabra]; ring
    have := length_nonneg .biv (T * reverse S).theBiv
    nlinarith [sq_nonneg (T * reverse S).theSca.theData.d0]
  have hd : |(T * reverse S).theBiv.theData.d0| ≤ 1 := by
    have h := spin_sq (T * reverse S)
    rw [hu] at h
    rw [abs_le_one_iff_mul_self_le_one]
    nlinarith [sq_nonneg (T * reverse S).theSca.theData.d0, sq_nonneg (T * reverse S).theBiv.theData.d1,
      sq_nonneg (T * reverse S).theBiv.theData.d2]
  refine ⟨hS, hT, valid_ordinary h1 (by linarith), valid_ordinary h3 (by linarith), Or.inr ?_, ?_⟩
  · have : (1 : ℝ) / 2 ^ 800 ≤ 1 / 2 ^ 5 :=
      one_div_le_one_div_of_le (by positivity) (pow_le_pow_right₀ (by norm_num) (by norm_num))
    have h0 := length_nonneg .biv (T * reverse S).theBiv
    calc (1 : ℝ) / 2 ^ 800 * length .biv (T * reverse S).theBiv ≤ 1 / 2 ^ 5 * 1 := by gcongr
      _ ≤ _ := by norm_num at h3 ⊢; linarith
  · refine h2.trans ?_
    rw [eps_val]; norm_num

/-- Two attitudes about different axes. -/
example : Apart ⟨⟨⟨4 / 5⟩⟩, ⟨⟨0, 0, 3 / 5⟩⟩⟩ ⟨⟨⟨3 / 5⟩⟩, ⟨⟨4 / 5, 0, 0⟩⟩⟩ := by
  apply apart_of <;> simp only [inner4, engabra] <;> norm_num [abs_le, le_abs]

/-- The hypotheses of `C75_between`, from the start to half way: both pairs of attitudes are apart. -/
example : Apart ⟨⟨⟨1⟩⟩, ⟨⟨0, 0, 0⟩⟩⟩ ⟨⟨⟨7 / 25⟩⟩, ⟨⟨24 / 25, 0, 0⟩⟩⟩ ∧
    interp (lift .spin ⟨⟨⟨1⟩⟩, ⟨⟨0, 0, 0⟩⟩⟩) (lift .spin ⟨⟨⟨7 / 25⟩⟩, ⟨⟨24 / 25, 0, 0⟩⟩⟩) (val (1 / 2)) =
      lift .spin ⟨⟨⟨4 / 5⟩⟩, ⟨⟨3 / 5, 0, 0⟩⟩⟩ ∧
    Apart ⟨⟨⟨1⟩⟩, ⟨⟨0, 0, 0⟩⟩⟩ ⟨⟨⟨4 / 5⟩⟩, ⟨⟨3 / 5, 0, 0⟩⟩⟩ ∧ Frac 0 ∧ Frac (1 / 2) ∧
    Frac ((1 - 1 / 2) * 0 + 1 / 2 * (1 / 2)) := by
  have h : Apart ⟨⟨⟨1⟩⟩, ⟨⟨0, 0, 0⟩⟩⟩ ⟨⟨⟨7 / 25⟩⟩, ⟨⟨24 / 25, 0, 0⟩⟩⟩ := by
    apply apart_of <;> simp only [inner4, engabra] <;> norm_num [abs_le, le_abs]
  refine ⟨h, ?_, ?_, frac_zero, frac_of ?_ ?_, frac_of ?_ ?_⟩
  · rw [C75_middle _ _ h]
    have hl : length .spin ((⟨⟨⟨1⟩⟩, ⟨⟨0, 0, 0⟩⟩⟩ : Spinor ℝ) + ⟨⟨⟨7 / 25⟩⟩, ⟨⟨24 / 25, 0, 0⟩⟩⟩) = 8 / 5 := by
      rw [length_eq, show (8 / 5 : ℝ) = √((8 / 5) ^ 2) by rw [Real.sqrt_sq (by norm_num)]]
      congr 1; simp only [magSqTy, engabra]; norm_num
    rw [hl]
    congr 1
    ext <;> simp only [engabra] <;> norm_num
  · apply apart_of <;> simp only [inner4, engabra] <;> norm_num [abs_le, le_abs]
  all_goals norm_num [abs_of_pos]

end Engabra
