import Verif.Lemmas.AxisF64
import Verif.Lemmas.InverseEst

/-! # C52: objects along an axis, in binary64

When one component outweighs the others (for example when the others are zero) the magnitude is the
absolute value of that component, exactly: `sqrt` undoes the rounded square.  The direction is
computed as `(1/magnitude) * x`, so that its dominant component is one or one unit in the last place
below one; both occur. -/

namespace Engabra

open F64 (Finite HasVal)

theorem F64.eq_of_val {x y : F64} {v : ℚ} (hx : HasVal x v) (hy : HasVal y v) (h0 : v ≠ 0) : x = y := by
  obtain ⟨hx, rfl⟩ := hx
  obtain ⟨hy, hv⟩ := hy
  cases x with
  | nan => exact absurd rfl h0
  | inf _ => exact absurd rfl h0
  | zero _ => exact absurd rfl h0
  | fin p hp =>
    cases y with
    | nan => exact hy.elim
    | inf _ => exact hy.elim
    | zero _ => exact absurd hv.symm h0
    | fin q hq =>
      have : q = p := hv
      subst this
      rfl

/-- **C52.** `magnitude(x)` is the absolute value of the dominant component, exactly, for every
type. -/
theorem C52_magnitude (t : Ty) (x : t.D F64) (v : F64) (h : Dominant t x v) :
    magnitudeTy t x = Dbl.abs v := by
  have hm := magSq_dominant h
  obtain ⟨⟨hf, h1, h2⟩, -⟩ := h
  have hv0 : 0 < |v.value| := lt_of_lt_of_le (F64.two_zpow_pos _) h1
  have hr : F64.Rep |v.value| := by
    have := (F64.HasVal.abs (HasVal.of hf)).rep
    exact this
  have key := sqrt_sq_exact hr h1
  rw [abs_mul_abs_self] at key
  have hq : 0 < F64.rnVal (v.value * v.value) := by
    refine lt_of_lt_of_le (F64.two_zpow_pos (K := ℚ) (-1000)) ?_
    refine F64.rep_le_rnVal (K := ℚ) (F64.rep_pow _ (by norm_num)) ?_
    rw [Rat.cast_id, ← abs_mul_abs_self v.value]
    refine le_trans (le_of_eq ?_) (mul_le_mul h1 h1 (F64.two_zpow_pos _).le (abs_nonneg _))
    rw [← zpow_add₀ (by norm_num)]; norm_num only
  have hle : F64.rnVal (v.value * v.value) ≤ (2 : ℚ) ^ (1000 : ℤ) := by
    refine F64.rnVal_le_rep (K := ℚ) (F64.rep_pow _ (by norm_num)) ?_
    rw [Rat.cast_id, ← abs_mul_abs_self]
    refine (mul_le_mul h2 h2 (abs_nonneg _) (F64.two_zpow_pos _).le).trans (le_of_eq ?_)
    rw [← zpow_add₀ (by norm_num)]; norm_num only
  have hs := F64.sqrt_spec (s := magSqTy t x) hm.1 (by rw [hm.2]; exact hq) (by
    rw [hm.2, Real.sqrt_le_left (by positivity)]
    have := (Rat.cast_le (K := ℝ)).2 hle
    rw [cast_zpow] at this
    refine this.trans ?_
    rw [← pow_mul, ← zpow_natCast]
    exact zpow_le_zpow_right₀ (by norm_num) (by norm_num))
  rw [hm.2, key] at hs
  exact F64.eq_of_val hs (F64.HasVal.abs (HasVal.of hf)) hv0.ne'

/-- A double between `1 - 2^-53` and one is one of the two. -/
theorem near_one {d : ℚ} (hr : F64.Rep d) (h1 : 1 - 2 ^ (-53 : ℤ) ≤ d) (h2 : d ≤ 1) :
    d = 1 ∨ d = 1 - 2 ^ (-53 : ℤ) := by
  obtain ⟨m, e, hm, he, rfl⟩ := hr
  have hmq : (m : ℚ) ≤ 2 ^ (53 : ℤ) := by exact_mod_cast (le_abs_self m).trans hm
  have he' : -53 ≤ e := by
    by_contra hc
    have a : (2 : ℚ) ^ e ≤ 2 ^ (-54 : ℤ) := zpow_le_zpow_right₀ (by norm_num) (by omega)
    have b := mul_le_mul hmq a (F64.two_zpow_pos _).le (by norm_num)
    have c : (2 : ℚ) ^ (53 : ℤ) * 2 ^ (-54 : ℤ) < 1 - 2 ^ (-53 : ℤ) := by norm_num
    linarith
  obtain ⟨M, hM⟩ : ∃ M : ℤ, (m : ℚ) * 2 ^ e = M * 2 ^ (-53 : ℤ) := by
    refine ⟨m * 2 ^ (e + 53).toNat, ?_⟩
    push_cast
    rw [← zpow_natCast, Int.toNat_of_nonneg (by omega), mul_assoc, ← zpow_add₀ (by norm_num)]
    congr 2; ring
  rw [hM] at h1 h2 ⊢
  have e53 : (2 : ℚ) ^ (-53 : ℤ) = 1 / 9007199254740992 := by norm_num
  rw [e53] at h1 h2 ⊢
  have a1 : (9007199254740991 : ℚ) ≤ M := by linarith
  have a2 : (M : ℚ) ≤ 9007199254740992 := by linarith
  have b1 : 9007199254740991 ≤ M := by exact_mod_cast a1
  have b2 : M ≤ 9007199254740992 := by exact_mod_cast a2
  rcases (by omega : M = 9007199254740992 ∨ M = 9007199254740991) with rfl | rfl
  · left; norm_num
  · right; norm_num

theorem rn_tie_one : F64.rnVal (1 + 2 ^ (-53 : ℤ) : ℚ) = 1 := by
  unfold F64.rnVal
  have hu : F64.ulpExp (1 + 2 ^ (-53 : ℤ) : ℚ) = -52 := by
    unfold F64.ulpExp
    rw [abs_of_pos (by norm_num), F64.log_eq (n := 0) (by norm_num) (by norm_num)]
    norm_num
  rw [hu, F64.rhe_eq (n := 2 ^ 52) (Or.inr ⟨by norm_num, by decide⟩)]
  norm_num

/-- The direction is the product with the rounded reciprocal of the dominant component. -/
theorem axis_recip {t : Ty} {x : t.D F64} {v : F64} (h : Dominant t x v) :
    directionTy t x = smulTy t (1 / magnitudeTy t x) x ∧
    HasVal (1 / magnitudeTy t x) (F64.rnVal (1 / |v.value|)) := by
  obtain ⟨hdir, hrf, -, -, -⟩ := recip_est h.central
  have hmag := C52_magnitude t x v h
  obtain ⟨⟨hf, h1, h2⟩, -⟩ := h
  have hv0 : 0 < |v.value| := lt_of_lt_of_le (F64.two_zpow_pos _) h1
  have hm : HasVal (magnitudeTy t x) |v.value| := by rw [hmag]; exact F64.HasVal.abs (HasVal.of hf)
  have hi1 : 1 / |v.value| ≤ (2 : ℚ) ^ (500 : ℤ) := by
    rw [div_le_iff₀ hv0]
    calc (1 : ℚ) = (2 : ℚ) ^ (500 : ℤ) * (2 : ℚ) ^ (-500 : ℤ) := by
          rw [← zpow_add₀ (by norm_num)]; norm_num only
      _ ≤ _ := mul_le_mul_of_nonneg_left h1 (F64.two_zpow_pos _).le
  have hi0 : 0 ≤ 1 / |v.value| := by positivity
  have h1v : (1 : F64).value = 1 := F64.hasVal_one.2
  have hrle : F64.rnVal (1 / |v.value|) ≤ (2 : ℚ) ^ (500 : ℤ) :=
    F64.rnVal_le_rep (K := ℚ) (F64.rep_pow 500 (by norm_num)) (by rw [Rat.cast_id]; exact hi1)
  have hd := F64.div_spec F64.hasVal_one.1 hm.1 (by rw [hm.2]; exact hv0.ne') (by
    rw [h1v, hm.2, abs_of_nonneg (F64.rnVal_nonneg hi0)]
    refine lt_of_le_of_lt hrle ?_
    rw [← zpow_natCast]
    exact zpow_lt_zpow_right₀ (by norm_num) (by norm_num))
  rw [h1v, hm.2] at hd
  exact ⟨hdir, hd⟩

/-- **C52.** `direction(x)` is `x` with every component multiplied by one double `r`, and the
dominant component becomes plus or minus `1` or `1 - 2^-53`. -/
theorem C52_direction (t : Ty) (x : t.D F64) (v : F64) (h : Dominant t x v) :
    ∃ r : F64, comps t (directionTy t x) = (comps t x).map (r * ·) ∧ r.Finite ∧ (r * v).Finite ∧
      ((r * v).value = v.value / |v.value| ∨
       (r * v).value = (1 - 2 ^ (-53 : ℤ)) * (v.value / |v.value|)) := by
  obtain ⟨hdir, hd⟩ := axis_recip h
  obtain ⟨⟨hf, h1, h2⟩, -⟩ := h
  have hv0 : 0 < |v.value| := lt_of_lt_of_le (F64.two_zpow_pos _) h1
  refine ⟨1 / magnitudeTy t x, by rw [hdir, comps_smul], hd.1, ?_⟩
  have hi2 : (2 : ℚ) ^ (-500 : ℤ) ≤ 1 / |v.value| := by
    rw [le_div_iff₀ hv0]
    calc _ ≤ (2 : ℚ) ^ (-500 : ℤ) * (2 : ℚ) ^ (500 : ℤ) :=
          mul_le_mul_of_nonneg_left h2 (F64.two_zpow_pos _).le
      _ = 1 := by rw [← zpow_add₀ (by norm_num)]; norm_num only
  have hi0 : 0 < 1 / |v.value| := lt_of_lt_of_le (F64.two_zpow_pos _) hi2
  have hrel := F64.rn_rel (K := ℚ) (x := 1 / |v.value|) (by
    rw [abs_of_pos hi0]
    exact (zpow_le_zpow_right₀ (by norm_num) (by norm_num)).trans hi2)
  rw [abs_of_pos hi0, Rat.cast_id, ← hd.2] at hrel
  generalize 1 / magnitudeTy t x = r at *
  -- the product of the reciprocal with `|v|`
  obtain ⟨c1, c2⟩ := abs_le.1 hrel
  have p1 : 1 - 2 ^ (-53 : ℤ) ≤ r.value * |v.value| := by
    have := mul_le_mul_of_nonneg_right c1 hv0.le
    have e : (r.value - 1 / |v.value|) * |v.value| = r.value * |v.value| - 1 := by field_simp
    have e' : -(2 ^ (-53 : ℤ) * (1 / |v.value|)) * |v.value| = -(2 : ℚ) ^ (-53 : ℤ) := by field_simp
    rw [e, e'] at this
    linarith
  have p2 : r.value * |v.value| ≤ 1 + 2 ^ (-53 : ℤ) := by
    have := mul_le_mul_of_nonneg_right c2 hv0.le
    have e : (r.value - 1 / |v.value|) * |v.value| = r.value * |v.value| - 1 := by field_simp
    have e' : 2 ^ (-53 : ℤ) * (1 / |v.value|) * |v.value| = (2 : ℚ) ^ (-53 : ℤ) := by field_simp
    rw [e, e'] at this
    linarith
  have q1 : 1 - 2 ^ (-53 : ℤ) ≤ F64.rnVal (r.value * |v.value|) :=
    F64.rep_le_rnVal (K := ℚ) ⟨2 ^ 53 - 1, -53, by norm_num, by norm_num, by norm_num⟩
      (by rw [Rat.cast_id]; exact p1)
  have q2 : F64.rnVal (r.value * |v.value|) ≤ 1 := by
    refine (F64.rnVal_mono p2).trans (le_of_eq ?_)
    exact rn_tie_one
  have hsplit : r.value * v.value = r.value * |v.value| ∨ r.value * v.value = -(r.value * |v.value|) := by
    rcases abs_choice v.value with e | e
    · left; rw [e]
    · right; rw [e]; ring
  have habs : |F64.rnVal (r.value * v.value)| ≤ 1 := by
    rcases hsplit with e | e
    · rw [e, abs_le]; constructor
      · refine le_trans ?_ q1; norm_num
      · exact q2
    · rw [e, F64.rnVal_neg, abs_neg, abs_le]; constructor
      · refine le_trans ?_ q1; norm_num
      · exact q2
  obtain ⟨f1, f2⟩ := F64.mul_spec hd.1 hf (lt_of_le_of_lt habs (one_lt_pow₀ (by norm_num) (by norm_num)))
  refine ⟨f1, ?_⟩
  rw [F64.mul_def, f2]
  have hn := near_one (F64.rnVal_rep _) q1 q2
  rcases le_or_gt 0 v.value with hp | hp
  · rw [abs_of_nonneg hp] at hn hv0
    rw [abs_of_nonneg hp, div_self hv0.ne', mul_one]
    exact hn
  · rw [abs_of_neg hp] at hn hv0
    have e : r.value * v.value = -(r.value * -v.value) := by ring
    rw [abs_of_neg hp, e, F64.rnVal_neg]
    have e2 : v.value / -v.value = -1 := by rw [div_neg, div_self hp.ne]
    rw [e2]
    rcases hn with hn | hn
    · left; rw [hn]
    · right; rw [hn]; ring

/-- **C52.** When the dominant component is plus or minus a power of two, it becomes exactly plus or
minus one. -/
theorem C52_direction_pow2 (t : Ty) (x : t.D F64) (v : F64) (h : Dominant t x v) (k : ℤ)
    (hk : |v.value| = 2 ^ k) :
    ∃ r : F64, comps t (directionTy t x) = (comps t x).map (r * ·) ∧
      HasVal r (2 ^ (-k)) ∧ HasVal (r * v) (v.value / |v.value|) := by
  obtain ⟨hdir, hd⟩ := axis_recip h
  obtain ⟨⟨hf, h1, h2⟩, -⟩ := h
  rw [hk] at h1 h2
  have k1 : -500 ≤ k := (zpow_le_zpow_iff_right₀ (by norm_num)).1 h1
  have k2 : k ≤ 500 := (zpow_le_zpow_iff_right₀ (by norm_num)).1 h2
  rw [hk, one_div, ← zpow_neg, F64.rnVal_exact (F64.rep_pow _ (by omega))] at hd
  refine ⟨1 / magnitudeTy t x, by rw [hdir, comps_smul], hd, ?_⟩
  have e : (2 : ℚ) ^ (-k) * v.value = v.value / |v.value| := by
    rw [hk, zpow_neg, div_eq_mul_inv, mul_comm]
  have hr : F64.Rep (v.value / |v.value|) := by
    rcases le_or_gt 0 v.value with hp | hp
    · rw [abs_of_nonneg hp, div_self (by intro h0; rw [h0, abs_zero] at hk
                                         exact (F64.two_zpow_pos (K := ℚ) k).ne hk)]
      exact ⟨1, 0, by norm_num, by norm_num, by norm_num⟩
    · rw [abs_of_neg hp, div_neg, div_self hp.ne]
      exact ⟨-1, 0, by norm_num, by norm_num, by norm_num⟩
  have ha : abs (v.value / |v.value|) ≤ 1 := by rw [abs_div, abs_abs]; exact div_self_le_one _
  have hm := F64.mul_spec hd.1 hf (by
    rw [hd.2, e, F64.rnVal_exact hr]
    exact lt_of_le_of_lt ha (one_lt_pow₀ (by norm_num) (by norm_num)))
  rw [hd.2, e, F64.rnVal_exact hr] at hm
  exact hm

/-- `x` lies along one axis of its type: its only component with a non-zero value is `v`. -/
def OnAxis (t : Ty) (x : t.D F64) (v : F64) : Prop :=
  (v.Finite ∧ (2 : ℚ) ^ (-500 : ℤ) ≤ |v.value| ∧ |v.value| ≤ 2 ^ (500 : ℤ)) ∧
  ∃ l₁ l₂, comps t x = l₁ ++ v :: l₂ ∧ ∀ c ∈ l₁ ++ l₂, c.Finite ∧ c.value = 0

theorem OnAxis.dominant {t : Ty} {x : t.D F64} {v : F64} (h : OnAxis t x v) : Dominant t x v := by
  obtain ⟨hv, l₁, l₂, he, hc⟩ := h
  refine ⟨hv, l₁, l₂, he, fun c hm => ⟨(hc c hm).1, ?_⟩⟩
  rw [(hc c hm).2, abs_zero]
  positivity

theorem mul_zero_val {r c : F64} (hr : r.Finite) (hc : c.Finite) (h : c.value = 0) :
    (r * c).Finite ∧ (r * c).value = 0 := by
  have := F64.mul_spec hr hc (by rw [h, mul_zero, F64.rnVal_zero, abs_zero]; positivity)
  refine ⟨this.1, ?_⟩
  rw [F64.mul_def, this.2, h, mul_zero, F64.rnVal_zero]

theorem abs_div_abs {v : ℚ} (h : v ≠ 0) : abs (v / |v|) = 1 := by
  rw [abs_div, abs_abs, div_self (abs_ne_zero.2 h)]

/-- **C52.** The direction of an object along an axis lies along the same axis, and its component
there is plus or minus `1` or `1 - 2^-53`. -/
theorem C52_direction_axis (t : Ty) (x : t.D F64) (v : F64) (h : OnAxis t x v) :
    ∃ w : F64, OnAxis t (directionTy t x) w ∧
      (w.value = v.value / |v.value| ∨ w.value = (1 - 2 ^ (-53 : ℤ)) * (v.value / |v.value|)) := by
  obtain ⟨r, h1, hr, h2, h3⟩ := C52_direction t x v h.dominant
  obtain ⟨⟨hf, a1, a2⟩, l₁, l₂, he, hc⟩ := h
  have hv0 : v.value ≠ 0 := fun h0 => by
    rw [h0, abs_zero] at a1; exact absurd a1 (not_le.2 (F64.two_zpow_pos _))
  have habs : 1 / 2 ≤ |(r * v).value| ∧ |(r * v).value| ≤ 1 := by
    rcases h3 with e | e
    · rw [e, abs_div_abs hv0]; norm_num
    · rw [e, abs_mul, abs_div_abs hv0]; norm_num
  refine ⟨r * v, ⟨⟨h2, ?_, ?_⟩, l₁.map (r * ·), l₂.map (r * ·), ?_, ?_⟩, h3⟩
  · refine le_trans ?_ habs.1
    rw [show (1 / 2 : ℚ) = 2 ^ (-1 : ℤ) by norm_num]
    exact zpow_le_zpow_right₀ (by norm_num) (by norm_num)
  · exact habs.2.trans (one_le_zpow₀ (by norm_num) (by norm_num))
  · rw [h1, he, List.map_append, List.map_cons]
  · intro c hm
    rw [← List.map_append, List.mem_map] at hm
    obtain ⟨d, hd, rfl⟩ := hm
    exact mul_zero_val hr (hc d hd).1 (hc d hd).2

theorem rep_one : F64.Rep (1 : ℚ) := ⟨1, 0, by norm_num, by norm_num, by norm_num⟩

theorem recip_below_one : F64.rnVal (1 / (1 - 2 ^ (-53 : ℤ)) : ℚ) = 1 + 2 ^ (-52 : ℤ) := by
  rw [rnVal_of (e := -52) (n := 2 ^ 52 + 1) (by norm_num) (by norm_num) (by norm_num) (by norm_num [abs_lt])]
  norm_num

theorem round_to_one : F64.rnVal ((1 + 2 ^ (-52 : ℤ)) * (1 - 2 ^ (-53 : ℤ)) : ℚ) = 1 := by
  rw [rnVal_of (e := -52) (n := 2 ^ 52) (by norm_num) (by norm_num) (by norm_num) (by norm_num [abs_lt])]
  norm_num

/-- **C52.** A second `direction` corrects the last place: the direction of the direction of an
object along an axis has the component plus or minus one there, exactly, and zeros elsewhere. -/
theorem C52_direction_twice (t : Ty) (x : t.D F64) (v : F64) (h : OnAxis t x v) :
    ∃ w : F64, OnAxis t (directionTy t (directionTy t x)) w ∧ w.value = v.value / |v.value| := by
  obtain ⟨w, h1, h2⟩ := C52_direction_axis t x v h
  have hv0 : v.value ≠ 0 := fun h0 => by
    have a1 := h.1.2.1
    rw [h0, abs_zero] at a1; exact absurd a1 (not_le.2 (F64.two_zpow_pos _))
  obtain ⟨hdir, hd⟩ := axis_recip h1.dominant
  obtain ⟨z, h3, -⟩ := C52_direction_axis t (directionTy t x) w h1
  have hone := abs_div_abs hv0
  generalize v.value / |v.value| = s at *
  have hs : s = 1 ∨ s = -1 := eq_or_eq_neg_of_abs_eq hone
  have hw0 : HasVal ((1 / magnitudeTy t (directionTy t x)) * w) s := by
    have hwf := h1.1.1
    generalize 1 / magnitudeTy t (directionTy t x) = r at *
    have key : F64.rnVal (F64.rnVal (1 / |w.value|) * w.value) = s := by
      rcases h2 with e | e
      · rw [e, hone, div_one, F64.rnVal_exact rep_one, one_mul]
        rcases hs with rfl | rfl
        · exact F64.rnVal_exact rep_one
        · rw [F64.rnVal_neg, F64.rnVal_exact rep_one]
      · have ea : |w.value| = 1 - 2 ^ (-53 : ℤ) := by
          rw [e, abs_mul, hone, mul_one]; norm_num
        rw [ea, e, recip_below_one, ← mul_assoc]
        rcases hs with rfl | rfl
        · rw [mul_one]; exact round_to_one
        · rw [mul_neg_one, F64.rnVal_neg, round_to_one]
    have hb : |F64.rnVal (r.value * w.value)| < 2 ^ 1024 := by
      rw [hd.2, key, hone]; exact one_lt_pow₀ (by norm_num) (by norm_num)
    have := F64.mul_spec hd.1 hwf hb
    rw [hd.2, key] at this
    exact this
  obtain ⟨⟨hf, a1, a2⟩, l₁, l₂, he, hc⟩ := h1
  rw [hdir]
  generalize 1 / magnitudeTy t (directionTy t x) = r at *
  refine ⟨r * w, ⟨⟨hw0.1, ?_, ?_⟩, l₁.map (r * ·), l₂.map (r * ·), ?_, ?_⟩, hw0.2⟩
  · rw [hw0.2, hone]
    exact zpow_le_one_of_nonpos₀ (by norm_num) (by norm_num)
  · rw [hw0.2, hone]
    exact one_le_zpow₀ (by norm_num) (by norm_num)
  · rw [comps_smul, he, List.map_append, List.map_cons]
  · intro c hm
    rw [← List.map_append, List.mem_map] at hm
    obtain ⟨d, hd', rfl⟩ := hm
    exact mul_zero_val hd.1 (hc d hd').1 (hc d hd').2

/-! The hypotheses are met, and both values occur. -/

/-- The vector `v e1`. -/
noncomputable def alongE1 (v : F64) : Ty.vec.D F64 := (⟨⟨v, 0, 0⟩⟩ : Vector F64)

theorem alongE1_axis {v : F64} (hf : v.Finite) (h1 : (2 : ℚ) ^ (-500 : ℤ) ≤ |v.value|)
    (h2 : |v.value| ≤ 2 ^ (500 : ℤ)) : OnAxis .vec (alongE1 v) v := by
  refine ⟨⟨hf, h1, h2⟩, [], [0, 0], rfl, fun c hc => ?_⟩
  simp only [List.nil_append, List.mem_cons, List.not_mem_nil, or_false, or_self] at hc
  rw [hc]
  exact F64.hasVal_zero'

noncomputable def fortyNine : F64 := Dbl.lit 49

theorem fortyNine_val : HasVal fortyNine 49 := by
  have h : F64.IsFin 49 := ⟨by norm_num, 49, 0, by norm_num, by norm_num, by norm_num, by norm_num⟩
  unfold fortyNine
  rw [F64.lit_def, F64.roundTo_fin h]
  exact F64.hasVal_fin _

theorem fortyNine_axis : OnAxis .vec (alongE1 fortyNine) fortyNine := by
  refine alongE1_axis fortyNine_val.1 ?_ ?_
  · rw [fortyNine_val.2, abs_of_pos (by norm_num)]
    exact (zpow_le_one_of_nonpos₀ (by norm_num) (by norm_num)).trans (by norm_num)
  · rw [fortyNine_val.2, abs_of_pos (by norm_num)]
    exact le_trans (by norm_num : (49 : ℚ) ≤ 2 ^ (6 : ℤ)) (zpow_le_zpow_right₀ (by norm_num) (by norm_num))

/-- **C52.** The direction of the vector `49 e1` is not the unit vector `e1`: its first component is
one unit in the last place below one. -/
theorem C52_direction_49 :
    ∃ w : F64, OnAxis .vec (directionTy .vec (alongE1 fortyNine)) w ∧ w.value = 1 - 2 ^ (-53 : ℤ) := by
  obtain ⟨hdir, hd⟩ := axis_recip fortyNine_axis.dominant
  have e1 : F64.rnVal (1 / |fortyNine.value|) = 5882252574524729 * (2 : ℚ) ^ (-58 : ℤ) := by
    rw [fortyNine_val.2, abs_of_pos (by norm_num)]
    exact rnVal_of (e := -58) (n := 5882252574524729) (by norm_num) (by norm_num) (by norm_num)
      (by norm_num [abs_lt])
  rw [e1] at hd
  have e2 : F64.rnVal (5882252574524729 * (2 : ℚ) ^ (-58 : ℤ) * 49) = 1 - 2 ^ (-53 : ℤ) := by
    rw [rnVal_of (e := -53) (n := 2 ^ 53 - 1) (by norm_num) (by norm_num) (by norm_num)
      (by norm_num [abs_lt])]
    norm_num
  have hm := F64.mul_spec hd.1 fortyNine_val.1 (by
    rw [hd.2, fortyNine_val.2, e2, abs_of_pos (by norm_num)]
    exact lt_of_le_of_lt (by norm_num : (1 - 2 ^ (-53 : ℤ) : ℚ) ≤ 1) (one_lt_pow₀ (by norm_num) (by norm_num)))
  rw [hd.2, fortyNine_val.2, e2] at hm
  obtain ⟨w, h1, h2⟩ := C52_direction_axis .vec _ _ fortyNine_axis
  rw [hdir]
  refine ⟨_, ⟨⟨hm.1, ?_, ?_⟩, [], [_ * 0, _ * 0], rfl, fun c hc => ?_⟩, hm.2⟩
  · rw [hm.2, abs_of_pos (by norm_num)]
    refine le_trans ?_ (by norm_num : (2 : ℚ) ^ (-1 : ℤ) ≤ 1 - 2 ^ (-53 : ℤ))
    exact zpow_le_zpow_right₀ (by norm_num) (by norm_num)
  · rw [hm.2, abs_of_pos (by norm_num)]
    exact le_trans (by norm_num : (1 - 2 ^ (-53 : ℤ) : ℚ) ≤ 1) (one_le_zpow₀ (by norm_num) (by norm_num))
  · simp only [List.nil_append, List.mem_cons, List.not_mem_nil, or_false, or_self] at hc
    rw [hc]
    exact mul_zero_val hd.1 F64.hasVal_zero'.1 F64.hasVal_zero'.2

/-- A dominant component with others that are not zero. -/
example : Dominant .spin (⟨⟨⟨F64.pow2 0⟩⟩, ⟨⟨F64.pow2 (-40), 0, F64.pow2 (-31)⟩⟩⟩ : Spinor F64) (F64.pow2 0) := by
  have a := F64.pow2_val (e := 0) (by norm_num) (by norm_num)
  have b := F64.pow2_val (e := -40) (by norm_num) (by norm_num)
  have c := F64.pow2_val (e := -31) (by norm_num) (by norm_num)
  refine ⟨⟨a.1, ?_, ?_⟩, [], [_, _, _], rfl, fun z hz => ?_⟩
  · rw [a.2, zpow_zero, abs_one]; exact zpow_le_one_of_nonpos₀ (by norm_num) (by norm_num)
  · rw [a.2, zpow_zero, abs_one]; exact one_le_zpow₀ (by norm_num) (by norm_num)
  · simp only [List.nil_append, List.mem_cons, List.not_mem_nil, or_false] at hz
    rw [a.2]
    rcases hz with rfl | rfl | rfl
    · exact ⟨b.1, by rw [b.2]; norm_num [abs_of_pos]⟩
    · exact ⟨F64.hasVal_zero'.1, by rw [F64.hasVal_zero'.2]; norm_num⟩
    · exact ⟨c.1, by rw [c.2]; norm_num [abs_of_pos]⟩

end Engabra
