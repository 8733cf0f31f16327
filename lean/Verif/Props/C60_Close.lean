import Verif.Props.C60_Checks
import Verif.Props.C48_Inverse
import Verif.Props.C31_RoundTrip

/-! # C60: checks a user writes with `nearlyEquals`

A computed value each of whose components has a small relative error is accepted
(`C60_close`, `C60_close_double`); hence `magnitude(x) * direction(x)` against `x`,
`magnitude(direction(x))` against one, `inverse(inverse(x))` against `x`, and a value read back from
its text against the value written. -/

namespace Engabra

open F64 (nan inf zero fin IsFin Finite HasVal)

/-- Specification: finite, and zero or of absolute value between `2^-400` and `2^499`. -/
def Sized (c : F64) : Prop :=
  c.Finite ∧ (c.value = 0 ∨ (2 : ℚ) ^ (-400 : ℤ) ≤ |c.value| ∧ |c.value| ≤ 2 ^ (499 : ℤ))

/-- Specification: `a` is finite and has a relative error of at most `κ` with respect to `b`. -/
def RelNear (κ : ℚ) (a b : F64) : Prop := a.Finite ∧ |a.value - b.value| ≤ κ * |b.value|

theorem sz_zero {a : F64} (hf : a.Finite) (h : a.value = 0) : Sz a 0 := sz_zero_of ⟨hf, h⟩

theorem sized_valid {b : F64} (hb : Sized b) : isValidDub b = true := by
  rcases hb with ⟨hf, h | h⟩
  · rw [F64.isValidDub_Sz (sz_zero hf h)]; exact isValidDub_zero false
  · exact valid_of_normal hf ((zpow_le_zpow_right₀ (by norm_num) (by norm_num)).trans h.1)

theorem relNear_abs {κ : ℚ} (hκ : κ ≤ 1 / 2) {a b : F64} (h : RelNear κ a b) :
    1 / 2 * |b.value| ≤ |a.value| ∧ |a.value| ≤ 3 / 2 * |b.value| := by
  have h1 := mul_le_mul_of_nonneg_right hκ (abs_nonneg b.value)
  have h2 := abs_sub_abs_le_abs_sub a.value b.value
  have h3 := abs_sub_abs_le_abs_sub b.value a.value
  rw [abs_sub_comm] at h3
  have := h.2
  constructor <;> linarith

theorem near_mid {κ : ℚ} (hκ : κ ≤ 1 / 2) {a b : F64} (hb : Sized b) (h : RelNear κ a b) :
    isValidDub a = true ∧ |a.value| ≤ 2 ^ (500 : ℤ) := by
  obtain ⟨h1, h2⟩ := relNear_abs hκ h
  rcases hb with ⟨hf, h0 | h0⟩
  · rw [h0, abs_zero, mul_zero] at h2
    have h3 : a.value = 0 := abs_eq_zero.1 (le_antisymm h2 (abs_nonneg _))
    refine ⟨?_, ?_⟩
    · rw [F64.isValidDub_Sz (sz_zero h.1 h3)]; exact isValidDub_zero false
    · rw [h3, abs_zero]; exact (F64.two_zpow_pos _).le
  · constructor
    · refine valid_of_normal h.1 (le_trans ?_ h1)
      have e : (2 : ℚ) ^ (-400 : ℤ) = 2 * 2 ^ (-401 : ℤ) := by
        rw [show (-400 : ℤ) = 1 + -401 by norm_num only, zpow_add₀ (by norm_num), zpow_one]
      have h4 : (2 : ℚ) ^ (-1022 : ℤ) ≤ 2 ^ (-401 : ℤ) :=
        zpow_le_zpow_right₀ (by norm_num) (by norm_num)
      have h5 := h0.1
      rw [e] at h5
      generalize (2 : ℚ) ^ (-401 : ℤ) = z at *
      generalize (2 : ℚ) ^ (-1022 : ℤ) = w at *
      linarith only [h4, h5]
    · have e : (2 : ℚ) ^ (500 : ℤ) = 2 * 2 ^ (499 : ℤ) := by
        rw [show (500 : ℤ) = 1 + 499 by norm_num only, zpow_add₀ (by norm_num), zpow_one]
      have h5 := h0.2
      have h6 := F64.two_zpow_pos (K := ℚ) 499
      rw [e]
      generalize (2 : ℚ) ^ (499 : ℤ) = z at *
      linarith only [h2, h5, h6]

theorem listNorm_sq (ys : List ℝ) : listNorm ys * listNorm ys = (ys.map fun y => y * y).sum :=
  Real.mul_self_sqrt (sum_sq_nonneg ys)

theorem le_listNorm {ys : List ℝ} {y : ℝ} (h : y ∈ ys) : |y| ≤ listNorm ys := by
  apply Real.abs_le_sqrt
  rw [pow_two]
  refine List.single_le_sum ?_ _ (List.mem_map.2 ⟨y, h, rfl⟩)
  intro z hz
  obtain ⟨w, -, rfl⟩ := List.mem_map.1 hz
  exact mul_self_nonneg w

/-- Component errors relative to the components give an error relative to the norm. -/
theorem listDist_le {κ : ℚ} (hκ : 0 ≤ κ) {xs ys : List F64} (h : List.Forall₂ (RelNear κ) xs ys) :
    listDist (vals xs) (vals ys) ≤ κ * listNorm (vals ys) := by
  have key : ((List.zipWith (· - ·) (vals xs) (vals ys)).map fun y => y * y).sum
      ≤ (κ : ℝ) * κ * ((vals ys).map fun y => y * y).sum := by
    induction h with
    | nil => simp [vals]
    | @cons a b xs ys h _ ih =>
      simp only [vals, List.map_cons, List.zipWith_cons_cons, List.sum_cons] at ih ⊢
      have h1 : |(a.value : ℝ) - b.value| ≤ κ * |(b.value : ℝ)| := by exact_mod_cast h.2
      have h2 := mul_le_mul h1 h1 (abs_nonneg _) (mul_nonneg (by exact_mod_cast hκ) (abs_nonneg _))
      rw [abs_mul_abs_self] at h2
      have h3 : (κ : ℝ) * |(b.value : ℝ)| * (κ * |(b.value : ℝ)|) = κ * κ * (b.value * b.value) := by
        rw [← abs_mul_abs_self (b.value : ℝ)]; ring
      rw [h3] at h2
      linarith
  have hn : 0 ≤ (κ : ℝ) * listNorm (vals ys) :=
    mul_nonneg (by exact_mod_cast hκ) (Real.sqrt_nonneg _)
  refine Real.sqrt_le_iff.2 ⟨hn, key.trans (le_of_eq ?_)⟩
  rw [← listNorm_sq]
  ring

theorem close_array {κ : ℚ} (hκ0 : 0 ≤ κ) (hκ : κ ≤ 1 / 2) {xs ys : List F64}
    (h : List.Forall₂ (RelNear κ) xs ys) (hy : ∀ c ∈ ys, Sized c) (h0 : ys ≠ [])
    (hn : ys.length ≤ 3) {tol : F64} (htf : tol.Finite) (ht1 : (2 : ℚ) ^ (-60 : ℤ) ≤ tol.value)
    (ht2 : tol.value ≤ 2 ^ (500 : ℤ)) (hκt : κ ≤ tol.value * (1 - 12 * 2 ^ (-53 : ℤ))) :
    nearlyEqualsArr xs ys tol = .ok true := by
  have hlen : xs.length = ys.length := h.length_eq
  have hmid : Mid xs := by
    intro a ha
    obtain ⟨b, hb, hab⟩ : ∃ b ∈ ys, RelNear κ a b := by
      clear hn hlen h0
      induction h with
      | nil => simp at ha
      | cons h _ ih =>
        rcases List.mem_cons.1 ha with rfl | ha
        · exact ⟨_, List.mem_cons_self, h⟩
        · obtain ⟨b, hb, hab⟩ := ih (fun c hc => hy c (by simp [hc])) ha
          exact ⟨b, by simp [hb], hab⟩
    exact near_mid hκ (hy b hb) hab
  have hmidy : Mid ys := fun b hb => ⟨sized_valid (hy b hb), by
    rcases (hy b hb).2 with h | h
    · rw [h, abs_zero]; exact (F64.two_zpow_pos _).le
    · exact h.2.trans (zpow_le_zpow_right₀ (by norm_num) (by norm_num))⟩
  by_cases hz : ∀ c ∈ ys, c.value = 0
  · have hszx : List.Forall₂ Sz xs (xs.map fun _ => 0) := by
      clear hn hlen h0 hmid hmidy
      induction h with
      | nil => exact .nil
      | @cons a b _ _ h _ ih =>
        refine .cons ?_ (ih (fun c hc => hy c (by simp [hc])) fun c hc => hz c (by simp [hc]))
        refine sz_zero h.1 ?_
        have := h.2
        rw [hz b (by simp), abs_zero, mul_zero, sub_zero] at this
        exact abs_eq_zero.1 (le_antisymm this (abs_nonneg _))
    have hszy : List.Forall₂ Sz ys (ys.map fun _ => 0) := by
      clear hn hlen h0 hmid hmidy h
      induction ys with
      | nil => exact .nil
      | cons b ys ih =>
        refine .cons (sz_zero (hy b (by simp)).1 (hz b (by simp))) (ih ?_ ?_)
        · exact fun c hc => hy c (by simp [hc])
        · exact fun c hc => hz c (by simp [hc])
    rw [C60_array hszx hszy hlen, show xs.map (fun _ => (0 : F64)) = ys.map fun _ => 0 by
      rw [List.map_const', List.map_const', hlen]]
    refine C26_array _ tol (by simpa using h0) ?_ ?_
    · intro c hc
      obtain ⟨_, -, rfl⟩ := List.mem_map.1 hc
      exact isValidDub_zero false
    · rw [F64.hasVal_zero'.flt (HasVal.of htf), decide_eq_true_iff]
      exact (F64.two_zpow_pos _).trans_le ht1
  · push Not at hz
    obtain ⟨b, hb, hb0⟩ := hz
    refine C27_range_accepts xs ys tol hlen (by omega) hmid hmidy htf ht1 ht2 ?_ ?_
    · refine le_trans ?_ (le_listNorm (List.mem_map.2 ⟨b, hb, rfl⟩))
      have h1 := ((hy b hb).2.resolve_left hb0).1
      have h2 := (Rat.cast_le (K := ℝ)).2 h1
      rw [cast_zpow, Rat.cast_abs] at h2
      exact (zpow_le_zpow_right₀ (by norm_num) (by norm_num)).trans h2
    · refine (listDist_le hκ0 h).trans (mul_le_mul_of_nonneg_right ?_ (Real.sqrt_nonneg _))
      have h3 := (Rat.cast_le (K := ℝ)).2 hκt
      refine h3.trans ?_
      rw [Rat.cast_mul, Rat.cast_sub, Rat.cast_mul, cast_zpow, Rat.cast_one, Rat.cast_ofNat]
      refine mul_le_mul_of_nonneg_left ?_ (by
        exact_mod_cast (F64.two_zpow_pos (K := ℚ) _).le.trans ht1)
      have h4 : (xs.length : ℝ) ≤ 3 := by rw [hlen]; exact_mod_cast hn
      have := mul_le_mul_of_nonneg_right (by linarith : 2 * (xs.length : ℝ) + 6 ≤ 12) uR_nonneg
      change 1 - 12 * uR ≤ 1 - (2 * xs.length + 6) * uR
      linarith

/-- **C60.**  For every type but `double`: if each component of `x` has a relative error of at most
`κ` with respect to the corresponding component of `y`, and `κ` is below the tolerance (by a factor
`1 - 12 · 2^-53`), `nearlyEquals(x, y, tol)` is true. -/
theorem C60_close (t : Ty) (htd : t ≠ .dub) (x y : t.D F64) {κ : ℚ} (hκ0 : 0 ≤ κ) (hκ : κ ≤ 1 / 2)
    (h : List.Forall₂ (RelNear κ) (comps t x) (comps t y)) (hy : ∀ c ∈ comps t y, Sized c)
    (tol : F64) (htf : tol.Finite) (ht1 : (2 : ℚ) ^ (-60 : ℤ) ≤ tol.value)
    (ht2 : tol.value ≤ 2 ^ (500 : ℤ)) (hκt : κ ≤ tol.value * (1 - 12 * 2 ^ (-53 : ℤ))) :
    nearlyEqualsTy t x y tol = .ok true := by
  rw [nearly_grades t htd]
  have h1 : ∀ p ∈ (gradeLists t x).zip (gradeLists t y), List.Forall₂ (RelNear κ) p.1 p.2 := by
    cases t <;> simp only [comps, List.forall₂_cons, List.Forall₂.nil, and_true] at h <;>
      simp [gradeLists, h]
  intro p hp
  obtain ⟨hl, hl3, hne, -, hcy⟩ := grade_length t x y p hp
  exact close_array hκ0 hκ (h1 p hp) (fun c hc => hy c (hcy c hc))
    (by intro e; rw [e] at hl; exact hne (List.length_eq_zero_iff.1 hl)) (by omega) htf ht1 ht2 hκt

/-- **C60.**  `nearlyEquals(double, double)`: a relative error of at most `κ` is accepted if
`κ + 4 · 2^-53` is at most the tolerance. -/
theorem C60_close_double (a b : F64) {κ : ℚ} (hκ0 : 0 ≤ κ) (hκ : κ ≤ 1 / 2) (hb : Sized b)
    (h : RelNear κ a b) (tol : F64) (htf : tol.Finite)
    (ht : κ + 4 * 2 ^ (-53 : ℤ) ≤ tol.value) : nearlyEqualsDub a b tol = true := by
  have hu := F64.two_zpow_pos (K := ℚ) (-53)
  have ht0 : 0 < tol.value := by generalize (2 : ℚ) ^ (-53 : ℤ) = u at *; linarith
  by_cases hz : b.value = 0
  · have ha : a.value = 0 := by
      have := h.2
      rw [hz, abs_zero, mul_zero, sub_zero] at this
      exact abs_eq_zero.1 (le_antisymm this (abs_nonneg _))
    rw [nearlyEqualsDub, nearlyEqualsRel_Sz (sz_zero h.1 ha) (sz_zero hb.1 hz)]
    refine C26_double 0 tol (isValidDub_zero false) ?_
    rw [F64.hasVal_zero'.flt (HasVal.of htf), decide_eq_true_iff]
    exact ht0
  have hbb := hb.2.resolve_left hz
  have hav := (near_mid hκ hb h).1
  unfold nearlyEqualsDub nearlyEqualsRel bothAreValid
  rw [hav, sized_valid hb]
  simp only [Bool.and_self, if_true]
  rw [if_neg]
  swap
  · rw [(HasVal.of hb.1).abs.flt F64.tolToZero_val, decide_eq_true_iff, not_lt]
    exact (zpow_le_zpow_right₀ (by norm_num) (by norm_num)).trans hbb.1
  have hq : |a.value / b.value - 1| ≤ κ := by
    rw [div_sub_one hz, abs_div, div_le_iff₀ (abs_pos.2 hz)]
    exact h.2
  have hq1 := abs_le.1 hq
  have hqa : |a.value / b.value| ≤ 2 := by
    rw [abs_le]; constructor <;> linarith
  have hd := F64.div_spec h.1 hb.1 hz (F64.safe_lt (hqa.trans (by
    have := F64.one_le_safe
    linarith)))
  have he := F64.rn_err (a.value / b.value)
  rw [← hd.2] at he
  have hη : (2 : ℚ) ^ (-1075 : ℤ) ≤ 1 / 10 * 2 ^ (-53 : ℤ) := by
    rw [show (-1075 : ℤ) = -1022 + -53 by norm_num only, zpow_add₀ (by norm_num)]
    refine mul_le_mul_of_nonneg_right ?_ hu.le
    exact (zpow_le_zpow_right₀ (by norm_num) (by norm_num : (-1022 : ℤ) ≤ -4)).trans (by norm_num)
  have hu1 : (2 : ℚ) ^ (-53 : ℤ) ≤ 1 / 1000 := by norm_num
  have hqa' : |a.value / b.value| ≤ 3 / 2 := by
    rw [abs_le]; constructor <;> linarith
  have h1 := mul_le_mul_of_nonneg_left hqa' hu.le
  have h2 : |(a / b).value - 1| ≤ κ + 16 / 10 * 2 ^ (-53 : ℤ) := by
    have := abs_sub_le (a / b).value (a.value / b.value) 1
    linarith
  have h3 : |(a / b).value - 1| ≤ 1 := by linarith
  have hs := F64.sub_spec' hd.1 F64.hasVal_one.1 (by
    rw [F64.hasVal_one.2]
    refine F64.safe_lt ?_
    have := F64.one_le_safe
    linarith)
  have hsv := F64.sub_value hs
  rw [F64.hasVal_one.2] at hsv
  have he2 := F64.rn_err ((a / b).value - 1)
  rw [← hsv] at he2
  have h4 := mul_le_mul_of_nonneg_left h3 hu.le
  have h5 : |(a / b - 1).value| ≤ |(a / b).value - 1| + |(a / b - 1).value - ((a / b).value - 1)| := by
    have := abs_add_le ((a / b).value - 1) ((a / b - 1).value - ((a / b).value - 1))
    rwa [add_sub_cancel] at this
  unfold isSmallAbsDiff isSmallAbs
  rw [F64.abs_lt_iff hs htf]
  generalize (2 : ℚ) ^ (-1075 : ℤ) = η at *
  generalize (2 : ℚ) ^ (-53 : ℤ) = u at *
  linarith

/-- **C60.**  All types: a relative error of at most `κ` in each component is accepted if
`κ + 4 · 2^-53` is at most the tolerance. -/
theorem C60_close_all (t : Ty) (x y : t.D F64) {κ : ℚ} (hκ0 : 0 ≤ κ) (hκ : κ ≤ 1 / 8)
    (h : List.Forall₂ (RelNear κ) (comps t x) (comps t y)) (hy : ∀ c ∈ comps t y, Sized c)
    (tol : F64) (htf : tol.Finite) (ht : κ + 4 * 2 ^ (-53 : ℤ) ≤ tol.value) :
    nearlyEqualsTy t x y tol = .ok true := by
  have hκ2 : κ ≤ 1 / 2 := by linarith
  by_cases htd : t = .dub
  · subst htd
    simp only [comps, List.forall₂_cons, List.Forall₂.nil, and_true] at h
    simp only [nearlyEqualsTy]
    rw [C60_close_double x y hκ0 hκ2 (hy y (by simp [comps])) h tol htf ht]
  have key : ∀ e : F64, e.Finite → κ + 4 * 2 ^ (-53 : ℤ) ≤ e.value → e.value ≤ 1 / 4 →
      nearlyEqualsTy t x y e = .ok true := by
    intro e hef he1 he2
    refine C60_close t htd x y hκ0 hκ2 h hy e hef ?_ ?_ ?_
    · refine le_trans ?_ he1
      have : (2 : ℚ) ^ (-60 : ℤ) ≤ 2 ^ (-53 : ℤ) := zpow_le_zpow_right₀ (by norm_num) (by norm_num)
      have h0 := F64.two_zpow_pos (K := ℚ) (-53)
      generalize (2 : ℚ) ^ (-60 : ℤ) = w at *
      generalize (2 : ℚ) ^ (-53 : ℤ) = u at *
      linarith
    · refine he2.trans (le_trans (by norm_num) (one_le_zpow₀ (by norm_num) (by norm_num) :
        (1 : ℚ) ≤ 2 ^ (500 : ℤ)))
    · have h0 := F64.two_zpow_pos (K := ℚ) (-53)
      have := mul_le_mul_of_nonneg_right he2 h0.le
      generalize (2 : ℚ) ^ (-53 : ℤ) = u at *
      linarith
  by_cases hb : tol.value ≤ 1 / 4
  · exact key tol htf ht hb
  · push Not at hb
    have hq := F64.pow2_val (e := -2) (by norm_num) (by norm_num)
    have e2 : ((2 : ℚ) ^ (-2 : ℤ)) = 1 / 4 := by norm_num
    rw [e2] at hq
    refine C40_nearlyEquals_mono t x y (tol := F64.pow2 (-2)) ?_ (key _ hq.1 ?_ ?_)
    · rw [hq.flt (HasVal.of htf), decide_eq_true_iff]; exact hb
    · rw [hq.2]
      have : 4 * (2 : ℚ) ^ (-53 : ℤ) ≤ 1 / 8 := by norm_num
      linarith
    · rw [hq.2]

theorem sized_central (t : Ty) (x : t.D F64) (hx : ∀ c ∈ comps t x, Sized c)
    (hne : ∃ c ∈ comps t x, c.value ≠ 0) : Central t x := by
  refine ⟨fun c hc => ⟨(hx c hc).1, ?_⟩, ?_⟩
  · rcases (hx c hc).2 with h | h
    · rw [h, abs_zero]; exact (F64.two_zpow_pos _).le
    · exact h.2.trans (zpow_le_zpow_right₀ (by norm_num) (by norm_num))
  · obtain ⟨c, hc, h0⟩ := hne
    exact ⟨c, hc, (zpow_le_zpow_right₀ (by norm_num) (by norm_num)).trans
      ((hx c hc).2.resolve_left h0).1⟩

/-! ## Magnitude and direction -/

theorem polar_arith {u η m r c p q M : ℚ} (hu0 : 0 ≤ u) (hu : u ≤ 1 / 1000) (hm : 0 ≤ m) (hM : m ≤ M)
    (hη0 : 0 ≤ η) (hmr : |m * r - 1| ≤ u) (hη : M * η ≤ 1 / 100 * u * |c|) (hη2 : η ≤ 1 / 100 * u * |c|)
    (hp : |p - r * c| ≤ u * |r * c| + η) (hq : |q - m * p| ≤ u * |m * p| + η) :
    |q - c| ≤ 4 * u * |c| := by
  have hmη : m * η ≤ M * η := mul_le_mul_of_nonneg_right hM hη0
  have h1 : |m * r| ≤ 1 + u := by
    have := abs_add_le (m * r - 1) 1
    rw [sub_add_cancel, abs_one] at this
    linarith
  have e1 : m * |r * c| = |m * r| * |c| := by
    rw [← abs_mul, mul_assoc, abs_mul m, abs_of_nonneg hm]
  have h2 : |m * p - m * (r * c)| ≤ u * ((1 + u) * |c|) + 1 / 100 * u * |c| := by
    rw [← mul_sub, abs_mul, abs_of_nonneg hm]
    calc m * |p - r * c| ≤ m * (u * |r * c| + η) := mul_le_mul_of_nonneg_left hp hm
      _ = u * (m * |r * c|) + m * η := by ring
      _ ≤ _ := by
        rw [e1]
        have := mul_le_mul_of_nonneg_left (mul_le_mul_of_nonneg_right h1 (abs_nonneg c)) hu0
        linarith
  have h3 : |m * (r * c) - c| ≤ u * |c| := by
    rw [show m * (r * c) - c = (m * r - 1) * c by ring, abs_mul]
    exact mul_le_mul_of_nonneg_right hmr (abs_nonneg c)
  have h4 : |m * p - c| ≤ (u * (1 + u) + 1 / 100 * u + u) * |c| := by
    have := abs_sub_le (m * p) (m * (r * c)) c
    linarith
  have hc := abs_nonneg c
  have h5 : (u * (1 + u) + 1 / 100 * u + u) * |c| ≤ 22 / 10 * u * |c| := by
    refine mul_le_mul_of_nonneg_right ?_ hc
    nlinarith
  have h6 : |m * p| ≤ 11 / 10 * |c| := by
    have h7 := abs_add_le (m * p - c) c
    rw [sub_add_cancel] at h7
    have : 22 / 10 * u * |c| ≤ 1 / 10 * |c| := mul_le_mul_of_nonneg_right (by linarith) hc
    linarith
  have h7 := mul_le_mul_of_nonneg_left h6 hu0
  have h8 := abs_sub_le q (m * p) c
  have h9 : 0 ≤ u * |c| := mul_nonneg hu0 hc
  linarith

/-- **C60.**  `magnitude(x) * direction(x)` restores `x` up to a relative error of `4 · 2^-53` in each
component, for components that are zero or between `2^-400` and `2^499`, not all zero. -/
theorem C60_polar_near (t : Ty) (x : t.D F64) (hx : ∀ c ∈ comps t x, Sized c)
    (hne : ∃ c ∈ comps t x, c.value ≠ 0) :
    List.Forall₂ (RelNear (4 * 2 ^ (-53 : ℤ)))
      (comps t (smulTy t (magnitudeTy t x) (directionTy t x))) (comps t x) := by
  have hC := sized_central t x hx hne
  obtain ⟨hdir, hrf, hmpos, hr, hrb⟩ := recip_est hC
  obtain ⟨hl, hu, hS⟩ := central_real hC
  obtain ⟨hmf, he⟩ := C34_magnitude t x hC
  have hmb : (magnitudeTy t x).value ≤ (2 : ℚ) ^ (503 : ℤ) := by
    have h1 : ((magnitudeTy t x).value : ℝ) ≤ (2 : ℝ) ^ (503 : ℤ) := by
      have e : (2 : ℝ) ^ (503 : ℤ) = 2 * 2 ^ (502 : ℤ) := by
        rw [show (503 : ℤ) = 1 + 502 by norm_num only, zpow_add₀ (by norm_num), zpow_one]
      have h2 : ((magnitudeTy t x).value : ℝ) - euclid t x ≤ 52 / 10 * uR * euclid t x :=
        (abs_le.1 he).2
      have hE : 0 ≤ euclid t x := Real.sqrt_nonneg _
      have h3 : 52 / 10 * uR * euclid t x ≤ 1 / 10 * euclid t x :=
        mul_le_mul_of_nonneg_right (by linarith [uR_small]) hE
      rw [e]
      generalize (2 : ℝ) ^ (502 : ℤ) = P at *
      linarith only [h2, h3, hu, hE]
    rw [← cast_zpow] at h1
    exact Rat.cast_le.1 h1
  have hmq : 0 < (magnitudeTy t x).value := by exact_mod_cast hmpos
  have hrq : (1 / magnitudeTy t x).value ≤ (2 : ℚ) ^ (502 : ℤ) := by
    rw [← cast_zpow] at hrb; exact Rat.cast_le.1 hrb
  have hmr : |(magnitudeTy t x).value * (1 / magnitudeTy t x).value - 1| ≤ 2 ^ (-53 : ℤ) := by
    have h1 : |((magnitudeTy t x).value : ℝ) * (1 / magnitudeTy t x).value - 1| ≤ uR := by
      have e : ((magnitudeTy t x).value : ℝ) * (1 / magnitudeTy t x).value - 1
          = (magnitudeTy t x).value * ((1 / magnitudeTy t x).value - 1 / (magnitudeTy t x).value) := by
        rw [mul_sub, mul_one_div_cancel hmpos.ne']
      rw [e, abs_mul, abs_of_pos hmpos]
      refine (mul_le_mul_of_nonneg_left hr hmpos.le).trans (le_of_eq ?_)
      rw [mul_comm, mul_assoc, one_div_mul_cancel hmpos.ne', mul_one]
    rw [uR, ← cast_zpow] at h1
    exact_mod_cast h1
  rw [hdir, comps_smul, comps_smul, List.map_map]
  generalize 1 / magnitudeTy t x = r at *
  generalize magnitudeTy t x = m at *
  have hu0 : (0 : ℚ) ≤ 2 ^ (-53 : ℤ) := (F64.two_zpow_pos _).le
  have hu1 : (2 : ℚ) ^ (-53 : ℤ) ≤ 1 / 1000 := by norm_num
  have hmrb : |m.value * r.value| ≤ 2 := by
    have := abs_add_le (m.value * r.value - 1) 1
    rw [sub_add_cancel, abs_one] at this
    linarith only [this, hmr.trans hu1]
  have hr0 : 0 ≤ r.value := by
    by_contra hneg
    push Not at hneg
    have h1 := mul_neg_of_pos_of_neg hmq hneg
    have h2 := (abs_le.1 (hmr.trans hu1)).1
    linarith only [h1, h2]
  have key : ∀ c ∈ comps t x, RelNear (4 * 2 ^ (-53 : ℤ)) (m * (r * c)) c := by
    intro c hc
    have hcs := hx c hc
    have hcb : |c.value| ≤ 2 ^ (499 : ℤ) := by
      rcases hcs.2 with h | h
      · rw [h, abs_zero]; exact (F64.two_zpow_pos _).le
      · exact h.2
    have hsafe : ∀ e : ℤ, e ≤ 1022 → (2 : ℚ) ^ e ≤ 2 * F64.safe := by
      intro e he
      have h1 : (2 : ℚ) ^ e ≤ F64.safe := by
        unfold F64.safe
        rw [← zpow_natCast]; exact zpow_le_zpow_right₀ (by norm_num) (by exact_mod_cast he)
      have := F64.one_le_safe
      generalize (2 : ℚ) ^ e = z at *
      linarith
    have hprod : |r.value * c.value| ≤ (2 : ℚ) ^ (1001 : ℤ) := by
      rw [abs_mul, abs_of_nonneg hr0, show (1001 : ℤ) = 502 + 499 by norm_num only,
        zpow_add₀ (by norm_num)]
      exact mul_le_mul hrq hcb (abs_nonneg _) (F64.two_zpow_pos _).le
    have hsp := F64.mul_spec hrf hcs.1 (F64.safe_lt (hprod.trans (hsafe _ (by norm_num))))
    change (r * c).Finite ∧ (r * c).value = _ at hsp
    have hpe := F64.rn_err (r.value * c.value)
    rw [← hsp.2] at hpe
    have hη0 := (F64.two_zpow_pos (K := ℚ) (-1075)).le
    rcases hcs.2 with h0 | h0
    · have hv : (r * c).value = 0 := by rw [hsp.2, h0, mul_zero, F64.rnVal_zero]
      have hsp2 := F64.mul_spec hmf hsp.1 (by
        rw [hv, mul_zero, F64.rnVal_zero, abs_zero]; positivity)
      change (m * (r * c)).Finite ∧ (m * (r * c)).value = _ at hsp2
      refine ⟨hsp2.1, ?_⟩
      rw [hsp2.2, hv, mul_zero, F64.rnVal_zero, h0, sub_zero, abs_zero, mul_zero]
    · have hmη : (2 : ℚ) ^ (503 : ℤ) * 2 ^ (-1075 : ℤ) ≤ 1 / 100 * 2 ^ (-53 : ℤ) * |c.value| := by
        calc (2 : ℚ) ^ (503 : ℤ) * 2 ^ (-1075 : ℤ) = 2 ^ (-119 : ℤ) * 2 ^ (-53 : ℤ) * 2 ^ (-400 : ℤ) := by
              rw [← zpow_add₀ (by norm_num), ← zpow_add₀ (by norm_num), ← zpow_add₀ (by norm_num)]
              norm_num only
          _ ≤ _ := mul_le_mul (mul_le_mul_of_nonneg_right (by norm_num) hu0) h0.1
              (F64.two_zpow_pos _).le (by positivity)
      have hη2 : (2 : ℚ) ^ (-1075 : ℤ) ≤ 1 / 100 * 2 ^ (-53 : ℤ) * |c.value| := by
        refine le_trans ?_ hmη
        exact le_mul_of_one_le_left hη0 (one_le_zpow₀ (by norm_num) (by norm_num))
      have hmp : |m.value * (r * c).value| ≤ 2 ^ (1001 : ℤ) := by
        rw [abs_mul, abs_of_pos hmq]
        have h1 : m.value * |(r * c).value| ≤ m.value * (2 * |r.value * c.value| + 2 ^ (-1075 : ℤ)) := by
          refine mul_le_mul_of_nonneg_left ?_ hmq.le
          have h2 := abs_add_le ((r * c).value - r.value * c.value) (r.value * c.value)
          rw [sub_add_cancel] at h2
          have h3 : (2 : ℚ) ^ (-53 : ℤ) * |r.value * c.value| ≤ 1 * |r.value * c.value| :=
            mul_le_mul_of_nonneg_right (hu1.trans (by norm_num)) (abs_nonneg _)
          linarith only [h2, h3, hpe]
        have h2 : m.value * (2 * |r.value * c.value| + 2 ^ (-1075 : ℤ))
            = 2 * (|m.value * r.value| * |c.value|) + m.value * 2 ^ (-1075 : ℤ) := by
          rw [abs_mul, abs_mul, abs_of_pos hmq]; ring
        have h3 := mul_le_mul_of_nonneg_right hmrb (abs_nonneg c.value)
        have h4 := mul_le_mul_of_nonneg_right hmb hη0
        have h5 : 1 / 100 * (2 : ℚ) ^ (-53 : ℤ) * |c.value| ≤ |c.value| := by
          have := mul_le_mul_of_nonneg_right (show 1 / 100 * (2 : ℚ) ^ (-53 : ℤ) ≤ 1 by linarith only [hu1])
            (abs_nonneg c.value)
          linarith only [this]
        have h6 : 5 * |c.value| ≤ 2 ^ (1001 : ℤ) := by
          have e : (2 : ℚ) ^ (1001 : ℤ) = 2 ^ (502 : ℤ) * 2 ^ (499 : ℤ) := by
            rw [← zpow_add₀ (by norm_num)]; norm_num only
          rw [e]
          refine mul_le_mul ?_ hcb (abs_nonneg _) (F64.two_zpow_pos _).le
          exact le_trans (by norm_num) (zpow_le_zpow_right₀ (by norm_num) (by norm_num) :
            (2 : ℚ) ^ (3 : ℤ) ≤ 2 ^ (502 : ℤ))
        rw [h2] at h1
        refine h1.trans (le_trans ?_ h6)
        generalize (2 : ℚ) ^ (503 : ℤ) * 2 ^ (-1075 : ℤ) = z1 at *
        generalize m.value * (2 : ℚ) ^ (-1075 : ℤ) = z2 at *
        linarith only [h3, h4, h5, hmη]
      have hsp2 := F64.mul_spec hmf hsp.1 (F64.safe_lt (hmp.trans (hsafe _ (by norm_num))))
      change (m * (r * c)).Finite ∧ (m * (r * c)).value = _ at hsp2
      have hqe := F64.rn_err (m.value * (r * c).value)
      rw [← hsp2.2] at hqe
      exact ⟨hsp2.1, polar_arith hu0 hu1 hmq.le hmb hη0 hmr hmη hη2 hpe hqe⟩
  clear hx hne hC hdir hl hu hS he
  generalize comps t x = l at *
  induction l with
  | nil => exact .nil
  | cons c l ih => exact .cons (key c (by simp)) (ih fun c hc => key c (by simp [hc]))

/-- **C60.**  `nearlyEquals(magnitude(x) * direction(x), x, tol)` for every type and every tolerance of
at least `2^-50` (four times the default). -/
theorem C60_polar (t : Ty) (x : t.D F64) (hx : ∀ c ∈ comps t x, Sized c)
    (hne : ∃ c ∈ comps t x, c.value ≠ 0) (tol : F64) (htf : tol.Finite)
    (ht : (2 : ℚ) ^ (-50 : ℤ) ≤ tol.value) :
    nearlyEqualsTy t (smulTy t (magnitudeTy t x) (directionTy t x)) x tol = .ok true := by
  refine C60_close_all t _ x (by positivity) (by norm_num) (C60_polar_near t x hx hne) hx tol htf
    (le_trans ?_ ht)
  norm_num

/-- **C60.**  `nearlyEquals(magnitude(direction(x)), 1., tol)` for every type and every tolerance of at
least `2^-48`. -/
theorem C60_unit (t : Ty) (x : t.D F64) (h : Central t x) (tol : F64) (htf : tol.Finite)
    (ht : (2 : ℚ) ^ (-48 : ℤ) ≤ tol.value) :
    nearlyEqualsDub (magnitudeTy t (directionTy t x)) 1 tol = true := by
  obtain ⟨f, hf, hd⟩ := C34_direction t x h
  have hunit := C34_unit t x h
  obtain ⟨hl, hu, hS⟩ := central_real h
  have hE : 0 < euclid t x := lt_of_lt_of_le (F64.two_zpow_pos _) hl
  change _ ≤ 17 * uR at hunit
  have hu6 := uR_small
  have hu0 := uR_nonneg
  have hCd : Central t (directionTy t x) := by
    refine ⟨fun d hd' => ?_, ?_⟩
    · rw [hf] at hd'
      obtain ⟨c, hc, rfl⟩ := List.mem_map.1 hd'
      obtain ⟨h1, h2⟩ := hd c hc
      refine ⟨h1, ?_⟩
      have hle : |(c.value : ℝ) / euclid t x| ≤ 1 := by
        rw [abs_div, abs_of_pos hE, div_le_one hE]
        apply Real.abs_le_sqrt
        have := (Rat.cast_le (K := ℝ)).2 (list_le_sum (comps t x) hc)
        rw [Rat.cast_mul, ← pow_two] at this
        exact this
      have h3 : |((f c).value : ℝ)| ≤ 2 := by
        have h4 := abs_add_le (((f c).value : ℝ) - (c.value : ℝ) / euclid t x) ((c.value : ℝ) / euclid t x)
        rw [sub_add_cancel] at h4
        have h5 : (2 : ℝ) ^ (-1075 : ℤ) ≤ 2 ^ (-2 : ℤ) :=
          zpow_le_zpow_right₀ (by norm_num) (by norm_num)
        have h6 : (2 : ℝ) ^ (-2 : ℤ) = 1 / 4 := by norm_num
        rw [h6] at h5
        change _ ≤ 8 * uR * _ + _ at h2
        have h7 := mul_le_mul_of_nonneg_left hle (by linarith : 0 ≤ 8 * uR)
        generalize (2 : ℝ) ^ (-1075 : ℤ) = η at *
        generalize uR = u at *
        linarith only [h2, h4, h5, h7, hle, hu6]
      have h4 : |(f c).value| ≤ 2 := by exact_mod_cast h3
      refine h4.trans ?_
      exact le_trans (by norm_num) (zpow_le_zpow_right₀ (by norm_num) (by norm_num) :
            (2 : ℚ) ^ (1 : ℤ) ≤ 2 ^ (500 : ℤ))
    · by_contra hcon
      push Not at hcon
      have h1 := list_sum_le (comps t (directionTy t x)) (2 ^ (-1000 : ℤ)) (fun c hc => by
        rw [← abs_mul_abs_self, show (-1000 : ℤ) = -500 + -500 by norm_num only,
          zpow_add₀ (by norm_num)]
        exact mul_le_mul (hcon c hc).le (hcon c hc).le (abs_nonneg _) (F64.two_zpow_pos _).le)
      have h2 : ((comps t (directionTy t x)).length : ℚ) ≤ 8 := by
        exact_mod_cast comps_length t (directionTy t x)
      have h3 := h1.trans (mul_le_mul h2 (zpow_le_zpow_right₀ (by norm_num)
        (by norm_num : (-1000 : ℤ) ≤ -4)) (F64.two_zpow_pos _).le (by norm_num))
      have h4 : (sqSum t (directionTy t x) : ℚ) ≤ 1 / 2 := h3.trans (by norm_num)
      have h5 : ((sqSum t (directionTy t x) : ℚ) : ℝ) ≤ 1 / 2 := by
        have := (Rat.cast_le (K := ℝ)).2 h4
        rwa [Rat.cast_div, Rat.cast_one, Rat.cast_ofNat] at this
      have h6 := (abs_le.1 hunit).1
      generalize uR = u at *
      linarith only [h5, h6, hu6]
  obtain ⟨hmf, hm⟩ := C34_magnitude t _ hCd
  change _ ≤ 52 / 10 * uR * _ at hm
  have hEd : |euclid t (directionTy t x) - 1| ≤ 17 * uR := by
    have h0 : 0 ≤ euclid t (directionTy t x) := Real.sqrt_nonneg _
    have e : euclid t (directionTy t x) * euclid t (directionTy t x)
        = ((sqSum t (directionTy t x) : ℚ) : ℝ) := Real.mul_self_sqrt (central_real hCd).2.2.le
    rw [← e] at hunit
    generalize euclid t (directionTy t x) = z at *
    have e2 : z * z - 1 = (z - 1) * (z + 1) := by ring
    rw [e2, abs_mul, abs_of_nonneg (by linarith : 0 ≤ z + 1)] at hunit
    exact (le_mul_of_one_le_right (abs_nonneg _) (by linarith)).trans hunit
  have hfin : |((magnitudeTy t (directionTy t x)).value : ℝ) - 1| ≤ 23 * uR := by
    have h1 := abs_sub_le ((magnitudeTy t (directionTy t x)).value : ℝ) (euclid t (directionTy t x)) 1
    have h2 := (abs_le.1 hEd).2
    generalize euclid t (directionTy t x) = z at *
    have h3 : 52 / 10 * uR * z ≤ 52 / 10 * uR * (11 / 10) :=
      mul_le_mul_of_nonneg_left (by generalize uR = u at *; linarith only [h2, hu6])
        (by generalize uR = u at *; linarith only [hu0])
    generalize uR = u at *
    linarith only [h1, h3, hm, hEd, hu0]
  have hone := F64.hasVal_one
  refine C60_close_double _ 1 (κ := 23 * 2 ^ (-53 : ℤ)) (by positivity) (by norm_num) ?_ ?_ tol htf
    (le_trans (by norm_num) ht)
  · refine ⟨hone.1, Or.inr ?_⟩
    rw [hone.2, abs_one]
    exact ⟨zpow_le_one_of_nonpos₀ (by norm_num) (by norm_num),
      one_le_zpow₀ (by norm_num) (by norm_num)⟩
  · refine ⟨hmf, ?_⟩
    rw [hone.2, abs_one, mul_one]
    rw [uR, ← cast_zpow] at hfin
    exact_mod_cast hfin

/-! ## Text -/

theorem sciVal_near (d : Nat) {c : F64} (hc : Sized c) :
    RelNear (1 / 10 ^ d) (sciVal d c) c := by
  rcases hc with ⟨hf, h | h⟩
  · have : sciVal d c = zero c.signbit := by unfold sciVal; rw [if_pos h]
    rw [this]
    refine ⟨trivial, ?_⟩
    rw [h, abs_zero, mul_zero]
    change |(0 : ℚ) - 0| ≤ 0
    rw [sub_zero, abs_zero]
  · cases c with
    | nan => exact absurd hf id
    | inf _ => exact absurd hf id
    | zero s =>
      exfalso
      have h1 := (F64.two_zpow_pos (K := ℚ) (-400)).trans_le h.1
      simp [F64.value] at h1
    | fin v hv =>
      have hb : |v| ≤ 2 ^ 1022 := by
        have h2 : |v| ≤ (2 : ℚ) ^ (499 : ℤ) := h.2
        refine h2.trans ?_
        rw [← zpow_natCast]
        exact zpow_le_zpow_right₀ (by norm_num) (by norm_num)
      obtain ⟨h1, h2⟩ := sciDec_spec d hv.1
      have hacc : |F64.rnVal (sciDec d v) - v| ≤ |v| / 10 ^ d := by
        have := rnVal_twice (w := sciDec d v) hv.rep
        have e : |v| / 10 ^ d = 2 * (|v| / (2 * 10 ^ d)) := by field_simp
        rw [e]; linarith
      have hbig : |F64.rnVal (sciDec d v)| < 2 ^ 1024 := by
        have h3 : |F64.rnVal (sciDec d v)| ≤ |v| + |v| / 10 ^ d := by
          have := abs_add_le (F64.rnVal (sciDec d v) - v) v
          rw [sub_add_cancel] at this
          linarith
        have h4 : |v| / 10 ^ d ≤ |v| := div_le_self (abs_nonneg _) (one_le_pow₀ (by norm_num))
        have e1 : (2 : ℚ) ^ 1024 = 4 * 2 ^ 1022 := by
          rw [show 1024 = 2 + 1022 from rfl, pow_add]; norm_num only
        rw [e1]
        have hp : (0 : ℚ) < 2 ^ 1022 := pow_pos (by norm_num) _
        clear e1 hacc h1 h2
        generalize (2 : ℚ) ^ 1022 = P at *
        generalize |v| / 10 ^ d = Q at *
        linarith only [h3, h4, hb, hp]
      have hvalue := F64.roundTo_value (x := sciDec d v) hbig
      rw [sciVal_fin]
      refine ⟨hvalue.1, ?_⟩
      rw [hvalue.2]
      refine hacc.trans (le_of_eq ?_)
      change |v| / 10 ^ d = 1 / 10 ^ d * |v|
      ring

/-- **C60.**  A value written by `io::enote` with `d ≥ 1` decimals and read back by `operator>>` is
accepted by `nearlyEquals` as equal to the original for every tolerance of at least
`10^-d + 4 · 2^-53`. -/
theorem C60_text (t : Ty) (x old : t.D F64) (hx : ∀ c ∈ comps t x, Sized c) (d : Nat) (hd : 1 ≤ d)
    (txt : List Char) (h : enoteTy d t x = some txt) (tol : F64) (htf : tol.Finite)
    (ht : 1 / 10 ^ d + 4 * 2 ^ (-53 : ℤ) ≤ tol.value) :
    ∃ y, extractTy t ⟨txt, false, false⟩ old = .ok (⟨[], true, false⟩, y) ∧
      nearlyEqualsTy t y x tol = .ok true := by
  have hκ : (1 : ℚ) / 10 ^ d ≤ 1 / 10 := by
    apply one_div_le_one_div_of_le (by norm_num)
    exact le_self_pow₀ (by norm_num) (by omega)
  have hnear : ∀ c ∈ comps t x, RelNear (1 / 10 ^ d) (sciVal d c) c := fun c hc =>
    sciVal_near d (hx c hc)
  have hvalid : ∀ c ∈ comps t x, isValidDub (sciVal d c) = true := fun c hc =>
    (near_mid (by linarith) (hx c hc) (hnear c hc)).1
  have hinf : ∀ c ∈ comps t x, ∀ s, sciVal d c ≠ inf s := by
    intro c hc s hs
    have := (hnear c hc).1
    rw [hs] at this
    exact this
  refine ⟨mapTy (sciVal d) t x, ?_, ?_⟩
  · by_cases htd : t = .dub
    · subst htd
      injection h with h
      have h1 := enote_reads x (hx x (by simp [comps])).1 d (hinf x (by simp [comps]))
        (blanks (7 + d - (numText .scientific d x).length)) [] old (allWs_blanks _) ends_nil
      rw [List.append_nil] at h1
      rw [← h, extractTy, C30_enote_number, field, h1]
      rfl
    · rw [C30_enote_object] at h
      split at h
      · simp at h
      injection h with h
      rw [← h]
      simp only [show enoteBlade d = _ from funext (enoteBlade_eq d)]
      exact readback [' ', ' '] [' '] (fun x => blanks (7 + d - (numText .scientific d x).length))
        (numText .scientific d) (sciVal d) t htd x old (allWs_blanks 2) (allWs_blanks 1)
        (fun _ => allWs_blanks _) (fun _ => by simp) (fun _ => by simp) (fun c hc =>
          ⟨enote_reads c (hx c hc).1 d (hinf c hc), hvalid c hc⟩)
  · refine C60_close_all t _ x (by positivity) (by linarith) ?_ hx tol htf ht
    rw [comps_mapTy]
    clear hx hvalid hinf
    generalize comps t x = l at *
    induction l with
    | nil => exact .nil
    | cons c l ih => exact .cons (hnear c (by simp)) (ih fun c hc => hnear c (by simp [hc]))

/-! ## The inverse of the inverse -/

/-- Rounded inverse of a blade with components between `2^-200` and `2^200`: no underflow. -/
theorem inverse_rel (t : Ty) (ht : t = .sca ∨ t = .vec ∨ t = .biv ∨ t = .tri) (x : t.D F64)
    (h : Central t x) (e : ℤ) (he : -1000 ≤ e)
    (hb : ∀ c ∈ comps t x, c.value = 0 ∨ (2 : ℚ) ^ e ≤ |c.value / sqSum t x|) :
    ∃ y : t.D F64, inverseTy t x = some y ∧
      List.Forall₂ (fun d c : F64 => d.Finite ∧
        |d.value - revSign t * c.value / sqSum t x| ≤ 12 * 2 ^ (-53 : ℤ) * |c.value / sqSum t x|)
        (comps t y) (comps t x) := by
  obtain ⟨y, hy, f, hf, hc⟩ := C48_inverse t ht x h
  refine ⟨y, hy, ?_⟩
  have hsgn : |revSign t| = 1 := by
    rcases ht with rfl | rfl | rfl | rfl <;> simp [revSign]
  have hrev : ∃ g : F64 → F64, comps t (reverseTy t x) = (comps t x).map g ∧
      ∀ c, (g c).value = revSign t * c.value := by
    rcases ht with rfl | rfl | rfl | rfl
    · exact ⟨id, rfl, fun c => by simp [revSign]⟩
    · exact ⟨id, rfl, fun c => by simp [revSign]⟩
    · exact ⟨fun c => -c, rfl, fun c => by
        change (F64.neg c).value = _
        rw [F64.neg_value]; simp [revSign]⟩
    · exact ⟨fun c => -c, rfl, fun c => by
        change (F64.neg c).value = _
        rw [F64.neg_value]; simp [revSign]⟩
  obtain ⟨g, hg, hgv⟩ := hrev
  rw [hf, hg, List.map_map]
  have key : ∀ c ∈ comps t x, (f (g c)).Finite ∧ |(f (g c)).value - revSign t * c.value / sqSum t x|
      ≤ 12 * 2 ^ (-53 : ℤ) * |c.value / sqSum t x| := by
    intro c hc'
    obtain ⟨h1, h2⟩ := hc (g c) (by rw [hg]; exact List.mem_map.2 ⟨c, hc', rfl⟩)
    refine ⟨h1, ?_⟩
    rw [hgv] at h2
    have hab : |revSign t * c.value / sqSum t x| = |c.value / sqSum t x| := by
      rw [mul_div_assoc, abs_mul, hsgn, one_mul]
    rw [hab] at h2
    rcases hb c hc' with h0 | h0
    · rw [h0, mul_zero, zero_div, abs_zero, mul_zero, zero_add, sub_zero] at h2
      have hz : (f (g c)).value = 0 := by
        by_contra hne0
        have h3 : (2 : ℚ) ^ (-1074 : ℤ) ≤ |(f (g c)).value| := by
          obtain ⟨m, k, hm, hk, hv⟩ := F64.value_rep (x := f (g c))
          exact F64.rep_pos_le ⟨|m|, k, by rwa [abs_abs], hk, by
            rw [hv, abs_mul, abs_of_pos (F64.two_zpow_pos (K := ℚ) k), Int.cast_abs]⟩
            (abs_pos.2 hne0)
        have h4 : (2 : ℚ) ^ (-1075 : ℤ) < 2 ^ (-1074 : ℤ) :=
          zpow_lt_zpow_right₀ (by norm_num) (by norm_num)
        exact absurd (h3.trans h2) (not_le.2 h4)
      rw [hz, h0, mul_zero, zero_div, sub_zero, abs_zero, mul_zero]
    · refine h2.trans ?_
      have h3 : (2 : ℚ) ^ (-1075 : ℤ) ≤ 2 ^ (-53 : ℤ) * |c.value / sqSum t x| := by
        refine le_trans ?_ (mul_le_mul_of_nonneg_left h0 (F64.two_zpow_pos _).le)
        rw [← zpow_add₀ (by norm_num)]
        exact zpow_le_zpow_right₀ (by norm_num) (by omega)
      generalize |c.value / sqSum t x| = q at *
      generalize (2 : ℚ) ^ (-1075 : ℤ) = η at *
      generalize (2 : ℚ) ^ (-53 : ℤ) = u at *
      linarith only [h3]
  generalize comps t x = l at *
  clear hf hg hc hb
  induction l with
  | nil => exact .nil
  | cons c l ih => exact .cons (key c (by simp)) (ih fun c hc => key c (by simp [hc]))

/-- Sum of squares under componentwise relative errors. -/
theorem sqSum_rel {l m : List F64} {k κ : ℚ} (hκ0 : 0 ≤ κ) (hκ : κ ≤ 1 / 1000)
    (h : List.Forall₂ (fun d c : F64 => |d.value - k * c.value| ≤ κ * |k * c.value|) l m) :
    |(l.map fun c => c.value * c.value).sum - k * k * (m.map fun c => c.value * c.value).sum|
      ≤ 21 / 10 * κ * (k * k * (m.map fun c => c.value * c.value).sum) := by
  induction h with
  | nil => simp
  | @cons d c l m h _ ih =>
    simp only [List.map_cons, List.sum_cons]
    have h1 : |d.value * d.value - k * k * (c.value * c.value)|
        ≤ 21 / 10 * κ * (k * k * (c.value * c.value)) := by
      have e : d.value * d.value - k * k * (c.value * c.value)
          = (d.value - k * c.value) * (d.value - k * c.value)
            + 2 * (k * c.value) * (d.value - k * c.value) := by ring
      have e2 : k * k * (c.value * c.value) = |k * c.value| * |k * c.value| := by
        rw [abs_mul_abs_self]; ring
      rw [e]
      refine (abs_add_le _ _).trans ?_
      rw [abs_mul, abs_mul, abs_mul 2, abs_two, e2]
      have hp0 := abs_nonneg (d.value - k * c.value)
      generalize |d.value - k * c.value| = p at *
      generalize hq : |k * c.value| = q at *
      have hq0 : 0 ≤ q := hq ▸ abs_nonneg _
      have hqq : 0 ≤ q * q := mul_nonneg hq0 hq0
      have h2 := mul_le_mul h h hp0 (mul_nonneg hκ0 hq0)
      have h3 := mul_le_mul_of_nonneg_left h (by linarith : 0 ≤ 2 * q)
      have h4 : κ * q * (κ * q) ≤ 1 / 1000 * κ * (q * q) := by
        have := mul_le_mul_of_nonneg_right (mul_le_mul_of_nonneg_right hκ hκ0) hqq
        linarith
      have h5 := mul_nonneg hκ0 hqq
      linarith
    have h2 := abs_add_le (d.value * d.value - k * k * (c.value * c.value))
      ((l.map fun c => c.value * c.value).sum - k * k * (m.map fun c => c.value * c.value).sum)
    have e3 : d.value * d.value + (l.map fun c => c.value * c.value).sum
        - k * k * (c.value * c.value + (m.map fun c => c.value * c.value).sum)
        = (d.value * d.value - k * k * (c.value * c.value))
          + ((l.map fun c => c.value * c.value).sum - k * k * (m.map fun c => c.value * c.value).sum) := by
      ring
    rw [e3]
    refine h2.trans ((add_le_add h1 ih).trans (le_of_eq ?_))
    ring

theorem inv2_arith {u s c S d T f : ℚ} (hu0 : 0 ≤ u) (hu : u ≤ 1 / 1000000) (hs : s * s = 1)
    (hS : 0 < S) (hd : |d - s / S * c| ≤ 12 * u * |s / S * c|)
    (hT : |T - 1 / S| ≤ 253 / 10 * u * (1 / S)) (hf : |f - s * d / T| ≤ 12 * u * |d / T|) :
    |f - c| ≤ 52 * u * |c| := by
  have hs1 : |s| = 1 := by
    have : |s| * |s| = 1 := by rw [abs_mul_abs_self, hs]
    nlinarith [abs_nonneg s]
  have hc := abs_nonneg c
  have huc : 0 ≤ u * |c| := mul_nonneg hu0 hc
  obtain ⟨D, hD⟩ : ∃ D, D = s * S * d - c := ⟨_, rfl⟩
  obtain ⟨τ, hτ⟩ : ∃ τ, τ = T * S - 1 := ⟨_, rfl⟩
  have h1 : |D| ≤ 12 * u * |c| := by
    have e : D = s * S * (d - s / S * c) := by
      rw [hD, mul_sub, show s * S * (s / S * c) = s * s * c * (S / S) by ring, div_self hS.ne', hs]
      ring
    have e2 : |s * S| * |s / S * c| = |c| := by
      rw [← abs_mul, show s * S * (s / S * c) = s * s * c * (S / S) by ring, div_self hS.ne', hs,
        one_mul, mul_one]
    rw [e, abs_mul]
    calc |s * S| * |d - s / S * c| ≤ |s * S| * (12 * u * |s / S * c|) :=
          mul_le_mul_of_nonneg_left hd (abs_nonneg _)
      _ = 12 * u * (|s * S| * |s / S * c|) := by ring
      _ = _ := by rw [e2]
  have h2 : |τ| ≤ 253 / 10 * u := by
    have e : τ = S * (T - 1 / S) := by
      rw [hτ, mul_sub, mul_one_div_cancel hS.ne']; ring
    rw [e, abs_mul, abs_of_pos hS]
    calc S * |T - 1 / S| ≤ S * (253 / 10 * u * (1 / S)) := mul_le_mul_of_nonneg_left hT hS.le
      _ = 253 / 10 * u * (S * (1 / S)) := by ring
      _ = _ := by rw [mul_one_div_cancel hS.ne', mul_one]
  have h3 := abs_le.1 h2
  have hpos : 0 < 1 + τ := by linarith
  have hTv : T = (1 + τ) / S := by rw [hτ]; field_simp; ring
  have hdv : s * d = (c + D) / S := by rw [hD]; field_simp; ring
  have e3 : s * d / T - c = (D - c * τ) / (1 + τ) := by
    rw [hTv, hdv, div_div_div_cancel_right₀ hS.ne']
    field_simp
    ring
  have h4 : |s * d / T - c| ≤ 38 * u * |c| := by
    rw [e3, abs_div, abs_of_pos hpos, div_le_iff₀ hpos]
    have h5 := abs_sub_le D 0 (c * τ)
    rw [sub_zero, zero_sub, abs_neg, abs_mul] at h5
    have h6 := mul_le_mul_of_nonneg_left h2 hc
    have h7 : 38 * u * |c| * (1 - 1 / 1000) ≤ 38 * u * |c| * (1 + τ) :=
      mul_le_mul_of_nonneg_left (by linarith) (by linarith)
    linarith
  have h5 : |d / T| ≤ 101 / 100 * |c| := by
    have e : |d / T| = |s * d / T| := by rw [mul_div_assoc, abs_mul, hs1, one_mul]
    rw [e]
    have := abs_add_le (s * d / T - c) c
    rw [sub_add_cancel] at this
    have h6 := mul_le_mul_of_nonneg_right hu hc
    linarith
  have h6 := mul_le_mul_of_nonneg_left h5 (by linarith : 0 ≤ 12 * u)
  have h7 := abs_sub_le f (s * d / T) c
  linarith

theorem forall₂_comp {A B C : Type} {R : A → B → Prop} {Q : B → C → Prop} {P : A → C → Prop}
    {l : List A} {m : List B} {n : List C} (h : List.Forall₂ R l m) (k : List.Forall₂ Q m n)
    (hp : ∀ a b c, R a b → Q b c → P a c) : List.Forall₂ P l n := by
  induction h generalizing n with
  | nil => cases k; exact .nil
  | cons h _ ih =>
    cases k with
    | cons k ks => exact .cons (hp _ _ _ h k) (ih ks)

theorem forall₂_left {A B : Type} {R : A → B → Prop} {l : List A} {m : List B}
    (h : List.Forall₂ R l m) {a : A} (ha : a ∈ l) : ∃ b ∈ m, R a b := by
  induction h with
  | nil => simp at ha
  | cons h _ ih =>
    rcases List.mem_cons.1 ha with rfl | ha
    · exact ⟨_, List.mem_cons_self, h⟩
    · obtain ⟨b, hb, hab⟩ := ih ha
      exact ⟨b, by simp [hb], hab⟩

theorem forall₂_right {A B : Type} {R : A → B → Prop} {l : List A} {m : List B}
    (h : List.Forall₂ R l m) {b : B} (hb : b ∈ m) : ∃ a ∈ l, R a b := by
  obtain ⟨a, ha, h⟩ := forall₂_left h.flip hb
  exact ⟨a, ha, h⟩

/-- **C60.**  For a blade whose non-zero components lie between `2^-100` and `2^100`,
`nearlyEquals(inverse(inverse(x)), x, tol)` for every tolerance of at least `2^-47`. -/
theorem C60_inverse_twice (t : Ty) (ht : t = .sca ∨ t = .vec ∨ t = .biv ∨ t = .tri) (x : t.D F64)
    (hx : ∀ c ∈ comps t x, c.Finite ∧
      (c.value = 0 ∨ (2 : ℚ) ^ (-100 : ℤ) ≤ |c.value| ∧ |c.value| ≤ 2 ^ (100 : ℤ)))
    (hne : ∃ c ∈ comps t x, c.value ≠ 0) (tol : F64) (htf : tol.Finite)
    (htol : (2 : ℚ) ^ (-47 : ℤ) ≤ tol.value) :
    ∃ y z : t.D F64, inverseTy t x = some y ∧ inverseTy t y = some z ∧
      nearlyEqualsTy t z x tol = .ok true := by
  have hsz : ∀ c ∈ comps t x, Sized c := fun c hc => ⟨(hx c hc).1, (hx c hc).2.imp id fun h =>
    ⟨(zpow_le_zpow_right₀ (by norm_num) (by norm_num)).trans h.1,
      h.2.trans (zpow_le_zpow_right₀ (by norm_num) (by norm_num))⟩⟩
  have hC := sized_central t x hsz hne
  have hSb : sqSum t x ≤ 2 ^ (203 : ℤ) := by
    have h1 := list_sum_le (comps t x) (2 ^ (200 : ℤ)) (fun c hc => by
      rw [← abs_mul_abs_self]
      have h2 : |c.value| ≤ 2 ^ (100 : ℤ) := by
        rcases (hx c hc).2 with h | h
        · rw [h, abs_zero]; exact (F64.two_zpow_pos _).le
        · exact h.2
      rw [show (200 : ℤ) = 100 + 100 by norm_num only, zpow_add₀ (by norm_num)]
      exact mul_le_mul h2 h2 (abs_nonneg _) (F64.two_zpow_pos _).le)
    refine h1.trans ?_
    rw [show (203 : ℤ) = 3 + 200 by norm_num only, zpow_add₀ (by norm_num)]
    refine mul_le_mul_of_nonneg_right ?_ (F64.two_zpow_pos _).le
    have h3 : ((comps t x).length : ℚ) ≤ 8 := by exact_mod_cast comps_length t x
    exact h3.trans (by norm_num)
  have hS : 0 < sqSum t x := (F64.two_zpow_pos _).trans_le (central_sqSum hC).1
  have hlo : ∀ c ∈ comps t x, c.value = 0 ∨ (2 : ℚ) ^ (-303 : ℤ) ≤ |c.value / sqSum t x| := by
    intro c hc
    refine (hx c hc).2.imp id fun h => ?_
    rw [abs_div, abs_of_pos hS, le_div_iff₀ hS]
    calc (2 : ℚ) ^ (-303 : ℤ) * sqSum t x ≤ 2 ^ (-303 : ℤ) * 2 ^ (203 : ℤ) :=
          mul_le_mul_of_nonneg_left hSb (F64.two_zpow_pos _).le
      _ = 2 ^ (-100 : ℤ) := by rw [← zpow_add₀ (by norm_num)]; norm_num only
      _ ≤ _ := h.1
  have hhi : ∀ c ∈ comps t x, |c.value / sqSum t x| ≤ (2 : ℚ) ^ (100 : ℤ) := by
    intro c hc
    rw [abs_div, abs_of_pos hS, div_le_iff₀ hS]
    rcases (hx c hc).2 with h | h
    · rw [h, abs_zero]; exact mul_nonneg (F64.two_zpow_pos _).le hS.le
    · calc |c.value| = 2 ^ (100 : ℤ) * (2 ^ (-100 : ℤ) * |c.value|) := by
            rw [← mul_assoc, ← zpow_add₀ (by norm_num)]; norm_num only [zpow_zero, one_mul]
        _ ≤ 2 ^ (100 : ℤ) * (|c.value| * |c.value|) :=
            mul_le_mul_of_nonneg_left (mul_le_mul_of_nonneg_right h.1 (abs_nonneg _))
              (F64.two_zpow_pos _).le
        _ ≤ _ := by
            rw [abs_mul_abs_self]
            exact mul_le_mul_of_nonneg_left (list_le_sum _ hc) (F64.two_zpow_pos _).le
  obtain ⟨y, hy, hyx⟩ := inverse_rel t ht x hC (-303) (by norm_num) hlo
  have hsq : revSign t * revSign t = 1 := by
    rcases ht with rfl | rfl | rfl | rfl <;> simp [revSign]
  have hsgn : |revSign t| = 1 := by
    rcases ht with rfl | rfl | rfl | rfl <;> simp [revSign]
  have hu0 : (0 : ℚ) ≤ 2 ^ (-53 : ℤ) := (F64.two_zpow_pos _).le
  have hu1 : (2 : ℚ) ^ (-53 : ℤ) ≤ 1 / 1000000 := by norm_num
  have habs : ∀ c : F64, |revSign t * c.value / sqSum t x| = |c.value / sqSum t x| := fun c => by
    rw [mul_div_assoc, abs_mul, hsgn, one_mul]
  have hab : ∀ d c : F64, |d.value - revSign t * c.value / sqSum t x|
      ≤ 12 * 2 ^ (-53 : ℤ) * |c.value / sqSum t x| →
      1 / 2 * |c.value / sqSum t x| ≤ |d.value| ∧ |d.value| ≤ 2 * |c.value / sqSum t x| := by
    intro d c h
    have h1 := abs_sub_abs_le_abs_sub d.value (revSign t * c.value / sqSum t x)
    have h2 := abs_sub_abs_le_abs_sub (revSign t * c.value / sqSum t x) d.value
    rw [abs_sub_comm] at h2
    rw [habs] at h1 h2
    have h3 : 12 * (2 : ℚ) ^ (-53 : ℤ) * |c.value / sqSum t x| ≤ 1 / 2 * |c.value / sqSum t x| :=
      mul_le_mul_of_nonneg_right (by norm_num) (abs_nonneg _)
    have h4 := abs_nonneg (c.value / sqSum t x)
    constructor <;> linarith only [h1, h2, h3, h, h4]
  have hCy : Central t y := by
    refine ⟨fun d hd => ?_, ?_⟩
    · obtain ⟨c, hc, hdf, hdc⟩ := forall₂_left hyx hd
      refine ⟨hdf, (hab d c hdc).2.trans ?_⟩
      refine (mul_le_mul_of_nonneg_left (hhi c hc) (by norm_num)).trans ?_
      rw [show (500 : ℤ) = 400 + 100 by norm_num only, zpow_add₀ (by norm_num)]
      refine mul_le_mul_of_nonneg_right ?_ (F64.two_zpow_pos _).le
      exact le_trans (by norm_num) (zpow_le_zpow_right₀ (by norm_num) (by norm_num) :
        (2 : ℚ) ^ (1 : ℤ) ≤ 2 ^ (400 : ℤ))
    · obtain ⟨c, hc, hc0⟩ := hne
      obtain ⟨d, hd, hdf, hdc⟩ := forall₂_right hyx hc
      refine ⟨d, hd, le_trans ?_ (hab d c hdc).1⟩
      have h1 := (hlo c hc).resolve_left hc0
      refine le_trans ?_ (mul_le_mul_of_nonneg_left h1 (by norm_num))
      rw [show (-303 : ℤ) = 1 + -304 by norm_num only, zpow_add₀ (by norm_num), zpow_one, ← mul_assoc,
        show (1 / 2 : ℚ) * 2 = 1 by norm_num, one_mul]
      exact zpow_le_zpow_right₀ (by norm_num) (by norm_num)
  have hT : |sqSum t y - 1 / sqSum t x| ≤ 253 / 10 * 2 ^ (-53 : ℤ) * (1 / sqSum t x) := by
    have h1 := sqSum_rel (l := comps t y) (m := comps t x) (k := revSign t / sqSum t x)
      (κ := 12 * 2 ^ (-53 : ℤ)) (by linarith) (by norm_num) (hyx.imp fun d c h => by
        rw [show revSign t / sqSum t x * c.value = revSign t * c.value / sqSum t x by ring, habs]
        exact h.2)
    have e : revSign t / sqSum t x * (revSign t / sqSum t x) * sqSum t x = 1 / sqSum t x := by
      rw [show revSign t / sqSum t x * (revSign t / sqSum t x) * sqSum t x
        = revSign t * revSign t / sqSum t x * (sqSum t x / sqSum t x) by ring, hsq,
        div_self hS.ne', mul_one]
    change |sqSum t y - _ * sqSum t x| ≤ _ * (_ * sqSum t x) at h1
    rw [e] at h1
    refine h1.trans (mul_le_mul_of_nonneg_right ?_ (one_div_pos.2 hS).le)
    generalize (2 : ℚ) ^ (-53 : ℤ) = u at *
    linarith
  have hTb : sqSum t y ≤ 2 * (1 / sqSum t x) := by
    have h1 := (abs_le.1 hT).2
    have h2 : 253 / 10 * (2 : ℚ) ^ (-53 : ℤ) * (1 / sqSum t x) ≤ 1 * (1 / sqSum t x) :=
      mul_le_mul_of_nonneg_right (by norm_num) (one_div_pos.2 hS).le
    linarith
  have hT0 : 0 < sqSum t y := (F64.two_zpow_pos _).trans_le (central_sqSum hCy).1
  have hlo2 : ∀ d ∈ comps t y, d.value = 0 ∨ (2 : ℚ) ^ (-102 : ℤ) ≤ |d.value / sqSum t y| := by
    intro d hd
    obtain ⟨c, hc, hdf, hdc⟩ := forall₂_left hyx hd
    rcases (hx c hc).2 with h | h
    · left
      have h2 := (hab d c hdc).2
      rw [h, zero_div, abs_zero, mul_zero] at h2
      exact abs_eq_zero.1 (le_antisymm h2 (abs_nonneg _))
    · right
      rw [abs_div, abs_of_pos hT0, le_div_iff₀ hT0]
      refine le_trans ?_ (hab d c hdc).1
      rw [abs_div, abs_of_pos hS]
      calc (2 : ℚ) ^ (-102 : ℤ) * sqSum t y ≤ 2 ^ (-102 : ℤ) * (2 * (1 / sqSum t x)) :=
            mul_le_mul_of_nonneg_left hTb (F64.two_zpow_pos _).le
        _ = 1 / 2 * (2 ^ (-100 : ℤ) / sqSum t x) := by
            rw [show (-102 : ℤ) = -2 + -100 by norm_num only, zpow_add₀ (by norm_num),
              show (2 : ℚ) ^ (-2 : ℤ) = 1 / 4 by norm_num]
            ring
        _ ≤ _ := mul_le_mul_of_nonneg_left (div_le_div_of_nonneg_right h.1 hS.le) (by norm_num)
  obtain ⟨z, hz, hzy⟩ := inverse_rel t ht y hCy (-102) (by norm_num) hlo2
  refine ⟨y, z, hy, hz, ?_⟩
  refine C60_close_all t z x (κ := 52 * 2 ^ (-53 : ℤ)) (by linarith) (by norm_num) ?_ hsz tol htf
    (le_trans (by norm_num) htol)
  refine forall₂_comp hzy hyx fun f d c hf hd => ⟨hf.1, ?_⟩
  refine inv2_arith hu0 hu1 hsq hS ?_ hT hf.2
  rw [show revSign t / sqSum t x * c.value = revSign t * c.value / sqSum t x by ring, habs]
  exact hd.2

/-- A bivector with components `8`, `1`, `-0`, in the range of `C60_polar` and
`C60_inverse_twice`. -/
theorem sample_sized : ∀ c ∈ comps .biv (⟨⟨F64.pow2 3, F64.pow2 0, -0⟩⟩ : BiVector F64), c.Finite ∧
    (c.value = 0 ∨ (2 : ℚ) ^ (-100 : ℤ) ≤ |c.value| ∧ |c.value| ≤ 2 ^ (100 : ℤ)) := by
  have h : ∀ e : ℤ, -10 ≤ e → e ≤ 10 → (F64.pow2 e).Finite ∧ ((F64.pow2 e).value = 0 ∨
      (2 : ℚ) ^ (-100 : ℤ) ≤ |(F64.pow2 e).value| ∧ |(F64.pow2 e).value| ≤ 2 ^ (100 : ℤ)) := by
    intro e h1 h2
    have hv := F64.pow2_val (e := e) (by omega) (by omega)
    refine ⟨hv.1, Or.inr ?_⟩
    rw [hv.2, abs_of_pos (F64.two_zpow_pos _)]
    exact ⟨zpow_le_zpow_right₀ (by norm_num) (by omega), zpow_le_zpow_right₀ (by norm_num) (by omega)⟩
  intro c hc
  simp only [comps, List.mem_cons, List.not_mem_nil, or_false] at hc
  rcases hc with rfl | rfl | rfl
  · exact h 3 (by norm_num) (by norm_num)
  · exact h 0 (by norm_num) (by norm_num)
  · refine ⟨trivial, Or.inl ?_⟩
    change (F64.neg 0).value = 0
    rw [F64.neg_value, F64.hasVal_zero'.2, neg_zero]

/-- Neither the length nor the inverse of the bivector is exact. -/
example : ∃ y z : BiVector F64, inverseTy .biv (⟨⟨F64.pow2 3, F64.pow2 0, -0⟩⟩ : BiVector F64) = some y ∧
    inverseTy .biv y = some z ∧
    nearlyEqualsTy .biv z (⟨⟨F64.pow2 3, F64.pow2 0, -0⟩⟩ : BiVector F64) (F64.pow2 (-47)) = .ok true := by
  have ht := F64.pow2_val (e := -47) (by norm_num) (by norm_num)
  have h3 := F64.pow2_val (e := 3) (by norm_num) (by norm_num)
  exact C60_inverse_twice .biv (by simp) _ sample_sized
    ⟨F64.pow2 3, List.mem_cons_self, by rw [h3.2]; exact (F64.two_zpow_pos _).ne'⟩ _ ht.1 ht.2.ge

example : nearlyEqualsTy .biv (smulTy .biv
      (magnitudeTy .biv (⟨⟨F64.pow2 3, F64.pow2 0, -0⟩⟩ : BiVector F64))
      (directionTy .biv (⟨⟨F64.pow2 3, F64.pow2 0, -0⟩⟩ : BiVector F64)))
    (⟨⟨F64.pow2 3, F64.pow2 0, -0⟩⟩ : BiVector F64) (F64.pow2 (-50)) = .ok true := by
  have ht := F64.pow2_val (e := -50) (by norm_num) (by norm_num)
  have h3 := F64.pow2_val (e := 3) (by norm_num) (by norm_num)
  exact C60_polar .biv _ (fun c hc => ⟨(sample_sized c hc).1, (sample_sized c hc).2.imp id fun h =>
      ⟨(zpow_le_zpow_right₀ (by norm_num) (by norm_num)).trans h.1,
        h.2.trans (zpow_le_zpow_right₀ (by norm_num) (by norm_num))⟩⟩)
    ⟨F64.pow2 3, List.mem_cons_self, by rw [h3.2]; exact (F64.two_zpow_pos _).ne'⟩ _ ht.1 ht.2.ge

/-- The same bivector after output with one decimal and input, for a tolerance of one half. -/
example (old : BiVector F64) : ∃ txt y,
    enoteTy 1 .biv (⟨⟨F64.pow2 3, F64.pow2 0, -0⟩⟩ : BiVector F64) = some txt ∧
    extractTy .biv ⟨txt, false, false⟩ old = .ok (⟨[], true, false⟩, y) ∧
    nearlyEqualsTy .biv y (⟨⟨F64.pow2 3, F64.pow2 0, -0⟩⟩ : BiVector F64) (F64.pow2 (-1)) = .ok true := by
  have ht := F64.pow2_val (e := -1) (by norm_num) (by norm_num)
  have htxt : ∃ txt, enoteTy 1 .biv (⟨⟨F64.pow2 3, F64.pow2 0, -0⟩⟩ : BiVector F64) = some txt := by
    rw [C30_enote_object, if_neg (by simp)]
    exact ⟨_, rfl⟩
  obtain ⟨txt, htxt⟩ := htxt
  obtain ⟨y, hy⟩ := C60_text .biv _ old (fun c hc => ⟨(sample_sized c hc).1,
      (sample_sized c hc).2.imp id fun h =>
      ⟨(zpow_le_zpow_right₀ (by norm_num) (by norm_num)).trans h.1,
        h.2.trans (zpow_le_zpow_right₀ (by norm_num) (by norm_num))⟩⟩) 1 le_rfl txt htxt (F64.pow2 (-1))
    ht.1 (by rw [ht.2]; norm_num)
  exact ⟨txt, y, htxt, hy⟩

/-- `C60_equal_accepts` where the arguments differ in the sign of a zero. -/
example : nearlyEqualsTy .biv (⟨⟨F64.pow2 3, F64.pow2 0, -0⟩⟩ : BiVector F64)
    (⟨⟨F64.pow2 3, F64.pow2 0, 0⟩⟩ : BiVector F64) (F64.pow2 (-60)) = .ok true := by
  have ht := F64.pow2_val (e := -60) (by norm_num) (by norm_num)
  refine C60_equal_accepts .biv _ _ (fun c hc => sized_valid ⟨(sample_sized c hc).1,
      (sample_sized c hc).2.imp id fun h =>
      ⟨(zpow_le_zpow_right₀ (by norm_num) (by norm_num)).trans h.1,
        h.2.trans (zpow_le_zpow_right₀ (by norm_num) (by norm_num))⟩⟩) (by decide +kernel) _ ?_
  decide +kernel

end Engabra
