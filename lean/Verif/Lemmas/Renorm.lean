import Verif.Props.C34_Total
import Verif.Props.C58_RigidBody

/-! # Normalised products of spinors -/

namespace Engabra

open F64 (Finite HasVal)
open Spec

/-- Specification: the exact spinor divided by its length. -/
noncomputable def unitS (x : Spinor ℝ) : Spinor ℝ := mapTy (fun c => c / length .spin x) .spin x

noncomputable def scMV (c : ℝ) (X : MultiVector ℝ) : MultiVector ℝ := mapTy (fun y => c * y) .mv X

theorem length_scMV (c : ℝ) (X : MultiVector ℝ) : length .mv (scMV c X) = |c| * length .mv X := by
  rw [length_eq, length_eq, ← Real.sqrt_sq_eq_abs, ← Real.sqrt_mul (sq_nonneg c)]
  congr 1
  simp only [magSqTy, scMV, mapTy, engabra]; ring

theorem promote_unitS (x : Spinor ℝ) :
    promote .spin (unitS x) = scMV (1 / length .spin x) (promote .spin x) := by
  unfold unitS scMV
  generalize length .spin x = l
  simp only [mapTy, engabra]
  ext <;> simp only [mul_zero] <;> ring

theorem length_unitS {x : Spinor ℝ} (h : 0 < length .spin x) : length .spin (unitS x) = 1 := by
  rw [← length_promote, promote_unitS, length_scMV, length_promote, abs_of_pos (one_div_pos.2 h),
    one_div, inv_mul_cancel₀ h.ne']

theorem scMV_sub (c d : ℝ) (X Y : MultiVector ℝ) :
    scMV c X - scMV d Y = scMV d (X - Y) + scMV (c - d) X := by
  simp only [scMV, mapTy]; mv_ring

/-- Normalising at most doubles a relative error. -/
theorem unitS_near {x y : Spinor ℝ} (hx : 0 < length .spin x) (hy : 0 < length .spin y) :
    length .mv (promote .spin (unitS x) - promote .spin (unitS y))
      ≤ 2 * length .mv (promote .spin x - promote .spin y) / length .spin y := by
  rw [promote_unitS, promote_unitS, scMV_sub]
  refine (length_mv_add _ _).trans ?_
  rw [length_scMV, length_scMV, length_promote, abs_of_pos (one_div_pos.2 hy)]
  have h1 := length_le_add (promote .spin x) (promote .spin y)
  have h2 := length_le_add (promote .spin y) (promote .spin x)
  rw [length_mv_sub_comm (promote .spin y)] at h2
  rw [length_promote, length_promote] at h1 h2
  generalize length .mv (promote .spin x - promote .spin y) = d at *
  generalize length .spin x = a at *
  generalize length .spin y = b at *
  have h3 : |1 / a - 1 / b| * a = |b - a| / b := by
    rw [show 1 / a - 1 / b = (b - a) / (a * b) by field_simp, abs_div, abs_of_pos (mul_pos hx hy)]
    field_simp
  rw [h3, show 2 * d / b = 1 / b * d + d / b by ring]
  refine add_le_add le_rfl (div_le_div_of_nonneg_right ?_ hy.le)
  rw [abs_le]; constructor <;> linarith

theorem unitS_self {x : Spinor ℝ} (hx : 0 < length .spin x) :
    length .mv (promote .spin (unitS x) - promote .spin x) = |length .spin x - 1| := by
  rw [promote_unitS, show promote .spin x = scMV 1 (promote .spin x) by
      simp only [scMV, mapTy, one_mul], show scMV (1 / length .spin x) (scMV 1 (promote .spin x))
      - scMV 1 (promote .spin x) = scMV (1 / length .spin x - 1) (promote .spin x) by
        simp only [scMV, mapTy]; mv_ring, length_scMV, length_promote]
  generalize length .spin x = a at *
  rw [show 1 / a - 1 = (1 - a) / a by field_simp, abs_div, abs_of_pos hx, div_mul_cancel₀ _ hx.ne',
    abs_sub_comm]

theorem length_spin_mul (x y : Spinor ℝ) : length .spin (x * y) = length .spin x * length .spin y := by
  rw [← length_promote, show promote .spin (x * y) = promote .spin x * promote .spin y by mv_ring,
    length_mul_left .spin rfl, length_promote]

theorem unitS_mul (x y : Spinor ℝ) : unitS (x * y) = unitS x * unitS y := by
  unfold unitS
  rw [length_spin_mul]
  generalize length .spin x = a
  generalize length .spin y = b
  have e : ∀ c d : ℝ, c / a * (d / b) = c * d / (a * b) := fun c d => by rw [div_mul_div_comm]
  ext <;> simp only [mapTy, engabra, e] <;> ring

/-- The direction of a spinor of moderate length, as a whole. -/
theorem dir_spin {P : Spinor F64} (fP : ∀ c ∈ comps .spin P, c.Finite)
    (h1 : (2 : ℝ) ^ (-500 : ℤ) ≤ euclid .spin P) (h2 : euclid .spin P ≤ 2 ^ 510) :
    FiniteTy .spin (directionTy .spin P) ∧
    length .mv (realMV .spin (directionTy .spin P) - promote .spin (unitS (realTy .spin P)))
      ≤ 10 * uR := by
  have hEp : 0 < euclid .spin P := lt_of_lt_of_le (F64.two_zpow_pos _) h1
  have hS0 : 0 < (sqSum .spin P : ℝ) := Real.sqrt_pos.1 hEp
  have hEE : euclid .spin P * euclid .spin P = (sqSum .spin P : ℝ) := Real.mul_self_sqrt hS0.le
  have hu0 := uR_nonneg
  have hu1 := uR_small
  have hS : (sqSum .spin P : ℝ) ≤ (2 : ℝ) ^ 1024 * (1 - 9 * (2 : ℝ) ^ (-53 : ℤ)) := by
    have e1 : (sqSum .spin P : ℝ) ≤ 2 ^ 1020 := by
      rw [← hEE, show (1020 : ℕ) = 510 + 510 from rfl, pow_add]
      exact mul_le_mul h2 h2 hEp.le (pow_pos two_pos _).le
    have e2 : (2 : ℝ) ^ 1024 = 16 * 2 ^ 1020 := by
      rw [show (1024 : ℕ) = 4 + 1020 from by norm_num only, pow_add]; norm_num only
    change _ ≤ (2 : ℝ) ^ 1024 * (1 - 9 * uR)
    rw [e2]
    have hp : (0 : ℝ) < 2 ^ 1020 := pow_pos two_pos _
    generalize (2 : ℝ) ^ 1020 = Q at *
    generalize uR = u at *
    linarith only [mul_le_mul_of_nonneg_left hu1 hp.le, hp, e1]
  obtain ⟨f, hff, hd⟩ := C34_direction_total .spin P fP hS
    ((zpow_le_zpow_right₀ (by norm_num) (by norm_num)).trans h1)
  have hlen : length .spin (realTy .spin P) = euclid .spin P := length_realTy _ _
  have htiny : (2 : ℝ) ^ (-1069 : ℤ) / (euclid .spin P * euclid .spin P) ≤ 1 / 100 * uR := by
    rw [div_le_iff₀ (mul_pos hEp hEp)]
    have e1 : (2 : ℝ) ^ (-1000 : ℤ) ≤ euclid .spin P * euclid .spin P := by
      rw [show (-1000 : ℤ) = -500 + -500 from by norm_num only, zpow_add₀ (by norm_num)]
      exact mul_le_mul h1 h1 (F64.two_zpow_pos _).le hEp.le
    have e2 : (2 : ℝ) ^ (-1069 : ℤ) ≤ 1 / 100 * uR * 2 ^ (-1000 : ℤ) := by
      have e3 : (2 : ℝ) ^ (-1069 : ℤ) = 2 ^ (-16 : ℤ) * uR * 2 ^ (-1000 : ℤ) := by
        unfold uR
        rw [← zpow_add₀ (by norm_num), ← zpow_add₀ (by norm_num)]; norm_num only
      rw [e3]
      refine mul_le_mul_of_nonneg_right (mul_le_mul_of_nonneg_right (by norm_num) hu0)
        (F64.two_zpow_pos _).le
    exact e2.trans (mul_le_mul_of_nonneg_left e1 (by positivity))
  have ht : (2 : ℝ) ^ (-1075 : ℤ) ≤ 1 / 100 * uR := by
    have e3 : (2 : ℝ) ^ (-1075 : ℤ) = 2 ^ (-1022 : ℤ) * uR := by
      unfold uR
      rw [← zpow_add₀ (by norm_num)]; norm_num only
    rw [e3]
    refine mul_le_mul_of_nonneg_right (le_trans (zpow_le_zpow_right₀ (n := -10) (by norm_num) (by norm_num)) ?_) hu0
    norm_num
  have ht0 : (0 : ℝ) < (2 : ℝ) ^ (-1075 : ℤ) := F64.two_zpow_pos _
  have hc : ∀ c ∈ comps .spin P, (f c).Finite ∧
      (((f c).value : ℝ) - (c.value : ℝ) / euclid .spin P) ^ 2
        ≤ 90 * uR ^ 2 * ((c.value : ℝ) / euclid .spin P) ^ 2 + 11 / 10000 * uR ^ 2 := fun c hc => by
    obtain ⟨g1, g2⟩ := hd c hc
    refine ⟨g1, ?_⟩
    change _ ≤ (9 * uR + _) * _ + _ at g2
    rw [← sq_abs (((f c).value : ℝ) - _), ← sq_abs ((c.value : ℝ) / _)]
    have a0 := abs_nonneg (((f c).value : ℝ) - (c.value : ℝ) / euclid .spin P)
    have y0 := abs_nonneg ((c.value : ℝ) / euclid .spin P)
    generalize |((f c).value : ℝ) - (c.value : ℝ) / euclid .spin P| = a at *
    generalize |(c.value : ℝ) / euclid .spin P| = y at *
    have g3 : a ≤ 901 / 100 * uR * y + 1 / 100 * uR := by
      have := mul_le_mul_of_nonneg_right htiny y0
      linarith
    generalize uR = u at *
    have g4 : a ^ 2 ≤ (901 / 100 * u * y + 1 / 100 * u) ^ 2 := pow_le_pow_left₀ a0 g3 2
    have g5 : 0 ≤ u ^ 2 * (y - 1 / 90) ^ 2 := by positivity
    have g6 : 0 ≤ u ^ 2 * y ^ 2 := by positivity
    have g7 : 0 ≤ u ^ 2 := by positivity
    nlinarith only [g4, g5, g6, g7]
  obtain ⟨⟨⟨s⟩⟩, ⟨⟨x, y, z⟩⟩⟩ := P
  rw [show comps .spin (⟨⟨⟨s⟩⟩, ⟨⟨x, y, z⟩⟩⟩ : Spinor F64) = [s, x, y, z] from rfl] at hff hc
  simp only [List.mem_cons, List.not_mem_nil, or_false, forall_eq_or_imp, forall_eq, List.map_cons,
    List.map_nil] at hff hc
  have hq : directionTy .spin (⟨⟨⟨s⟩⟩, ⟨⟨x, y, z⟩⟩⟩ : Spinor F64)
      = (⟨⟨⟨f s⟩⟩, ⟨⟨f x, f y, f z⟩⟩⟩ : Spinor F64) := by
    generalize directionTy .spin (⟨⟨⟨s⟩⟩, ⟨⟨x, y, z⟩⟩⟩ : Spinor F64) = q at hff
    obtain ⟨⟨⟨a⟩⟩, ⟨⟨b, c, d⟩⟩⟩ := q
    rw [show comps .spin (⟨⟨⟨a⟩⟩, ⟨⟨b, c, d⟩⟩⟩ : Spinor F64) = [a, b, c, d] from rfl] at hff
    simp only [List.cons.injEq, and_true] at hff
    obtain ⟨rfl, rfl, rfl, rfl⟩ := hff
    rfl
  rw [hq]
  obtain ⟨⟨f0, c0⟩, ⟨f1, c1⟩, ⟨f2, c2⟩, ⟨f3, c3⟩⟩ := hc
  refine ⟨finiteTy_of .spin _ (by
    rw [show comps .spin (⟨⟨⟨f s⟩⟩, ⟨⟨f x, f y, f z⟩⟩⟩ : Spinor F64) = [f s, f x, f y, f z] from rfl]
    simp only [List.mem_cons, List.not_mem_nil, or_false, forall_eq_or_imp, forall_eq]
    exact ⟨f0, f1, f2, f3⟩), ?_⟩
  unfold unitS
  rw [hlen]
  have hsum : (sqSum .spin (⟨⟨⟨s⟩⟩, ⟨⟨x, y, z⟩⟩⟩ : Spinor F64) : ℝ)
      = (s.value : ℝ) ^ 2 + (x.value : ℝ) ^ 2 + (y.value : ℝ) ^ 2 + (z.value : ℝ) ^ 2 := by
    unfold sqSum
    rw [show comps .spin (⟨⟨⟨s⟩⟩, ⟨⟨x, y, z⟩⟩⟩ : Spinor F64) = [s, x, y, z] from rfl]
    simp only [List.map_cons, List.map_nil, List.sum_cons, List.sum_nil]
    push_cast; ring
  rw [hsum] at hEE
  generalize euclid .spin (⟨⟨⟨s⟩⟩, ⟨⟨x, y, z⟩⟩⟩ : Spinor F64) = E at *
  have hone : ((s.value : ℝ) / E) ^ 2 + ((x.value : ℝ) / E) ^ 2 + ((y.value : ℝ) / E) ^ 2
      + ((z.value : ℝ) / E) ^ 2 = 1 := by
    rw [div_pow, div_pow, div_pow, div_pow, ← add_div, ← add_div, ← add_div, ← hEE, ← pow_two,
      div_self (pow_ne_zero 2 hEp.ne')]
  rw [length_eq]
  refine Real.sqrt_le_iff.2 ⟨by positivity, ?_⟩
  have e : magSqTy .mv (realMV .spin (⟨⟨⟨f s⟩⟩, ⟨⟨f x, f y, f z⟩⟩⟩ : Spinor F64) - promote .spin
      (mapTy (fun c => c / E) .spin (realTy .spin (⟨⟨⟨s⟩⟩, ⟨⟨x, y, z⟩⟩⟩ : Spinor F64))))
      = (((f s).value : ℝ) - (s.value : ℝ) / E) ^ 2 + (((f x).value : ℝ) - (x.value : ℝ) / E) ^ 2
        + (((f y).value : ℝ) - (y.value : ℝ) / E) ^ 2 + (((f z).value : ℝ) - (z.value : ℝ) / E) ^ 2 := by
    simp only [realMV, realTy, mapTy, magSqTy, engabra]; ring
  rw [e]
  have hm : 90 * uR ^ 2 * (((s.value : ℝ) / E) ^ 2 + ((x.value : ℝ) / E) ^ 2 + ((y.value : ℝ) / E) ^ 2
      + ((z.value : ℝ) / E) ^ 2) = 90 * uR ^ 2 := by rw [hone, mul_one]
  have hu2 : 0 ≤ uR ^ 2 := sq_nonneg _
  rw [mul_pow]
  generalize uR ^ 2 = w at *
  linarith only [c0, c1, c2, c3, hm, hu2]

theorem finite_spin {q : Spinor F64} (h : FiniteTy .spin q) : ∀ c ∈ comps .spin q, c.Finite := by
  obtain ⟨⟨⟨a⟩⟩, ⟨⟨b, c, d⟩⟩⟩ := q
  simp only [comps, List.mem_cons, List.not_mem_nil, or_false, forall_eq_or_imp, forall_eq]
  exact ⟨h 0, h 4, h 5, h 6⟩

/-- One turn of the loop `S = direction(R * S)`, or `direction(S * R)`. -/
theorem renorm_step {S R T : Spinor F64} (x y : Spinor F64)
    (hxy : (x = R ∧ y = S) ∨ (x = S ∧ y = R)) (hT : T = x * y)
    (fR : FiniteTy .spin R) (fS : FiniteTy .spin S)
    (hR1 : (2 : ℝ) ^ (-240 : ℤ) ≤ euclid .spin R) (hR2 : euclid .spin R ≤ 2 ^ (240 : ℤ))
    (hS1 : (2 : ℝ) ^ (-240 : ℤ) ≤ euclid .spin S) (hS2 : euclid .spin S ≤ 2 ^ (240 : ℤ)) :
    FiniteTy .spin (directionTy .spin T) ∧ |euclid .spin (directionTy .spin T) - 1| ≤ 10 * uR ∧
    length .mv (realMV .spin (directionTy .spin T)
        - promote .spin (unitS (realTy .spin x) * unitS (realTy .spin y))) ≤ 65 * uR := by
  have hu0 := uR_nonneg
  have hu1 := uR_small
  have hbx : FiniteTy .spin x ∧ FiniteTy .spin y ∧ (2 : ℝ) ^ (-480 : ℤ) ≤ euclid .spin x * euclid .spin y ∧
      euclid .spin x * euclid .spin y ≤ 2 ^ (480 : ℤ) := by
    have k1 : (2 : ℝ) ^ (-480 : ℤ) ≤ euclid .spin R * euclid .spin S := by
      rw [show (-480 : ℤ) = -240 + -240 from by norm_num only, zpow_add₀ (by norm_num)]
      exact mul_le_mul hR1 hS1 (F64.two_zpow_pos _).le (Real.sqrt_nonneg _)
    have k2 : euclid .spin R * euclid .spin S ≤ 2 ^ (480 : ℤ) := by
      rw [show (480 : ℤ) = 240 + 240 from by norm_num only, zpow_add₀ (by norm_num)]
      exact mul_le_mul hR2 hS2 (Real.sqrt_nonneg _) (F64.two_zpow_pos _).le
    rcases hxy with ⟨rfl, rfl⟩ | ⟨rfl, rfl⟩
    · exact ⟨fR, fS, k1, k2⟩
    · rw [mul_comm] at k1 k2; exact ⟨fS, fR, k1, k2⟩
  obtain ⟨fx, fy, k1, k2⟩ := hbx
  have hp0 : 0 < euclid .spin x * euclid .spin y := lt_of_lt_of_le (F64.two_zpow_pos _) k1
  have hx0 : 0 < euclid .spin x := by
    refine lt_of_le_of_ne (Real.sqrt_nonneg _) fun h => ?_
    rw [← h, zero_mul] at hp0; exact lt_irrefl _ hp0
  have hy0 : 0 < euclid .spin y := (mul_pos_iff_of_pos_left hx0).1 hp0
  obtain ⟨fT, hT'⟩ := product_real .spin .spin x y fx fy (k2.trans (by
    rw [← zpow_natCast]; exact zpow_le_zpow_right₀ (by norm_num) (by norm_num)))
  rw [show mulTy .spin .spin x y = T from hT.symm] at fT hT'
  change FiniteTy .spin T at fT
  change length .mv (realMV .spin T - _) ≤ _ at hT'
  have htiny : (2 : ℝ) ^ (-1057 : ℤ) ≤ 1 / 10 * uR * (euclid .spin x * euclid .spin y) := by
    have e3 : (2 : ℝ) ^ (-1057 : ℤ) = 2 ^ (-524 : ℤ) * uR * 2 ^ (-480 : ℤ) := by
      unfold uR
      rw [← zpow_add₀ (by norm_num), ← zpow_add₀ (by norm_num)]; norm_num only
    rw [e3]
    refine mul_le_mul (mul_le_mul_of_nonneg_right (le_trans
      (zpow_le_zpow_right₀ (n := -10) (by norm_num) (by norm_num)) (by norm_num)) hu0) k1
      (F64.two_zpow_pos _).le (by positivity)
  have hprod : realMV .spin x * realMV .spin y = promote .spin (realTy .spin x * realTy .spin y) := by
    unfold realMV
    generalize realTy .spin x = a
    generalize realTy .spin y = b
    mv_ring
  rw [hprod] at hT'
  have hlen : length .spin (realTy .spin x * realTy .spin y) = euclid .spin x * euclid .spin y := by
    rw [length_spin_mul, length_realTy, length_realTy]
  have hd : length .mv (realMV .spin T - promote .spin (realTy .spin x * realTy .spin y))
      ≤ 271 / 10 * uR * (euclid .spin x * euclid .spin y) := by
    refine hT'.trans ((add_le_add le_rfl htiny).trans (le_of_eq (by ring)))
  have e1 := length_le_add (realMV .spin T) (promote .spin (realTy .spin x * realTy .spin y))
  have e2 := length_le_add (promote .spin (realTy .spin x * realTy .spin y)) (realMV .spin T)
  rw [length_mv_sub_comm (promote .spin _)] at e2
  rw [length_realMV, length_promote, hlen] at e1 e2
  have hup := mul_le_mul_of_nonneg_right hu1 hp0.le
  have hET1 : (2 : ℝ) ^ (-500 : ℤ) ≤ euclid .spin T := by
    have e4 : (2 : ℝ) ^ (-480 : ℤ) = 2 ^ 20 * 2 ^ (-500 : ℤ) := by
      rw [← zpow_natCast, ← zpow_add₀ (by norm_num)]; norm_num only
    rw [e4] at k1
    have := F64.two_zpow_pos (K := ℝ) (-500)
    generalize (2 : ℝ) ^ (-500 : ℤ) = Q at *
    linarith only [hd, e2, k1, hup, this]
  have hET2 : euclid .spin T ≤ 2 ^ 510 := by
    have e4 : (2 : ℝ) ^ 510 = 2 ^ 30 * 2 ^ (480 : ℤ) := by
      rw [← zpow_natCast, ← zpow_natCast, ← zpow_add₀ (by norm_num)]; norm_num only
    rw [e4]
    have := F64.two_zpow_pos (K := ℝ) 480
    generalize (2 : ℝ) ^ (480 : ℤ) = Q at *
    linarith only [hd, e1, k2, hup, this, hp0]
  obtain ⟨g1, g2⟩ := dir_spin (finite_spin fT) hET1 hET2
  have hT0 : 0 < length .spin (realTy .spin T) := by
    rw [length_realTy]; exact lt_of_lt_of_le (F64.two_zpow_pos _) hET1
  refine ⟨g1, ?_, ?_⟩
  · have l1 := length_le_add (realMV .spin (directionTy .spin T)) (promote .spin (unitS (realTy .spin T)))
    have l2 := length_le_add (promote .spin (unitS (realTy .spin T))) (realMV .spin (directionTy .spin T))
    rw [length_mv_sub_comm (promote .spin _)] at l2
    rw [length_realMV, length_promote, length_unitS hT0] at l1 l2
    rw [abs_le]; constructor <;> linarith only [g2, l1, l2]
  · refine (length_tri _ (promote .spin (unitS (realTy .spin T))) _).trans ?_
    rw [← unitS_mul]
    have h5 := unitS_near hT0 (y := realTy .spin x * realTy .spin y) (by rw [hlen]; exact hp0)
    rw [hlen] at h5
    change _ ≤ 2 * length .mv (realMV .spin T - _) / _ at h5
    have h6 : 2 * length .mv (realMV .spin T - promote .spin (realTy .spin x * realTy .spin y))
        / (euclid .spin x * euclid .spin y) ≤ 55 * uR := by
      rw [div_le_iff₀ hp0]
      have := mul_nonneg hu0 hp0.le
      refine (mul_le_mul_of_nonneg_left hd zero_le_two).trans ?_
      rw [mul_assoc (271 / 10), mul_assoc 55]
      generalize uR * (euclid .spin x * euclid .spin y) = q at this ⊢
      linarith only [this]
    exact (add_le_add g2 (h5.trans h6)).trans (le_of_eq (by ring))

end Engabra
