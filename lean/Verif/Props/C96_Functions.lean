import Verif.Props.C96_Inexact
import Verif.Props.C17_C18_Inverse
import Verif.Props.C34_Total
import Verif.Lemmas.ExpMvF64
import Verif.Props.C25_C28_Compare

/-! # C96 — inexact in `inverse`, `magnitude` and `direction` -/

namespace Engabra

open F64 (HasVal Rep OnGrid)

/-! ## One operation -/

/-- **C96.** A quotient of finite numbers by a number other than zero raises inexact exactly if the exact
quotient is not a double; a quotient by zero does not raise it. -/
theorem C96_div {x y : F64} (hx : x.Finite) (hy : y.Finite) :
    ((EV.clean x / EV.clean y).inexact = true ↔
      y.value ≠ 0 ∧ ¬∃ z : F64, z.Finite ∧ z.value = x.value / y.value) ∧
    ((EV.clean x / EV.clean y).underflow = true ↔
      y.value ≠ 0 ∧ (¬∃ z : F64, z.Finite ∧ z.value = x.value / y.value) ∧
        |x.value / y.value| < (2 : ℚ) ^ (-1022 : ℤ)) := by
  by_cases h0 : y.value = 0
  · have e : EV.clean x / EV.clean y = ⟨x / y, false, false⟩ := if_pos h0
    rw [e]; simp [h0]
  · have e : EV.clean x / EV.clean y = EV.op (.clean x) (.clean y) (x.value / y.value) (x / y) := if_neg h0
    obtain ⟨h1, h2⟩ := op_flags (z := x / y) (q := x.value / y.value) hx hy
    have key : F64.rounded (x.value / y.value) (x / y) = true ↔
        ¬∃ z : F64, z.Finite ∧ z.value = x.value / y.value := by
      rw [← Bool.not_eq_false, not_rounded, not_iff_not]
      exact ⟨fun h => ⟨_, h⟩, fun ⟨z, h⟩ => HasVal.div (.of hx) (.of hy) h0 (HasVal.rep h) (HasVal.lt h)⟩
    rw [e, h1, h2, Bool.and_eq_true, key, F64.tiny, decide_eq_true_iff]
    simp [h0]

theorem sqrt_exact {x z : F64} (hx : x.Finite) (hz : z.Finite) (h : z.value * z.value = x.value) (h0 : 0 < x.value) :
    HasVal (Dbl.sqrt x) |z.value| := by
  have hr : Rep |z.value| := by
    rcases abs_choice z.value with e | e <;> rw [e]
    · exact F64.value_rep
    · exact (HasVal.of hz).neg.rep
  have e : √(x.value : ℝ) = ((|z.value| : ℚ) : ℝ) := by
    rw [← h]; push_cast; rw [Real.sqrt_mul_self_eq_abs]
  have hlt : |z.value| ≤ 2 ^ 1022 := by
    by_contra hc
    rw [not_le] at hc
    have h1 := (HasVal.of hx).lt
    rw [← h, abs_mul] at h1
    have h2 : (2 : ℚ) ^ 1022 * 2 ^ 1022 < |z.value| * |z.value| :=
      mul_lt_mul'' hc hc (by positivity) (by positivity)
    have h3 : (2 : ℚ) ^ 1024 ≤ 2 ^ 1022 * 2 ^ 1022 := by
      rw [← pow_add]; exact pow_le_pow_right₀ (by norm_num) (by norm_num)
    exact absurd (h2.trans h1) (not_lt.2 h3)
  obtain ⟨s1, s2⟩ := F64.sqrt_spec hx h0 (by rw [e]; exact_mod_cast hlt)
  refine ⟨s1, ?_⟩
  rw [s2, e, F64.rnVal_ratCast', F64.rnVal_exact hr]

/-- **C96.** A square root of a finite number not less than zero raises inexact exactly if no double has that
number as its square, and does not underflow. -/
theorem C96_sqrt {x : F64} (hx : x.Finite) (h0 : 0 ≤ x.value) :
    ((EV.sqrt (.clean x)).inexact = true ↔ ¬∃ z : F64, z.Finite ∧ z.value * z.value = x.value) ∧
    (EV.sqrt (.clean x)).underflow = false := by
  refine ⟨?_, rfl⟩
  have e : (EV.sqrt (.clean x)).inexact = decide ((Dbl.sqrt x).value * (Dbl.sqrt x).value ≠ x.value) := by
    unfold EV.sqrt EV.clean
    simp only [(isFin_iff x).2 hx, decide_eq_true h0, Bool.true_and, Bool.false_or]
  rw [e, decide_eq_true_iff, not_iff_not]
  rcases h0.lt_or_eq with hp | hp
  · constructor
    · intro h
      refine ⟨Dbl.sqrt x, ?_, h⟩
      by_contra hf
      have : (Dbl.sqrt x).value = 0 := by
        generalize Dbl.sqrt x = s at hf
        cases s with
        | nan => rfl
        | inf _ => rfl
        | zero _ => rfl
        | fin _ _ => exact absurd trivial hf
      rw [this, zero_mul] at h
      exact hp.ne h
    · rintro ⟨z, hz, hzz⟩
      rw [(sqrt_exact hx hz hzz hp).2, abs_mul_abs_self, hzz]
  · have hs : (Dbl.sqrt x).value = 0 := by
      cases x with
      | nan => exact absurd hx id
      | inf _ => exact absurd hx id
      | zero s => rfl
      | fin v h => exact absurd hp.symm h.1
    rw [hs, zero_mul]
    exact ⟨fun _ => ⟨0, F64.hasVal_zero'.1, by rw [F64.hasVal_zero'.2, zero_mul]; exact hp⟩, fun _ => hp⟩

/-! ## Functions -/

/-- Exact unless inexact. -/
def EV.Exact (a : EV) (q : ℚ) : Prop := a.inexact = false → HasVal a.val q

namespace EV.Exact

theorem clean {x : F64} (h : x.Finite) : (EV.clean x).Exact x.value := fun _ => .of h

theorem zero : (0 : EV).Exact 0 := fun _ => F64.hasVal_zero'

theorem add {a b : EV} {p q : ℚ} (ha : a.Exact p) (hb : b.Exact q) : (a + b).Exact (p + q) := fun h => by
  obtain ⟨h1, h2, h3⟩ := op_clear h
  have A := ha h1; have B := hb h2
  have := h3 A.1 B.1
  rw [A.2, B.2] at this
  exact this

theorem sub {a b : EV} {p q : ℚ} (ha : a.Exact p) (hb : b.Exact q) : (a - b).Exact (p - q) := fun h => by
  obtain ⟨h1, h2, h3⟩ := op_clear h
  have A := ha h1; have B := hb h2
  have := h3 A.1 B.1
  rw [A.2, B.2] at this
  exact this

theorem mul {a b : EV} {p q : ℚ} (ha : a.Exact p) (hb : b.Exact q) : (a * b).Exact (p * q) := fun h => by
  obtain ⟨h1, h2, h3⟩ := op_clear h
  have A := ha h1; have B := hb h2
  have := h3 A.1 B.1
  rw [A.2, B.2] at this
  exact this

theorem neg {a : EV} {p : ℚ} (ha : a.Exact p) : (-a).Exact (-p) := fun h => (ha h).neg

theorem div {a b : EV} {p q : ℚ} (ha : a.Exact p) (hb : b.Exact q) (hq : q ≠ 0) : (a / b).Exact (p / q) := fun h => by
  by_cases h0 : b.val.value = 0
  · have e : a / b = ⟨a.val / b.val, a.inexact || b.inexact, a.underflow || b.underflow⟩ := if_pos h0
    rw [e] at h
    have := hb (Bool.or_eq_false_iff.1 h).2
    exact absurd (this.2.symm.trans h0) hq
  · have e : a / b = EV.op a b (a.val.value / b.val.value) (a.val / b.val) := if_neg h0
    rw [e] at h ⊢
    obtain ⟨h1, h2, h3⟩ := op_clear h
    have A := ha h1; have B := hb h2
    have := h3 A.1 B.1
    rw [A.2, B.2] at this
    exact this

end EV.Exact

theorem magSq_exactE (t : Ty) (x : t.D F64) (hf : ∀ c ∈ comps t x, c.Finite) :
    (magSqTy t (mapTy EV.clean t x)).Exact (magSqTy t (mapTy F64.value t x)) := by
  cases t <;>
    simp only [comps, List.forall_mem_cons, List.not_mem_nil, false_imp_iff, implies_true, and_true] at hf <;>
    (try casesm* _ ∧ _) <;>
    simp only [engabra, mapTy] <;>
    repeat (first | apply EV.Exact.add | apply EV.Exact.mul | exact EV.Exact.zero | (apply EV.Exact.clean; assumption))

theorem comps_clean (t : Ty) (x : t.D F64) (f : F64 → EV) : comps t (mapTy f t x) = (comps t x).map f := by
  cases t <;> rfl

theorem magSq_value_ne (t : Ty) (x : t.D F64) (h : ∃ c ∈ comps t x, c.value ≠ 0) :
    magSqTy t (mapTy F64.value t x) ≠ 0 := by
  intro h0
  obtain ⟨c, hc, hc0⟩ := h
  refine hc0 ((C13_magSq_eq_zero_iff t _).1 h0 _ ?_)
  have e : comps t (mapTy F64.value t x) = (comps t x).map F64.value := by cases t <;> rfl
  rw [e]; exact List.mem_map_of_mem hc

/-- **C96.** `inverse` of a blade other than zero: if no component of the result has raised inexact, the result
is finite and the exact inverse. -/
theorem C96_inverse (t : Ty) (ht : t = .sca ∨ t = .vec ∨ t = .biv ∨ t = .tri) (x : t.D F64)
    (hf : ∀ c ∈ comps t x, c.Finite) (hne : ∃ c ∈ comps t x, c.value ≠ 0)
    (h : ∀ c ∈ comps t (inverseE t (mapTy EV.clean t x)), c.inexact = false) :
    (∀ c ∈ comps t (inverseE t (mapTy EV.clean t x)), c.val.Finite) ∧
    promote t (mapTy F64.value t x) *
      promote t (mapTy (fun c => c.val.value) t (inverseE t (mapTy EV.clean t x))) = gone ∧
    promote t (mapTy (fun c => c.val.value) t (inverseE t (mapTy EV.clean t x))) *
      promote t (mapTy F64.value t x) = gone := by
  have hm := magSq_value_ne t x hne
  have hs := EV.Exact.div (EV.Exact.clean (x := 1) F64.hasVal_one.1) (magSq_exactE t x hf) hm
  rw [F64.hasVal_one.2] at hs
  change EV.Exact (1 / magSqTy t (mapTy EV.clean t x)) _ at hs
  have key : (∀ c ∈ comps t (inverseE t (mapTy EV.clean t x)), c.val.Finite) ∧
      mapTy (fun c => c.val.value) t (inverseE t (mapTy EV.clean t x)) =
        smulTy t (1 / magSqTy t (mapTy F64.value t x)) (reverseTy t (mapTy F64.value t x)) := by
    unfold inverseE at h ⊢
    dsimp only at h ⊢
    generalize 1 / magSqTy t (mapTy EV.clean t x) = s at hs h ⊢
    generalize 1 / magSqTy t (mapTy F64.value t x) = q at hs h ⊢
    rcases ht with rfl | rfl | rfl | rfl <;>
      simp only [comps, List.forall_mem_cons, List.not_mem_nil, false_imp_iff, implies_true, and_true, engabra,
        mapTy] at hf h ⊢
    · have := hs.mul (EV.Exact.clean hf) h
      exact ⟨this.1, by rw [this.2]⟩
    · have e0 := hs.mul (EV.Exact.clean hf.1) h.1
      have e1 := hs.mul (EV.Exact.clean hf.2.1) h.2.1
      have e2 := hs.mul (EV.Exact.clean hf.2.2) h.2.2
      exact ⟨⟨e0.1, e1.1, e2.1⟩, by rw [e0.2, e1.2, e2.2]⟩
    · have e0 := hs.mul (EV.Exact.clean hf.1).neg h.1
      have e1 := hs.mul (EV.Exact.clean hf.2.1).neg h.2.1
      have e2 := hs.mul (EV.Exact.clean hf.2.2).neg h.2.2
      exact ⟨⟨e0.1, e1.1, e2.1⟩, by rw [e0.2, e1.2, e2.2]⟩
    · have := hs.mul (EV.Exact.clean hf).neg h
      exact ⟨this.1, by rw [this.2]⟩
  refine ⟨key.1, ?_⟩
  rw [key.2]
  generalize mapTy F64.value t x = v at hm ⊢
  have hv : t.versor = true := by rcases ht with rfl | rfl | rfl | rfl <;> rfl
  obtain ⟨h1, h2⟩ := rev_mul_self t hv v
  have hp : promote t (smulTy t (1 / magSqTy t v) (reverseTy t v))
      = (1 / magSqTy t v : ℚ) * reverse (promote t v) := by
    rw [← promote_reverse]
    generalize 1 / magSqTy t v = r
    rcases ht with rfl | rfl | rfl | rfl <;> mv_ring
  have ho : (1 / magSqTy t v : ℚ) * (mvOfDub (magSqTy t v) : MultiVector ℚ) = gone := by
    generalize magSqTy t v = m at hm
    ext <;> simp only [engabra]
    · field_simp
    all_goals simp
  rw [hp]
  exact ⟨by rw [C01_mul_smul, h2, ho], by rw [C01_smul_mul, h1, ho]⟩

/-- **C96.** `magnitude`: if the result has not raised inexact, it is finite, not negative, and its square is the
sum of the squares of the components. -/
theorem C96_magnitude (t : Ty) (x : t.D F64) (hf : ∀ c ∈ comps t x, c.Finite)
    (h : (pairMagDirE t (mapTy EV.clean t x)).1.inexact = false) :
    (pairMagDirE t (mapTy EV.clean t x)).1.val.Finite ∧
    0 ≤ (pairMagDirE t (mapTy EV.clean t x)).1.val.value ∧
    (pairMagDirE t (mapTy EV.clean t x)).1.val.value ^ 2 = ((comps t x).map fun c => c.value ^ 2).sum := by
  have hE := magSq_exactE t x hf
  have hn : 0 ≤ magSqTy t (mapTy F64.value t x) := C13_magSq_nonneg t _
  have hsum : magSqTy t (mapTy F64.value t x) = ((comps t x).map fun c => c.value ^ 2).sum := by
    have e : comps t (mapTy F64.value t x) = (comps t x).map F64.value := by cases t <;> rfl
    rw [C13_magSq_sum_of_squares, e, List.map_map]; rfl
  have e1 : (pairMagDirE t (mapTy EV.clean t x)).1 = EV.sqrt (magSqTy t (mapTy EV.clean t x)) := by
    unfold pairMagDirE; dsimp only; split <;> rfl
  rw [e1] at h ⊢
  rw [← hsum]
  generalize magSqTy t (mapTy EV.clean t x) = a at *
  generalize magSqTy t (mapTy F64.value t x) = q at *
  unfold EV.sqrt at h ⊢
  dsimp only at h ⊢
  obtain ⟨h1, h2⟩ := Bool.or_eq_false_iff.1 h
  obtain ⟨ha, hv⟩ := hE h1
  have hfin : (Dbl.sqrt a.val).Finite ∧ 0 ≤ (Dbl.sqrt a.val).value := by
    have h3 := (sqrt_total ha (by rw [hv]; exact hn)).1
    exact ⟨h3, by exact_mod_cast sqrt_value_nonneg h3⟩
  rw [(isFin_iff _).2 ha, hv, decide_eq_true hn, Bool.true_and, Bool.true_and, decide_eq_false_iff_not,
    not_not] at h2
  exact ⟨hfin.1, hfin.2, by rw [pow_two]; exact h2⟩

theorem direction_core (t : Ty) (x : t.D F64) (hf : ∀ c ∈ comps t x, c.Finite) (hne : ∃ c ∈ comps t x, c.value ≠ 0)
    (hm : (pairMagDirE t (mapTy EV.clean t x)).1.inexact = false) :
    ∃ m : EV, pairMagDirE t (mapTy EV.clean t x) = (m, smulTy t (1 / m) (mapTy EV.clean t x)) ∧ m.val.Finite ∧
      0 < m.val.value ∧ m.val.value ^ 2 = ((comps t x).map fun c => c.value ^ 2).sum := by
  obtain ⟨m1, m2, m3⟩ := C96_magnitude t x hf hm
  have hsum : magSqTy t (mapTy F64.value t x) = ((comps t x).map fun c => c.value ^ 2).sum := by
    have e : comps t (mapTy F64.value t x) = (comps t x).map F64.value := by cases t <;> rfl
    rw [C13_magSq_sum_of_squares, e, List.map_map]; rfl
  have hq := magSq_value_ne t x hne
  have hE := magSq_exactE t x hf
  have e1 : (pairMagDirE t (mapTy EV.clean t x)).1 = EV.sqrt (magSqTy t (mapTy EV.clean t x)) := by
    unfold pairMagDirE; dsimp only; split <;> rfl
  have hclear : (magSqTy t (mapTy EV.clean t x)).inexact = false := by
    rw [e1] at hm
    exact (Bool.or_eq_false_iff.1 hm).1
  have hgrid : (2 : ℚ) ^ (-1074 : ℤ) ≤ magSqTy t (mapTy F64.value t x) := by
    have hv := (hE hclear).2
    obtain ⟨n, hn⟩ := value_grid (magSqTy t (mapTy EV.clean t x)).val
    rw [hv] at hn
    have hpos : 0 < magSqTy t (mapTy F64.value t x) := lt_of_le_of_ne (C13_magSq_nonneg t _) hq.symm
    rw [hn] at hpos ⊢
    have hp := F64.two_zpow_pos (K := ℚ) (-1074)
    have hn1 : (1 : ℚ) ≤ n := by
      have : (0 : ℚ) < n := pos_of_mul_pos_left hpos hp.le
      have : (0 : ℤ) < n := by exact_mod_cast this
      exact_mod_cast this
    calc (2 : ℚ) ^ (-1074 : ℤ) = 1 * (2 : ℚ) ^ (-1074 : ℤ) := (one_mul _).symm
      _ ≤ n * (2 : ℚ) ^ (-1074 : ℤ) := mul_le_mul_of_nonneg_right hn1 hp.le
  rw [e1] at m1 m2 m3 hm
  have hbig : (2 : ℚ) ^ (-1074 : ℤ) < (EV.sqrt (magSqTy t (mapTy EV.clean t x))).val.value := by
    by_contra hc
    rw [not_lt] at hc
    have h2 : (EV.sqrt (magSqTy t (mapTy EV.clean t x))).val.value ^ 2 ≤ ((2 : ℚ) ^ (-1074 : ℤ)) ^ 2 :=
      pow_le_pow_left₀ m2 hc 2
    rw [m3, ← hsum] at h2
    have hp := F64.two_zpow_pos (K := ℚ) (-1074)
    have hl : (2 : ℚ) ^ (-1074 : ℤ) < 1 := zpow_lt_one_of_neg₀ (by norm_num) (by norm_num)
    have h3 : ((2 : ℚ) ^ (-1074 : ℤ)) ^ 2 < (2 : ℚ) ^ (-1074 : ℤ) := by
      rw [pow_two]; exact mul_lt_of_lt_one_left hp hl
    exact absurd (hgrid.trans h2) (not_le.2 h3)
  have hlt : Dbl.lt (Dbl.denormMin F64) (EV.sqrt (magSqTy t (mapTy EV.clean t x))).val = true := by
    rw [F64.denormMin_val.flt (HasVal.of m1), decide_eq_true_iff]; exact hbig
  have e2 : (pairMagDirE t (mapTy EV.clean t x)).2 =
      smulTy t (1 / EV.sqrt (magSqTy t (mapTy EV.clean t x))) (mapTy EV.clean t x) := by
    unfold pairMagDirE; dsimp only; rw [if_pos hlt]
  exact ⟨_, Prod.ext e1 e2, m1, (F64.two_zpow_pos (K := ℚ) (-1074)).trans hbig, m3⟩

/-- **C96.** `direction` of an object other than zero: if neither the magnitude `m` nor a component of the
result has raised inexact, the result is finite, its components times `m` are the components of the object, and
the sum of their squares is exactly one. -/
theorem C96_direction (t : Ty) (x : t.D F64) (hf : ∀ c ∈ comps t x, c.Finite) (hne : ∃ c ∈ comps t x, c.value ≠ 0)
    (hm : (pairMagDirE t (mapTy EV.clean t x)).1.inexact = false)
    (h : ∀ c ∈ comps t (pairMagDirE t (mapTy EV.clean t x)).2, c.inexact = false) :
    List.Forall₂ (fun y c => y.val.Finite ∧ y.val.value * (pairMagDirE t (mapTy EV.clean t x)).1.val.value = c.value)
      (comps t (pairMagDirE t (mapTy EV.clean t x)).2) (comps t x) ∧
    ((comps t (pairMagDirE t (mapTy EV.clean t x)).2).map fun y => y.val.value ^ 2).sum = 1 := by
  obtain ⟨m, e, m1, hm0, m3⟩ := direction_core t x hf hne hm
  rw [e] at h ⊢
  have hs := EV.Exact.div (EV.Exact.clean (x := 1) F64.hasVal_one.1)
    (show EV.Exact m _ from fun _ => HasVal.of m1) hm0.ne'
  rw [F64.hasVal_one.2] at hs
  change EV.Exact (1 / m) _ at hs
  dsimp only at h ⊢
  rw [comps_smul, comps_clean] at h ⊢
  generalize 1 / m = s at hs h ⊢
  generalize m.val.value = m at *
  have each : ∀ c ∈ comps t x, HasVal (s * EV.clean c).val (1 / m * c.value) := fun c hc =>
    hs.mul (EV.Exact.clean (hf c hc)) (h _ (List.mem_map_of_mem (List.mem_map_of_mem hc)))
  rw [List.map_map]
  constructor
  · rw [List.forall₂_map_left_iff, List.forall₂_same]
    intro c hc
    refine ⟨(each c hc).1, ?_⟩
    show (s * EV.clean c).val.value * m = _
    rw [(each c hc).2]; field_simp
  · have : ((comps t x).map ((fun x => s * x) ∘ EV.clean)).map (fun y => y.val.value ^ 2) =
        (comps t x).map fun c => 1 / m ^ 2 * c.value ^ 2 := by
      rw [List.map_map]
      refine List.map_congr_left fun c hc => ?_
      show (s * EV.clean c).val.value ^ 2 = _
      rw [(each c hc).2]; field_simp
    rw [this, List.sum_map_mul_left, ← m3]
    field_simp

/-! ## Values and sticky flags -/

theorem div_valE (a b : EV) : (a / b).val = a.val / b.val := by
  by_cases h0 : b.val.value = 0
  · have e : a / b = ⟨a.val / b.val, a.inexact || b.inexact, a.underflow || b.underflow⟩ := if_pos h0
    rw [e]
  · have e : a / b = EV.op a b (a.val.value / b.val.value) (a.val / b.val) := if_neg h0
    rw [e]; rfl

theorem val_cleanE (t : Ty) (x : t.D F64) : mapTy EV.val t (mapTy EV.clean t x) = x := by cases t <;> rfl

/-- **C96.** Recording the flags does not change `inverse` of a blade, `magnitude` and `direction`. -/
theorem C96_function_values (t : Ty) (x : t.D F64) :
    ((t = .sca ∨ t = .vec ∨ t = .biv ∨ t = .tri) →
      inverseTy t x = some (mapTy EV.val t (inverseE t (mapTy EV.clean t x)))) ∧
    (pairMagDirE t (mapTy EV.clean t x)).1.val = magnitudeTy t x ∧
    mapTy EV.val t (pairMagDirE t (mapTy EV.clean t x)).2 = directionTy t x := by
  have smul : ∀ (s : EV) (y : t.D EV), mapTy EV.val t (smulTy t s y) = smulTy t s.val (mapTy EV.val t y) := by
    cases t <;> intros <;> rfl
  have rev : ∀ y : t.D EV, mapTy EV.val t (reverseTy t y) = reverseTy t (mapTy EV.val t y) := by
    cases t <;> intros <;> rfl
  have msq : ∀ y : t.D EV, (magSqTy t y).val = magSqTy t (mapTy EV.val t y) := by
    cases t <;> intros <;> rfl
  have hmag : (EV.sqrt (magSqTy t (mapTy EV.clean t x))).val = magnitudeTy t x := by
    show Dbl.sqrt (magSqTy t (mapTy EV.clean t x)).val = _
    rw [msq, val_cleanE]; rfl
  refine ⟨fun ht => ?_, ?_⟩
  · have e : inverseTy t x = some (smulTy t (1 / magSqTy t x) (reverseTy t x)) := by
      rcases ht with rfl | rfl | rfl | rfl <;> rfl
    rw [e]
    unfold inverseE
    dsimp only
    rw [smul, rev, val_cleanE, div_valE, msq, val_cleanE]; rfl
  · unfold directionTy pairMagDirTy pairMagDirE
    dsimp only
    rw [hmag]
    split_ifs
    · refine ⟨hmag, ?_⟩
      rw [smul, val_cleanE, div_valE, hmag]; rfl
    · refine ⟨hmag, ?_⟩
      cases t <;> rfl

/-- **C96.** Quotients and square roots keep the flags of their operands. -/
theorem C96_sticky_div (a b : EV) :
    ((a.inexact = true ∨ b.inexact = true) → (a / b).inexact = true) ∧
    ((a.underflow = true ∨ b.underflow = true) → (a / b).underflow = true) ∧
    (a.inexact = true → (EV.sqrt a).inexact = true) ∧ (EV.sqrt a).underflow = a.underflow := by
  refine ⟨fun h => ?_, fun h => ?_, fun h => ?_, rfl⟩
  · by_cases h0 : b.val.value = 0
    · have e : a / b = ⟨a.val / b.val, a.inexact || b.inexact, a.underflow || b.underflow⟩ := if_pos h0
      rw [e]; exact Bool.or_eq_true_iff.2 h
    · have e : a / b = EV.op a b (a.val.value / b.val.value) (a.val / b.val) := if_neg h0
      rw [e]; unfold EV.op; simp [Bool.or_eq_true_iff.2 h]
  · by_cases h0 : b.val.value = 0
    · have e : a / b = ⟨a.val / b.val, a.inexact || b.inexact, a.underflow || b.underflow⟩ := if_pos h0
      rw [e]; exact Bool.or_eq_true_iff.2 h
    · have e : a / b = EV.op a b (a.val.value / b.val.value) (a.val / b.val) := if_neg h0
      rw [e]; unfold EV.op; simp [Bool.or_eq_true_iff.2 h]
  · unfold EV.sqrt; simp [h]

/-! ## Vectors: only the axes -/

theorem three_squares (n : ℕ) : ∀ a b c : ℤ, a ^ 2 + b ^ 2 + c ^ 2 = 4 ^ n →
    (a = 0 ∧ b = 0) ∨ (a = 0 ∧ c = 0) ∨ (b = 0 ∧ c = 0) := by
  induction n with
  | zero =>
    intro a b c h
    rw [pow_zero] at h
    have one : ∀ z : ℤ, z ≠ 0 → 1 ≤ z ^ 2 := fun z hz => by
      have : 0 < z ^ 2 := by positivity
      omega
    have ha := sq_nonneg a; have hb := sq_nonneg b; have hc' := sq_nonneg c
    rcases eq_or_ne a 0 with h1 | h1 <;> rcases eq_or_ne b 0 with h2 | h2 <;> rcases eq_or_ne c 0 with h3 | h3 <;>
      first
      | exact .inl ⟨h1, h2⟩
      | exact .inr (.inl ⟨h1, h3⟩)
      | exact .inr (.inr ⟨h2, h3⟩)
      | linarith [one a h1, one b h2]
      | linarith [one a h1, one c h3]
      | linarith [one b h2, one c h3]
  | succ n ih =>
    intro a b c h
    have sq4 : ∀ z : ℤ, z ^ 2 % 4 = 0 ∧ z % 2 = 0 ∨ z ^ 2 % 4 = 1 := fun z => by
      rcases Int.emod_two_eq_zero_or_one z with hz | hz
      · left
        obtain ⟨k, rfl⟩ : ∃ k, z = 2 * k := ⟨z / 2, by omega⟩
        exact ⟨by ring_nf; omega, hz⟩
      · right
        obtain ⟨k, rfl⟩ : ∃ k, z = 2 * k + 1 := ⟨z / 2, by omega⟩
        ring_nf; omega
    have h4 : (a ^ 2 + b ^ 2 + c ^ 2) % 4 = 0 := by rw [h, pow_succ]; omega
    have ev : a % 2 = 0 ∧ b % 2 = 0 ∧ c % 2 = 0 := by
      have := sq4 a; have := sq4 b; have := sq4 c
      generalize a ^ 2 = A at *
      generalize b ^ 2 = B at *
      generalize c ^ 2 = C at *
      omega
    obtain ⟨i, rfl⟩ : ∃ k, a = 2 * k := ⟨a / 2, by omega⟩
    obtain ⟨j, rfl⟩ : ∃ k, b = 2 * k := ⟨b / 2, by omega⟩
    obtain ⟨k, rfl⟩ : ∃ k, c = 2 * k := ⟨c / 2, by omega⟩
    have := ih i j k (by rw [pow_succ (4 : ℤ) n] at h; linarith)
    omega

theorem inv_pow {m : ℚ} (h0 : 0 < m) {e e' : ℤ} (h1 : OnGrid e m) (h2 : OnGrid e' (1 / m)) : ∃ k : ℤ, m = (2 : ℚ) ^ k := by
  obtain ⟨n, hn⟩ := h1
  obtain ⟨n', hn'⟩ := h2
  have hp := F64.two_zpow_pos (K := ℚ) e
  have hp' := F64.two_zpow_pos (K := ℚ) e'
  have hnpos : 0 < n := by
    have : (0 : ℚ) < n := pos_of_mul_pos_left (hn ▸ h0) hp.le
    exact_mod_cast this
  have hnpos' : 0 < n' := by
    have : (0 : ℚ) < n' := pos_of_mul_pos_left (hn' ▸ (by positivity)) hp'.le
    exact_mod_cast this
  have hprod : (n * n' : ℚ) * (2 : ℚ) ^ (e + e') = 1 := by
    rw [zpow_add₀ (by norm_num)]
    calc _ = (n * (2 : ℚ) ^ e) * (n' * (2 : ℚ) ^ e') := by ring
      _ = m * (1 / m) := by rw [← hn, ← hn']
      _ = 1 := mul_one_div_cancel h0.ne'
  have hq : (n * n' : ℚ) = (2 : ℚ) ^ (-(e + e')) := by
    rw [zpow_neg]; exact eq_inv_of_mul_eq_one_left hprod
  have hge : (0 : ℤ) ≤ -(e + e') := by
    by_contra hc
    have : (2 : ℚ) ^ (-(e + e')) < 1 := zpow_lt_one_of_neg₀ (by norm_num) (by omega)
    rw [← hq] at this
    have h3 : n * n' < 1 := by exact_mod_cast this
    have := mul_pos hnpos hnpos'
    omega
  obtain ⟨j, hj⟩ := Int.eq_ofNat_of_zero_le hge
  rw [hj] at hq
  have hq' : n * n' = 2 ^ j := by exact_mod_cast hq
  have hdvd : n.natAbs ∣ 2 ^ j := by
    have : n ∣ 2 ^ j := ⟨n', hq'.symm⟩
    have := Int.natAbs_dvd_natAbs.2 this
    simpa [Int.natAbs_pow] using this
  obtain ⟨i, -, hi⟩ := (Nat.dvd_prime_pow Nat.prime_two).1 hdvd
  have hni : n = 2 ^ i := by
    have : (n.natAbs : ℤ) = n := Int.natAbs_of_nonneg hnpos.le
    rw [← this, hi]; push_cast; rfl
  refine ⟨i + e, ?_⟩
  rw [zpow_add₀ (by norm_num), hn, hni]
  push_cast
  rw [zpow_natCast]

/-- **C96.** The flag stays clear in `direction` of a `Vector` or `BiVector` only for a power of two along an
axis: otherwise the direction returned is always flagged as rounded. -/
theorem C96_direction_axis (t : Ty) (ht : t = .vec ∨ t = .biv) (x : t.D F64) (hf : ∀ c ∈ comps t x, c.Finite)
    (hne : ∃ c ∈ comps t x, c.value ≠ 0)
    (hm : (pairMagDirE t (mapTy EV.clean t x)).1.inexact = false)
    (h : ∀ c ∈ comps t (pairMagDirE t (mapTy EV.clean t x)).2, c.inexact = false) :
    ∃ k : ℤ, ((comps t x).map fun c => |c.value|).Perm [(2 : ℚ) ^ k, 0, 0] := by
  obtain ⟨m, e, m1, hm0, m3⟩ := direction_core t x hf hne hm
  rw [e] at h
  dsimp only at h
  have hs := EV.Exact.div (EV.Exact.clean (x := 1) F64.hasVal_one.1)
    (show EV.Exact m _ from fun _ => HasVal.of m1) hm0.ne'
  rw [F64.hasVal_one.2] at hs
  change EV.Exact (1 / m) _ at hs
  rw [comps_smul, comps_clean] at h
  have hclear : (1 / m).inexact = false := by
    obtain ⟨c, hc, -⟩ := hne
    exact (op_clear (h _ (List.mem_map_of_mem (List.mem_map_of_mem hc)))).1
  have hg1 := value_grid m.val
  have hg2 := value_grid (1 / m).val
  rw [(hs hclear).2] at hg2
  obtain ⟨k, hk⟩ := inv_pow hm0 hg1 hg2
  rw [hk] at m3
  refine ⟨k, ?_⟩
  obtain ⟨c0, c1, c2, hcs⟩ : ∃ c0 c1 c2, comps t x = [c0, c1, c2] := by
    rcases ht with rfl | rfl <;> exact ⟨_, _, _, rfl⟩
  rw [hcs] at m3 hne ⊢
  clear hcs h hs hclear hg1 hg2 hk e m1 hm0 hm hf
  simp only [List.map_cons, List.map_nil, List.sum_cons, List.sum_nil, add_zero] at m3 ⊢
  obtain ⟨a, ha⟩ := value_grid c0
  obtain ⟨b, hb⟩ := value_grid c1
  obtain ⟨c, hc⟩ := value_grid c2
  have hp := F64.two_zpow_pos (K := ℚ) k
  have hg := F64.two_zpow_pos (K := ℚ) (-1074)
  have hint : ((a ^ 2 + b ^ 2 + c ^ 2 : ℤ) : ℚ) = (2 : ℚ) ^ (2 * (k + 1074)) := by
    have e1 : (2 : ℚ) ^ (2 * (k + 1074)) * ((2 : ℚ) ^ (-1074 : ℤ)) ^ 2 = ((2 : ℚ) ^ k) ^ 2 := by
      rw [← zpow_natCast, ← zpow_natCast, ← zpow_mul, ← zpow_mul, ← zpow_add₀ (by norm_num)]
      congr 1; push_cast; ring
    have e2 : ((a ^ 2 + b ^ 2 + c ^ 2 : ℤ) : ℚ) * ((2 : ℚ) ^ (-1074 : ℤ)) ^ 2 = ((2 : ℚ) ^ k) ^ 2 := by
      rw [m3, ha, hb, hc]; push_cast; ring
    exact mul_right_cancel₀ (pow_ne_zero 2 hg.ne') (e2.trans e1.symm)
  have hge : 0 ≤ k + 1074 := by
    by_contra hneg
    have h1 : (2 : ℚ) ^ (2 * (k + 1074)) < 1 := zpow_lt_one_of_neg₀ (by norm_num) (by omega)
    have h2 := F64.two_zpow_pos (K := ℚ) (2 * (k + 1074))
    rw [← hint] at h1 h2
    have h1' : a ^ 2 + b ^ 2 + c ^ 2 < 1 := by exact_mod_cast h1
    have h2' : 0 < a ^ 2 + b ^ 2 + c ^ 2 := by exact_mod_cast h2
    omega
  obtain ⟨n, hn⟩ := Int.eq_ofNat_of_zero_le hge
  have h4 : a ^ 2 + b ^ 2 + c ^ 2 = 4 ^ n := by
    rw [hn, show (2 : ℤ) * (n : ℤ) = ((2 * n : ℕ) : ℤ) by push_cast; rfl, zpow_natCast, pow_mul] at hint
    norm_num at hint
    exact_mod_cast hint
  have fin : ∀ v : ℚ, v ^ 2 = ((2 : ℚ) ^ k) ^ 2 → |v| = (2 : ℚ) ^ k := fun v hv => by
    rw [← abs_of_pos hp]; exact (sq_eq_sq_iff_abs_eq_abs _ _).1 hv
  rcases three_squares n a b c h4 with ⟨rfl, rfl⟩ | ⟨rfl, rfl⟩ | ⟨rfl, rfl⟩
  · rw [Int.cast_zero, zero_mul] at ha hb
    rw [ha, hb] at m3 ⊢
    rw [fin c2.value (by rw [m3]; ring), abs_zero]
    exact (List.perm_append_comm (l₁ := [0, 0]) (l₂ := [(2 : ℚ) ^ k]))
  · rw [Int.cast_zero, zero_mul] at ha hc
    rw [ha, hc] at m3 ⊢
    rw [fin c1.value (by rw [m3]; ring), abs_zero]
    exact List.Perm.swap _ _ _
  · rw [Int.cast_zero, zero_mul] at hb hc
    rw [hb, hc] at m3 ⊢
    rw [fin c0.value (by rw [m3]; ring), abs_zero]

/-! ## The hypotheses are met -/

/-- Exact and not flagged. -/
def EV.Is (a : EV) (q : ℚ) : Prop := a.inexact = false ∧ HasVal a.val q

theorem sixteenth_rep {r : ℚ} (n : ℤ) (h : r = n / 16) (hn : |n| ≤ 1000) : Rep r ∧ |r| < 2 ^ 1024 := by
  refine ⟨⟨n, -4, hn.trans (by norm_num), by norm_num, by rw [h]; norm_num; ring⟩, ?_⟩
  have h1 : |(n : ℚ)| ≤ 1000 := by exact_mod_cast hn
  rw [h, abs_div]
  calc |(n : ℚ)| / |16| ≤ 1000 / |16| := by gcongr
    _ < 2 ^ 10 := by norm_num [abs_of_pos]
    _ ≤ 2 ^ 1024 := pow_le_pow_right₀ (by norm_num) (by norm_num)

namespace EV.Is

theorem clean {x : F64} {q : ℚ} (h : HasVal x q) : (EV.clean x).Is q := ⟨rfl, h⟩

theorem op {a b : EV} {q : ℚ} {z : F64} (ha : a.inexact = false) (hb : b.inexact = false) (h : HasVal z q) :
    (EV.op a b q z).Is q := by
  refine ⟨?_, h⟩
  unfold EV.op
  simp only [ha, hb, not_rounded.2 h, Bool.and_false, Bool.or_self]

theorem addR {a b : EV} {p q r : ℚ} (ha : a.Is p) (hb : b.Is q) (e : p + q = r) (this : Rep r ∧ |r| < 2 ^ 1024) :
    (a + b).Is r := by
  rw [← e] at this ⊢
  have := EV.Is.op ha.1 hb.1 (ha.2.add hb.2 this.1 this.2)
  rw [← ha.2.2, ← hb.2.2] at this ⊢
  exact this

theorem add {a b : EV} {p q r : ℚ} (ha : a.Is p) (hb : b.Is q) (n : ℤ) (e : p + q = r) (h : r = n / 16)
    (hn : |n| ≤ 1000) : (a + b).Is r := ha.addR hb e (sixteenth_rep n h hn)

theorem mulR {a b : EV} {p q r : ℚ} (ha : a.Is p) (hb : b.Is q) (e : p * q = r) (this : Rep r ∧ |r| < 2 ^ 1024) :
    (a * b).Is r := by
  rw [← e] at this ⊢
  have := EV.Is.op ha.1 hb.1 (ha.2.mul hb.2 this.1 this.2)
  rw [← ha.2.2, ← hb.2.2] at this ⊢
  exact this

theorem mul {a b : EV} {p q r : ℚ} (ha : a.Is p) (hb : b.Is q) (n : ℤ) (e : p * q = r) (h : r = n / 16)
    (hn : |n| ≤ 1000) : (a * b).Is r := ha.mulR hb e (sixteenth_rep n h hn)

theorem divR {a b : EV} {p q r : ℚ} (ha : a.Is p) (hb : b.Is q) (h0 : q ≠ 0) (e : p / q = r)
    (this : Rep r ∧ |r| < 2 ^ 1024) : (a / b).Is r := by
  rw [← e] at this ⊢
  have := EV.Is.op ha.1 hb.1 (ha.2.div hb.2 h0 this.1 this.2)
  rw [← hb.2.2] at h0
  have e : a / b = EV.op a b (a.val.value / b.val.value) (a.val / b.val) := if_neg h0
  rw [e]
  rw [← ha.2.2, ← hb.2.2] at this ⊢
  exact this

theorem div {a b : EV} {p q r : ℚ} (ha : a.Is p) (hb : b.Is q) (h0 : q ≠ 0) (n : ℤ) (e : p / q = r) (h : r = n / 16)
    (hn : |n| ≤ 1000) : (a / b).Is r := ha.divR hb h0 e (sixteenth_rep n h hn)

theorem sqrt {a : EV} {p r : ℚ} (ha : a.Is p) (z : F64) (hz : HasVal z r) (e : r * r = p) (h : 0 < r) :
    (EV.sqrt a).Is r := by
  have hp : 0 < p := e ▸ mul_pos h h
  have hv := sqrt_exact ha.2.1 hz.1 (by rw [hz.2, ha.2.2, e]) (by rw [ha.2.2]; exact hp)
  rw [hz.2, abs_of_pos h] at hv
  refine ⟨?_, hv⟩
  unfold EV.sqrt
  simp only [ha.1, hv.2, ha.2.2, e, Bool.false_or, ne_eq, not_true, decide_false, Bool.and_false]

end EV.Is

/-! ## Exactly the axes -/

theorem zpow_rep {e : ℤ} (h1 : -1074 ≤ e) (h2 : e < 1024) : Rep ((2 : ℚ) ^ e) ∧ |(2 : ℚ) ^ e| < 2 ^ 1024 := by
  refine ⟨F64.rep_pow e h1, ?_⟩
  rw [abs_of_pos (F64.two_zpow_pos _), ← zpow_natCast]
  exact zpow_lt_zpow_right₀ (by norm_num) (by exact_mod_cast h2)

theorem zero_rep : Rep (0 : ℚ) ∧ |(0 : ℚ)| < 2 ^ 1024 := ⟨F64.rep_zero, by rw [abs_zero]; positivity⟩

theorem axis_cases {u v w s : ℚ} (hs : 0 < s) (h : [u, v, w].Perm [s, 0, 0]) :
    (u = s ∧ v = 0 ∧ w = 0) ∨ (u = 0 ∧ v = s ∧ w = 0) ∨ (u = 0 ∧ v = 0 ∧ w = s) := by
  have hsum := h.sum_eq
  simp only [List.sum_cons, List.sum_nil, add_zero] at hsum
  have mem : ∀ z ∈ [u, v, w], z = s ∨ z = 0 := fun z hz => by
    have := h.mem_iff.1 hz
    simpa using this
  rcases mem u (by simp) with hu | hu <;> rcases mem v (by simp) with hv | hv <;>
    rcases mem w (by simp) with hw | hw
  · linarith
  · linarith
  · linarith
  · exact .inl ⟨hu, hv, hw⟩
  · linarith
  · exact .inr (.inl ⟨hu, hv, hw⟩)
  · exact .inr (.inr ⟨hu, hv, hw⟩)
  · linarith

/-- **C96.** `direction` of a `Vector` or `BiVector` other than zero raises no inexact, neither for the magnitude
nor for a component, exactly if it is a power of two between `2^-537` and `2^511`, or its negative, along an axis. -/
theorem C96_direction_iff (t : Ty) (ht : t = .vec ∨ t = .biv) (x : t.D F64) (hf : ∀ c ∈ comps t x, c.Finite)
    (hne : ∃ c ∈ comps t x, c.value ≠ 0) :
    ((pairMagDirE t (mapTy EV.clean t x)).1.inexact = false ∧
      ∀ c ∈ comps t (pairMagDirE t (mapTy EV.clean t x)).2, c.inexact = false) ↔
    ∃ k : ℤ, -537 ≤ k ∧ k ≤ 511 ∧ ((comps t x).map fun c => |c.value|).Perm [(2 : ℚ) ^ k, 0, 0] := by
  constructor
  · rintro ⟨hm, h⟩
    obtain ⟨k, hk⟩ := C96_direction_axis t ht x hf hne hm h
    have e1 : (pairMagDirE t (mapTy EV.clean t x)).1 = EV.sqrt (magSqTy t (mapTy EV.clean t x)) := by
      unfold pairMagDirE; dsimp only; split <;> rfl
    have hclear : (magSqTy t (mapTy EV.clean t x)).inexact = false := by
      rw [e1] at hm
      exact (Bool.or_eq_false_iff.1 hm).1
    have hE := magSq_exactE t x hf hclear
    have hsum : magSqTy t (mapTy F64.value t x) = (2 : ℚ) ^ (2 * k) := by
      have e : comps t (mapTy F64.value t x) = (comps t x).map F64.value := by cases t <;> rfl
      have e2 : (comps t x).map (fun c => c.value ^ 2) = ((comps t x).map fun c => |c.value|).map (· ^ 2) := by
        rw [List.map_map]; exact List.map_congr_left fun c _ => (sq_abs c.value).symm
      rw [C13_magSq_sum_of_squares, e, List.map_map]
      change ((comps t x).map (fun c => c.value ^ 2)).sum = _
      rw [e2, (hk.map (· ^ 2)).sum_eq]
      simp only [List.map_cons, List.map_nil, List.sum_cons, List.sum_nil]
      rw [mul_comm 2 k, zpow_mul]
      simp
    rw [hsum] at hE
    refine ⟨k, ?_, ?_, hk⟩
    · obtain ⟨n, hn⟩ := value_grid (magSqTy t (mapTy EV.clean t x)).val
      rw [hE.2] at hn
      by_contra hc
      have hp := F64.two_zpow_pos (K := ℚ) (-1074)
      have h1 : (2 : ℚ) ^ (2 * k) < (2 : ℚ) ^ (-1074 : ℤ) := zpow_lt_zpow_right₀ (by norm_num) (by omega)
      have h2 := F64.two_zpow_pos (K := ℚ) (2 * k)
      rw [hn] at h1 h2
      have h3 : (0 : ℚ) < n := pos_of_mul_pos_left h2 hp.le
      have h4 : (n : ℚ) < 1 := by
        by_contra h5
        rw [not_lt] at h5
        exact absurd h1 (not_lt.2 (le_mul_of_one_le_left hp.le h5))
      have h3' : 0 < n := by exact_mod_cast h3
      have h4' : n < 1 := by exact_mod_cast h4
      omega
    · have h1 := hE.lt
      rw [abs_of_pos (F64.two_zpow_pos _), ← zpow_natCast] at h1
      have := (zpow_lt_zpow_iff_right₀ (by norm_num : (1 : ℚ) < 2)).1 h1
      push_cast at this
      omega
  · rintro ⟨k, h1, h2, hk⟩
    have hp := F64.two_zpow_pos (K := ℚ) k
    have hsq := zpow_rep (e := 2 * k) (by omega) (by omega)
    have sq : ∀ c : F64, c.Finite → |c.value| = (2 : ℚ) ^ k → (EV.clean c * EV.clean c).Is ((2 : ℚ) ^ (2 * k)) := fun c hc e => by
      have e2 : c.value * c.value = (2 : ℚ) ^ (2 * k) := by
        rw [← abs_mul_abs_self, e, ← zpow_add₀ (by norm_num)]; congr 1; ring
      exact EV.Is.mulR (.clean (HasVal.of hc)) (.clean (HasVal.of hc)) e2 hsq
    have zr : ∀ c : F64, c.Finite → |c.value| = 0 → (EV.clean c * EV.clean c).Is 0 := fun c hc e =>
      EV.Is.mulR (.clean (HasVal.of hc)) (.clean (HasVal.of hc)) (by rw [abs_eq_zero.1 e, mul_zero]) zero_rep
    have hmsq : (magSqTy t (mapTy EV.clean t x)).Is ((2 : ℚ) ^ (2 * k)) := by
      obtain ⟨c0, c1, c2, hcs, hmq⟩ : ∃ c0 c1 c2, comps t x = [c0, c1, c2] ∧ magSqTy t (mapTy EV.clean t x) =
          0 + EV.clean c0 * EV.clean c0 + EV.clean c1 * EV.clean c1 + EV.clean c2 * EV.clean c2 := by
        rcases ht with rfl | rfl <;> exact ⟨_, _, _, rfl, rfl⟩
      rw [hcs] at hf hk
      rw [hmq]
      have o : (0 : EV).Is 0 := ⟨rfl, F64.hasVal_zero'⟩
      have f0 := hf c0 (by simp); have f1 := hf c1 (by simp); have f2 := hf c2 (by simp)
      rcases axis_cases hp hk with ⟨a, b, c⟩ | ⟨a, b, c⟩ | ⟨a, b, c⟩
      · exact ((o.addR (sq _ f0 a) (zero_add _) hsq).addR (zr _ f1 b) (add_zero _) hsq).addR (zr _ f2 c) (add_zero _) hsq
      · exact ((o.addR (zr _ f0 a) (zero_add _) zero_rep).addR (sq _ f1 b) (zero_add _) hsq).addR (zr _ f2 c) (add_zero _) hsq
      · exact ((o.addR (zr _ f0 a) (zero_add _) zero_rep).addR (zr _ f1 b) (zero_add _) zero_rep).addR (sq _ f2 c) (zero_add _) hsq
    have hs := hmsq.sqrt (F64.pow2 k) (F64.pow2_val (by omega) (by omega))
      (by rw [← zpow_add₀ (by norm_num)]; congr 1; ring) hp
    have e1 : (pairMagDirE t (mapTy EV.clean t x)).1 = EV.sqrt (magSqTy t (mapTy EV.clean t x)) := by
      unfold pairMagDirE; dsimp only; split <;> rfl
    have hm1 : (pairMagDirE t (mapTy EV.clean t x)).1.inexact = false := by rw [e1]; exact hs.1
    refine ⟨hm1, ?_⟩
    obtain ⟨m, e, -⟩ := direction_core t x hf hne hm1
    rw [e] at e1
    dsimp only at e1
    subst e1
    rw [e]
    dsimp only
    rw [comps_smul, comps_clean]
    have hi := (EV.Is.clean F64.hasVal_one).divR hs hp.ne' (r := (2 : ℚ) ^ (-k)) (by rw [zpow_neg, one_div])
      (zpow_rep (by omega) (by omega))
    change EV.Is (1 / _) _ at hi
    intro y hy
    obtain ⟨c', hc', rfl⟩ := List.mem_map.1 hy
    obtain ⟨c, hc, rfl⟩ := List.mem_map.1 hc'
    have hv : |c.value| = (2 : ℚ) ^ k ∨ |c.value| = 0 := by
      have := hk.mem_iff.1 (List.mem_map_of_mem (f := fun c : F64 => |c.value|) hc)
      simpa using this
    rcases hv with hv | hv
    · have hone : (2 : ℚ) ^ (-k) * (2 : ℚ) ^ k = 1 := by rw [← zpow_add₀ (by norm_num)]; simp
      rcases (abs_eq hp.le).1 hv with hv | hv
      · exact (hi.mulR (.clean (HasVal.of (hf c hc))) (by rw [hv, hone])
          (sixteenth_rep 16 (by norm_num) (by norm_num))).1
      · exact (hi.mulR (.clean (HasVal.of (hf c hc))) (r := -1) (by rw [hv, mul_neg, hone])
          (sixteenth_rep (-16) (by norm_num) (by norm_num))).1
    · exact (hi.mulR (.clean (HasVal.of (hf c hc))) (by rw [abs_eq_zero.1 hv, mul_zero]) zero_rep).1

/-- The vector `4 e2`. -/
noncomputable def axisVec : Vector F64 := ⟨intDub 0, intDub 4, intDub 0⟩

theorem axisVec_spec : (magSqTy .vec (mapTy EV.clean .vec axisVec)).Is 16 ∧
    (∀ c ∈ comps .vec axisVec, c.Finite) ∧ (∃ c ∈ comps .vec axisVec, c.value ≠ 0) ∧
    HasVal (intDub 0) 0 ∧ HasVal (intDub 4) 4 := by
  have h0 : HasVal (intDub 0) 0 := by exact_mod_cast intDub_val 0 (by norm_num)
  have h4 : HasVal (intDub 4) 4 := by exact_mod_cast intDub_val 4 (by norm_num)
  refine ⟨?_, ?_, ⟨intDub 4, by simp [comps, axisVec], by rw [h4.2]; norm_num⟩, h0, h4⟩
  · have z := (EV.Is.clean h0).mul (.clean h0) (r := 0) 0 (by norm_num) (by norm_num) (by norm_num)
    have s := (EV.Is.clean h4).mul (.clean h4) (r := 16) 256 (by norm_num) (by norm_num) (by norm_num)
    have o : (0 : EV).Is 0 := ⟨rfl, F64.hasVal_zero'⟩
    have w := o.add z (r := 0) 0 (by norm_num) (by norm_num) (by norm_num)
    have a := w.add s (r := 16) 256 (by norm_num) (by norm_num) (by norm_num)
    have b := a.add z (r := 16) 256 (by norm_num) (by norm_num) (by norm_num)
    exact b
  · simp [comps, axisVec, h0.1, h4.1]

/-- `inverse` of `4 e2` raises nothing, and is exact. -/
example : (∀ c ∈ comps .vec (inverseE .vec (mapTy EV.clean .vec axisVec)), c.inexact = false) ∧
    promote .vec (mapTy F64.value .vec axisVec) *
      promote .vec (mapTy (fun c => c.val.value) .vec (inverseE .vec (mapTy EV.clean .vec axisVec))) = gone := by
  obtain ⟨hm, hf, hne, h0, h4⟩ := axisVec_spec
  have h : ∀ c ∈ comps .vec (inverseE .vec (mapTy EV.clean .vec axisVec)), c.inexact = false := by
    have s := (EV.Is.clean F64.hasVal_one).div hm (by norm_num) (r := 1 / 16) 1 (by norm_num) (by norm_num) (by norm_num)
    have z := s.mul (.clean h0) (r := 0) 0 (by norm_num) (by norm_num) (by norm_num)
    have y := s.mul (.clean h4) (r := 1 / 4) 4 (by norm_num) (by norm_num) (by norm_num)
    intro c hc
    simp only [comps, List.mem_cons, List.not_mem_nil, or_false] at hc
    rcases hc with rfl | rfl | rfl
    · exact z.1
    · exact y.1
    · exact z.1
  exact ⟨h, (C96_inverse .vec (.inr (.inl rfl)) axisVec hf hne h).2.1⟩

/-- `magnitude` and `direction` of `4 e2` raise nothing. -/
example : ((pairMagDirE .vec (mapTy EV.clean .vec axisVec)).1.inexact = false ∧
    ∀ c ∈ comps .vec (pairMagDirE .vec (mapTy EV.clean .vec axisVec)).2, c.inexact = false) ∧
    ((comps .vec (pairMagDirE .vec (mapTy EV.clean .vec axisVec)).2).map fun y => y.val.value ^ 2).sum = 1 := by
  obtain ⟨hm, hf, hne, h0, h4⟩ := axisVec_spec
  have hs := hm.sqrt (intDub 4) h4 (by norm_num) (by norm_num)
  have hm1 : (pairMagDirE .vec (mapTy EV.clean .vec axisVec)).1.inexact = false := by
    have e1 : (pairMagDirE .vec (mapTy EV.clean .vec axisVec)).1 =
        EV.sqrt (magSqTy .vec (mapTy EV.clean .vec axisVec)) := by
      unfold pairMagDirE; dsimp only; split <;> rfl
    rw [e1]; exact hs.1
  have h : ∀ c ∈ comps .vec (pairMagDirE .vec (mapTy EV.clean .vec axisVec)).2, c.inexact = false := by
    have e1 : (pairMagDirE .vec (mapTy EV.clean .vec axisVec)).1 =
        EV.sqrt (magSqTy .vec (mapTy EV.clean .vec axisVec)) := by
      unfold pairMagDirE; dsimp only; split <;> rfl
    obtain ⟨m, e, -⟩ := direction_core .vec axisVec hf hne hm1
    rw [e] at e1
    dsimp only at e1
    subst e1
    rw [e]
    have s := (EV.Is.clean F64.hasVal_one).div hs (by norm_num) (r := 1 / 4) 4 (by norm_num) (by norm_num) (by norm_num)
    have z := s.mul (.clean h0) (r := 0) 0 (by norm_num) (by norm_num) (by norm_num)
    have y := s.mul (.clean h4) (r := 1) 16 (by norm_num) (by norm_num) (by norm_num)
    intro c hc
    simp only [comps, List.mem_cons, List.not_mem_nil, or_false] at hc
    rcases hc with rfl | rfl | rfl
    · exact z.1
    · exact y.1
    · exact z.1
  exact ⟨⟨hm1, h⟩, (C96_direction .vec axisVec hf hne hm1 h).2⟩

end Engabra
