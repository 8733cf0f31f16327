import Verif.Props.C96_Functions

/-! # C96 — which inverses are computed without rounding -/

namespace Engabra

open F64 (HasVal Rep OnGrid)

theorem even_of_sum {a b c s : ℤ} (h : a ^ 2 + b ^ 2 + c ^ 2 = 4 * s) : a % 2 = 0 ∧ b % 2 = 0 ∧ c % 2 = 0 := by
  have sq4 : ∀ z : ℤ, z ^ 2 % 4 = 0 ∧ z % 2 = 0 ∨ z ^ 2 % 4 = 1 := fun z => by
    rcases Int.emod_two_eq_zero_or_one z with hz | hz
    · left
      obtain ⟨k, rfl⟩ : ∃ k, z = 2 * k := ⟨z / 2, by omega⟩
      exact ⟨by ring_nf; omega, hz⟩
    · right
      obtain ⟨k, rfl⟩ : ∃ k, z = 2 * k + 1 := ⟨z / 2, by omega⟩
      ring_nf; omega
  have := sq4 a; have := sq4 b; have := sq4 c
  generalize a ^ 2 = A at *
  generalize b ^ 2 = B at *
  generalize c ^ 2 = C at *
  omega

/-- A sum of three squares that is twice a power of four has one term zero and the others equal. -/
theorem two_squares (n : ℕ) : ∀ a b c : ℤ, a ^ 2 + b ^ 2 + c ^ 2 = 2 * 4 ^ n →
    (a = 0 ∧ b ^ 2 = 4 ^ n ∧ c ^ 2 = 4 ^ n) ∨ (b = 0 ∧ a ^ 2 = 4 ^ n ∧ c ^ 2 = 4 ^ n) ∨
    (c = 0 ∧ a ^ 2 = 4 ^ n ∧ b ^ 2 = 4 ^ n) := by
  induction n with
  | zero =>
    intro a b c h
    rw [pow_zero] at h ⊢
    have one : ∀ z : ℤ, z ^ 2 ≤ 2 → z = 0 ∨ z ^ 2 = 1 := fun z hz => by
      have h1 : -1 ≤ z := by nlinarith
      have h2 : z ≤ 1 := by nlinarith
      have : z = -1 ∨ z = 0 ∨ z = 1 := by omega
      rcases this with rfl | rfl | rfl <;> simp
    have ha := sq_nonneg a; have hb := sq_nonneg b; have hc := sq_nonneg c
    rcases one a (by linarith) with h1 | h1 <;> rcases one b (by linarith) with h2 | h2 <;>
      rcases one c (by linarith) with h3 | h3
    · subst h1 h2 h3; norm_num at h
    · subst h1 h2; rw [h3] at h; norm_num at h
    · subst h1 h3; rw [h2] at h; norm_num at h
    · exact .inl ⟨h1, h2, h3⟩
    · subst h2 h3; rw [h1] at h; norm_num at h
    · exact .inr (.inl ⟨h2, h1, h3⟩)
    · exact .inr (.inr ⟨h3, h1, h2⟩)
    · rw [h1, h2, h3] at h; norm_num at h
  | succ n ih =>
    intro a b c h
    rw [pow_succ (4 : ℤ) n] at h ⊢
    obtain ⟨e1, e2, e3⟩ := even_of_sum (s := 2 * 4 ^ n) (h.trans (by ring))
    obtain ⟨i, rfl⟩ : ∃ k, a = 2 * k := ⟨a / 2, by omega⟩
    obtain ⟨j, rfl⟩ : ∃ k, b = 2 * k := ⟨b / 2, by omega⟩
    obtain ⟨k, rfl⟩ : ∃ k, c = 2 * k := ⟨c / 2, by omega⟩
    have := ih i j k (by linarith)
    rcases this with ⟨h1, h2, h3⟩ | ⟨h1, h2, h3⟩ | ⟨h1, h2, h3⟩
    · exact .inl ⟨by omega, by linarith, by linarith⟩
    · exact .inr (.inl ⟨by omega, by linarith, by linarith⟩)
    · exact .inr (.inr ⟨by omega, by linarith, by linarith⟩)

/-- Three numbers of a common grid whose squares sum to a power of two. -/
theorem squares_pow {p q r : ℚ} {g K : ℤ} (hp : OnGrid g p) (hq : OnGrid g q) (hr : OnGrid g r)
    (h : p ^ 2 + q ^ 2 + r ^ 2 = (2 : ℚ) ^ K) :
    ∃ j : ℤ, (K = 2 * j ∧ [|p|, |q|, |r|].Perm [(2 : ℚ) ^ j, 0, 0]) ∨
      (K = 2 * j + 1 ∧ [|p|, |q|, |r|].Perm [(2 : ℚ) ^ j, (2 : ℚ) ^ j, 0]) := by
  obtain ⟨a, ha⟩ := hp
  obtain ⟨b, hb⟩ := hq
  obtain ⟨c, hc⟩ := hr
  have hg := F64.two_zpow_pos (K := ℚ) g
  have hint : ((a ^ 2 + b ^ 2 + c ^ 2 : ℤ) : ℚ) = (2 : ℚ) ^ (K - 2 * g) := by
    have e1 : (2 : ℚ) ^ (K - 2 * g) * ((2 : ℚ) ^ g) ^ 2 = (2 : ℚ) ^ K := by
      rw [← zpow_natCast, ← zpow_mul, ← zpow_add₀ (by norm_num)]
      congr 1; push_cast; ring
    have e2 : ((a ^ 2 + b ^ 2 + c ^ 2 : ℤ) : ℚ) * ((2 : ℚ) ^ g) ^ 2 = (2 : ℚ) ^ K := by
      rw [← h, ha, hb, hc]; push_cast; ring
    exact mul_right_cancel₀ (pow_ne_zero 2 hg.ne') (e2.trans e1.symm)
  have hge : 0 ≤ K - 2 * g := by
    by_contra hneg
    have h1 : (2 : ℚ) ^ (K - 2 * g) < 1 := zpow_lt_one_of_neg₀ (by norm_num) (by omega)
    have h2 := F64.two_zpow_pos (K := ℚ) (K - 2 * g)
    rw [← hint] at h1 h2
    have h1' : a ^ 2 + b ^ 2 + c ^ 2 < 1 := by exact_mod_cast h1
    have h2' : 0 < a ^ 2 + b ^ 2 + c ^ 2 := by exact_mod_cast h2
    omega
  obtain ⟨n, hn⟩ := Int.eq_ofNat_of_zero_le hge
  have hN : a ^ 2 + b ^ 2 + c ^ 2 = 2 ^ n := by
    rw [hn, zpow_natCast] at hint
    exact_mod_cast hint
  have fin : ∀ (v : ℚ) (j : ℤ), v ^ 2 = ((2 : ℚ) ^ j) ^ 2 → |v| = (2 : ℚ) ^ j := fun v j hv => by
    rw [← abs_of_pos (F64.two_zpow_pos (K := ℚ) j)]; exact (sq_eq_sq_iff_abs_eq_abs _ _).1 hv
  have sqz : ∀ (v : ℚ) (z : ℤ) (i : ℕ), v = z * (2 : ℚ) ^ g → z ^ 2 = 4 ^ i → |v| = (2 : ℚ) ^ (i + g) :=
    fun v z i hv hz => by
    refine fin v _ ?_
    have hz' : (z : ℚ) ^ 2 = 4 ^ i := by exact_mod_cast hz
    rw [hv, mul_pow, hz', zpow_add₀ (by norm_num), mul_pow, zpow_natCast, ← pow_mul, mul_comm i 2, pow_mul]
    norm_num
  rcases Nat.even_or_odd' n with ⟨i, hi | hi⟩
  · rw [hi, pow_mul] at hN
    norm_num at hN
    refine ⟨i + g, .inl ⟨by omega, ?_⟩⟩
    rcases three_squares i a b c hN with ⟨rfl, rfl⟩ | ⟨rfl, rfl⟩ | ⟨rfl, rfl⟩
    · rw [Int.cast_zero, zero_mul] at ha hb
      rw [sqz r c i hc (by linarith), ha, hb, abs_zero]
      exact (List.perm_append_comm (l₁ := [0, 0]) (l₂ := [_]))
    · rw [Int.cast_zero, zero_mul] at ha hc
      rw [sqz q b i hb (by linarith), ha, hc, abs_zero]
      exact List.Perm.swap _ _ _
    · rw [Int.cast_zero, zero_mul] at hb hc
      rw [sqz p a i ha (by linarith), hb, hc, abs_zero]
  · rw [hi, pow_succ (2 : ℤ) (2 * i), pow_mul, mul_comm ((2 ^ 2 : ℤ) ^ i) 2] at hN
    norm_num at hN
    refine ⟨i + g, .inr ⟨by omega, ?_⟩⟩
    rcases two_squares i a b c hN with ⟨rfl, h2, h3⟩ | ⟨rfl, h2, h3⟩ | ⟨rfl, h2, h3⟩
    · rw [Int.cast_zero, zero_mul] at ha
      rw [sqz q b i hb h2, sqz r c i hc h3, ha, abs_zero]
      exact (List.perm_append_comm (l₁ := [0]) (l₂ := [_, _]))
    · rw [Int.cast_zero, zero_mul] at hb
      rw [sqz p a i ha h2, sqz r c i hc h3, hb, abs_zero]
      exact (List.Perm.swap _ _ _).cons _
    · rw [Int.cast_zero, zero_mul] at hc
      rw [sqz p a i ha h2, sqz q b i hb h3, hc, abs_zero]

theorem diag_cases {u v w s : ℚ} (hs : 0 < s) (h : [u, v, w].Perm [s, s, 0]) :
    (u = s ∧ v = s ∧ w = 0) ∨ (u = s ∧ v = 0 ∧ w = s) ∨ (u = 0 ∧ v = s ∧ w = s) := by
  have hsum := h.sum_eq
  simp only [List.sum_cons, List.sum_nil, add_zero] at hsum
  have mem : ∀ z ∈ [u, v, w], z = s ∨ z = 0 := fun z hz => by
    have := h.mem_iff.1 hz
    simpa using this
  rcases mem u (by simp) with hu | hu <;> rcases mem v (by simp) with hv | hv <;>
    rcases mem w (by simp) with hw | hw
  · linarith
  · exact .inl ⟨hu, hv, hw⟩
  · exact .inr (.inl ⟨hu, hv, hw⟩)
  · linarith
  · exact .inr (.inr ⟨hu, hv, hw⟩)
  · linarith
  · linarith
  · linarith

/-- **C96.** `inverse` of a `Vector` or `BiVector` other than zero raises no inexact exactly if, up to signs, it is
a power of two along an axis, or has two components equal to a power of two and the third zero (with these ranges
of the exponent). -/
theorem C96_inverse_iff (t : Ty) (ht : t = .vec ∨ t = .biv) (x : t.D F64) (hf : ∀ c ∈ comps t x, c.Finite)
    (hne : ∃ c ∈ comps t x, c.value ≠ 0) :
    (∀ c ∈ comps t (inverseE t (mapTy EV.clean t x)), c.inexact = false) ↔
    ∃ j : ℤ, (-511 ≤ j ∧ j ≤ 511 ∧ ((comps t x).map fun c => |c.value|).Perm [(2 : ℚ) ^ j, 0, 0]) ∨
      (-512 ≤ j ∧ j ≤ 511 ∧ ((comps t x).map fun c => |c.value|).Perm [(2 : ℚ) ^ j, (2 : ℚ) ^ j, 0]) := by
  obtain ⟨c0, c1, c2, hcs, hmq, d, hd, hinv⟩ : ∃ c0 c1 c2, comps t x = [c0, c1, c2] ∧
      magSqTy t (mapTy EV.clean t x) =
        0 + EV.clean c0 * EV.clean c0 + EV.clean c1 * EV.clean c1 + EV.clean c2 * EV.clean c2 ∧
      ∃ d : F64 → F64, (∀ c : F64, c.Finite → (d c).Finite ∧ |(d c).value| = |c.value|) ∧
      comps t (inverseE t (mapTy EV.clean t x)) =
        (comps t x).map fun c => 1 / magSqTy t (mapTy EV.clean t x) * EV.clean (d c) := by
    rcases ht with rfl | rfl
    · exact ⟨_, _, _, rfl, rfl, id, fun c hc => ⟨hc, rfl⟩, rfl⟩
    · refine ⟨_, _, _, rfl, rfl, fun c => -c, fun c hc => ?_, rfl⟩
      have := (HasVal.of hc).neg
      exact ⟨this.1, by rw [this.2, abs_neg]⟩
  rw [hinv]
  constructor
  · intro h
    have h : ∀ c ∈ comps t x, (1 / magSqTy t (mapTy EV.clean t x) * EV.clean (d c)).inexact = false :=
      fun c hc => h _ (List.mem_map_of_mem hc)
    have hm := magSq_value_ne t x hne
    have hpos : 0 < magSqTy t (mapTy F64.value t x) := lt_of_le_of_ne (C13_magSq_nonneg t _) hm.symm
    have hE := magSq_exactE t x hf
    have hsum : magSqTy t (mapTy F64.value t x) = c0.value ^ 2 + c1.value ^ 2 + c2.value ^ 2 := by
      have e : comps t (mapTy F64.value t x) = (comps t x).map F64.value := by cases t <;> rfl
      rw [C13_magSq_sum_of_squares, e, hcs]
      simp only [List.map_cons, List.map_nil, List.sum_cons, List.sum_nil]
      ring
    have hs := EV.Exact.div (EV.Exact.clean (x := 1) F64.hasVal_one.1) hE hm
    rw [F64.hasVal_one.2] at hs
    change EV.Exact (1 / magSqTy t (mapTy EV.clean t x)) _ at hs
    have hc1 : (1 / magSqTy t (mapTy EV.clean t x)).inexact = false :=
      (op_clear (h c0 (by rw [hcs]; exact List.mem_cons_self))).1
    have hc2 : (magSqTy t (mapTy EV.clean t x)).inexact = false := by
      by_contra hc
      rw [Bool.not_eq_false] at hc
      have := (C96_sticky_div 1 (magSqTy t (mapTy EV.clean t x))).1 (.inr hc)
      rw [this] at hc1; exact absurd hc1 (by decide)
    have v1 := hE hc2
    have v2 := hs hc1
    have g1 := value_grid (magSqTy t (mapTy EV.clean t x)).val
    have g2 := value_grid (1 / magSqTy t (mapTy EV.clean t x)).val
    rw [v1.2] at g1
    rw [v2.2] at g2
    obtain ⟨K, hK⟩ := inv_pow hpos g1 g2
    have b2 := v2.lt
    have b1 := v1.lt
    rw [hK] at b1 b2
    rw [hK] at hsum
    obtain ⟨j, hj⟩ := squares_pow (value_grid c0) (value_grid c1) (value_grid c2) hsum.symm
    rw [one_div, ← zpow_neg, abs_of_pos (F64.two_zpow_pos _), ← zpow_natCast] at b2
    rw [abs_of_pos (F64.two_zpow_pos _), ← zpow_natCast] at b1
    have b2 := (zpow_lt_zpow_iff_right₀ (by norm_num : (1 : ℚ) < 2)).1 b2
    have b1 := (zpow_lt_zpow_iff_right₀ (by norm_num : (1 : ℚ) < 2)).1 b1
    push_cast at b1 b2
    rw [hcs]
    refine ⟨j, ?_⟩
    rcases hj with ⟨e, hj⟩ | ⟨e, hj⟩
    · exact .inl ⟨by omega, by omega, hj⟩
    · exact .inr ⟨by omega, by omega, hj⟩
  · rintro ⟨j, hj⟩
    have hp := F64.two_zpow_pos (K := ℚ) j
    have hj1 : -512 ≤ j ∧ j ≤ 511 := by rcases hj with ⟨a, b, -⟩ | ⟨a, b, -⟩ <;> omega
    have hsq := zpow_rep (e := 2 * j) (by omega) (by omega)
    have sq : ∀ c : F64, c.Finite → |c.value| = (2 : ℚ) ^ j → (EV.clean c * EV.clean c).Is ((2 : ℚ) ^ (2 * j)) := fun c hc e => by
      have e2 : c.value * c.value = (2 : ℚ) ^ (2 * j) := by
        rw [← abs_mul_abs_self, e, ← zpow_add₀ (by norm_num)]; congr 1; ring
      exact EV.Is.mulR (.clean (HasVal.of hc)) (.clean (HasVal.of hc)) e2 hsq
    have zr : ∀ c : F64, c.Finite → |c.value| = 0 → (EV.clean c * EV.clean c).Is 0 := fun c hc e =>
      EV.Is.mulR (.clean (HasVal.of hc)) (.clean (HasVal.of hc)) (by rw [abs_eq_zero.1 e, mul_zero]) zero_rep
    have o : (0 : EV).Is 0 := ⟨rfl, F64.hasVal_zero'⟩
    have two : (2 : ℚ) ^ (2 * j) + (2 : ℚ) ^ (2 * j) = (2 : ℚ) ^ (2 * j + 1) := by
      rw [zpow_add_one₀ (by norm_num)]; ring
    have f0 := hf c0 (by simp [hcs]); have f1 := hf c1 (by simp [hcs]); have f2 := hf c2 (by simp [hcs])
    obtain ⟨K, hK1, hK2, hKr, hmsq⟩ : ∃ K : ℤ, -1023 ≤ K ∧ K ≤ 1023 ∧ (K = 2 * j ∨ K = 2 * j + 1) ∧
        (magSqTy t (mapTy EV.clean t x)).Is ((2 : ℚ) ^ K) := by
      rw [hmq]
      rcases hj with ⟨h1, h2, hj⟩ | ⟨h1, h2, hj⟩ <;> rw [hcs] at hj
      · refine ⟨2 * j, by omega, by omega, .inl rfl, ?_⟩
        rcases axis_cases hp hj with ⟨a, b, c⟩ | ⟨a, b, c⟩ | ⟨a, b, c⟩
        · exact ((o.addR (sq _ f0 a) (zero_add _) hsq).addR (zr _ f1 b) (add_zero _) hsq).addR (zr _ f2 c) (add_zero _) hsq
        · exact ((o.addR (zr _ f0 a) (zero_add _) zero_rep).addR (sq _ f1 b) (zero_add _) hsq).addR (zr _ f2 c) (add_zero _) hsq
        · exact ((o.addR (zr _ f0 a) (zero_add _) zero_rep).addR (zr _ f1 b) (zero_add _) zero_rep).addR (sq _ f2 c) (zero_add _) hsq
      · have hsq' := zpow_rep (e := 2 * j + 1) (by omega) (by omega)
        refine ⟨2 * j + 1, by omega, by omega, .inr rfl, ?_⟩
        rcases diag_cases hp hj with ⟨a, b, c⟩ | ⟨a, b, c⟩ | ⟨a, b, c⟩
        · exact ((o.addR (sq _ f0 a) (zero_add _) hsq).addR (sq _ f1 b) two hsq').addR (zr _ f2 c) (add_zero _) hsq'
        · exact ((o.addR (sq _ f0 a) (zero_add _) hsq).addR (zr _ f1 b) (add_zero _) hsq).addR (sq _ f2 c) two hsq'
        · exact ((o.addR (zr _ f0 a) (zero_add _) zero_rep).addR (sq _ f1 b) (zero_add _) hsq).addR (sq _ f2 c) two hsq'
    have hi := (EV.Is.clean F64.hasVal_one).divR hmsq (F64.two_zpow_pos _).ne' (r := (2 : ℚ) ^ (-K))
      (by rw [zpow_neg, one_div]) (zpow_rep (by omega) (by omega))
    change EV.Is (1 / _) _ at hi
    intro y hy
    obtain ⟨c, hc, rfl⟩ := List.mem_map.1 hy
    have hv : |c.value| = (2 : ℚ) ^ j ∨ |c.value| = 0 := by
      rcases hj with ⟨-, -, hj⟩ | ⟨-, -, hj⟩
      · have := hj.mem_iff.1 (List.mem_map_of_mem (f := fun c : F64 => |c.value|) hc)
        simpa using this
      · have := hj.mem_iff.1 (List.mem_map_of_mem (f := fun c : F64 => |c.value|) hc)
        simpa using this
    obtain ⟨df, dv⟩ := hd c (hf c hc)
    rw [← dv] at hv
    have hr := zpow_rep (e := -K + j) (by omega) (by omega)
    rcases hv with hv | hv
    · have hmul : (2 : ℚ) ^ (-K) * (2 : ℚ) ^ j = (2 : ℚ) ^ (-K + j) := (zpow_add₀ (by norm_num) _ _).symm
      rcases (abs_eq hp.le).1 hv with hv | hv
      · exact (hi.mulR (.clean (HasVal.of df)) (by rw [hv, hmul]) hr).1
      · refine (hi.mulR (.clean (HasVal.of df)) (r := -(2 : ℚ) ^ (-K + j)) (by rw [hv, mul_neg, hmul]) ⟨?_, ?_⟩).1
        · exact ⟨-1, -K + j, by norm_num, by omega, by push_cast; ring⟩
        · rw [abs_neg]; exact hr.2
    · exact (hi.mulR (.clean (HasVal.of df)) (by rw [abs_eq_zero.1 hv, mul_zero]) zero_rep).1

/-- `inverse` of the vector `(1, -1, 0)` raises nothing. -/
example : ∀ c ∈ comps .vec (inverseE .vec (mapTy EV.clean .vec ⟨intDub 1, intDub (-1), intDub 0⟩)),
    c.inexact = false := by
  have h0 : HasVal (intDub 0) 0 := by exact_mod_cast intDub_val 0 (by norm_num)
  have h1 : HasVal (intDub 1) 1 := by exact_mod_cast intDub_val 1 (by norm_num)
  have h2 : HasVal (intDub (-1)) (-1) := by exact_mod_cast intDub_val (-1) (by norm_num)
  refine (C96_inverse_iff .vec (.inl rfl) _ ?_ ⟨intDub 1, by simp [comps], by rw [h1.2]; norm_num⟩).2
    ⟨0, .inr ⟨by norm_num, by norm_num, ?_⟩⟩
  · simp [comps, h0.1, h1.1, h2.1]
  · simp [comps, h0.2, h1.2, h2.2]

/-- `inverse` of `3 e1` does. -/
example : ∃ c ∈ comps .vec (inverseE .vec (mapTy EV.clean .vec ⟨intDub 3, intDub 0, intDub 0⟩)),
    c.inexact = true := by
  have h0 : HasVal (intDub 0) 0 := by exact_mod_cast intDub_val 0 (by norm_num)
  have h3 : HasVal (intDub 3) 3 := by exact_mod_cast intDub_val 3 (by norm_num)
  by_contra hc
  push Not at hc
  obtain ⟨j, hj⟩ := (C96_inverse_iff .vec (.inl rfl) ⟨intDub 3, intDub 0, intDub 0⟩
    (by simp [comps, h0.1, h3.1]) ⟨intDub 3, by simp [comps], by rw [h3.2]; norm_num⟩).1
    fun c h => by simpa using hc c h
  have key : (3 : ℚ) = (2 : ℚ) ^ j := by
    have hp := F64.two_zpow_pos (K := ℚ) j
    have : ((3 : ℚ) = (2 : ℚ) ^ j ∨ (3 : ℚ) = 0) := by
      rcases hj with ⟨-, -, hj⟩ | ⟨-, -, hj⟩
      · have := hj.mem_iff.1 (show (3 : ℚ) ∈ _ by simp [comps, h0.2, h3.2])
        simpa using this
      · have := hj.mem_iff.1 (show (3 : ℚ) ∈ _ by simp [comps, h0.2, h3.2])
        simpa using this
    rcases this with h | h
    · exact h
    · norm_num at h
  have h1 : (2 : ℚ) ^ (1 : ℤ) < (2 : ℚ) ^ j := by rw [← key]; norm_num
  have h2 : (2 : ℚ) ^ j < (2 : ℚ) ^ (2 : ℤ) := by rw [← key]; norm_num
  have h1 := (zpow_lt_zpow_iff_right₀ (by norm_num : (1 : ℚ) < 2)).1 h1
  have h2 := (zpow_lt_zpow_iff_right₀ (by norm_num : (1 : ℚ) < 2)).1 h2
  omega

end Engabra
