import Verif.Props.C54_Units
import Verif.Props.C61_Amplitude

/-! # C61: `amplitude` on the axes, on the branch cut, and a library that meets the specification -/

namespace Engabra

open F64 (Finite HasVal)

/-! ## On the axes -/

/-- **C61.** `amplitude` of a scalar, bivector or spinor is its `magnitude`, with a trivector part
`+0.`; `amplitude` of a vector, trivector or imaginary spinor is `magnitude` times `e123`, with a
scalar part `+0.`.  This is exact, for every operand without NaN. -/
theorem C61_axis [LibM F64] (ε : ℝ) (hl : LibcSqrtOk ε) :
    (∀ x : Scalar F64, (∀ c ∈ comps .sca x, c ≠ .nan) → amplitude x = ⟨⟨⟨magnitude x⟩⟩, ⟨⟨0⟩⟩⟩) ∧
    (∀ x : BiVector F64, (∀ c ∈ comps .biv x, c ≠ .nan) → amplitude x = ⟨⟨⟨magnitude x⟩⟩, ⟨⟨0⟩⟩⟩) ∧
    (∀ x : Spinor F64, (∀ c ∈ comps .spin x, c ≠ .nan) → amplitude x = ⟨⟨⟨magnitude x⟩⟩, ⟨⟨0⟩⟩⟩) ∧
    (∀ x : Vector F64, (∀ c ∈ comps .vec x, c ≠ .nan) → amplitude x = ⟨⟨⟨0⟩⟩, ⟨⟨magnitude x⟩⟩⟩) ∧
    (∀ x : TriVector F64, (∀ c ∈ comps .tri x, c ≠ .nan) → amplitude x = ⟨⟨⟨0⟩⟩, ⟨⟨magnitude x⟩⟩⟩) ∧
    (∀ x : ImSpin F64, (∀ c ∈ comps .imsp x, c ≠ .nan) → amplitude x = ⟨⟨⟨0⟩⟩, ⟨⟨magnitude x⟩⟩⟩) := by
  have s : ∀ c : F64, c ≠ .nan → F64.NN (c * c) := fun c h => F64.nn_sq h
  have a : ∀ c d : F64, F64.NN c → F64.NN d → F64.NN (c + d) := fun c d => F64.nn_add
  have three : ∀ c d e : F64, c ≠ .nan → d ≠ .nan → e ≠ .nan →
      F64.NN ((0 : F64) + c * c + d * d + e * e) := fun c d e hc hd he =>
    a _ _ (a _ _ (a _ _ F64.nn_zero (s c hc)) (s d hd)) (s e he)
  have pos : ∀ m : F64, F64.NN m → ComPlex.from (LibM.csqrt (m, (0 : F64)))
      = (⟨⟨⟨Dbl.sqrt m⟩⟩, ⟨⟨0⟩⟩⟩ : ComPlex F64) := fun m hm => by rw [(hl.real m hm).1]; rfl
  have neg : ∀ m : F64, F64.NN m → ComPlex.from (LibM.csqrt (-m, (0 : F64)))
      = (⟨⟨⟨0⟩⟩, ⟨⟨Dbl.sqrt m⟩⟩⟩ : ComPlex F64) := fun m hm => by rw [(hl.real m hm).2]; rfl
  refine ⟨fun x h => pos _ (s _ ?_), fun x h => pos _ (three _ _ _ ?_ ?_ ?_),
    fun x h => pos _ (a _ _ (s _ ?_) (three _ _ _ ?_ ?_ ?_)), fun x h => neg _ (three _ _ _ ?_ ?_ ?_),
    fun x h => neg _ (s _ ?_), fun x h => neg _ (a _ _ (three _ _ _ ?_ ?_ ?_) (s _ ?_))⟩
  all_goals exact h _ (by simp [comps])

/-! ## On the branch cut -/

theorem nn_pos {m : F64} (h : m.Finite) (h0 : 0 < m.value) : F64.NN m := by
  cases m with
  | nan => exact absurd h id
  | inf s => exact absurd h id
  | zero s => exact absurd h0 (lt_irrefl _)
  | fin v hv => exact Or.inr (Or.inr ⟨v, hv, rfl, h0⟩)

theorem pos_eq {a b : F64} (ha : a.Finite) (hb : b.Finite) (h0 : a.value ≠ 0) (h : a.value = b.value) :
    a = b := by
  cases a <;> cases b <;> simp_all [F64.Finite, F64.value]

theorem zero_mul_zero : (0 : F64) * 0 = 0 := by
  rw [F64.zero_def, F64.mul_def]; simp [F64.mul, F64.mulFin, F64.value, F64.signbit]
theorem zero_sub_zero : (0 : F64) - 0 = 0 := by
  rw [F64.zero_def, F64.sub_def]; simp [F64.neg, F64.add, F64.addFin, F64.value, F64.signbit]
theorem mul_zero_of {c : F64} (h : c.Finite) : c * 0 = F64.zero c.signbit := by
  rw [F64.zero_def, F64.mul_def]
  cases c with
  | nan => exact absurd h id
  | inf s => exact absurd h id
  | zero s => simp [F64.mul, F64.mulFin, F64.value, F64.signbit]
  | fin v hv => simp [F64.mul, F64.mulFin, F64.value, F64.signbit]
theorem zero_add_mul_zero {c : F64} (h : c.Finite) : (0 : F64) + c * 0 = 0 := by
  rw [mul_zero_of h, F64.zero_def, F64.add_def]; simp [F64.add, F64.addFin, F64.value, F64.signbit]
theorem two_mul_zero : (2 : F64) * 0 = 0 := by
  rw [mul_zero_of two_hasVal.1, sign_pos (by rw [two_hasVal.2]; norm_num)]; rfl

/-- The same vector stored as `Vector`, as `MultiVector` and as `DirPlex`: the first two have the
amplitude `+|v| e123`, the last one has `-|v| e123`.  (`ampSq(DirPlex)` ends with a negation, which
turns the imaginary part `+0.` into `-0.`, the other side of the branch cut.) -/
theorem C62_fails_type [LibM F64] (ε : ℝ) (hl : LibcSqrtOk ε) (v : Vector F64)
    (hf : ∀ c ∈ comps .vec v, c.Finite) (hm : (magSq v).Finite) (h0 : 0 < (magSq v).value) :
    amplitude v = ⟨⟨⟨0⟩⟩, ⟨⟨magnitude v⟩⟩⟩ ∧
    amplitude (⟨⟨⟨0⟩⟩, v, ⟨⟨0, 0, 0⟩⟩, ⟨⟨0⟩⟩⟩ : MultiVector F64) = ⟨⟨⟨0⟩⟩, ⟨⟨magnitude v⟩⟩⟩ ∧
    amplitude (⟨v, ⟨⟨0, 0, 0⟩⟩⟩ : DirPlex F64) = ⟨⟨⟨0⟩⟩, ⟨⟨-magnitude v⟩⟩⟩ := by
  have f0 := hf _ (List.mem_cons_self)
  have f1 : v.theData.d1.Finite := hf _ (by simp [comps])
  have f2 : v.theData.d2.Finite := hf _ (by simp [comps])
  have hz : ((0 : F64) + 0 * 0 + 0 * 0 + 0 * 0) = 0 := by
    rw [zero_mul_zero, F64.zero_add_zero, F64.zero_add_zero, F64.zero_add_zero]
  have hp : ((0 : F64) + v.theData.d0 * 0 + v.theData.d1 * 0 + v.theData.d2 * 0) = 0 := by
    rw [zero_add_mul_zero f0, zero_add_mul_zero f1, zero_add_mul_zero f2]
  obtain ⟨r1, r2⟩ := hl.real _ (nn_pos hm h0)
  refine ⟨?_, ?_, ?_⟩
  · show ComPlex.from (LibM.csqrt (-magSq v, (0 : F64))) = _
    rw [r2]; rfl
  · have e : ComPlex.toStd (ampSq (⟨⟨⟨0⟩⟩, v, ⟨⟨0, 0, 0⟩⟩, ⟨⟨0⟩⟩⟩ : MultiVector F64))
        = (-magSq v, (0 : F64)) := by
      show ((0 : F64) * 0 - magSq v - -((0 : F64) + 0 * 0 + 0 * 0 + 0 * 0) + -((0 : F64) * 0),
        (2 : F64) * ((0 : F64) * 0 - ((0 : F64) + v.theData.d0 * 0 + v.theData.d1 * 0 + v.theData.d2 * 0))) = _
      rw [hz, hp, zero_mul_zero, zero_sub_zero, two_mul_zero]
      refine congrArg (·, (0 : F64)) ?_
      have z := F64.hasVal_zero'
      have z' : HasVal (-(0 : F64)) 0 := by have := z.neg; rwa [neg_zero] at this
      have k := HasVal.of hm
      have k2 : HasVal (0 - magSq v) (-(magSq v).value) := by
        have := z.add k.neg (by rw [zero_add]; exact k.neg.rep) (by rw [zero_add]; exact k.neg.lt)
        rw [zero_add] at this
        exact this
      have k3 := (k2.sub_zero z').add_zero z'
      refine pos_eq k3.1 k.neg.1 (by rw [k3.2]; exact (neg_lt_zero.2 h0).ne) (k3.2.trans k.neg.2.symm)
    show ComPlex.from (LibM.csqrt (ComPlex.toStd (ampSq _))) = _
    rw [e, r2]; rfl
  · have e : ComPlex.toStd (ampSq (⟨v, ⟨⟨0, 0, 0⟩⟩⟩ : DirPlex F64)) = (-magSq v, -(0 : F64)) := by
      show (-(magSq v - ((0 : F64) + 0 * 0 + 0 * 0 + 0 * 0)),
        -((2 : F64) * ((0 : F64) + v.theData.d0 * 0 + v.theData.d1 * 0 + v.theData.d2 * 0))) = _
      rw [hz, hp, two_mul_zero]
      refine congrArg (·, -(0 : F64)) (congrArg (- ·) ?_)
      have k := HasVal.of hm
      have k3 := k.sub_zero F64.hasVal_zero'
      exact pos_eq k3.1 hm (by rw [k3.2]; exact h0.ne') k3.2
    show ComPlex.from (LibM.csqrt (ComPlex.toStd (ampSq _))) = _
    rw [e, hl.conj _ _ (HasVal.of hm).neg.1 F64.hasVal_zero'.1, r2]; rfl

/-- `2^27 + 1 + (2^28 + 4, 5, -3) + (2^26, 1/2, 1/2) + (2^27 + 1) e123`. -/
noncomputable def branchMv : MultiVector F64 :=
  ⟨⟨⟨intDub (2 ^ 27 + 1)⟩⟩, ⟨⟨intDub (2 ^ 28 + 4), intDub 5, intDub (-3)⟩⟩,
    ⟨⟨intDub (2 ^ 26), F64.pow2 (-1), F64.pow2 (-1)⟩⟩, ⟨⟨intDub (2 ^ 27 + 1)⟩⟩⟩

/-- `x * dirverse(x)` of `branchMv`. -/
def branchRho : ℚ := (2 ^ 28 + 4) ^ 2 + 34 - 2 ^ 52 - 1 / 2

theorem hasVal_congr {x : F64} {p q : ℚ} (h : HasVal x p) (e : p = q) : HasVal x q := e ▸ h

theorem hasVal_round {x : F64} {p q : ℚ} (h : x.value = F64.rnVal p) (hf : x.Finite)
    (e : F64.rnVal p = q) : HasVal x q := ⟨hf, h.trans e⟩

theorem small_pow {q : ℚ} (h : |q| ≤ 2 ^ 60) : |q| < 2 ^ 1024 :=
  h.trans_lt (pow_lt_pow_right₀ (by norm_num) (by norm_num))

theorem mul_to {x y : F64} {p q r : ℚ} (hx : HasVal x p) (hy : HasVal y q) (e : F64.rnVal (p * q) = r)
    (hr : |r| ≤ 2 ^ 60) : HasVal (x * y) r := by
  have := F64.mul_spec hx.1 hy.1 (by rw [hx.2, hy.2, e]; exact small_pow hr)
  rw [hx.2, hy.2, e] at this
  exact this

theorem add_to {x y : F64} {p q r : ℚ} (hx : HasVal x p) (hy : HasVal y q) (e : F64.rnVal (p + q) = r)
    (hr : |r| ≤ 2 ^ 60) : HasVal (x + y) r := by
  have := F64.add_spec hx.1 hy.1 (by rw [hx.2, hy.2, e]; exact small_pow hr)
  rw [hx.2, hy.2, e] at this
  exact this

theorem branch_tri : HasVal (ampSq branchMv).theTri.theData.d0 (-8) := by
  have i : ∀ n : ℤ, |n| ≤ 2 ^ 53 → HasVal (intDub n) n := intDub_val
  have hs := hasVal_congr (i (2 ^ 27 + 1) (by norm_num)) (q := 2 ^ 27 + 1) (by norm_num)
  have hv := hasVal_congr (i (2 ^ 28 + 4) (by norm_num)) (q := 2 ^ 28 + 4) (by norm_num)
  have h5 := hasVal_congr (i 5 (by norm_num)) (q := 5) (by norm_num)
  have h3 := hasVal_congr (i (-3) (by norm_num)) (q := -3) (by norm_num)
  have hB := hasVal_congr (i (2 ^ 26) (by norm_num)) (q := 2 ^ 26) (by norm_num)
  have hh : HasVal (F64.pow2 (-1)) (1 / 2) := by
    have := F64.pow2_val (e := -1) (by norm_num) (by norm_num)
    exact hasVal_congr this (by norm_num)
  have rI : ∀ n : ℤ, |n| ≤ 2 ^ 53 → ∀ k : ℤ, -1074 ≤ k → F64.rnVal ((n : ℚ) * 2 ^ k) = n * 2 ^ k :=
    fun n hn k hk => F64.rnVal_exact ⟨n, k, hn, hk, rfl⟩
  have sT : HasVal (intDub (2 ^ 27 + 1) * intDub (2 ^ 27 + 1)) (2 ^ 54 + 2 ^ 28) := by
    refine mul_to hs hs ?_ (by norm_num)
    rw [rnVal_of (e := 2) (n := 2 ^ 52 + 2 ^ 26) (by norm_num) (by norm_num) (by norm_num)
      (by rw [abs_lt]; constructor <;> norm_num)]
    norm_num
  have p0 : HasVal (intDub (2 ^ 28 + 4) * intDub (2 ^ 26)) (2 ^ 54 + 2 ^ 28) := by
    refine mul_to hv hB ?_ (by norm_num)
    rw [rnVal_of (e := 2) (n := 2 ^ 52 + 2 ^ 26) (by norm_num) (by norm_num) (by norm_num)
      (by rw [abs_lt]; constructor <;> norm_num)]
    norm_num
  have p1 : HasVal (intDub 5 * F64.pow2 (-1)) (5 / 2) := by
    refine mul_to h5 hh ?_ (by norm_num)
    have := rI 5 (by norm_num) (-1) (by norm_num)
    norm_num at this ⊢; exact this
  have p2 : HasVal (intDub (-3) * F64.pow2 (-1)) (-3 / 2) := by
    refine mul_to h3 hh ?_ (by norm_num)
    have := rI (-3) (by norm_num) (-1) (by norm_num)
    norm_num at this ⊢; exact this
  have q0 : HasVal ((0 : F64) + intDub (2 ^ 28 + 4) * intDub (2 ^ 26)) (2 ^ 54 + 2 ^ 28) := by
    rw [F64.add_comm']; exact p0.add_zero F64.hasVal_zero'
  have q1 : HasVal ((0 : F64) + intDub (2 ^ 28 + 4) * intDub (2 ^ 26) + intDub 5 * F64.pow2 (-1))
      (2 ^ 54 + 2 ^ 28 + 4) := by
    refine add_to q0 p1 ?_ (by norm_num)
    rw [rnVal_of (e := 2) (n := 2 ^ 52 + 2 ^ 26 + 1) (by norm_num) (by norm_num) (by norm_num)
      (by rw [abs_lt]; constructor <;> norm_num)]
    norm_num
  have q2 : HasVal ((0 : F64) + intDub (2 ^ 28 + 4) * intDub (2 ^ 26) + intDub 5 * F64.pow2 (-1)
      + intDub (-3) * F64.pow2 (-1)) (2 ^ 54 + 2 ^ 28 + 4) := by
    refine add_to q1 p2 ?_ (by norm_num)
    rw [rnVal_of (e := 2) (n := 2 ^ 52 + 2 ^ 26 + 1) (by norm_num) (by norm_num) (by norm_num)
      (by rw [abs_lt]; constructor <;> norm_num)]
    norm_num
  have d : HasVal (intDub (2 ^ 27 + 1) * intDub (2 ^ 27 + 1)
      - ((0 : F64) + intDub (2 ^ 28 + 4) * intDub (2 ^ 26) + intDub 5 * F64.pow2 (-1)
      + intDub (-3) * F64.pow2 (-1))) (-4) := by
    refine add_to sT q2.neg ?_ (by norm_num)
    have := rI (-4) (by norm_num) 0 (by norm_num)
    norm_num at this ⊢; exact this
  have : HasVal ((2 : F64) * (intDub (2 ^ 27 + 1) * intDub (2 ^ 27 + 1)
      - ((0 : F64) + intDub (2 ^ 28 + 4) * intDub (2 ^ 26) + intDub 5 * F64.pow2 (-1)
      + intDub (-3) * F64.pow2 (-1)))) (-8) := by
    refine mul_to two_hasVal d ?_ (by norm_num)
    have := rI (-8) (by norm_num) 0 (by norm_num)
    norm_num at this ⊢; exact this
  exact this

theorem branch_exact : exactObj ⟨.mv, branchMv⟩ = ⟨⟨⟨2 ^ 27 + 1⟩⟩, ⟨⟨2 ^ 28 + 4, 5, -3⟩⟩,
    ⟨⟨2 ^ 26, 1 / 2, 1 / 2⟩⟩, ⟨⟨2 ^ 27 + 1⟩⟩⟩ := by
  have i : ∀ n : ℤ, |n| ≤ 2 ^ 53 → HasVal (intDub n) n := intDub_val
  have hs := hasVal_congr (i (2 ^ 27 + 1) (by norm_num)) (q := 2 ^ 27 + 1) (by norm_num)
  have hv := hasVal_congr (i (2 ^ 28 + 4) (by norm_num)) (q := 2 ^ 28 + 4) (by norm_num)
  have h5 := hasVal_congr (i 5 (by norm_num)) (q := 5) (by norm_num)
  have h3 := hasVal_congr (i (-3) (by norm_num)) (q := -3) (by norm_num)
  have hB := hasVal_congr (i (2 ^ 26) (by norm_num)) (q := 2 ^ 26) (by norm_num)
  have hh : HasVal (F64.pow2 (-1)) (1 / 2) :=
    hasVal_congr (F64.pow2_val (e := -1) (by norm_num) (by norm_num)) (by norm_num)
  simp only [exactObj, promote, valTy, mapTy, branchMv, hs.2, hv.2, h5.2, h3.2, hB.2, hh.2]

theorem branch_finite : FiniteTy .mv branchMv := by
  have i : ∀ n : ℤ, |n| ≤ 2 ^ 53 → HasVal (intDub n) n := intDub_val
  have hh := F64.pow2_val (e := -1) (by norm_num) (by norm_num)
  apply forall_fin8
  exacts [(i (2 ^ 27 + 1) (by norm_num)).1, (i (2 ^ 28 + 4) (by norm_num)).1, (i 5 (by norm_num)).1,
    (i (-3) (by norm_num)).1, (i (2 ^ 26) (by norm_num)).1, hh.1, hh.1, (i (2 ^ 27 + 1) (by norm_num)).1]

theorem branch_len : len (exactObj ⟨.mv, branchMv⟩) ^ 2
    = ((2 * (2 ^ 27 + 1) ^ 2 + (2 ^ 28 + 4) ^ 2 + 34 + 2 ^ 52 + 1 / 2 : ℚ) : ℝ) := by
  rw [← magSq_len, branch_exact]
  congr 1
  simp only [engabra]; norm_num

/-- Rounding alone may choose the root: `x * dirverse(x)` of `branchMv` is a negative real number
`-ρ`, with principal root `+√ρ e123`, but `amplitude` returns `-√ρ e123`, because the imaginary part
of the computed square is a rounding error below zero. -/
theorem C61_fails_branch [LibM F64] (ε : ℝ) (h0 : 0 ≤ ε) (hε : ε ≤ 1 / 100) (hl : LibcSqrtOk ε) :
    FiniteTy .mv branchMv ∧ 0 < branchRho ∧
    exactObj ⟨.mv, branchMv⟩ * dirverse (exactObj ⟨.mv, branchMv⟩)
      = toMV (⟨⟨⟨-branchRho⟩⟩, ⟨⟨0⟩⟩⟩ : ComPlex ℚ) ∧
    ‖cval (ComPlex.toStd (amplitude branchMv)) - ⟨0, -√branchRho⟩‖ ≤ 1 / 50 * √branchRho := by
  have hX : exactObj ⟨.mv, branchMv⟩ * dirverse (exactObj ⟨.mv, branchMv⟩)
      = toMV (⟨⟨⟨-branchRho⟩⟩, ⟨⟨0⟩⟩⟩ : ComPlex ℚ) := by
    rw [branch_exact]
    simp only [engabra, branchRho]
    norm_num
  have hρ : 0 < branchRho := by unfold branchRho; norm_num
  refine ⟨branch_finite, hρ, hX, ?_⟩
  have hL := branch_len
  have hl1 : 1 ≤ len (exactObj ⟨.mv, branchMv⟩) := by
    rw [← one_le_sq_iff₀ (len_nonneg _), hL]; norm_num
  have hl2 : len (exactObj ⟨.mv, branchMv⟩) ≤ 2 ^ (40 : ℤ) := by
    refine le_of_sq_le_sq ?_ (by positivity)
    rw [hL]; norm_num
  have r1 : (2 : ℝ) ^ (-500 : ℤ) ≤ len (exactObj ⟨.mv, branchMv⟩) :=
    le_trans (zpow_le_one_of_nonpos₀ (by norm_num) (by norm_num)) hl1
  have r2 : len (exactObj ⟨.mv, branchMv⟩) ≤ 2 ^ (499 : ℤ) :=
    hl2.trans (zpow_le_zpow_right₀ one_le_two (by norm_num))
  obtain ⟨q, hq, hqX, -⟩ := C15_ampSq .mv (by decide) (valTy .mv branchMv : MultiVector ℚ)
  obtain rfl : q = ⟨⟨⟨-branchRho⟩⟩, ⟨⟨0⟩⟩⟩ := toMV_inj_cplx (hqX.trans hX)
  obtain ⟨fz, bz⟩ := ampSq_len .mv branchMv branch_finite r1 r2 rfl hq
  have hn := dirverse_norm _ hX.symm
  have hzn : ‖cval (ComPlex.toStd (ampSq branchMv))‖ ≤ 2 ^ (1000 : ℤ) := by
    have e0 := norm_sub_norm_le (cval (ComPlex.toStd (ampSq branchMv))) (cq ⟨⟨⟨-branchRho⟩⟩, ⟨⟨0⟩⟩⟩)
    have e1 : len (exactObj ⟨.mv, branchMv⟩) ^ 2 ≤ 2 ^ (80 : ℤ) := by rw [hL]; norm_num
    have e2 : (2 : ℝ) ^ (81 : ℤ) ≤ 2 ^ (1000 : ℤ) := zpow_le_zpow_right₀ one_le_two (by norm_num)
    have e3 : 19 * (2 : ℝ) ^ (-53 : ℤ) ≤ 1 := by norm_num
    have e4 := mul_le_mul_of_nonneg_right e3 (sq_nonneg (len (exactObj ⟨.mv, branchMv⟩)))
    have e5 : (2 : ℝ) ^ (81 : ℤ) = 2 * 2 ^ (80 : ℤ) := by norm_num
    have e6 := bz.trans e4
    generalize (2 : ℝ) ^ (1000 : ℤ) = a at *
    generalize (2 : ℝ) ^ (80 : ℤ) = b at *
    generalize (2 : ℝ) ^ (81 : ℤ) = c at *
    linarith only [e0, e1, e2, e5, e6, hn]
  obtain ⟨-, s, hs, hs0, hw⟩ := hl.root _ fz hzn
  have hρr : (0 : ℝ) < (branchRho : ℝ) := by exact_mod_cast hρ
  have hsq := Real.mul_self_sqrt hρr.le
  have hr : (⟨0, -√branchRho⟩ : ℂ) * ⟨0, -√branchRho⟩ = cq ⟨⟨⟨-branchRho⟩⟩, ⟨⟨0⟩⟩⟩ := by
    apply Complex.ext
    · simp [cq, hsq]
    · simp [cq]
  have hA : cq ⟨⟨⟨-branchRho⟩⟩, ⟨⟨0⟩⟩⟩ ≠ 0 := by
    intro e
    have := congrArg Complex.re e
    simp [cq] at this
    rw [this] at hρ; exact lt_irrefl _ hρ
  have si : 2 * (s.re * s.im) = -8 := by
    have e := congrArg Complex.im hs
    have e2 : (cval (ComPlex.toStd (ampSq branchMv))).im = -8 := by
      show ((((ampSq branchMv).theTri.theData.d0).value : ℚ) : ℝ) = -8
      rw [branch_tri.2]; norm_num
    rw [e2, Complex.mul_im] at e
    linarith
  have hneg : s.im ≤ 0 := by
    by_contra h
    have := mul_nonneg hs0 (not_le.1 h).le
    linarith
  have hcq : ‖cq ⟨⟨⟨-branchRho⟩⟩, ⟨⟨0⟩⟩⟩‖ = branchRho := by
    rw [Complex.norm_eq_sqrt_sq_add_sq]
    simp [cq, Real.sqrt_sq hρr.le]
  have key := amp_total h0 hε hw hs hr hA
    (by simpa using mul_nonneg_of_nonpos_of_nonpos hneg (neg_nonpos.2 (Real.sqrt_nonneg _))) bz rfl
  have hnr : ‖(⟨0, -√branchRho⟩ : ℂ)‖ = √branchRho := by
    rw [Complex.norm_eq_sqrt_sq_add_sq]; simp
  rw [hnr, hcq] at key
  refine key.trans (mul_le_mul_of_nonneg_right ?_ (Real.sqrt_nonneg _))
  have hκ : len (exactObj ⟨.mv, branchMv⟩) ^ 2 / branchRho ≤ 2 := by
    rw [div_le_iff₀ hρr, hL]
    unfold branchRho; norm_num
  generalize len (exactObj ⟨.mv, branchMv⟩) ^ 2 / branchRho = κ at *
  have : (2 : ℝ) ^ (-53 : ℤ) ≤ 1 / 10000 := by norm_num
  have h53 := F64.two_zpow_pos (K := ℝ) (-53)
  generalize (2 : ℝ) ^ (-53 : ℤ) = u at *
  nlinarith

/-! ## C62: the type that stores the element -/

/-- The element does not depend on the type that stores it. -/
theorem exact_promote (t : Ty) (x : t.D F64) : exactObj ⟨.mv, promote t x⟩ = exactObj ⟨t, x⟩ := by
  have z := F64.hasVal_zero'.2
  cases t <;> simp only [exactObj, promote, valTy, mapTy, engabra, z]

theorem finite_promote (t : Ty) (x : t.D F64) (hf : FiniteTy t x) : FiniteTy .mv (promote t x) := hf

/-- What holds of the claim that `amplitude` depends on the element only, not on the type that
stores it: the amplitude of `x` and of `x` promoted to `MultiVector` agree up to rounding and up to
the choice of the root.  Missing: the same root (`C62_fails_type`). -/
theorem C62_same_partial [LibM F64] (ε : ℝ) (h0 : 0 ≤ ε) (hε : ε ≤ 1 / 100) (hl : LibcSqrtOk ε)
    (t : Ty) (ht : t ≠ .dub) (x : t.D F64) (hf : FiniteTy t x)
    (h1 : (2 : ℝ) ^ (-500 : ℤ) ≤ len (exactObj ⟨t, x⟩)) (h2 : len (exactObj ⟨t, x⟩) ≤ 2 ^ (499 : ℤ))
    (A : ComPlex ℚ) (hA : toMV A = exactObj ⟨t, x⟩ * dirverse (exactObj ⟨t, x⟩)) (hA0 : cq A ≠ 0)
    (κ : ℝ) (hκ : κ = len (exactObj ⟨t, x⟩) ^ 2 / ‖cq A‖) :
    ∃ a : ComPlex F64, amplitudeTy t x = some a ∧
      ∃ e : ℝ, e = 2 * (ε + 20 * κ * 2 ^ (-53 : ℤ)) * √‖cq A‖ ∧
      (‖cval (ComPlex.toStd a) - cval (ComPlex.toStd (amplitude (promote t x)))‖ ≤ e ∨
        ‖cval (ComPlex.toStd a) + cval (ComPlex.toStd (amplitude (promote t x)))‖ ≤ e) := by
  obtain ⟨a, ha, -, r, hr, hw⟩ := C61_root ε h0 hε hl t ht x hf h1 h2 A hA hA0 κ hκ
  have ep := exact_promote t x
  obtain ⟨b, hb, -, r', hr', hw'⟩ := C61_root ε h0 hε hl .mv (by decide) (promote t x)
    (finite_promote t x hf) (by rw [ep]; exact h1) (by rw [ep]; exact h2) A (by rw [ep]; exact hA) hA0 κ
    (by rw [ep]; exact hκ)
  obtain rfl : amplitude (promote t x) = b := Option.some.inj hb
  refine ⟨a, ha, _, rfl, ?_⟩
  have hn : ‖r‖ = √‖cq A‖ := by rw [← hr, norm_mul, Real.sqrt_mul_self (norm_nonneg _)]
  rcases mul_self_eq_mul_self_iff.1 (hr.trans hr'.symm) with rfl | rfl
  · left
    refine (norm_sub_le_norm_sub_add_norm_sub _ r _).trans ?_
    rw [norm_sub_rev r, ← hn]
    linarith
  · right
    rw [norm_neg] at hw hn
    rw [← hn]
    have e : cval (ComPlex.toStd a) + cval (ComPlex.toStd (amplitude (promote t x)))
        = (cval (ComPlex.toStd a) - -r') + (cval (ComPlex.toStd (amplitude (promote t x))) - r') := by ring
    rw [e]
    refine (norm_add_le _ _).trans ?_
    linarith

/-- Off the branch cut the same root is returned for both. -/
theorem C62_off_cut_partial [LibM F64] (ε : ℝ) (h0 : 0 ≤ ε) (hε : ε ≤ 1 / 100) (hl : LibcSqrtOk ε)
    (t : Ty) (ht : t ≠ .dub) (x : t.D F64) (hf : FiniteTy t x)
    (h1 : (2 : ℝ) ^ (-500 : ℤ) ≤ len (exactObj ⟨t, x⟩)) (h2 : len (exactObj ⟨t, x⟩) ≤ 2 ^ (499 : ℤ))
    (A : ComPlex ℚ) (hA : toMV A = exactObj ⟨t, x⟩ * dirverse (exactObj ⟨t, x⟩))
    (hcut : 19 * 2 ^ (-53 : ℤ) * len (exactObj ⟨t, x⟩) ^ 2 < (cq A).re ∨
      19 * 2 ^ (-53 : ℤ) * len (exactObj ⟨t, x⟩) ^ 2 < |(cq A).im|)
    (κ : ℝ) (hκ : κ = len (exactObj ⟨t, x⟩) ^ 2 / ‖cq A‖) :
    ∃ a : ComPlex F64, amplitudeTy t x = some a ∧
      ‖cval (ComPlex.toStd a) - cval (ComPlex.toStd (amplitude (promote t x)))‖
        ≤ 2 * (ε + 20 * κ * 2 ^ (-53 : ℤ)) * √‖cq A‖ := by
  obtain ⟨a, ha, -, r, hr, hr0, hw⟩ := C61_principal ε h0 hε hl t ht x hf h1 h2 A hA hcut κ hκ
  have ep := exact_promote t x
  obtain ⟨b, hb, -, r', hr', hr0', hw'⟩ := C61_principal ε h0 hε hl .mv (by decide) (promote t x)
    (finite_promote t x hf) (by rw [ep]; exact h1) (by rw [ep]; exact h2) A (by rw [ep]; exact hA)
    (by rw [ep]; exact hcut) κ (by rw [ep]; exact hκ)
  obtain rfl : amplitude (promote t x) = b := Option.some.inj hb
  refine ⟨a, ha, ?_⟩
  have hn : ‖r‖ = √‖cq A‖ := by rw [← hr, norm_mul, Real.sqrt_mul_self (norm_nonneg _)]
  rcases mul_self_eq_mul_self_iff.1 (hr.trans hr'.symm) with rfl | rfl
  · refine (norm_sub_le_norm_sub_add_norm_sub _ r _).trans ?_
    rw [norm_sub_rev r, ← hn]
    linarith
  · rw [Complex.neg_re] at hr0; linarith

/-! ## A library that meets the specification -/

/-- Root of `a + b i` for `b` with positive sign: exact on the axis, otherwise the two parts of the
principal root, rounded. -/
noncomputable def refRoot (a b : F64) : F64 × F64 :=
  if b.value = 0 then if a.signbit then (0, Dbl.sqrt (-a)) else (Dbl.sqrt a, 0)
  else (F64.roundTo (cval (a, b) ^ (1 / 2 : ℂ)).re, F64.roundTo (cval (a, b) ^ (1 / 2 : ℂ)).im)

/-- `refLibC` with a complex square root. -/
@[instance_reducible] noncomputable def refLibS : LibM F64 :=
  { refLibC with
    csqrt := fun z => if z.2.signbit then ((refRoot z.1 (-z.2)).1, -(refRoot z.1 (-z.2)).2)
      else refRoot z.1 z.2 }

theorem root_range {N M : ℝ} (hN : 0 ≤ N) (h : N ^ 2 = M) (h1 : (2 : ℝ) ^ (-1074 : ℤ) ≤ M)
    (h2 : M ≤ 2 ^ (1000 : ℤ)) : (2 : ℝ) ^ (-900 : ℤ) ≤ N ∧ N ≤ 2 ^ (900 : ℤ) := by
  constructor
  · refine le_of_sq_le_sq ?_ hN
    rw [h, pow_two, ← pow_split]
    exact (zpow_le_zpow_right₀ one_le_two (by norm_num)).trans h1
  · refine le_of_sq_le_sq ?_ (F64.two_zpow_pos _).le
    rw [h, pow_two, ← pow_split]
    exact h2.trans (zpow_le_zpow_right₀ one_le_two (by norm_num))

theorem value_ge {a : F64} (h : a.value ≠ 0) : (2 : ℝ) ^ (-1074 : ℤ) ≤ |(a.value : ℝ)| := by
  cases a with
  | nan => exact absurd rfl h
  | inf s => exact absurd rfl h
  | zero s => exact absurd rfl h
  | fin v hv =>
    have := (Rat.cast_le (K := ℝ)).2 hv.ge
    rw [Rat.cast_abs, cast_zpow] at this
    exact this

theorem sqrt_rounded {a : F64} (ha : a.Finite) (h0 : a.signbit = false) (hn : |(a.value : ℝ)| ≤ 2 ^ (1000 : ℤ)) :
    (Dbl.sqrt a).Finite ∧ 0 ≤ (a.value : ℝ) ∧
      |((Dbl.sqrt a).value : ℝ) - √(a.value : ℝ)| ≤ 2 ^ (-53 : ℤ) * √(a.value : ℝ) := by
  cases a with
  | nan => exact absurd ha id
  | inf s => exact absurd ha id
  | zero s =>
    refine ⟨trivial, ?_, ?_⟩
    · show (0 : ℝ) ≤ ((0 : ℚ) : ℝ); rw [Rat.cast_zero]
    · show |((0 : ℚ) : ℝ) - √((0 : ℚ) : ℝ)| ≤ 2 ^ (-53 : ℤ) * √((0 : ℚ) : ℝ)
      rw [Rat.cast_zero, Real.sqrt_zero, sub_zero, abs_zero, mul_zero]
  | fin v hv =>
    have hv0 : ¬ v < 0 := by simpa [F64.signbit] using h0
    have e : (Dbl.sqrt (F64.fin v hv) : F64) = F64.roundTo (√(v : ℝ)) := by
      rw [F64.sqrt_def]; exact if_neg hv0
    have hvr : (0 : ℝ) ≤ (v : ℝ) := by exact_mod_cast not_lt.1 hv0
    have h1 := (Rat.cast_le (K := ℝ)).2 hv.ge
    rw [Rat.cast_abs, cast_zpow, abs_of_nonneg hvr] at h1
    have h2 : (v : ℝ) ≤ 2 ^ (1000 : ℤ) := by rw [← abs_of_nonneg hvr]; exact hn
    obtain ⟨g1, g2⟩ := root_range (Real.sqrt_nonneg _) (Real.sq_sqrt hvr) h1 h2
    obtain ⟨k1, k2⟩ := round_parts (abs_of_nonneg (Real.sqrt_nonneg (v : ℝ))).le g1 g2
    rw [e]
    exact ⟨k1, hvr, k2⟩

theorem principal_re (w : ℂ) : 0 ≤ (w ^ (1 / 2 : ℂ)).re := by
  by_cases hw : w = 0
  · rw [hw, Complex.zero_cpow (by norm_num)]; simp
  · rw [Complex.cpow_def_of_ne_zero hw, Complex.exp_re]
    apply mul_nonneg (Real.exp_nonneg _)
    apply Real.cos_nonneg_of_mem_Icc
    have h1 := Complex.neg_pi_lt_arg w
    have h2 := Complex.arg_le_pi w
    have e : (Complex.log w * (1 / 2 : ℂ)).im = w.arg / 2 := by
      rw [Complex.mul_im]
      simp [Complex.log_im]
      ring
    rw [e]
    constructor <;> linarith

theorem norm_real (x : ℝ) (hx : 0 ≤ x) : ‖(⟨x, 0⟩ : ℂ)‖ = x ∧ ‖(⟨0, x⟩ : ℂ)‖ = x := by
  constructor <;> rw [Complex.norm_eq_sqrt_sq_add_sq] <;> simp [Real.sqrt_sq hx]

theorem refRoot_ok {a b : F64} (ha : a.Finite)
    (hn : ‖cval (a, b)‖ ≤ 2 ^ (1000 : ℤ)) : Fin2 (refRoot a b) ∧
    ∃ r : ℂ, r * r = cval (a, b) ∧ 0 ≤ r.re ∧ ‖cval (refRoot a b) - r‖ ≤ 2 ^ (-52 : ℤ) * ‖r‖ := by
  have h52 : (2 : ℝ) ^ (-52 : ℤ) = 2 * 2 ^ (-53 : ℤ) := by norm_num
  have hu := F64.two_zpow_pos (K := ℝ) (-53)
  have z := F64.hasVal_zero'
  unfold refRoot
  by_cases hb0 : b.value = 0
  · rw [if_pos hb0]
    have hc : cval (a, b) = ⟨(a.value : ℝ), 0⟩ := by
      apply Complex.ext
      · rfl
      · show ((b.value : ℚ) : ℝ) = 0; rw [hb0, Rat.cast_zero]
    have hna : |(a.value : ℝ)| ≤ 2 ^ (1000 : ℤ) := (Complex.abs_re_le_norm (cval (a, b))).trans hn
    by_cases hs : a.signbit = true
    · rw [if_pos hs]
      have hneg : (((-a : F64).value : ℚ) : ℝ) = -(a.value : ℝ) := by rw [F64.value_neg, Rat.cast_neg]
      obtain ⟨k1, k2, k3⟩ := sqrt_rounded (a := -a) (F64.neg_finite_iff.2 ha)
        (by rw [neg_signbit ha, hs]; rfl) (by rw [hneg, abs_neg]; exact hna)
      refine ⟨⟨z.1, k1⟩, ⟨0, √((-a : F64).value : ℝ)⟩, ?_, le_rfl, ?_⟩
      · rw [hc]
        apply Complex.ext
        · simp only [Complex.mul_re, mul_zero, zero_sub, Real.mul_self_sqrt k2]; rw [hneg, neg_neg]
        · simp
      · have e : cval ((0 : F64), (Dbl.sqrt (-a) : F64)) - ⟨0, √((-a : F64).value : ℝ)⟩
            = ⟨0, ((Dbl.sqrt (-a) : F64).value : ℝ) - √((-a : F64).value : ℝ)⟩ := by
          apply Complex.ext <;> simp [cval, z.2]
        rw [e, (norm_real _ (Real.sqrt_nonneg _)).2]
        refine (Complex.norm_le_abs_re_add_abs_im _).trans ?_
        simp only [abs_zero, zero_add]
        refine k3.trans (mul_le_mul_of_nonneg_right ?_ (Real.sqrt_nonneg _))
        rw [h52]; linarith
    · rw [if_neg hs]
      obtain ⟨k1, k2, k3⟩ := sqrt_rounded ha (by simpa using hs) hna
      refine ⟨⟨k1, z.1⟩, ⟨√(a.value : ℝ), 0⟩, ?_, Real.sqrt_nonneg _, ?_⟩
      · rw [hc]
        apply Complex.ext
        · simp only [Complex.mul_re, mul_zero, sub_zero, Real.mul_self_sqrt k2]
        · simp
      · have e : cval ((Dbl.sqrt a : F64), (0 : F64)) - ⟨√(a.value : ℝ), 0⟩
            = ⟨((Dbl.sqrt a : F64).value : ℝ) - √(a.value : ℝ), 0⟩ := by
          apply Complex.ext <;> simp [cval, z.2]
        rw [e, (norm_real _ (Real.sqrt_nonneg _)).1]
        refine (Complex.norm_le_abs_re_add_abs_im _).trans ?_
        simp only [abs_zero, add_zero]
        refine k3.trans (mul_le_mul_of_nonneg_right ?_ (Real.sqrt_nonneg _))
        rw [h52]; linarith
  · rw [if_neg hb0]
    have hsq : cval (a, b) ^ (1 / 2 : ℂ) * cval (a, b) ^ (1 / 2 : ℂ) = cval (a, b) := by
      rw [← pow_two, ← Complex.cpow_nat_mul]; norm_num
    have hre := principal_re (cval (a, b))
    generalize cval (a, b) ^ (1 / 2 : ℂ) = r at *
    have hN : ‖r‖ ^ 2 = ‖cval (a, b)‖ := by rw [← hsq, norm_mul, pow_two]
    have hge : (2 : ℝ) ^ (-1074 : ℤ) ≤ ‖cval (a, b)‖ :=
      (value_ge hb0).trans (Complex.abs_im_le_norm (cval (a, b)))
    obtain ⟨g1, g2⟩ := root_range (norm_nonneg r) hN hge hn
    obtain ⟨k1, k2⟩ := round_parts (Complex.abs_re_le_norm r) g1 g2
    obtain ⟨l1, l2⟩ := round_parts (Complex.abs_im_le_norm r) g1 g2
    refine ⟨⟨k1, l1⟩, r, hsq, hre, (Complex.norm_le_abs_re_add_abs_im _).trans ?_⟩
    rw [Complex.sub_re, Complex.sub_im]
    have := add_le_add k2 l2
    rw [h52]
    refine this.trans (le_of_eq (by ring))

theorem nn_sign {m : F64} (h : F64.NN m) : m.signbit = false := by
  rcases h with rfl | rfl | ⟨v, hv, rfl, v0⟩
  · rfl
  · rfl
  · exact decide_eq_false (not_lt.2 v0.le)

theorem refLibS_ok : @LibcSqrtOk refLibS (2 ^ (-52 : ℤ)) := by
  let _ := refLibS
  have hc : ∀ a b : F64, LibM.csqrt (a, b) = if b.signbit then ((refRoot a (-b)).1, -(refRoot a (-b)).2)
      else refRoot a b := fun _ _ => rfl
  refine ⟨?_, ?_, ?_⟩
  · rintro ⟨a, b⟩ ⟨ha, hb⟩ hn
    rw [hc]
    by_cases hs : b.signbit = true
    · rw [if_pos hs]
      have hcc : cval (a, -b) = (starRingEnd ℂ) (cval (a, b)) := cval_conj (a, b)
      obtain ⟨⟨f1, f2⟩, r, hr, hr0, hw⟩ := refRoot_ok ha (b := -b)
        (by rw [hcc, Complex.norm_conj]; exact hn)
      refine ⟨⟨f1, F64.neg_finite_iff.2 f2⟩, (starRingEnd ℂ) r, ?_, by simpa using hr0, ?_⟩
      · rw [← map_mul, hr, hcc, Complex.conj_conj]
      · rw [cval_conj (refRoot a (-b)), ← map_sub, Complex.norm_conj, Complex.norm_conj]
        exact hw
    · rw [if_neg hs]
      exact refRoot_ok ha hn
  · intro m hm
    have h1 := nn_sign hm
    have z : (0 : F64).signbit = false := rfl
    have zv : (0 : F64).value = 0 := F64.hasVal_zero'.2
    have h2 : (-m).signbit = true := by
      rcases hm with rfl | rfl | ⟨v, hv, rfl, v0⟩
      · rfl
      · rfl
      · exact decide_eq_true (neg_lt_zero.2 v0)
    rw [hc, hc, if_neg (by rw [z]; decide), if_neg (by rw [z]; decide)]
    unfold refRoot
    rw [if_pos zv, if_pos zv, if_neg (by rw [h1]; decide), if_pos h2, F64.neg_neg'']
    exact ⟨rfl, rfl⟩
  · intro a b ha hb
    rw [hc, hc]
    by_cases hs : b.signbit = true
    · rw [if_pos hs, if_neg (by rw [neg_signbit hb, hs]; decide)]
      simp only [F64.neg_neg'']
    · rw [if_neg hs, if_pos (by rw [neg_signbit hb]; simpa using hs), F64.neg_neg'']

/-! ## Concrete cases -/

/-- `2 + e1` with `x * dirverse(x) = 3`: the amplitude is `√3` to within `2^-47`. -/
example : letI := refLibS
    let M : MultiVector F64 := ⟨⟨⟨2⟩⟩, ⟨⟨1, 0, 0⟩⟩, ⟨⟨0, 0, 0⟩⟩, ⟨⟨0⟩⟩⟩
    ∃ r : ℂ, r * r = 3 ∧ 0 < r.re ∧
      ‖cval (ComPlex.toStd (amplitude M)) - r‖ ≤ 2 ^ (-47 : ℤ) * ‖r‖ := by
  let _ := refLibS
  intro M
  have z := F64.hasVal_zero'
  have hf : FiniteTy .mv M := by
    apply forall_fin8
    exacts [two_hasVal.1, F64.hasVal_one.1, z.1, z.1, z.1, z.1, z.1, z.1]
  have hM : exactObj ⟨.mv, M⟩ = ⟨⟨⟨2⟩⟩, ⟨⟨1, 0, 0⟩⟩, ⟨⟨0, 0, 0⟩⟩, ⟨⟨0⟩⟩⟩ := by
    simp only [exactObj, promote, valTy, mapTy, M, F64.hasVal_one.2, two_hasVal.2, z.2]
  have hA : toMV (⟨⟨⟨3⟩⟩, ⟨⟨0⟩⟩⟩ : ComPlex ℚ) = exactObj ⟨.mv, M⟩ * dirverse (exactObj ⟨.mv, M⟩) := by
    rw [hM]; simp only [engabra]; norm_num
  have hL : len (exactObj ⟨.mv, M⟩) ^ 2 = 5 := by
    rw [← magSq_len, hM]; simp only [engabra]; norm_num
  have h1 : 1 ≤ len (exactObj ⟨.mv, M⟩) := by rw [← one_le_sq_iff₀ (len_nonneg _), hL]; norm_num
  have h2 : len (exactObj ⟨.mv, M⟩) ≤ 4 := le_of_sq_le_sq (by rw [hL]; norm_num) (by norm_num)
  have hc : cq (⟨⟨⟨3⟩⟩, ⟨⟨0⟩⟩⟩ : ComPlex ℚ) = 3 := by apply Complex.ext <;> simp [cq]
  obtain ⟨a, ha, -, r, hr, hr0, hw⟩ := C61_principal (2 ^ (-52 : ℤ)) (by positivity) (by norm_num) refLibS_ok
    .mv (by decide) M hf (le_trans (zpow_le_one_of_nonpos₀ (by norm_num) (by norm_num)) h1)
    (h2.trans (by
      calc (4 : ℝ) = 2 ^ (2 : ℤ) := by norm_num
        _ ≤ _ := zpow_le_zpow_right₀ one_le_two (by norm_num)))
    _ hA (Or.inl (by rw [hL, hc]; norm_num)) _ rfl
  obtain rfl : amplitude M = a := Option.some.inj ha
  refine ⟨r, hr.trans hc, hr0, hw.trans (mul_le_mul_of_nonneg_right ?_ (norm_nonneg _))⟩
  rw [hL, hc, Complex.norm_ofNat]
  norm_num

/-- `e1` as a `Vector` and as a `DirPlex`. -/
example : letI := refLibS
    amplitude (e1 : Vector F64) = ⟨⟨⟨0⟩⟩, ⟨⟨magnitude (e1 : Vector F64)⟩⟩⟩ ∧
    amplitude (⟨e1, ⟨⟨0, 0, 0⟩⟩⟩ : DirPlex F64) = ⟨⟨⟨0⟩⟩, ⟨⟨-magnitude (e1 : Vector F64)⟩⟩⟩ := by
  let _ := refLibS
  have z := F64.hasVal_zero'
  have o := F64.hasVal_one
  have hm : HasVal (magSq (e1 : Vector F64)) 1 := by
    show HasVal ((0 : F64) + 1 * 1 + 0 * 0 + 0 * 0) 1
    have zz : HasVal ((0 : F64) * 0) 0 := z.zero_mul z
    refine HasVal.add_zero (HasVal.add_zero ?_ zz) zz
    rw [F64.add_comm']
    exact (o.one_mul o).add_zero z
  obtain ⟨h1, -, h3⟩ := C62_fails_type _ refLibS_ok (e1 : Vector F64)
    (by
      intro c hc
      have : c = 1 ∨ c = 0 := by simpa [comps, e1, engabra] using hc
      rcases this with rfl | rfl
      · exact o.1
      · exact z.1) hm.1 (by rw [hm.2]; norm_num)
  exact ⟨h1, h3⟩

/-- `1 + e123` as a `ComPlex` and as a `MultiVector`: `x * dirverse(x) = 2 e123`. -/
example : letI := refLibS
    ‖cval (ComPlex.toStd (amplitude (⟨⟨⟨1⟩⟩, ⟨⟨1⟩⟩⟩ : ComPlex F64)))
      - cval (ComPlex.toStd (amplitude (⟨⟨⟨1⟩⟩, ⟨⟨0, 0, 0⟩⟩, ⟨⟨0, 0, 0⟩⟩, ⟨⟨1⟩⟩⟩ : MultiVector F64)))‖
      ≤ 2 ^ (-46 : ℤ) := by
  let _ := refLibS
  have z := F64.hasVal_zero'
  have o := F64.hasVal_one
  have hf : FiniteTy .cplx (⟨⟨⟨1⟩⟩, ⟨⟨1⟩⟩⟩ : ComPlex F64) := by
    apply forall_fin8
    exacts [o.1, z.1, z.1, z.1, z.1, z.1, z.1, o.1]
  have hM : exactObj ⟨.cplx, (⟨⟨⟨1⟩⟩, ⟨⟨1⟩⟩⟩ : ComPlex F64)⟩
      = ⟨⟨⟨1⟩⟩, ⟨⟨0, 0, 0⟩⟩, ⟨⟨0, 0, 0⟩⟩, ⟨⟨1⟩⟩⟩ := by
    simp only [exactObj, promote, valTy, mapTy, o.2, engabra]
  have hA : toMV (⟨⟨⟨0⟩⟩, ⟨⟨2⟩⟩⟩ : ComPlex ℚ)
      = exactObj ⟨.cplx, (⟨⟨⟨1⟩⟩, ⟨⟨1⟩⟩⟩ : ComPlex F64)⟩
        * dirverse (exactObj ⟨.cplx, (⟨⟨⟨1⟩⟩, ⟨⟨1⟩⟩⟩ : ComPlex F64)⟩) := by
    rw [hM]; simp only [engabra]; norm_num
  have hL : len (exactObj ⟨.cplx, (⟨⟨⟨1⟩⟩, ⟨⟨1⟩⟩⟩ : ComPlex F64)⟩) ^ 2 = 2 := by
    rw [← magSq_len, hM]; simp only [engabra]; norm_num
  have h1 : 1 ≤ len (exactObj ⟨.cplx, (⟨⟨⟨1⟩⟩, ⟨⟨1⟩⟩⟩ : ComPlex F64)⟩) := by
    rw [← one_le_sq_iff₀ (len_nonneg _), hL]; norm_num
  have h2 : len (exactObj ⟨.cplx, (⟨⟨⟨1⟩⟩, ⟨⟨1⟩⟩⟩ : ComPlex F64)⟩) ≤ 4 :=
    le_of_sq_le_sq (by rw [hL]; norm_num) (by norm_num)
  have hc : cq (⟨⟨⟨0⟩⟩, ⟨⟨2⟩⟩⟩ : ComPlex ℚ) = ⟨0, 2⟩ := by apply Complex.ext <;> simp [cq]
  have hn : ‖(⟨0, 2⟩ : ℂ)‖ = 2 := (norm_real 2 (by norm_num)).2
  obtain ⟨a, ha, hw⟩ := C62_off_cut_partial (2 ^ (-52 : ℤ)) (by positivity) (by norm_num) refLibS_ok
    .cplx (by decide) (⟨⟨⟨1⟩⟩, ⟨⟨1⟩⟩⟩ : ComPlex F64) hf
    (le_trans (zpow_le_one_of_nonpos₀ (by norm_num) (by norm_num)) h1)
    (h2.trans (by
      calc (4 : ℝ) = 2 ^ (2 : ℤ) := by norm_num
        _ ≤ _ := zpow_le_zpow_right₀ one_le_two (by norm_num)))
    _ hA (Or.inr (by rw [hL, hc]; norm_num)) _ rfl
  obtain rfl : amplitude (⟨⟨⟨1⟩⟩, ⟨⟨1⟩⟩⟩ : ComPlex F64) = a := Option.some.inj ha
  rw [hL, hc, hn] at hw
  refine hw.trans ?_
  have : √(2 : ℝ) ≤ 2 := Real.sqrt_le_iff.2 ⟨by norm_num, by norm_num⟩
  refine (mul_le_mul_of_nonneg_left this (by positivity)).trans ?_
  norm_num

end Engabra
