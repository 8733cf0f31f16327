import Verif.Lemmas.RigidEst

/-! # C58: rigid body transformation, from angles to coordinates

The example of `README.md:231-252` as a whole, in binary64: a spinor is made of a sequence of
angles by `exp` and products, and turns the difference of two positions, or a bivector.  The result
is compared with the exact rotations of Euclidean space (`Spec.turns`), which do not mention
spinors. -/

namespace Engabra

open F64 (Finite HasVal)
open Spec

/-- Specification: relative error of the transformation with `n` angles of size at most `Θ`, when
the library's `sin` and `cos` have relative error `ε`. -/
noncomputable def rigidErr (n : ℕ) (ε Θ : ℝ) : ℝ := n * (5 * ε + (160 + 13 * Θ) * 2 ^ (-53 : ℤ))

theorem turned (t : Ty) [LibM F64] {ε Θ : ℝ} (hε0 : 0 ≤ ε) (hlib : LibmOk ε)
    (A0 : BiVector F64) (As : List (BiVector F64))
    (h : ∀ A ∈ A0 :: As, Angle A ∧ norm3 (bivVal A) ≤ Θ)
    (hn : rigidErr (As.length + 1) ε Θ ≤ 1 / 128) :
    ∃ R : Spinor ℝ, length .spin R = 1 ∧
      (∀ v : Vector ℝ, (sandwich R v).xyz = turns ((A0 :: As).map bivVal) v.xyz) ∧
      ∀ v : t.D F64, FiniteTy t v → euclid t v ≤ 2 ^ 1000 →
        let S := attitude A0 As
        FiniteTy _ (mulTy (mulRes .spin t) .spin (mulTy .spin t S v) (reverse S)) ∧
        length .mv (realMV _ (mulTy (mulRes .spin t) .spin (mulTy .spin t S v) (reverse S))
            - promote .spin R * realMV t v * promote .spin (reverse R))
          ≤ (rigidErr (As.length + 1) ε Θ - 2 * uR) * euclid t v + 2 ^ (-1055 : ℤ) := by
  unfold rigidErr at *
  set n := As.length + 1 with hnd
  have hn1 : (1 : ℝ) ≤ n := by rw [hnd]; exact_mod_cast Nat.le_add_left _ _
  have hu0 := uR_nonneg
  have hu1 := uR_small
  have hΘ0 : 0 ≤ Θ := (Real.sqrt_nonneg _).trans (h A0 (by simp)).2
  change (n : ℝ) * (5 * ε + (160 + 13 * Θ) * uR) ≤ _ at hn
  change ∃ R : Spinor ℝ, _ ∧ _ ∧ ∀ v : t.D F64, _ → _ → _ ∧ _ ≤
    ((n : ℝ) * (5 * ε + (160 + 13 * Θ) * uR) - 2 * uR) * euclid t v + 2 ^ (-1055 : ℤ)
  have hnε : 0 ≤ n * ε := by positivity
  have hnu : uR ≤ n * uR := by
    have := mul_le_mul_of_nonneg_right hn1 hu0
    linarith
  have hnΘ : 0 ≤ n * (Θ * uR) := mul_nonneg (by linarith) (mul_nonneg hΘ0 hu0)
  have hexp : (n : ℝ) * (5 * ε + (160 + 13 * Θ) * uR)
      = 5 * (n * ε) + 160 * (n * uR) + 13 * (n * (Θ * uR)) := by ring
  have hexc : (n : ℝ) * (22 / 10 * ε + (48 + 6 * Θ) * uR)
      = 22 / 10 * (n * ε) + 48 * (n * uR) + 6 * (n * (Θ * uR)) := by ring
  have hnc : (n : ℝ) * (22 / 10 * ε + (48 + 6 * Θ) * uR) ≤ 1 / 256 := by
    rw [hexp] at hn
    rw [hexc]
    linarith
  obtain ⟨R, r1, r2, r3, r4⟩ := attitude_near hε0 hlib A0 As h le_rfl hnc
  refine ⟨R, r1, r2, fun v fv hv => ?_⟩
  have hc0 : 0 ≤ 22 / 10 * ε + (48 + 6 * Θ) * uR := by
    have := mul_nonneg hΘ0 hu0
    linarith
  generalize hcd : 22 / 10 * ε + (48 + 6 * Θ) * uR = c at *
  have hpow : (1 + c) ^ n ≤ 1 + 65 / 64 * (n * c) := pow_near_one hc0 n (by linarith)
  have hp2 : ((1 + c) ^ n) ^ 2 ≤ 1 + 65 / 64 * (((n * 2 : ℕ) : ℝ) * c) := by
    rw [← pow_mul]
    exact pow_near_one hc0 (n * 2) (by push_cast; linarith)
  obtain ⟨f, g⟩ := sandwich_est t v r3 fv r1 r4 (by linarith) hv
  refine ⟨f, g.trans (add_le_add (mul_le_mul_of_nonneg_right ?_ (Real.sqrt_nonneg _)) le_rfl)⟩
  rw [show 1 + ((1 + c) ^ (As.length + 1) - 1) = (1 + c) ^ n by rw [hnd]; ring]
  generalize ((1 + c) ^ n) ^ 2 = P at *
  push_cast at hp2
  have hu2 : (1 + 27 * uR) ^ 2 ≤ 1 + 55 * uR := by
    have := mul_le_mul_of_nonneg_right hu1 hu0
    generalize uR = u at *
    nlinarith
  have hP : P * (1 + 27 * uR) ^ 2 ≤ (1 + 65 / 64 * (n * 2 * c)) * (1 + 55 * uR) :=
    mul_le_mul hp2 hu2 (by positivity) (by positivity)
  have hcu : n * 2 * c * uR ≤ 1 / 128 * uR := mul_le_mul_of_nonneg_right (by linarith) hu0
  rw [hexp]
  generalize uR = u at *
  generalize (n : ℝ) * (Θ * u) = a at *
  generalize (n : ℝ) * u = b at *
  generalize (n : ℝ) * ε = d at *
  linarith

/-! ## reading off the parts -/

theorem imsp_parts (w : ImSpin F64) (x : Vector ℝ) :
    dist3 (vecVal w.theVec) x.xyz ≤ length .mv (realMV .imsp w - promote .vec x) ∧
    |(w.theTri.theData.d0.value : ℝ)| ≤ length .mv (realMV .imsp w - promote .vec x) := by
  rw [length_eq]
  have e : magSqTy .mv (realMV .imsp w - promote .vec x) =
      dot (sub3 (vecVal w.theVec) x.xyz) (sub3 (vecVal w.theVec) x.xyz)
        + (w.theTri.theData.d0.value : ℝ) ^ 2 := by
    simp only [realMV, realTy, mapTy, magSqTy, engabra, dot, sub3, vecVal, Vector.xyz]; ring
  rw [e]
  constructor
  · exact Real.sqrt_le_sqrt (le_add_of_nonneg_right (sq_nonneg _))
  · refine Real.abs_le_sqrt (le_add_of_nonneg_left ?_)
    exact add_nonneg (add_nonneg (mul_self_nonneg _) (mul_self_nonneg _)) (mul_self_nonneg _)

theorem spin_parts (w : Spinor F64) (x : BiVector ℝ) :
    dist3 (bivVal w.theBiv) ⟨x.theData.d0, x.theData.d1, x.theData.d2⟩
      ≤ length .mv (realMV .spin w - promote .biv x) ∧
    |(w.theSca.theData.d0.value : ℝ)| ≤ length .mv (realMV .spin w - promote .biv x) := by
  rw [length_eq]
  have e : magSqTy .mv (realMV .spin w - promote .biv x) =
      dot (sub3 (bivVal w.theBiv) ⟨x.theData.d0, x.theData.d1, x.theData.d2⟩)
        (sub3 (bivVal w.theBiv) ⟨x.theData.d0, x.theData.d1, x.theData.d2⟩)
        + (w.theSca.theData.d0.value : ℝ) ^ 2 := by
    simp only [realMV, realTy, mapTy, magSqTy, engabra, dot, sub3, bivVal]; ring
  rw [e]
  constructor
  · exact Real.sqrt_le_sqrt (le_add_of_nonneg_right (sq_nonneg _))
  · refine Real.abs_le_sqrt (le_add_of_nonneg_left ?_)
    exact add_nonneg (add_nonneg (mul_self_nonneg _) (mul_self_nonneg _)) (mul_self_nonneg _)

theorem vec_sandwich (R : Spinor ℝ) (v : Vector ℝ) :
    promote .spin R * promote .vec v * promote .spin (reverse R) = promote .vec (sandwich R v) := by
  simp only [sandwich]; mv_ring

/-- Bivectors turn as their dual vectors. -/
theorem biv_sandwich (R : Spinor ℝ) (a b c : ℝ) :
    promote .spin R * promote .biv (⟨⟨a, b, c⟩⟩ : BiVector ℝ) * promote .spin (reverse R)
      = promote .biv (⟨⟨(sandwich R ⟨⟨a, b, c⟩⟩).xyz.x, (sandwich R ⟨⟨a, b, c⟩⟩).xyz.y,
          (sandwich R ⟨⟨a, b, c⟩⟩).xyz.z⟩⟩ : BiVector ℝ) := by
  simp only [sandwich, Vector.xyz]; mv_ring

theorem euclid_vec3 (v : Vector F64) : euclid .vec v = norm3 (vecVal v) := by
  rw [← length_realTy, length_eq, norm3]
  congr 1
  simp only [realTy, mapTy, magSqTy, engabra, dot, vecVal]; ring

theorem euclid_biv3 (v : BiVector F64) : euclid .biv v = norm3 (bivVal v) := by
  rw [← length_realTy, length_eq, norm3]
  congr 1
  simp only [realTy, mapTy, magSqTy, engabra, dot, bivVal]; ring

theorem two_uR_le (n : ℕ) {ε Θ : ℝ} (hε0 : 0 ≤ ε) (hΘ0 : 0 ≤ Θ) : 160 * uR ≤ rigidErr (n + 1) ε Θ := by
  have hu0 := uR_nonneg
  have h1 : (1 : ℝ) ≤ ((n + 1 : ℕ) : ℝ) := by exact_mod_cast Nat.le_add_left _ _
  have h2 : (0 : ℝ) ≤ 5 * ε + (160 + 13 * Θ) * uR := by positivity
  have h3 := mul_le_mul_of_nonneg_right h1 h2
  have h4 := mul_nonneg hΘ0 hu0
  unfold rigidErr
  change _ ≤ _ * (5 * ε + (160 + 13 * Θ) * uR)
  linarith

/-! ## the theorems -/

/-- **C58.**  `S * v * reverse(S)` of a vector: the vector part is the exact rotation of `v` up to a
relative error `n (5 ε + (160 + 13 Θ) u)`, and the trivector part is below the same bound. -/
theorem C58_vector [LibM F64] (ε Θ : ℝ) (hε0 : 0 ≤ ε) (hlib : LibmOk ε)
    (A0 : BiVector F64) (As : List (BiVector F64))
    (h : ∀ A ∈ A0 :: As, Angle A ∧ norm3 (bivVal A) ≤ Θ)
    (hn : rigidErr (As.length + 1) ε Θ ≤ 1 / 128)
    (v : Vector F64) (fv : ∀ c ∈ comps .vec v, c.Finite) (hv : norm3 (vecVal v) ≤ 2 ^ 1000) :
    let w : ImSpin F64 := attitude A0 As * v * reverse (attitude A0 As)
    (∀ k, (cf (promote .imsp w) k).Finite) ∧
    dist3 (vecVal w.theVec) (turns ((A0 :: As).map bivVal) (vecVal v))
      ≤ rigidErr (As.length + 1) ε Θ * norm3 (vecVal v) + 2 ^ (-1055 : ℤ) ∧
    |(w.theTri.theData.d0.value : ℝ)|
      ≤ rigidErr (As.length + 1) ε Θ * norm3 (vecVal v) + 2 ^ (-1055 : ℤ) := by
  obtain ⟨R, r1, r2, r3⟩ := turned .vec hε0 hlib A0 As h hn
  obtain ⟨f, g⟩ := r3 v (finiteTy_of .vec v fv) (by rw [euclid_vec3]; exact hv)
  intro w
  refine ⟨f, ?_⟩
  rw [show realMV .vec v = promote .vec (realTy .vec v) from rfl, vec_sandwich, euclid_vec3] at g
  have hx : (sandwich R (realTy .vec v)).xyz = turns ((A0 :: As).map bivVal) (vecVal v) := r2 _
  have hg : length .mv (realMV .imsp w - promote .vec (sandwich R (realTy .vec v)))
      ≤ rigidErr (As.length + 1) ε Θ * norm3 (vecVal v) + 2 ^ (-1055 : ℤ) := by
    refine le_trans (show _ ≤ _ from g) (add_le_add (mul_le_mul_of_nonneg_right ?_
      (Real.sqrt_nonneg _)) le_rfl)
    have := uR_nonneg
    linarith
  rw [← hx]
  exact ⟨(imsp_parts w _).1.trans hg, (imsp_parts w _).2.trans hg⟩

/-- **C58.**  `S * M * reverse(S)` of a bivector: the bivector part is the exact rotation of the
plane, the scalar part is below the error bound. -/
theorem C58_moment [LibM F64] (ε Θ : ℝ) (hε0 : 0 ≤ ε) (hlib : LibmOk ε)
    (A0 : BiVector F64) (As : List (BiVector F64))
    (h : ∀ A ∈ A0 :: As, Angle A ∧ norm3 (bivVal A) ≤ Θ)
    (hn : rigidErr (As.length + 1) ε Θ ≤ 1 / 128)
    (M : BiVector F64) (fM : ∀ c ∈ comps .biv M, c.Finite) (hM : norm3 (bivVal M) ≤ 2 ^ 1000) :
    let w : Spinor F64 := attitude A0 As * M * reverse (attitude A0 As)
    (∀ k, (cf (promote .spin w) k).Finite) ∧
    dist3 (bivVal w.theBiv) (turns ((A0 :: As).map bivVal) (bivVal M))
      ≤ rigidErr (As.length + 1) ε Θ * norm3 (bivVal M) + 2 ^ (-1055 : ℤ) ∧
    |(w.theSca.theData.d0.value : ℝ)|
      ≤ rigidErr (As.length + 1) ε Θ * norm3 (bivVal M) + 2 ^ (-1055 : ℤ) := by
  obtain ⟨R, r1, r2, r3⟩ := turned .biv hε0 hlib A0 As h hn
  obtain ⟨f, g⟩ := r3 M (finiteTy_of .biv M fM) (by rw [euclid_biv3]; exact hM)
  intro w
  refine ⟨f, ?_⟩
  rw [show realMV .biv M = promote .biv (⟨⟨(bivVal M).x, (bivVal M).y, (bivVal M).z⟩⟩ : BiVector ℝ)
    from rfl, biv_sandwich, euclid_biv3] at g
  have hx : (sandwich R ⟨⟨(bivVal M).x, (bivVal M).y, (bivVal M).z⟩⟩).xyz
    = turns ((A0 :: As).map bivVal) (bivVal M) := r2 _
  rw [hx] at g
  have hg := le_trans (show _ ≤ _ from g) (add_le_add (mul_le_mul_of_nonneg_right
    (show _ ≤ rigidErr (As.length + 1) ε Θ by have := uR_nonneg; linarith)
      (Real.sqrt_nonneg _)) le_rfl)
  exact ⟨(spin_parts w _).1.trans hg, (spin_parts w _).2.trans hg⟩

theorem comp_le_norm3 (a : V3 ℝ) : |a.x| ≤ norm3 a ∧ |a.y| ≤ norm3 a ∧ |a.z| ≤ norm3 a := by
  unfold norm3 dot
  refine ⟨?_, ?_, ?_⟩ <;> apply Real.abs_le_sqrt <;> nlinarith [sq_nonneg a.x, sq_nonneg a.y, sq_nonneg a.z]

/-- The computed difference of two positions. -/
theorem difference_est (p q : Vector F64) (fp : ∀ c ∈ comps .vec p, c.Finite)
    (fq : ∀ c ∈ comps .vec q, c.Finite) (hd : dist3 (vecVal p) (vecVal q) ≤ 2 ^ 999) :
    (∀ c ∈ comps .vec (p - q : Vector F64), c.Finite) ∧
    dist3 (vecVal (p - q)) (sub3 (vecVal p) (vecVal q)) ≤ uR * dist3 (vecVal p) (vecVal q) := by
  obtain ⟨⟨p0, p1, p2⟩⟩ := p
  obtain ⟨⟨q0, q1, q2⟩⟩ := q
  obtain ⟨c0, c1, c2⟩ := comp_le_norm3 (sub3 (vecVal ⟨⟨p0, p1, p2⟩⟩) (vecVal ⟨⟨q0, q1, q2⟩⟩))
  simp only [comps, List.mem_cons, List.not_mem_nil, or_false, forall_eq_or_imp, forall_eq] at fp fq
  have key : ∀ {x y : F64}, x.Finite → y.Finite →
      |(x.value : ℝ) - y.value| ≤ dist3 (vecVal ⟨⟨p0, p1, p2⟩⟩) (vecVal ⟨⟨q0, q1, q2⟩⟩) →
      (x - y).Finite ∧ |((x - y).value : ℝ) - (x.value - y.value)| ≤ uR * |(x.value : ℝ) - y.value| := by
    intro x y hx hy hxy
    have hf : (x - y).Finite := by
      refine fin_sub hx hy ?_
      have h1 := hxy.trans (hd.trans (pow_le_pow_right₀ one_le_two (by norm_num : 999 ≤ 1022)))
      unfold F64.safe
      have : ((|x.value - y.value| : ℚ) : ℝ) ≤ (((2 : ℚ) ^ 1022 : ℚ) : ℝ) := by
        rw [Rat.cast_abs, Rat.cast_sub, Rat.cast_pow, Rat.cast_ofNat]
        exact h1
      exact Rat.cast_le.1 this
    refine ⟨hf, ?_⟩
    have h2 := Rat.cast_le (K := ℝ) |>.2 (F64.sub_rel hf)
    rw [Rat.cast_mul, cast_zpow, Rat.cast_abs, Rat.cast_abs, Rat.cast_sub, Rat.cast_sub] at h2
    exact h2
  obtain ⟨f0, g0⟩ := key fp.1 fq.1 c0
  obtain ⟨f1, g1⟩ := key fp.2.1 fq.2.1 c1
  obtain ⟨f2, g2⟩ := key fp.2.2 fq.2.2 c2
  constructor
  · intro c hc
    simp only [comps, engabra, List.mem_cons, List.not_mem_nil, or_false] at hc
    rcases hc with rfl | rfl | rfl <;> assumption
  · unfold dist3 norm3
    rw [← Real.sqrt_sq uR_nonneg, ← Real.sqrt_mul (sq_nonneg _)]
    apply Real.sqrt_le_sqrt
    have q : ∀ {x y : ℝ}, |x| ≤ uR * |y| → x ^ 2 ≤ uR ^ 2 * y ^ 2 := fun {x y} h => by
      rw [← sq_abs x, ← sq_abs y, ← mul_pow]; exact pow_le_pow_left₀ (abs_nonneg _) h 2
    have e0 := q g0; have e1 := q g1; have e2 := q g2
    simp only [dot, sub3, vecVal, engabra] at *
    generalize uR ^ 2 = U at *
    linarith

theorem dist3_tri (a b c : V3 ℝ) : dist3 a c ≤ dist3 a b + dist3 b c := by
  have e : ∀ a : V3 ℝ, norm3 a = length .mv (promote .vec (⟨⟨a.x, a.y, a.z⟩⟩ : Vector ℝ)) := by
    intro a
    rw [length_promote, length_eq, norm3]
    congr 1
    simp only [dot, magSqTy, engabra]; ring
  unfold dist3
  rw [e, e, e]
  refine le_trans (le_of_eq ?_) (length_mv_add _ _)
  congr 1
  simp only [sub3]; mv_ring

/-- Exact turns keep distances. -/
theorem turns_dist {R : Spinor ℝ} {T : V3 ℝ → V3 ℝ} (hR : length .spin R = 1)
    (hT : ∀ v : Vector ℝ, (sandwich R v).xyz = T v.xyz) (a b : V3 ℝ) :
    dist3 (T a) (T b) = dist3 a b := by
  have h1 : magSq R = 1 := by
    have := length_sq .spin R
    rw [hR, one_pow] at this
    exact this.symm
  have h2 := C22_length R h1 (⟨⟨a.x, a.y, a.z⟩⟩ - ⟨⟨b.x, b.y, b.z⟩⟩ : Vector ℝ)
  have ha : (sandwich R (⟨⟨a.x, a.y, a.z⟩⟩ : Vector ℝ)).xyz = T a := hT _
  have hb : (sandwich R (⟨⟨b.x, b.y, b.z⟩⟩ : Vector ℝ)).xyz = T b := hT _
  have h3 : sandwich R (⟨⟨a.x, a.y, a.z⟩⟩ - ⟨⟨b.x, b.y, b.z⟩⟩ : Vector ℝ)
      = sandwich R ⟨⟨a.x, a.y, a.z⟩⟩ - sandwich R ⟨⟨b.x, b.y, b.z⟩⟩ := by
    simp only [sandwich]; mv_ring
  rw [h3] at h2
  rw [← ha, ← hb]
  unfold dist3 norm3
  congr 1
  have e1 : ∀ v w : Vector ℝ, dot (sub3 v.xyz w.xyz) (sub3 v.xyz w.xyz) = magSq (v - w) := by
    intro v w; simp only [dot, sub3, Vector.xyz, engabra]; ring
  rw [e1, h2]
  simp only [dot, sub3, engabra]; ring

/-- **C58.**  `S * (p - q) * reverse(S)`, the position `p` seen from a body at `q` with attitude
`S`: the exact rotation of the exact difference, relative to the distance of `p` and `q` (however
large `p` and `q` themselves are). -/
theorem C58_position [LibM F64] (ε Θ : ℝ) (hε0 : 0 ≤ ε) (hlib : LibmOk ε)
    (A0 : BiVector F64) (As : List (BiVector F64))
    (h : ∀ A ∈ A0 :: As, Angle A ∧ norm3 (bivVal A) ≤ Θ)
    (hn : rigidErr (As.length + 1) ε Θ ≤ 1 / 128)
    (p q : Vector F64) (fp : ∀ c ∈ comps .vec p, c.Finite) (fq : ∀ c ∈ comps .vec q, c.Finite)
    (hd : dist3 (vecVal p) (vecVal q) ≤ 2 ^ 999) :
    let w : ImSpin F64 := attitude A0 As * (p - q) * reverse (attitude A0 As)
    (∀ k, (cf (promote .imsp w) k).Finite) ∧
    dist3 (vecVal w.theVec) (turns ((A0 :: As).map bivVal) (sub3 (vecVal p) (vecVal q)))
      ≤ rigidErr (As.length + 1) ε Θ * dist3 (vecVal p) (vecVal q) + 2 ^ (-1055 : ℤ) ∧
    |(w.theTri.theData.d0.value : ℝ)|
      ≤ rigidErr (As.length + 1) ε Θ * dist3 (vecVal p) (vecVal q) + 2 ^ (-1055 : ℤ) := by
  obtain ⟨fd, gd⟩ := difference_est p q fp fq hd
  have hΘ0 : 0 ≤ Θ := (Real.sqrt_nonneg _).trans (h A0 (by simp)).2
  have hd0 : 0 ≤ dist3 (vecVal p) (vecVal q) := Real.sqrt_nonneg _
  have hu0 := uR_nonneg
  have hu1 := uR_small
  have hdn : norm3 (vecVal (p - q)) ≤ (1 + uR) * dist3 (vecVal p) (vecVal q) := by
    have h1 := dist3_tri (vecVal (p - q)) (sub3 (vecVal p) (vecVal q)) ⟨0, 0, 0⟩
    have h2 : ∀ a : V3 ℝ, dist3 a ⟨0, 0, 0⟩ = norm3 a := fun a => by simp [dist3, norm3, sub3, dot]
    rw [h2, h2] at h1
    change _ ≤ _ + dist3 (vecVal p) (vecVal q) at h1
    linarith
  obtain ⟨R, r1, r2, r3⟩ := turned .vec hε0 hlib A0 As h hn
  obtain ⟨f, g⟩ := r3 (p - q : Vector F64) (finiteTy_of .vec _ fd) (by
    rw [euclid_vec3]
    refine hdn.trans ?_
    have h1 : (1 + uR) * dist3 (vecVal p) (vecVal q) ≤ 2 * dist3 (vecVal p) (vecVal q) :=
      mul_le_mul_of_nonneg_right (by generalize uR = u at *; linarith) hd0
    have h2 : (2 : ℝ) * 2 ^ 999 = 2 ^ 1000 := by rw [← pow_succ']
    rw [← h2]
    exact h1.trans (mul_le_mul_of_nonneg_left hd zero_le_two))
  intro w
  refine ⟨f, ?_⟩
  rw [show realMV .vec (p - q : Vector F64) = promote .vec (realTy .vec (p - q : Vector F64)) from rfl,
    vec_sandwich, euclid_vec3] at g
  have hx : (sandwich R (realTy .vec (p - q : Vector F64))).xyz
    = turns ((A0 :: As).map bivVal) (vecVal (p - q)) := r2 _
  have hk := two_uR_le As.length hε0 hΘ0
  have hK : (rigidErr (As.length + 1) ε Θ - 2 * uR) * norm3 (vecVal (p - q)) + 2 ^ (-1055 : ℤ)
      + uR * dist3 (vecVal p) (vecVal q)
      ≤ rigidErr (As.length + 1) ε Θ * dist3 (vecVal p) (vecVal q) + 2 ^ (-1055 : ℤ) := by
    have h1 := mul_le_mul_of_nonneg_left hdn
      (by linarith : 0 ≤ rigidErr (As.length + 1) ε Θ - 2 * uR)
    have h2 := mul_nonneg hu0 hd0
    generalize (2 : ℝ) ^ (-1055 : ℤ) = T at *
    generalize rigidErr (As.length + 1) ε Θ = K at *
    generalize dist3 (vecVal p) (vecVal q) = d at *
    generalize uR = u at *
    have h3 := mul_le_mul_of_nonneg_right hn h2
    have h4 := mul_nonneg hu0 h2
    nlinarith
  obtain ⟨i1, i2⟩ := imsp_parts w (sandwich R (realTy .vec (p - q : Vector F64)))
  have g' : length .mv (realMV .imsp w - promote .vec (sandwich R (realTy .vec (p - q : Vector F64))))
      ≤ (rigidErr (As.length + 1) ε Θ - 2 * uR) * norm3 (vecVal (p - q)) + 2 ^ (-1055 : ℤ) := g
  constructor
  · refine (dist3_tri _ (turns ((A0 :: As).map bivVal) (vecVal (p - q))) _).trans ?_
    rw [turns_dist r1 r2]
    rw [hx] at i1
    refine le_trans ?_ hK
    exact add_le_add (i1.trans g') gd
  · refine i2.trans (g'.trans (le_trans ?_ hK))
    exact le_add_of_nonneg_right (mul_nonneg hu0 hd0)

/-- **C58.**  Rigid: the distance of two transformed points is the distance of the points, up to the
error of each. -/
theorem C58_rigid [LibM F64] (ε Θ : ℝ) (hε0 : 0 ≤ ε) (hlib : LibmOk ε)
    (A0 : BiVector F64) (As : List (BiVector F64))
    (h : ∀ A ∈ A0 :: As, Angle A ∧ norm3 (bivVal A) ≤ Θ)
    (hn : rigidErr (As.length + 1) ε Θ ≤ 1 / 128)
    (p p' q : Vector F64) (fp : ∀ c ∈ comps .vec p, c.Finite) (fp' : ∀ c ∈ comps .vec p', c.Finite)
    (fq : ∀ c ∈ comps .vec q, c.Finite) (hd : dist3 (vecVal p) (vecVal q) ≤ 2 ^ 999)
    (hd' : dist3 (vecVal p') (vecVal q) ≤ 2 ^ 999) :
    let S := attitude A0 As
    |dist3 (vecVal (S * (p - q) * reverse S : ImSpin F64).theVec)
        (vecVal (S * (p' - q) * reverse S : ImSpin F64).theVec) - dist3 (vecVal p) (vecVal p')|
      ≤ rigidErr (As.length + 1) ε Θ * (dist3 (vecVal p) (vecVal q) + dist3 (vecVal p') (vecVal q))
        + 2 ^ (-1054 : ℤ) := by
  obtain ⟨-, h1, -⟩ := C58_position ε Θ hε0 hlib A0 As h hn p q fp fq hd
  obtain ⟨-, h2, -⟩ := C58_position ε Θ hε0 hlib A0 As h hn p' q fp' fq hd'
  obtain ⟨R, r1, r2, -⟩ := turned .vec hε0 hlib A0 As h hn
  have h3 := turns_dist r1 r2 (sub3 (vecVal p) (vecVal q)) (sub3 (vecVal p') (vecVal q))
  have h4 : dist3 (sub3 (vecVal p) (vecVal q)) (sub3 (vecVal p') (vecVal q))
      = dist3 (vecVal p) (vecVal p') := by
    unfold dist3 norm3
    congr 1
    simp only [dot, sub3]; ring
  rw [h4] at h3
  have sym : ∀ a b : V3 ℝ, dist3 a b = dist3 b a := fun a b => by
    unfold dist3 norm3
    congr 1
    simp only [dot, sub3]; ring
  rw [show (-1054 : ℤ) = 1 + -1055 by norm_num, zpow_add₀ two_ne_zero, zpow_one]
  generalize (2 : ℝ) ^ (-1055 : ℤ) = T at *
  intro S
  generalize hX : vecVal (S * (p - q) * reverse S : ImSpin F64).theVec = X
  generalize hY : vecVal (S * (p' - q) * reverse S : ImSpin F64).theVec = Y
  rw [show attitude A0 As = S from rfl] at h1 h2
  rw [hX] at h1
  rw [hY] at h2
  generalize turns (List.map bivVal (A0 :: As)) (sub3 (vecVal p) (vecVal q)) = P at *
  generalize turns (List.map bivVal (A0 :: As)) (sub3 (vecVal p') (vecVal q)) = Q at *
  have t1 := dist3_tri X P Y
  have t2 := dist3_tri P Q Y
  have t3 := dist3_tri P X Q
  have t4 := dist3_tri X Y Q
  rw [sym Q Y] at t2
  rw [sym P X] at t3
  rw [abs_le]
  constructor <;> linarith

/-! ## the specification -/

/-- `turn` is what it should be on the axis and in the plane: a vector along the axis of `A` stays,
and a vector across it moves by the angle `|A|` in its circle. -/
theorem C58_turn_axis (A : V3 ℝ) (s : ℝ) : turn A (smul s A) = smul s A := by
  by_cases h0 : norm3 A = 0
  · have hz : A = ⟨0, 0, 0⟩ := by
      have h1 := comp_le_norm3 A
      rw [h0] at h1
      obtain ⟨x, y, z⟩ := A
      simp only [abs_nonpos_iff] at h1
      simp [h1.1, h1.2.1, h1.2.2]
    subst hz
    simp [turn, Spec.add, smul, cross, dot]
  · have h1 : norm3 A ^ 2 = dot A A := by
      unfold norm3
      exact Real.sq_sqrt (add_nonneg (add_nonneg (mul_self_nonneg _) (mul_self_nonneg _))
        (mul_self_nonneg _))
    have h2 : dot A (smul s A) = s * norm3 A ^ 2 := by rw [h1]; simp only [dot, smul]; ring
    have h3 : (1 - Real.cos (norm3 A)) / norm3 A ^ 2 * (s * norm3 A ^ 2)
        = s * (1 - Real.cos (norm3 A)) := by field_simp
    unfold turn
    simp only [h2, h3]
    simp only [Spec.add, smul, cross, V3.mk.injEq]
    refine ⟨?_, ?_, ?_⟩ <;> ring

theorem C58_turn_plane (θ x y z : ℝ) (hθ : 0 ≤ θ) :
    turn ⟨0, 0, θ⟩ ⟨x, y, z⟩
      = ⟨Real.cos θ * x + Real.sin θ * y, Real.cos θ * y - Real.sin θ * x, z⟩ := by
  have h1 : norm3 (⟨0, 0, θ⟩ : V3 ℝ) = θ := by
    unfold norm3 dot
    rw [show (0 : ℝ) * 0 + 0 * 0 + θ * θ = θ ^ 2 by ring, Real.sqrt_sq hθ]
  unfold turn
  simp only [h1]
  rcases hθ.eq_or_lt with rfl | hp
  · simp [Spec.add, smul, cross, dot]
  · simp only [Spec.add, smul, cross, dot, V3.mk.injEq]
    refine ⟨?_, ?_, ?_⟩ <;> field_simp <;> ring

/-! ## the hypotheses are met -/

theorem angle_ones : Angle (⟨⟨1, 1, 1⟩⟩ : BiVector F64) ∧
    norm3 (bivVal (⟨⟨1, 1, 1⟩⟩ : BiVector F64)) ≤ 2 := by
  have f1 := F64.hasVal_one
  constructor
  · intro c hc
    have : c = 1 := by simpa [comps] using hc
    subst this
    refine ⟨f1.1, Or.inr ?_⟩
    rw [f1.2, abs_one]
    exact ⟨zpow_le_one_of_nonpos₀ one_le_two (by norm_num), one_le_zpow₀ one_le_two (by norm_num)⟩
  · simp only [norm3, bivVal, dot, f1.2]
    rw [Real.sqrt_le_iff]
    norm_num

theorem angle_e12 : Angle (⟨⟨0, 0, 1⟩⟩ : BiVector F64) ∧
    norm3 (bivVal (⟨⟨0, 0, 1⟩⟩ : BiVector F64)) ≤ 2 := by
  have f1 := F64.hasVal_one
  have f0 := F64.hasVal_zero'
  constructor
  · intro c hc
    simp only [comps, List.mem_cons, List.not_mem_nil, or_false] at hc
    rcases hc with rfl | rfl | rfl
    · exact ⟨f0.1, Or.inl f0.2⟩
    · exact ⟨f0.1, Or.inl f0.2⟩
    · refine ⟨f1.1, Or.inr ?_⟩
      rw [f1.2, abs_one]
      exact ⟨zpow_le_one_of_nonpos₀ one_le_two (by norm_num), one_le_zpow₀ one_le_two (by norm_num)⟩
  · simp only [norm3, bivVal, dot, f1.2, f0.2]
    rw [Real.sqrt_le_iff]
    norm_num

/-- Three angles, the positions `(8, 4, 2)` and `(1024, 1, 1)`, a correctly rounded library. -/
example : letI := refLibM
    let S := attitude (⟨⟨0, 0, 1⟩⟩ : BiVector F64) [⟨⟨1, 1, 1⟩⟩, ⟨⟨0, 0, 1⟩⟩]
    dist3 (vecVal (S * ((⟨⟨F64.pow2 3, F64.pow2 2, F64.pow2 1⟩⟩ : Vector F64)
        - ⟨⟨F64.pow2 10, F64.pow2 0, F64.pow2 0⟩⟩) * reverse S : ImSpin F64).theVec)
      (turn ⟨0, 0, 1⟩ (turn ⟨1, 1, 1⟩ (turn ⟨0, 0, 1⟩ ⟨-1016, 3, 1⟩))) ≤ 2 ^ (-33 : ℤ) := by
  let _ := refLibM
  have hK : rigidErr 3 (2 ^ (-53 : ℤ)) 2 = 573 * 2 ^ (-53 : ℤ) := by
    unfold rigidErr; push_cast; ring
  have pv : ∀ n : ℤ, -1074 ≤ n → n ≤ 971 → HasVal (F64.pow2 n) ((2 : ℚ) ^ n) :=
    fun n h1 h2 => F64.pow2_val h1 h2
  have v0 := pv 0 (by norm_num) (by norm_num)
  have v1 := pv 1 (by norm_num) (by norm_num)
  have v2 := pv 2 (by norm_num) (by norm_num)
  have v3 := pv 3 (by norm_num) (by norm_num)
  have v10 := pv 10 (by norm_num) (by norm_num)
  have f1 := F64.hasVal_one
  have f0 := F64.hasVal_zero'
  have hdv : sub3 (vecVal ⟨⟨F64.pow2 3, F64.pow2 2, F64.pow2 1⟩⟩)
      (vecVal ⟨⟨F64.pow2 10, F64.pow2 0, F64.pow2 0⟩⟩) = ⟨-1016, 3, 1⟩ := by
    simp only [sub3, vecVal, v0.2, v1.2, v2.2, v3.2, v10.2]
    norm_num
  have hdd : dist3 (vecVal ⟨⟨F64.pow2 3, F64.pow2 2, F64.pow2 1⟩⟩)
      (vecVal ⟨⟨F64.pow2 10, F64.pow2 0, F64.pow2 0⟩⟩) ≤ 1024 := by
    rw [dist3, hdv, norm3, dot, Real.sqrt_le_iff]
    norm_num
  have hbig : (1024 : ℝ) ≤ 2 ^ 999 := by
    rw [show (1024 : ℝ) = 2 ^ 10 by norm_num]
    exact pow_le_pow_right₀ one_le_two (by norm_num)
  have h := (C58_position (2 ^ (-53 : ℤ)) 2 (by positivity) refLibM_ok.1 (⟨⟨0, 0, 1⟩⟩ : BiVector F64)
    [⟨⟨1, 1, 1⟩⟩, ⟨⟨0, 0, 1⟩⟩] (by
      intro A hA
      simp only [List.mem_cons, List.not_mem_nil, or_false] at hA
      rcases hA with rfl | rfl | rfl
      · exact angle_e12
      · exact angle_ones
      · exact angle_e12) (by
      change rigidErr 3 _ _ ≤ _
      rw [hK]; norm_num)
    ⟨⟨F64.pow2 3, F64.pow2 2, F64.pow2 1⟩⟩ ⟨⟨F64.pow2 10, F64.pow2 0, F64.pow2 0⟩⟩
    (by
      intro c hc
      simp only [comps, List.mem_cons, List.not_mem_nil, or_false] at hc
      rcases hc with rfl | rfl | rfl
      · exact v3.1
      · exact v2.1
      · exact v1.1)
    (by
      intro c hc
      simp only [comps, List.mem_cons, List.not_mem_nil, or_false] at hc
      rcases hc with rfl | rfl | rfl
      · exact v10.1
      · exact v0.1
      · exact v0.1) (hdd.trans hbig)).2.1
  rw [hdv] at h
  change _ ≤ rigidErr 3 _ _ * _ + _ at h
  rw [hK] at h
  have e : turns (List.map bivVal [(⟨⟨0, 0, 1⟩⟩ : BiVector F64), ⟨⟨1, 1, 1⟩⟩, ⟨⟨0, 0, 1⟩⟩])
      ⟨-1016, 3, 1⟩ = turn ⟨0, 0, 1⟩ (turn ⟨1, 1, 1⟩ (turn ⟨0, 0, 1⟩ ⟨-1016, 3, 1⟩)) := by
    simp [turns, bivVal, f1.2, f0.2]
  rw [e] at h
  refine h.trans ?_
  have hT : (2 : ℝ) ^ (-1055 : ℤ) ≤ 2 ^ (-53 : ℤ) := zpow_le_zpow_right₀ one_le_two (by norm_num)
  generalize (2 : ℝ) ^ (-1055 : ℤ) = T at *
  norm_num at hT ⊢
  linarith

end Engabra
