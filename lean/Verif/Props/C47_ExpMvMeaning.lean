import Verif.Props.C21_C37_ExpMv
import Mathlib.Analysis.SpecialFunctions.Pow.Complex
import Verif.Spec.NegClifford

/-! # C47: which exponential `exp(MultiVector)` computes

The formula of the code is the sum of the exponential series in the Clifford algebra whose unit
vectors square to `-1`, not in the library's, where they square to `+1`.  The closed form of the
exponential in the library's algebra, and the arguments without vector part or without bivector
part on which the two agree.  Ideal arithmetic. -/

namespace Engabra
open XR Spec Quaternion

theorem N_sq (i : Fin 3) : N i * N i = -1 := by
  unfold N
  rw [CliffordAlgebra.ι_sq_scalar, negEuclid_apply]
  fin_cases i <;> simp

theorem N_anti (i j : Fin 3) (h : i ≠ j) : N i * N j = -(N j * N i) := by
  unfold N
  rw [eq_neg_iff_add_eq_zero, CliffordAlgebra.ι_mul_ι_add_swap]
  have : QuadraticMap.polar negEuclid (Pi.single i 1) (Pi.single j 1) = 0 := by
    simp only [QuadraticMap.polar, negEuclid_apply]
    fin_cases i <;> fin_cases j <;> first | exact absurd rfl h | simp
  rw [this, map_zero]

theorem genN_eq (v : Fin 3 → ℝ) :
    CliffordAlgebra.ι negEuclid v = v 0 • N 0 + v 1 • N 1 + v 2 • N 2 := by
  have : v = v 0 • Pi.single 0 1 + v 1 • Pi.single 1 1 + v 2 • (Pi.single 2 1 : Fin 3 → ℝ) := by
    funext i; fin_cases i <;> simp
  conv_lhs => rw [this]
  simp only [N, map_add, map_smul]

private theorem n10 : N 1 * N 0 = -(N 0 * N 1) := N_anti 1 0 (by decide)
private theorem n20 : N 2 * N 0 = -(N 0 * N 2) := N_anti 2 0 (by decide)
private theorem n21 : N 2 * N 1 = -(N 1 * N 2) := N_anti 2 1 (by decide)
private theorem m10 (x : ClN) : N 1 * (N 0 * x) = -(N 0 * (N 1 * x)) := by
  rw [← mul_assoc, n10, neg_mul, mul_assoc]
private theorem m20 (x : ClN) : N 2 * (N 0 * x) = -(N 0 * (N 2 * x)) := by
  rw [← mul_assoc, n20, neg_mul, mul_assoc]
private theorem m21 (x : ClN) : N 2 * (N 1 * x) = -(N 1 * (N 2 * x)) := by
  rw [← mul_assoc, n21, neg_mul, mul_assoc]
private theorem mq (i : Fin 3) (x : ClN) : N i * (N i * x) = -x := by
  rw [← mul_assoc, N_sq, neg_one_mul]

/-- The two quaternions of a multivector: what it is where `e123 = 1` and where `e123 = -1`. -/
def qp (A : MultiVector ℝ) : ℍ[ℝ] :=
  ⟨A.theSca.theData.d0 + A.theTri.theData.d0, -(A.theVec.theData.d0 - A.theBiv.theData.d0),
    -(A.theVec.theData.d1 - A.theBiv.theData.d1), -(A.theVec.theData.d2 - A.theBiv.theData.d2)⟩

def qn (A : MultiVector ℝ) : ℍ[ℝ] :=
  ⟨A.theSca.theData.d0 - A.theTri.theData.d0, A.theVec.theData.d0 + A.theBiv.theData.d0,
    A.theVec.theData.d1 + A.theBiv.theData.d1, A.theVec.theData.d2 + A.theBiv.theData.d2⟩

/-- The multivector of two quaternions. -/
noncomputable def ofQ (p n : ℍ[ℝ]) : MultiVector ℝ :=
  ⟨⟨⟨(p.re + n.re) / 2⟩⟩, ⟨⟨(n.imI - p.imI) / 2, (n.imJ - p.imJ) / 2, (n.imK - p.imK) / 2⟩⟩,
    ⟨⟨(n.imI + p.imI) / 2, (n.imJ + p.imJ) / 2, (n.imK + p.imK) / 2⟩⟩, ⟨⟨(p.re - n.re) / 2⟩⟩⟩

theorem ofQ_q (A : MultiVector ℝ) : ofQ (qp A) (qn A) = A := by
  ext <;> simp only [ofQ, qp, qn] <;> ring

theorem qp_ofQ (p n : ℍ[ℝ]) : qp (ofQ p n) = p := by
  ext <;> simp only [ofQ, qp] <;> ring

theorem qn_ofQ (p n : ℍ[ℝ]) : qn (ofQ p n) = n := by
  ext <;> simp only [ofQ, qn] <;> ring

def vecP (v : Fin 3 → ℝ) : ℍ[ℝ] := ⟨0, -v 0, -v 1, -v 2⟩
def vecN (v : Fin 3 → ℝ) : ℍ[ℝ] := ⟨0, v 0, v 1, v 2⟩

theorem vecP_c (v : Fin 3 → ℝ) : (vecP v).re = 0 ∧ (vecP v).imI = -v 0 ∧ (vecP v).imJ = -v 1 ∧
    (vecP v).imK = -v 2 := ⟨rfl, rfl, rfl, rfl⟩
theorem vecN_c (v : Fin 3 → ℝ) : (vecN v).re = 0 ∧ (vecN v).imI = v 0 ∧ (vecN v).imJ = v 1 ∧
    (vecN v).imK = v 2 := ⟨rfl, rfl, rfl, rfl⟩

theorem genN_mul (v : Fin 3 → ℝ) (p n : ℍ[ℝ]) :
    CliffordAlgebra.ι negEuclid v * toClN (ofQ p n) = toClN (ofQ (vecP v * p) (vecN v * n)) := by
  rw [genN_eq]
  simp only [toClN, ofQ, Quaternion.re_mul, Quaternion.imI_mul, Quaternion.imJ_mul,
    Quaternion.imK_mul, vecP_c, vecN_c]
  simp only [mul_add, add_mul, smul_mul_assoc, mul_smul_comm, mul_one, n10, n20, n21, m10, m20, m21,
    mq, N_sq, smul_neg, mul_neg, neg_neg]
  module

theorem vecPN_sq (v : Fin 3 → ℝ) : ((vecP v, vecN v) : ℍ[ℝ] × ℍ[ℝ]) * (vecP v, vecN v)
    = algebraMap ℝ (ℍ[ℝ] × ℍ[ℝ]) (negEuclid v) := by
  rw [negEuclid_apply]
  refine Prod.ext ?_ ?_
  · change vecP v * vecP v = algebraMap ℝ ℍ[ℝ] _
    ext <;> simp [vecP_c, Quaternion.algebraMap_def] <;> ring
  · change vecN v * vecN v = algebraMap ℝ ℍ[ℝ] _
    ext <;> simp [vecN_c, Quaternion.algebraMap_def] <;> ring

/-- `v ↦ (vecP v, vecN v)`. -/
def vecQ : (Fin 3 → ℝ) →ₗ[ℝ] ℍ[ℝ] × ℍ[ℝ] where
  toFun v := (vecP v, vecN v)
  map_add' u v := by
    refine Prod.ext ?_ ?_
    · change vecP (u + v) = vecP u + vecP v
      ext <;> simp [vecP_c] <;> ring
    · change vecN (u + v) = vecN u + vecN v
      ext <;> simp [vecN_c]
  map_smul' r v := by
    refine Prod.ext ?_ ?_
    · change vecP (r • v) = r • vecP v
      ext <;> simp [vecP_c]
    · change vecN (r • v) = r • vecN v
      ext <;> simp [vecN_c]

/-- The homomorphism from `ClN` to pairs of quaternions. -/
noncomputable def clnQ : ClN →ₐ[ℝ] ℍ[ℝ] × ℍ[ℝ] := CliffordAlgebra.lift negEuclid ⟨vecQ, vecPN_sq⟩

theorem clnQ_gen (v : Fin 3 → ℝ) : clnQ (CliffordAlgebra.ι negEuclid v) = (vecP v, vecN v) :=
  CliffordAlgebra.lift_ι_apply (Q := negEuclid) vecQ vecPN_sq v

theorem toClN_ofQ_add (p n p' n' : ℍ[ℝ]) :
    toClN (ofQ (p + p') (n + n')) = toClN (ofQ p n) + toClN (ofQ p' n') := by
  simp only [toClN, ofQ, Quaternion.re_add, Quaternion.imI_add, Quaternion.imJ_add,
    Quaternion.imK_add]
  module

theorem toClN_clnQ (x : ClN) : toClN (ofQ (clnQ x).1 (clnQ x).2) = x := by
  induction x using CliffordAlgebra.left_induction with
  | algebraMap r =>
    rw [AlgHom.commutes, Algebra.algebraMap_eq_smul_one (A := ClN)]
    change toClN (ofQ (algebraMap ℝ ℍ[ℝ] r) (algebraMap ℝ ℍ[ℝ] r)) = _
    simp [toClN, ofQ, Quaternion.algebraMap_def]
  | add x y hx hy => rw [map_add, Prod.fst_add, Prod.snd_add, toClN_ofQ_add, hx, hy]
  | ι_mul x m hx =>
    rw [map_mul, clnQ_gen]
    change toClN (ofQ (vecP m * (clnQ x).1) (vecN m * (clnQ x).2)) = _
    rw [← genN_mul, hx]

theorem clnQ_N (i : Fin 3) : clnQ (N i) = (vecP (Pi.single i 1), vecN (Pi.single i 1)) := clnQ_gen _

theorem clnQ_toClN (A : MultiVector ℝ) : clnQ (toClN A) = (qp A, qn A) := by
  simp only [toClN, map_add, map_smul, map_mul, map_one, clnQ_N]
  refine Prod.ext ?_ ?_
  · ext <;> simp [vecP_c, qp] <;> ring
  · ext <;> simp [vecN_c, qn] <;> ring

/-- `toClN` is one to one: the powers in `IsExpN` are determined by `A`. -/
theorem toClN_injective : Function.Injective toClN := by
  intro A B h
  have h1 := clnQ_toClN A
  rw [h, clnQ_toClN B, Prod.mk.injEq] at h1
  rw [← ofQ_q A, ← ofQ_q B, h1.1, h1.2]

/-- Every element of `ClN` has eight coefficients. -/
theorem toClN_surjective : Function.Surjective toClN := fun x => ⟨_, toClN_clnQ x⟩

theorem isExpN_unique {A E F : MultiVector ℝ} (h : IsExpN A E) (h' : IsExpN A F) : E = F := by
  obtain ⟨P, p1, p2⟩ := h
  obtain ⟨Q, q1, q2⟩ := h'
  have : P = Q := funext fun n => toClN_injective ((p1 n).trans (q1 n).symm)
  subst this
  have u : ∀ k < 8, (comps .mv E).getD k 0 = (comps .mv F).getD k 0 :=
    fun k hk => (p2 k hk).unique (q2 k hk)
  ext
  · exact u 0 (by norm_num)
  · exact u 1 (by norm_num)
  · exact u 2 (by norm_num)
  · exact u 3 (by norm_num)
  · exact u 4 (by norm_num)
  · exact u 5 (by norm_num)
  · exact u 6 (by norm_num)
  · exact u 7 (by norm_num)

theorem hasSum_q (q : ℍ[ℝ]) (f : ℍ[ℝ] →+ ℝ) (hf : Continuous f)
    (hs : ∀ (r : ℝ) (x : ℍ[ℝ]), f (r • x) = r * f x) :
    HasSum (fun n : ℕ => f (q ^ n) / (n.factorial : ℝ)) (f (NormedSpace.exp q)) := by
  have h1 := (NormedSpace.exp_series_hasSum_exp' (𝕂 := ℝ) (𝔸 := ℍ[ℝ]) q).map f hf
  convert h1 using 2 with n
  rw [Function.comp_apply, hs, div_eq_inv_mul]

theorem half_sum {f g : ℕ → ℝ} {a b : ℝ} (hf : HasSum (fun n => f n / (n.factorial : ℝ)) a)
    (hg : HasSum (fun n => g n / (n.factorial : ℝ)) b) :
    HasSum (fun n => (f n + g n) / 2 / (n.factorial : ℝ)) ((a + b) / 2) ∧
    HasSum (fun n => (f n - g n) / 2 / (n.factorial : ℝ)) ((a - b) / 2) := by
  constructor
  · rw [show (fun n => (f n + g n) / 2 / (n.factorial : ℝ))
      = fun n => (f n / (n.factorial : ℝ) + g n / (n.factorial : ℝ)) / 2 from funext fun n => by ring]
    exact (hf.add hg).div_const 2
  · rw [show (fun n => (f n - g n) / 2 / (n.factorial : ℝ))
      = fun n => (f n / (n.factorial : ℝ) - g n / (n.factorial : ℝ)) / 2 from funext fun n => by ring]
    exact (hf.sub hg).div_const 2

/-- The exponential in `ClN` from two quaternion exponentials. -/
theorem isExpN_q (A : MultiVector ℝ) :
    IsExpN A (ofQ (NormedSpace.exp (qp A)) (NormedSpace.exp (qn A))) := by
  refine ⟨fun n => ofQ (qp A ^ n) (qn A ^ n), fun n => ?_, ?_⟩
  · have h := toClN_clnQ (toClN A ^ n)
    rw [map_pow, clnQ_toClN] at h
    exact h
  · have re := fun q => hasSum_q q ⟨⟨fun q => q.re, rfl⟩, fun _ _ => rfl⟩ Quaternion.continuous_re
      fun _ _ => rfl
    have hI := fun q => hasSum_q q ⟨⟨fun q => q.imI, rfl⟩, fun _ _ => rfl⟩ Quaternion.continuous_imI
      fun _ _ => rfl
    have hJ := fun q => hasSum_q q ⟨⟨fun q => q.imJ, rfl⟩, fun _ _ => rfl⟩ Quaternion.continuous_imJ
      fun _ _ => rfl
    have hK := fun q => hasSum_q q ⟨⟨fun q => q.imK, rfl⟩, fun _ _ => rfl⟩ Quaternion.continuous_imK
      fun _ _ => rfl
    intro k hk
    match k, hk with
    | 0, _ => exact (half_sum (re (qp A)) (re (qn A))).1
    | 1, _ => exact (half_sum (hI (qn A)) (hI (qp A))).2
    | 2, _ => exact (half_sum (hJ (qn A)) (hJ (qp A))).2
    | 3, _ => exact (half_sum (hK (qn A)) (hK (qp A))).2
    | 4, _ => exact (half_sum (hI (qn A)) (hI (qp A))).1
    | 5, _ => exact (half_sum (hJ (qn A)) (hJ (qp A))).1
    | 6, _ => exact (half_sum (hK (qn A)) (hK (qp A))).1
    | 7, _ => exact (half_sum (re (qp A)) (re (qn A))).2

/-- The difference and the sum of the vector part and the dual of the bivector part. -/
def vecMinus (A : MultiVector ℝ) : Vector ℝ := ⟨⟨A.theVec.theData.d0 - A.theBiv.theData.d0,
  A.theVec.theData.d1 - A.theBiv.theData.d1, A.theVec.theData.d2 - A.theBiv.theData.d2⟩⟩
def vecPlus (A : MultiVector ℝ) : Vector ℝ := ⟨⟨A.theVec.theData.d0 + A.theBiv.theData.d0,
  A.theVec.theData.d1 + A.theBiv.theData.d1, A.theVec.theData.d2 + A.theBiv.theData.d2⟩⟩

theorem length3 (x y z : ℝ) : length .vec (⟨⟨x, y, z⟩⟩ : Vector ℝ) = √(x ^ 2 + (y ^ 2 + z ^ 2)) := by
  simp only [length, comps, List.map_cons, List.map_nil, List.sum_cons, List.sum_nil, add_zero]

theorem norm_im (q : ℍ[ℝ]) : ‖q.im‖ = √(q.imI ^ 2 + (q.imJ ^ 2 + q.imK ^ 2)) := by
  rw [← Real.sqrt_mul_self (norm_nonneg q.im), ← Quaternion.normSq_eq_norm_mul_self,
    Quaternion.normSq_def']
  congr 1
  simp only [Quaternion.re_im, Quaternion.imI_im, Quaternion.imJ_im, Quaternion.imK_im]
  ring

theorem norm_qp (A : MultiVector ℝ) : ‖(qp A).im‖ = length .vec (vecMinus A) := by
  rw [norm_im, vecMinus, length3]
  congr 1
  simp only [qp]; ring

theorem norm_qn (A : MultiVector ℝ) : ‖(qn A).im‖ = length .vec (vecPlus A) := by
  rw [norm_im, vecPlus, length3]
  congr 1

/-- The formula of the code with arbitrary values `sp`, `sn` in place of `sync`. -/
noncomputable def formula (A : MultiVector ℝ) (sp sn : ℝ) : MultiVector ℝ :=
  let p := Real.exp (A.theSca.theData.d0 + A.theTri.theData.d0)
  let n := Real.exp (A.theSca.theData.d0 - A.theTri.theData.d0)
  ofQ ⟨p * Real.cos (length .vec (vecMinus A)), p * (sp * (qp A).imI), p * (sp * (qp A).imJ),
      p * (sp * (qp A).imK)⟩
    ⟨n * Real.cos (length .vec (vecPlus A)), n * (sn * (qn A).imI), n * (sn * (qn A).imJ),
      n * (sn * (qn A).imK)⟩

theorem formula_exp (A : MultiVector ℝ) : IsExpN A (formula A
    (Real.sin (length .vec (vecMinus A)) / length .vec (vecMinus A))
    (Real.sin (length .vec (vecPlus A)) / length .vec (vecPlus A))) := by
  have h := isExpN_q A
  rw [Quaternion.exp_eq, Quaternion.exp_eq, norm_qp, norm_qn, ← Real.exp_eq_exp_ℝ] at h
  convert h using 1
  refine congrArg₂ ofQ ?_ ?_
  · rw [show (qp A).re = A.theSca.theData.d0 + A.theTri.theData.d0 from rfl]
    ext <;> simp
  · rw [show (qn A).re = A.theSca.theData.d0 - A.theTri.theData.d0 from rfl]
    ext <;> simp

theorem formula_code (A : MultiVector ℝ) : expMvR A = formula A (syncR (length .vec (vecMinus A)))
    (syncR (length .vec (vecPlus A))) := by
  have h1 : √((A.theVec.theData.d2 - A.theBiv.theData.d2) * (A.theVec.theData.d2 - A.theBiv.theData.d2)
      + (A.theVec.theData.d1 + -A.theBiv.theData.d1) * (A.theVec.theData.d1 + -A.theBiv.theData.d1)
      + (A.theVec.theData.d0 - A.theBiv.theData.d0) * (A.theVec.theData.d0 - A.theBiv.theData.d0))
      = length .vec (vecMinus A) := by
    rw [vecMinus, length3]; congr 1; ring
  have h2 : √((A.theVec.theData.d2 + A.theBiv.theData.d2) * (A.theVec.theData.d2 + A.theBiv.theData.d2)
      + (A.theVec.theData.d1 - -A.theBiv.theData.d1) * (A.theVec.theData.d1 - -A.theBiv.theData.d1)
      + (A.theVec.theData.d0 + A.theBiv.theData.d0) * (A.theVec.theData.d0 + A.theBiv.theData.d0))
      = length .vec (vecPlus A) := by
    rw [vecPlus, length3]; congr 1; ring
  unfold expMvR formula
  simp only [h1, h2]
  generalize length .vec (vecMinus A) = lp
  generalize length .vec (vecPlus A) = ln
  have e2 : Real.exp (A.theSca.theData.d0 - A.theTri.theData.d0)
      = Real.exp A.theSca.theData.d0 * Real.exp (-A.theTri.theData.d0) := by
    rw [← Real.exp_add, sub_eq_add_neg]
  rw [Real.exp_add, e2]
  ext <;> simp [ofQ, qp, qn] <;> ring

/-- `sync` against `sin x / x`, times a component no larger than `x`. -/
theorem sync_comp {x c : ℝ} (hx : 0 ≤ x) (hc : |c| ≤ x) :
    |syncR x * c - Real.sin x / x * c| ≤ 1 / 10 ^ 31 := by
  rw [← sub_mul, abs_mul]
  rcases hx.eq_or_lt with h0 | h0
  · rw [← h0] at hc
    rw [le_antisymm hc (abs_nonneg _), mul_zero]; positivity
  · by_cases h1 : x < 1 / 10000
    · calc |syncR x - Real.sin x / x| * |c| ≤ (1 / 10000) ^ 6 / 4410 * (1 / 10000) := by
            refine mul_le_mul ((syncR_error x h0 h1).trans ?_) (hc.trans h1.le) (abs_nonneg _)
              (by positivity)
            exact div_le_div_of_nonneg_right (pow_le_pow_left₀ hx h1.le 6) (by norm_num)
        _ ≤ _ := by norm_num
    · rw [syncR, if_neg h1, sub_self, abs_zero, zero_mul]; positivity

theorem sync_exact {x c : ℝ} (hx : x = 0 ∨ 1 / 10000 ≤ x) (hc : |c| ≤ x) :
    syncR x * c = Real.sin x / x * c := by
  rcases hx with h0 | h0
  · rw [h0] at hc
    rw [abs_eq_zero.1 (le_antisymm hc (abs_nonneg _)), mul_zero, mul_zero]
  · rw [syncR, if_neg (not_lt.2 h0)]

theorem im_le (q : ℍ[ℝ]) : |q.imI| ≤ ‖q.im‖ ∧ |q.imJ| ≤ ‖q.im‖ ∧ |q.imK| ≤ ‖q.im‖ := by
  rw [norm_im]
  refine ⟨?_, ?_, ?_⟩ <;> apply Real.abs_le_sqrt <;>
    nlinarith [sq_nonneg q.imI, sq_nonneg q.imJ, sq_nonneg q.imK]

/-- **C47.**  `exp(MultiVector)` is the exponential series of the wrong algebra, the one in which
`e1`, `e2`, `e3` square to `-1`: for every multivector whose first components are valid and for which
the vector plus and minus the dual of the bivector have length zero or at least `10^-4`. -/
theorem C47_wrong_algebra (A : MultiVector ℝ) (h : ValidFirst A)
    (hm : length .vec (vecMinus A) = 0 ∨ 1 / 10000 ≤ length .vec (vecMinus A))
    (hp : length .vec (vecPlus A) = 0 ∨ 1 / 10000 ≤ length .vec (vecPlus A)) :
    ∃ E : MultiVector ℝ, expMv (lift .mv A) = lift .mv E ∧ IsExpN A E := by
  refine ⟨expMvR A, expMv_lift A h, ?_⟩
  have e : expMvR A = formula A (Real.sin (length .vec (vecMinus A)) / length .vec (vecMinus A))
      (Real.sin (length .vec (vecPlus A)) / length .vec (vecPlus A)) := by
    rw [formula_code]
    have h1 := im_le (qp A)
    have h2 := im_le (qn A)
    rw [norm_qp] at h1
    rw [norm_qn] at h2
    unfold formula
    simp only [sync_exact hm h1.1, sync_exact hm h1.2.1, sync_exact hm h1.2.2,
      sync_exact hp h2.1, sync_exact hp h2.2.1, sync_exact hp h2.2.2]
  rw [e]
  exact formula_exp A

/-- **C47.**  Without the condition on the two lengths: every component is within
`10^-31 e^s cosh t` of that series (`s` the scalar, `t` the trivector component). -/
theorem C47_wrong_algebra_bound (A : MultiVector ℝ) (h : ValidFirst A) :
    ∃ E F : MultiVector ℝ, expMv (lift .mv A) = lift .mv E ∧ IsExpN A F ∧
      ∀ k < 8, |(comps .mv E).getD k 0 - (comps .mv F).getD k 0|
        ≤ Real.exp A.theSca.theData.d0 * Real.cosh A.theTri.theData.d0 * (1 / 10 ^ 31) := by
  refine ⟨expMvR A, _, expMv_lift A h, formula_exp A, ?_⟩
  rw [formula_code]
  have h1 := im_le (qp A)
  have h2 := im_le (qn A)
  rw [norm_qp] at h1
  rw [norm_qn] at h2
  have l1 := length_nonneg .vec (vecMinus A)
  have l2 := length_nonneg .vec (vecPlus A)
  have e : Real.exp A.theSca.theData.d0 * Real.cosh A.theTri.theData.d0 * (1 / 10 ^ 31)
      = (Real.exp (A.theSca.theData.d0 + A.theTri.theData.d0) * (1 / 10 ^ 31)
        + Real.exp (A.theSca.theData.d0 - A.theTri.theData.d0) * (1 / 10 ^ 31)) / 2 := by
    rw [Real.cosh_eq, Real.exp_add, sub_eq_add_neg, Real.exp_add]; ring
  rw [e]
  have key : ∀ {x y c d : ℝ}, 0 ≤ x → |c| ≤ x → 0 ≤ y → |d| ≤ y →
      |Real.exp (A.theSca.theData.d0 + A.theTri.theData.d0) * (syncR x * c)
        - Real.exp (A.theSca.theData.d0 + A.theTri.theData.d0) * (Real.sin x / x * c)|
        ≤ Real.exp (A.theSca.theData.d0 + A.theTri.theData.d0) * (1 / 10 ^ 31) ∧
      |Real.exp (A.theSca.theData.d0 - A.theTri.theData.d0) * (syncR y * d)
        - Real.exp (A.theSca.theData.d0 - A.theTri.theData.d0) * (Real.sin y / y * d)|
        ≤ Real.exp (A.theSca.theData.d0 - A.theTri.theData.d0) * (1 / 10 ^ 31) := by
    intro x y c d hx hc hy hd
    rw [← mul_sub, ← mul_sub, abs_mul, abs_mul, abs_of_pos (Real.exp_pos _),
      abs_of_pos (Real.exp_pos _)]
    exact ⟨mul_le_mul_of_nonneg_left (sync_comp hx hc) (Real.exp_pos _).le,
      mul_le_mul_of_nonneg_left (sync_comp hy hd) (Real.exp_pos _).le⟩
  have cI := key l1 h1.1 l2 h2.1
  have cJ := key l1 h1.2.1 l2 h2.2.1
  have cK := key l1 h1.2.2 l2 h2.2.2
  have comb : ∀ {a a' b b' p n : ℝ}, |a - a'| ≤ p ∧ |b - b'| ≤ n →
      |(b - a) / 2 - (b' - a') / 2| ≤ (p + n) / 2 ∧ |(b + a) / 2 - (b' + a') / 2| ≤ (p + n) / 2 := by
    intro a a' b b' p n hh
    have ha := abs_le.1 hh.1
    have hb := abs_le.1 hh.2
    constructor <;> rw [abs_le] <;> constructor <;> linarith
  have same : ∀ x : ℝ, |x - x| ≤ (Real.exp (A.theSca.theData.d0 + A.theTri.theData.d0) * (1 / 10 ^ 31)
      + Real.exp (A.theSca.theData.d0 - A.theTri.theData.d0) * (1 / 10 ^ 31)) / 2 := fun x => by
    rw [sub_self, abs_zero]; positivity
  intro k hk
  match k, hk with
  | 0, _ => exact same _
  | 1, _ => exact (comb cI).1
  | 2, _ => exact (comb cJ).1
  | 3, _ => exact (comb cK).1
  | 4, _ => exact (comb cI).2
  | 5, _ => exact (comb cJ).2
  | 6, _ => exact (comb cK).2
  | 7, _ => exact same _

/-! ## The exponential that was meant -/

/-- The central element `w.re + w.im e123`. -/
def cx (w : ℂ) : MultiVector ℝ := ⟨⟨⟨w.re⟩⟩, ⟨⟨0, 0, 0⟩⟩, ⟨⟨0, 0, 0⟩⟩, ⟨⟨w.im⟩⟩⟩

theorem cx_mul (w z : ℂ) : cx (w * z) = cx w * cx z := by
  ext <;> simp [cx, engabra, Complex.mul_re, Complex.mul_im] <;> ring
theorem cx_add (w z : ℂ) : cx (w + z) = cx w + cx z := by
  ext <;> simp [cx, engabra]
theorem cx_one : cx 1 = 1 := by ext <;> simp [cx, engabra]
theorem cx_zero : cx 0 = 0 := by ext <;> simp [cx, engabra]
theorem cx_comm (w : ℂ) (X : MultiVector ℝ) : X * cx w = cx w * X := by
  ext <;> simp only [cx, engabra] <;> ring

theorem powMv_eq (A : MultiVector ℝ) (n : ℕ) : powMv A n = A ^ n := by
  induction n with
  | zero => rfl
  | succ n ih => rw [pow_succ, ← ih]; rfl

/-- Component `k` of `cx w * X` is a linear function of `w`. -/
noncomputable def compL (X : MultiVector ℝ) (k : Fin 8) : ℂ →ₗ[ℝ] ℝ where
  toFun w := (comps .mv (cx w * X)).getD k 0
  map_add' u v := by
    fin_cases k <;> simp [comps, engabra, cx] <;> ring
  map_smul' r v := by
    fin_cases k <;> simp [comps, engabra, cx] <;> ring

theorem hasSum_cx (w : ℂ) (X : MultiVector ℝ) (k : Fin 8) :
    HasSum (fun n : ℕ => (comps .mv (cx (w ^ n) * X)).getD k 0 / (n.factorial : ℝ))
      ((comps .mv (cx (Complex.exp w) * X)).getD k 0) := by
  have h := (NormedSpace.exp_series_hasSum_exp' (𝕂 := ℝ) (𝔸 := ℂ) w).mapL
    (LinearMap.toContinuousLinearMap (compL X k))
  rw [← Complex.exp_eq_exp_ℂ] at h
  have e : (fun n : ℕ => (comps .mv (cx (w ^ n) * X)).getD k 0 / (n.factorial : ℝ))
      = fun n : ℕ => (LinearMap.toContinuousLinearMap (compL X k))
        (((n.factorial : ℝ))⁻¹ • w ^ n) := by
    funext n
    rw [map_smul, smul_eq_mul, div_eq_inv_mul]
    rfl
  rw [e]
  exact h

theorem getD_add (X Y : MultiVector ℝ) (k : Fin 8) : (comps .mv (X + Y)).getD k 0
    = (comps .mv X).getD k 0 + (comps .mv Y).getD k 0 := by
  fin_cases k <;> rfl

theorem isExp_of_fin {A E : MultiVector ℝ} (h : ∀ k : Fin 8,
    HasSum (fun n : ℕ => (comps .mv (A ^ n)).getD k 0 / (n.factorial : ℝ))
      ((comps .mv E).getD k 0)) : IsExp A E := by
  intro k hk
  simp only [powMv_eq]
  exact h ⟨k, hk⟩

/-- `A = a P + b Q` with central `a`, `b` and complementary idempotents. -/
theorem isExp_spectral {A P Q : MultiVector ℝ} (a b : ℂ) (hA : A = cx a * P + cx b * Q)
    (h1 : P + Q = 1) (hP : P * P = P) (hQ : Q * Q = Q) (hPQ : P * Q = 0) (hQP : Q * P = 0) :
    IsExp A (cx (Complex.exp a) * P + cx (Complex.exp b) * Q) := by
  have hn : ∀ n : ℕ, A ^ n = cx (a ^ n) * P + cx (b ^ n) * Q := by
    intro n
    induction n with
    | zero => rw [pow_zero, pow_zero, pow_zero, cx_one, one_mul, one_mul, h1]
    | succ n ih =>
      rw [pow_succ, ih, hA, mul_add, add_mul, add_mul, pow_succ, pow_succ, cx_mul, cx_mul]
      have e : ∀ (u v : ℂ) (X Y : MultiVector ℝ), cx u * X * (cx v * Y) = cx u * cx v * (X * Y) := by
        intro u v X Y
        rw [mul_assoc, ← mul_assoc X, cx_comm, mul_assoc, mul_assoc]
      rw [e, e, e, e, hP, hQ, hPQ, hQP, mul_zero, mul_zero, add_zero, zero_add]
  refine isExp_of_fin fun k => ?_
  simp only [hn, getD_add, add_div]
  exact (hasSum_cx a P k).add (hasSum_cx b Q k)

theorem isExp_nilpotent {F : MultiVector ℝ} (c : ℂ) (hF : F * F = 0) :
    IsExp (cx c + F) (cx (Complex.exp c) * (1 + F)) := by
  have hn : ∀ n : ℕ, (cx c + F) ^ (n + 1)
      = cx (c ^ (n + 1)) * 1 + ((n + 1 : ℕ) : ℝ) • (cx (c ^ n) * F) := by
    intro n
    induction n with
    | zero => rw [zero_add, pow_one, pow_one, pow_zero, cx_one, one_mul, mul_one, Nat.cast_one, one_smul]
    | succ n ih =>
      rw [pow_succ, ih, mul_one, mul_add, add_mul, add_mul, smul_mul_assoc, smul_mul_assoc,
        mul_assoc (cx (c ^ n)) F F, hF, mul_zero, smul_zero, add_zero, mul_one,
        mul_assoc (cx (c ^ n)) F, cx_comm c F, ← mul_assoc, ← cx_mul (c ^ n), ← pow_succ, ← cx_mul,
        ← pow_succ]
      push_cast
      module
  refine isExp_of_fin fun k => ?_
  rw [mul_add, getD_add]
  have h1 := hasSum_cx c 1 k
  have h2 := hasSum_cx c F k
  have h3 : HasSum (fun n : ℕ => if n = 0 then (0 : ℝ)
      else (comps .mv (cx (c ^ (n - 1)) * F)).getD k 0 / ((n - 1).factorial : ℝ))
      ((comps .mv (cx (Complex.exp c) * F)).getD k 0) := by
    rw [← hasSum_nat_add_iff' 1]
    simpa using h2
  convert h1.add h3 using 2 with n
  cases n with
  | zero => simp [cx_one]
  | succ n =>
    rw [hn, getD_add, add_div, if_neg (Nat.succ_ne_zero n), Nat.add_sub_cancel]
    congr 1
    have e : (comps .mv (((n + 1 : ℕ) : ℝ) • (cx (c ^ n) * F))).getD k 0
        = ((n + 1 : ℕ) : ℝ) * (comps .mv (cx (c ^ n) * F)).getD k 0 := by fin_cases k <;> rfl
    rw [e, Nat.factorial_succ, Nat.cast_mul]
    have : ((n + 1 : ℕ) : ℝ) ≠ 0 := by positivity
    field_simp

/-- Vector and bivector part together. -/
def vb (A : MultiVector ℝ) : MultiVector ℝ := ⟨⟨⟨0⟩⟩, A.theVec, A.theBiv, ⟨⟨0⟩⟩⟩

/-- Scalar and trivector part, as a complex number. -/
def st (A : MultiVector ℝ) : ℂ := ⟨A.theSca.theData.d0, A.theTri.theData.d0⟩

theorem split_mv (A : MultiVector ℝ) : A = cx (st A) + vb A := by
  ext <;> simp [cx, st, vb, engabra]

/-- The square of the vector and bivector part: `v·v - b·b + 2 (v·b) e123`. -/
noncomputable def disc (A : MultiVector ℝ) : ℂ :=
  ⟨A.theVec.theData.d0 ^ 2 + A.theVec.theData.d1 ^ 2 + A.theVec.theData.d2 ^ 2
    - (A.theBiv.theData.d0 ^ 2 + A.theBiv.theData.d1 ^ 2 + A.theBiv.theData.d2 ^ 2),
   2 * (A.theVec.theData.d0 * A.theBiv.theData.d0 + A.theVec.theData.d1 * A.theBiv.theData.d1
    + A.theVec.theData.d2 * A.theBiv.theData.d2)⟩

theorem vb_sq (A : MultiVector ℝ) : vb A * vb A = cx (disc A) := by
  ext <;> simp only [cx, disc, vb, engabra] <;> ring

/-- **C47.**  The exponential series of a multivector in the library's algebra converges: for any
complex `z` with `z² = v·v - b·b + 2 (v·b) i`, its sum is
`e^(s + t e123) (cosh z + (sinh z / z) (v + b))`, complex numbers being read as scalar plus
trivector (and `sinh z / z` as one for `z = 0`). -/
theorem C47_series (A : MultiVector ℝ) (z : ℂ) (hz : z * z = disc A) :
    IsExp A (cx (Complex.exp (st A)) * (cx (Complex.cosh z)
      + cx (if z = 0 then 1 else Complex.sinh z / z) * vb A)) := by
  by_cases h0 : z = 0
  · subst h0
    rw [if_pos rfl, Complex.cosh_zero, cx_one, one_mul]
    have h := isExp_nilpotent (F := vb A) (st A) (by
      rw [vb_sq, ← hz, mul_zero, cx_zero])
    rwa [← split_mv] at h
  · rw [if_neg h0]
    set F := vb A with hF
    have hFF : F * F = cx (z * z) := by rw [hz]; exact vb_sq A
    have e : ∀ (u v : ℂ), cx u * F * (cx v * F) = cx (u * v * (z * z)) := by
      intro u v
      rw [mul_assoc, ← mul_assoc F, cx_comm, mul_assoc (cx v), hFF, ← cx_mul, ← cx_mul, mul_assoc]
    have e1 : ∀ (u v : ℂ), cx u * F * cx v = cx (u * v) * F := by
      intro u v
      rw [cx_comm, ← mul_assoc, ← cx_mul, mul_comm]
    have e2 : ∀ (u v : ℂ), cx u * (cx v * F) = cx (u * v) * F := by
      intro u v
      rw [← mul_assoc, ← cx_mul]
    have key : ∀ u v u' v' : ℂ, (cx u + cx v * F) * (cx u' + cx v' * F)
        = cx (u * u' + v * v' * (z * z)) + cx (u * v' + v * u') * F := by
      intro u v u' v'
      rw [add_mul, mul_add, mul_add, e, e1, e2, ← cx_mul, cx_add, cx_add, add_mul]
      abel
    have h := isExp_spectral (A := A) (P := cx (1 / 2) + cx (1 / (2 * z)) * F)
      (Q := cx (1 / 2) + cx (-(1 / (2 * z))) * F) (st A + z) (st A - z) ?_ ?_ ?_ ?_ ?_ ?_
    · convert h using 1
      rw [mul_add, mul_add, mul_add, e2, e2, e2, ← cx_mul, ← cx_mul, ← cx_mul]
      rw [show ∀ a b c d : MultiVector ℝ, a + b * F + (c + d * F) = (a + c) + (b + d) * F from
        fun a b c d => by rw [add_mul]; abel, ← cx_add, ← cx_add]
      rw [Complex.exp_add, sub_eq_add_neg, Complex.exp_add]
      congr 2
      · rw [Complex.cosh]; ring
      · congr 1
        rw [Complex.sinh]; field_simp; ring
    · conv_lhs => rw [split_mv A]
      rw [mul_add, mul_add, e2, e2, ← cx_mul, ← cx_mul]
      rw [show ∀ a b c d : MultiVector ℝ, a + b * F + (c + d * F) = (a + c) + (b + d) * F from
        fun a b c d => by rw [add_mul]; abel, ← cx_add, ← cx_add]
      rw [show (st A + z) * (1 / 2) + (st A - z) * (1 / 2) = st A by ring,
        show (st A + z) * (1 / (2 * z)) + (st A - z) * -(1 / (2 * z)) = 1 by field_simp; ring,
        cx_one, one_mul]
    · rw [show ∀ a b c d : MultiVector ℝ, a + b * F + (c + d * F) = (a + c) + (b + d) * F from
        fun a b c d => by rw [add_mul]; abel, ← cx_add, ← cx_add, add_neg_cancel, cx_zero, zero_mul,
        add_zero, add_halves, cx_one]
    · rw [key]
      congr 2
      · field_simp; ring
      · congr 1; field_simp; ring
    · rw [key]
      congr 2
      · field_simp; ring
      · congr 1; field_simp; ring
    · rw [key, show (1 / 2 * (1 / 2) + 1 / (2 * z) * -(1 / (2 * z)) * (z * z) : ℂ) = 0 by
          field_simp; ring,
        show (1 / 2 * -(1 / (2 * z)) + 1 / (2 * z) * (1 / 2) : ℂ) = 0 by ring, cx_zero, zero_mul,
        add_zero]
    · rw [key, show (1 / 2 * (1 / 2) + -(1 / (2 * z)) * (1 / (2 * z)) * (z * z) : ℂ) = 0 by
          field_simp; ring,
        show (1 / 2 * (1 / (2 * z)) + -(1 / (2 * z)) * (1 / 2) : ℂ) = 0 by ring, cx_zero, zero_mul,
        add_zero]

theorem exists_root (w : ℂ) : ∃ z : ℂ, z * z = w :=
  ⟨w ^ ((2 : ℕ)⁻¹ : ℂ), by rw [← pow_two, Complex.cpow_nat_inv_pow w (by norm_num)]⟩

/-- **C47.**  Every multivector has exactly one exponential. -/
theorem C47_exists_unique (A : MultiVector ℝ) : ∃! E : MultiVector ℝ, IsExp A E := by
  obtain ⟨z, hz⟩ := exists_root (disc A)
  exact ⟨_, C47_series A z hz, fun F h => isExp_unique h (C47_series A z hz)⟩

/-- Scalar `a`, vector `b v`, bivector `c v`, trivector `d`. -/
def shape (a b c d : ℝ) (v : A3 ℝ) : MultiVector ℝ :=
  ⟨⟨⟨a⟩⟩, ⟨⟨b * v.d0, b * v.d1, b * v.d2⟩⟩, ⟨⟨c * v.d0, c * v.d1, c * v.d2⟩⟩, ⟨⟨d⟩⟩⟩

theorem isExp_noBiv (s t r q : ℝ) (v : Vector ℝ) (hr : r = length .vec v)
    (hq : q = if r = 0 then 1 else Real.sinh r / r) :
    IsExp (⟨⟨⟨s⟩⟩, v, ⟨⟨0, 0, 0⟩⟩, ⟨⟨t⟩⟩⟩ : MultiVector ℝ)
      (shape (Real.exp s * Real.cos t * Real.cosh r) (Real.exp s * Real.cos t * q)
        (Real.exp s * Real.sin t * q) (Real.exp s * Real.sin t * Real.cosh r) v.theData) := by
  obtain ⟨⟨x, y, w⟩⟩ := v
  rw [length3 x y w] at hr
  have hr2 : r * r = x ^ 2 + (y ^ 2 + w ^ 2) := by
    rw [hr, Real.mul_self_sqrt (by positivity)]
  have h := C47_series (⟨⟨⟨s⟩⟩, ⟨⟨x, y, w⟩⟩, ⟨⟨0, 0, 0⟩⟩, ⟨⟨t⟩⟩⟩ : MultiVector ℝ) (r : ℂ) (by
    apply Complex.ext
    · simp only [disc, ← Complex.ofReal_mul, Complex.ofReal_re]; rw [hr2]; ring
    · simp only [disc, ← Complex.ofReal_mul, Complex.ofReal_im]; ring)
  have hq : (if (r : ℂ) = 0 then 1 else Complex.sinh r / r) = ((q : ℝ) : ℂ) := by
    by_cases h0 : r = 0
    · simp [hq, h0]
    · simp [hq, h0]
  rw [hq, ← Complex.ofReal_cosh] at h
  convert h using 1
  ext <;> simp [shape, cx, vb, st, engabra, Complex.exp_re, Complex.exp_im] <;> ring

theorem isExp_noVec (s t r q : ℝ) (B : BiVector ℝ) (hr : r = length .biv B)
    (hq : q = if r = 0 then 1 else Real.sin r / r) :
    IsExp (⟨⟨⟨s⟩⟩, ⟨⟨0, 0, 0⟩⟩, B, ⟨⟨t⟩⟩⟩ : MultiVector ℝ)
      (shape (Real.exp s * Real.cos t * Real.cos r) (-(Real.exp s * Real.sin t * q))
        (Real.exp s * Real.cos t * q) (Real.exp s * Real.sin t * Real.cos r) B.theData) := by
  obtain ⟨⟨x, y, w⟩⟩ := B
  replace hr : r = √(x ^ 2 + (y ^ 2 + w ^ 2)) := hr.trans (length3 x y w)
  have hr2 : r * r = x ^ 2 + (y ^ 2 + w ^ 2) := by
    rw [hr, Real.mul_self_sqrt (by positivity)]
  have h := C47_series (⟨⟨⟨s⟩⟩, ⟨⟨0, 0, 0⟩⟩, ⟨⟨x, y, w⟩⟩, ⟨⟨t⟩⟩⟩ : MultiVector ℝ) (r * Complex.I) (by
    rw [show (r : ℂ) * Complex.I * (r * Complex.I) = ((-(r * r) : ℝ) : ℂ) by
      push_cast; linear_combination (r : ℂ) * r * Complex.I_mul_I]
    apply Complex.ext
    · simp only [disc, Complex.ofReal_re]; rw [hr2]; ring
    · simp only [disc, Complex.ofReal_im]; ring)
  have hq : (if (r : ℂ) * Complex.I = 0 then 1 else Complex.sinh (r * Complex.I) / (r * Complex.I))
      = ((q : ℝ) : ℂ) := by
    by_cases h0 : r = 0
    · simp [hq, h0]
    · rw [if_neg (by simp [h0, Complex.I_ne_zero]), Complex.sinh_mul_I,
        mul_div_mul_right _ _ Complex.I_ne_zero]
      simp [hq, h0]
  rw [hq, Complex.cosh_mul_I, ← Complex.ofReal_cos] at h
  generalize Real.cos r = cr at *
  convert h using 1
  ext <;> simp [shape, cx, vb, st, engabra, Complex.exp_re, Complex.exp_im] <;> ring

/-- The code's result without a bivector part. -/
theorem expMvR_noBiv (s t r q : ℝ) (v : Vector ℝ) (hr : r = length .vec v) (hq : q = syncR r) :
    expMvR (⟨⟨⟨s⟩⟩, v, ⟨⟨0, 0, 0⟩⟩, ⟨⟨t⟩⟩⟩ : MultiVector ℝ) =
      shape (Real.exp s * Real.cosh t * Real.cos r) (Real.exp s * Real.cosh t * q)
        (-(Real.exp s * Real.sinh t * q)) (Real.exp s * Real.sinh t * Real.cos r) v.theData := by
  rw [formula_code]
  obtain ⟨⟨x, y, w⟩⟩ := v
  have h1 : vecMinus (⟨⟨⟨s⟩⟩, ⟨⟨x, y, w⟩⟩, ⟨⟨0, 0, 0⟩⟩, ⟨⟨t⟩⟩⟩ : MultiVector ℝ) = ⟨⟨x, y, w⟩⟩ := by
    simp [vecMinus]
  have h2 : vecPlus (⟨⟨⟨s⟩⟩, ⟨⟨x, y, w⟩⟩, ⟨⟨0, 0, 0⟩⟩, ⟨⟨t⟩⟩⟩ : MultiVector ℝ) = ⟨⟨x, y, w⟩⟩ := by
    simp [vecPlus]
  simp only [formula, h1, h2, qp, qn, ofQ, Real.cosh_eq, Real.sinh_eq, shape, ← hr, ← hq]
  ext <;> simp [Real.exp_add, sub_eq_add_neg] <;> ring

/-- The code's result without a vector part. -/
theorem expMvR_noVec (s t r q : ℝ) (B : BiVector ℝ) (hr : r = length .biv B) (hq : q = syncR r) :
    expMvR (⟨⟨⟨s⟩⟩, ⟨⟨0, 0, 0⟩⟩, B, ⟨⟨t⟩⟩⟩ : MultiVector ℝ) =
      shape (Real.exp s * Real.cosh t * Real.cos r) (-(Real.exp s * Real.sinh t * q))
        (Real.exp s * Real.cosh t * q) (Real.exp s * Real.sinh t * Real.cos r) B.theData := by
  rw [formula_code]
  obtain ⟨⟨x, y, w⟩⟩ := B
  have e : r = √(x ^ 2 + (y ^ 2 + w ^ 2)) := hr.trans (length3 x y w)
  have h1 : length .vec (vecMinus (⟨⟨⟨s⟩⟩, ⟨⟨0, 0, 0⟩⟩, ⟨⟨x, y, w⟩⟩, ⟨⟨t⟩⟩⟩ : MultiVector ℝ)) = r := by
    rw [e]; simp only [vecMinus, zero_sub]; rw [length3]; congr 1; ring
  have h2 : length .vec (vecPlus (⟨⟨⟨s⟩⟩, ⟨⟨0, 0, 0⟩⟩, ⟨⟨x, y, w⟩⟩, ⟨⟨t⟩⟩⟩ : MultiVector ℝ)) = r := by
    rw [e]; simp only [vecPlus, zero_add]; rw [length3]
  simp only [formula, h1, h2, qp, qn, ofQ, Real.cosh_eq, Real.sinh_eq, shape, ← hq]
  ext <;> simp [Real.exp_add, sub_eq_add_neg] <;> ring

theorem cos_cosh {t : ℝ} (h : Real.cos t = Real.cosh t) : t = 0 := by
  by_contra h0
  have := Real.one_lt_cosh.2 h0
  linarith [Real.cos_le_one t]

theorem shape_inj {a b c d a' b' c' d' : ℝ} {v : A3 ℝ} (hv : v ≠ ⟨0, 0, 0⟩)
    (h : shape a b c d v = shape a' b' c' d' v) : a = a' ∧ b = b' ∧ c = c' ∧ d = d' := by
  obtain ⟨x, y, z⟩ := v
  simp only [shape, MultiVector.mk.injEq, Scalar.mk.injEq, A1.mk.injEq, Vector.mk.injEq,
    BiVector.mk.injEq, TriVector.mk.injEq, A3.mk.injEq] at h
  obtain ⟨h0, ⟨v0, v1, v2⟩, ⟨b0, b1, b2⟩, h3⟩ := h
  have : x ≠ 0 ∨ y ≠ 0 ∨ z ≠ 0 := by
    by_contra hc
    push Not at hc
    exact hv (by rw [hc.1, hc.2.1, hc.2.2])
  rcases this with hx | hx | hx
  · exact ⟨h0, mul_right_cancel₀ hx v0, mul_right_cancel₀ hx b0, h3⟩
  · exact ⟨h0, mul_right_cancel₀ hx v1, mul_right_cancel₀ hx b1, h3⟩
  · exact ⟨h0, mul_right_cancel₀ hx v2, mul_right_cancel₀ hx b2, h3⟩

theorem shape_sca {a b c d a' b' c' d' : ℝ} {v : A3 ℝ}
    (h : shape a b c d v = shape a' b' c' d' v) : a = a' :=
  congrArg (fun m : MultiVector ℝ => m.theSca.theData.d0) h

theorem length_a3 (x y z : ℝ) : √(x ^ 2 + (y ^ 2 + z ^ 2)) = 0 ↔ (⟨x, y, z⟩ : A3 ℝ) = ⟨0, 0, 0⟩ := by
  rw [Real.sqrt_eq_zero (by positivity)]
  constructor
  · intro h
    have hx : x = 0 := by nlinarith [sq_nonneg x, sq_nonneg y, sq_nonneg z]
    have hy : y = 0 := by nlinarith [sq_nonneg x, sq_nonneg y, sq_nonneg z]
    have hz : z = 0 := by nlinarith [sq_nonneg x, sq_nonneg y, sq_nonneg z]
    rw [hx, hy, hz]
  · intro h
    simp only [A3.mk.injEq] at h
    rw [h.1, h.2.1, h.2.2]; norm_num

theorem length_vec0 (v : Vector ℝ) : length .vec v = 0 ↔ v.theData = ⟨0, 0, 0⟩ := by
  obtain ⟨⟨x, y, z⟩⟩ := v
  rw [length3]; exact length_a3 x y z

theorem length_biv0 (v : BiVector ℝ) : length .biv v = 0 ↔ v.theData = ⟨0, 0, 0⟩ := by
  obtain ⟨⟨x, y, z⟩⟩ := v
  rw [show length .biv (⟨⟨x, y, z⟩⟩ : BiVector ℝ) = _ from length3 x y z]; exact length_a3 x y z

/-- **C47.**  For a multivector without a vector part (and a bivector part of length zero or at
least `10^-4`) the result is the exponential exactly when the trivector part is zero. -/
theorem C47_without_vector (A : MultiVector ℝ) (h : ValidFirst A) (hv : A.theVec = gzero)
    (hb : length .biv A.theBiv = 0 ∨ 1 / 10000 ≤ length .biv A.theBiv) :
    ∃ E : MultiVector ℝ, expMv (lift .mv A) = lift .mv E ∧ (IsExp A E ↔ A.theTri = gzero) := by
  refine ⟨expMvR A, expMv_lift A h, ?_⟩
  obtain ⟨⟨⟨s⟩⟩, v, B, ⟨⟨t⟩⟩⟩ := A
  simp only at hv hb ⊢
  subst hv
  change IsExp (⟨⟨⟨s⟩⟩, ⟨⟨0, 0, 0⟩⟩, B, ⟨⟨t⟩⟩⟩ : MultiVector ℝ)
    (expMvR (⟨⟨⟨s⟩⟩, ⟨⟨0, 0, 0⟩⟩, B, ⟨⟨t⟩⟩⟩ : MultiVector ℝ)) ↔ (⟨⟨t⟩⟩ : TriVector ℝ) = ⟨⟨0⟩⟩
  obtain ⟨r, hr⟩ : ∃ r, r = length .biv B := ⟨_, rfl⟩
  rw [← hr] at hb
  have hes := Real.exp_pos s
  have hsync : syncR r = if r = 0 then 1 else Real.sin r / r := by
    rcases hb with hb | hb
    · rw [if_pos hb, hb]; norm_num [syncR]
    · rw [if_neg (by linarith), syncR, if_neg (not_lt.2 hb)]
  have hE := isExp_noVec s t r (syncR r) B hr hsync
  rw [expMvR_noVec s t r (syncR r) B hr rfl]
  constructor
  · intro hI
    have he := isExp_unique hI hE
    rw [TriVector.mk.injEq, A1.mk.injEq]
    apply cos_cosh
    rcases hb with hb | hb
    · have := shape_sca he
      rw [hb, Real.cos_zero, mul_one, mul_one] at this
      exact (mul_left_cancel₀ hes.ne' this).symm
    · obtain ⟨e0, -, e2, -⟩ := shape_inj (by
        rw [Ne, ← length_biv0, ← hr]; linarith) he
      have e2 : Real.exp s * Real.cosh t * Real.sin r = Real.exp s * Real.cos t * Real.sin r := by
        rw [hsync, if_neg (by linarith)] at e2
        have : r ≠ 0 := by linarith
        field_simp at e2
        linear_combination Real.exp s * e2
      have := Real.sin_sq_add_cos_sq r
      have h3 : Real.exp s * Real.cosh t = Real.exp s * Real.cos t := by
        linear_combination Real.sin r * e2 + Real.cos r * e0
          - (Real.exp s * Real.cosh t - Real.exp s * Real.cos t) * this
      exact (mul_left_cancel₀ hes.ne' h3).symm
  · intro ht
    rw [TriVector.mk.injEq, A1.mk.injEq] at ht
    subst ht
    simpa using hE

/-- **C47.**  For a multivector without a bivector part the result is the exponential only when
it is a plain scalar. -/
theorem C47_without_bivector (A : MultiVector ℝ) (h : ValidFirst A) (hB : A.theBiv = gzero) :
    ∃ E : MultiVector ℝ, expMv (lift .mv A) = lift .mv E ∧
      (IsExp A E ↔ A.theVec = gzero ∧ A.theTri = gzero) := by
  refine ⟨expMvR A, expMv_lift A h, ?_⟩
  obtain ⟨⟨⟨s⟩⟩, v, B, ⟨⟨t⟩⟩⟩ := A
  simp only at hB ⊢
  subst hB
  change IsExp (⟨⟨⟨s⟩⟩, v, ⟨⟨0, 0, 0⟩⟩, ⟨⟨t⟩⟩⟩ : MultiVector ℝ)
    (expMvR (⟨⟨⟨s⟩⟩, v, ⟨⟨0, 0, 0⟩⟩, ⟨⟨t⟩⟩⟩ : MultiVector ℝ)) ↔
      v = ⟨⟨0, 0, 0⟩⟩ ∧ (⟨⟨t⟩⟩ : TriVector ℝ) = ⟨⟨0⟩⟩
  obtain ⟨r, hr⟩ : ∃ r, r = length .vec v := ⟨_, rfl⟩
  have hr0 : 0 ≤ r := hr ▸ length_nonneg .vec v
  have hes := Real.exp_pos s
  obtain ⟨q, hq⟩ : ∃ q, q = if r = 0 then 1 else Real.sinh r / r := ⟨_, rfl⟩
  have hE := isExp_noBiv s t r q v hr hq
  rw [expMvR_noBiv s t r (syncR r) v hr rfl]
  rw [TriVector.mk.injEq, A1.mk.injEq]
  constructor
  · intro hI
    have he := isExp_unique hI hE
    by_cases h0 : r = 0
    · have e := shape_sca he
      rw [h0, Real.cos_zero, Real.cosh_zero, mul_one, mul_one] at e
      refine ⟨?_, cos_cosh (mul_left_cancel₀ hes.ne' e).symm⟩
      have := (length_vec0 v).1 (by rw [← hr, h0])
      obtain ⟨d⟩ := v
      simp only at this
      rw [this]
    · exfalso
      have hrp : 0 < r := lt_of_le_of_ne hr0 (Ne.symm h0)
      obtain ⟨e0, e1, e2, e3⟩ := shape_inj (by rw [Ne, ← length_vec0, ← hr]; exact h0) he
      have e0 : Real.cosh t * Real.cos r = Real.cos t * Real.cosh r := by
        refine mul_left_cancel₀ hes.ne' ?_; linarith
      have e1 : Real.cosh t * syncR r = Real.cos t * q := by
        refine mul_left_cancel₀ hes.ne' ?_; linarith
      have e2 : -(Real.sinh t * syncR r) = Real.sin t * q := by
        refine mul_left_cancel₀ hes.ne' ?_; linarith
      have e3 : Real.sinh t * Real.cos r = Real.sin t * Real.cosh r := by
        refine mul_left_cancel₀ hes.ne' ?_; linarith
      rw [if_neg h0] at hq
      have hq0 : 0 < q := by rw [hq]; exact div_pos (Real.sinh_pos_iff.2 hrp) hrp
      have hch := Real.cosh_pos r
      have h1 : Real.cos r * q = syncR r * Real.cosh r := by
        refine mul_left_cancel₀ (Real.cosh_pos t).ne' ?_
        linear_combination q * e0 - Real.cosh r * e1
      have h2 : Real.sinh t * (Real.cos r * q) = 0 := by
        linear_combination (q / 2) * e3 - (Real.cosh r / 2) * e2 + (Real.sinh t / 2) * h1
      rcases mul_eq_zero.1 h2 with h2 | h2
      · rw [Real.sinh_eq_zero] at h2
        rw [h2, Real.cosh_zero, Real.cos_zero, one_mul, one_mul] at e0
        exact h0 (cos_cosh e0)
      · have hc : Real.cos r = 0 := (mul_eq_zero.1 h2).resolve_right hq0.ne'
        rw [hc, mul_zero] at e0 e3
        have c0 := (mul_eq_zero.1 e0.symm).resolve_right hch.ne'
        have s0 := (mul_eq_zero.1 e3.symm).resolve_right hch.ne'
        have := Real.sin_sq_add_cos_sq t
        rw [c0, s0] at this
        norm_num at this
  · rintro ⟨hv, ht⟩
    subst ht
    have h0 : r = 0 := by rw [hr, length_vec0, hv]
    rw [hq, if_pos h0] at hE
    rw [h0] at hE ⊢
    convert hE using 2 <;> norm_num [syncR]

theorem valid_mid {x : ℝ} (h1 : 1 ≤ x) (h2 : x ≤ 8) : Valid x := by
  have hx : |x| = x := abs_of_nonneg (by linarith)
  refine Or.inr ⟨?_, ?_⟩
  · rw [hx]
    refine le_trans ?_ h1
    rw [div_le_one (by positivity)]; exact one_le_pow₀ (by norm_num)
  · rw [hx]
    refine lt_of_le_of_lt h2 ?_
    calc (8 : ℝ) < 2 ^ 4 := by norm_num
      _ ≤ 2 ^ 1024 := pow_le_pow_right₀ (by norm_num) (by norm_num)

/-- All hypotheses of `C47_wrong_algebra` hold of a multivector with every component non-zero. -/
example : ∃ E : MultiVector ℝ,
    expMv (lift .mv (⟨⟨⟨1⟩⟩, ⟨⟨2, 3, 4⟩⟩, ⟨⟨1, -1, 5⟩⟩, ⟨⟨7⟩⟩⟩ : MultiVector ℝ)) = lift .mv E ∧
      IsExpN ⟨⟨⟨1⟩⟩, ⟨⟨2, 3, 4⟩⟩, ⟨⟨1, -1, 5⟩⟩, ⟨⟨7⟩⟩⟩ E := by
  refine C47_wrong_algebra _ ⟨valid_mid ?_ ?_, valid_mid ?_ ?_, valid_mid ?_ ?_, valid_mid ?_ ?_⟩
    (Or.inr ?_) (Or.inr ?_)
  iterate 8 norm_num
  all_goals
    simp only [vecMinus, vecPlus]
    rw [length3]
    exact Real.le_sqrt_of_sq_le (by norm_num)

/-- And for this one the result is not the exponential in the library's algebra. -/
example : ∃ E : MultiVector ℝ,
    expMv (lift .mv (⟨⟨⟨1⟩⟩, ⟨⟨2, 3, 4⟩⟩, ⟨⟨0, 0, 0⟩⟩, ⟨⟨7⟩⟩⟩ : MultiVector ℝ)) = lift .mv E ∧
      ¬ IsExp ⟨⟨⟨1⟩⟩, ⟨⟨2, 3, 4⟩⟩, ⟨⟨0, 0, 0⟩⟩, ⟨⟨7⟩⟩⟩ E := by
  obtain ⟨E, h1, h2⟩ := C47_without_bivector ⟨⟨⟨1⟩⟩, ⟨⟨2, 3, 4⟩⟩, ⟨⟨0, 0, 0⟩⟩, ⟨⟨7⟩⟩⟩
    ⟨valid_mid (by norm_num) (by norm_num), valid_mid (by norm_num) (by norm_num), Or.inl rfl,
      valid_mid (by norm_num) (by norm_num)⟩ rfl
  refine ⟨E, h1, fun h => ?_⟩
  have h3 : (⟨⟨7⟩⟩ : TriVector ℝ) = ⟨⟨0⟩⟩ := (h2.1 h).2
  rw [TriVector.mk.injEq, A1.mk.injEq] at h3
  norm_num at h3

/-- And the spinor `2 + 3 e12` together with `e123` meets those of `C47_without_vector`. -/
example : ∃ E : MultiVector ℝ,
    expMv (lift .mv (⟨⟨⟨2⟩⟩, ⟨⟨0, 0, 0⟩⟩, ⟨⟨0, 0, 3⟩⟩, ⟨⟨1⟩⟩⟩ : MultiVector ℝ)) = lift .mv E ∧
      ¬ IsExp ⟨⟨⟨2⟩⟩, ⟨⟨0, 0, 0⟩⟩, ⟨⟨0, 0, 3⟩⟩, ⟨⟨1⟩⟩⟩ E := by
  obtain ⟨E, h1, h2⟩ := C47_without_vector ⟨⟨⟨2⟩⟩, ⟨⟨0, 0, 0⟩⟩, ⟨⟨0, 0, 3⟩⟩, ⟨⟨1⟩⟩⟩
    ⟨valid_mid (by norm_num) (by norm_num), Or.inl rfl, Or.inl rfl,
      valid_mid (by norm_num) (by norm_num)⟩ rfl (Or.inr (by
        rw [show length .biv (⟨⟨0, 0, 3⟩⟩ : BiVector ℝ) = _ from length3 0 0 3]
        exact Real.le_sqrt_of_sq_le (by norm_num)))
  refine ⟨E, h1, fun h => ?_⟩
  have h3 : (⟨⟨1⟩⟩ : TriVector ℝ) = ⟨⟨0⟩⟩ := h2.1 h
  rw [TriVector.mk.injEq, A1.mk.injEq] at h3
  norm_num at h3

end Engabra
