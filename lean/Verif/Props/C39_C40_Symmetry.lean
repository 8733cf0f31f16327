import Verif.Props.C32_Bitwise

/-! # C39, C40: symmetries of norms, directions and comparisons in IEEE arithmetic

All statements are about `F64` data, so equality is equality of bits (one NaN). -/

namespace Engabra

open F64 (nan inf zero fin IsFin Finite HasVal neg_mul' mul_neg' neg_neg'')

namespace F64

theorem neg_mul_neg' (x y : F64) : -x * -y = x * y := by
  rw [neg_mul', mul_neg', neg_neg'']

theorem Sz_mul_self {x y : F64} (h : Sz x y) : x * x = y * y := by
  rcases h with rfl | ⟨s, t, rfl, rfl⟩
  · rfl
  · show mul _ _ = mul _ _
    simp [mul, mulFin, value, signbit]

theorem abs_neg' (x : F64) : Dbl.abs (-x) = Dbl.abs x := by
  show abs (neg x) = abs x
  cases x with
  | nan => rfl
  | inf s => cases s <;> rfl
  | zero s => cases s <;> rfl
  | fin v h =>
    have hv : v ≠ 0 := h.1
    unfold abs signbit neg
    rcases lt_or_gt_of_ne hv with h1 | h1
    · have : ¬ (-v < 0) := by linarith
      simp [h1, this]
    · have h2 : -v < 0 := by linarith
      have : ¬ (v < 0) := by linarith
      simp [h2, this]

theorem abs_Sz {x y : F64} (h : Sz x y) : Dbl.abs x = Dbl.abs y := by
  rcases h with rfl | ⟨s, t, rfl, rfl⟩
  · rfl
  · cases s <;> cases t <;> rfl

theorem neg_sub_neg (x y : F64) : Sz (-x - -y) (-(x - y)) := by
  have h := neg_add' x (-y)
  have e : -x + -(-y) = -x - -y := rfl
  have e2 : x + -y = x - y := rfl
  rw [e, e2] at h
  rcases h with h | ⟨s, t, h1, h2⟩
  · exact Or.inl h.symm
  · exact Or.inr ⟨t, s, h2, h1⟩

theorem neg_div_neg' (x y : F64) : -x / -y = x / y := by
  show div (neg x) (neg y) = div x y
  cases x with
  | nan => rfl
  | inf s =>
    cases y with
    | nan => rfl
    | inf t => rfl
    | zero t => cases s <;> cases t <;> rfl
    | fin w hw => 
      have := decide_neg_lt hw.1
      simp only [div, neg, signbit, this]; cases s <;> simp
  | zero s =>
    cases y with
    | nan => rfl
    | inf t => simp only [div, neg, signbit]; cases s <;> simp
    | zero t => rfl
    | fin w hw =>
      have := decide_neg_lt hw.1
      simp only [div, neg, signbit, this]; cases s <;> simp
  | fin v hv =>
    have e := decide_neg_lt hv.1
    cases y with
    | nan => rfl
    | inf t => simp only [div, neg, signbit, e]; cases t <;> simp
    | zero t => simp only [div, neg, signbit, e]; cases t <;> simp
    | fin w hw => simp only [div, neg, neg_div_neg_eq]

theorem isnormal_neg (x : F64) : Dbl.isnormal (-x) = Dbl.isnormal x := by
  show isnormal (neg x) = isnormal x
  cases x <;> simp [isnormal, neg]

theorem feq_zero_neg (x : F64) : Dbl.feq 0 (-x) = Dbl.feq 0 x := by
  show feq (zero false) (neg x) = feq (zero false) x
  cases x <;> simp [feq, neg, value, eq_comm]

theorem isValidDub_neg (x : F64) : isValidDub (-x) = isValidDub x := by
  unfold isValidDub; rw [isnormal_neg, feq_zero_neg]

theorem lt_trans' {a b c : F64} (h1 : Dbl.lt a b = true) (h2 : Dbl.lt b c = true) :
    Dbl.lt a c = true := by
  change lt a b = true at h1
  change lt b c = true at h2
  show lt a c = true
  cases a <;> cases b <;> cases c <;>
    first
    | exact decide_eq_true (_root_.lt_trans (of_decide_eq_true h1) (of_decide_eq_true h2))
    | (simp [lt] at h1 h2 ⊢; exact _root_.lt_trans h1 h2)
    | (simp [lt] at h1; done)
    | (simp [lt] at h2; done)
    | simp_all [lt]

end F64

/-! ## C39 -/

/-- **C39.** `magSq` and `magnitude` do not see signs: negation and the three involutions leave
them unchanged bit for bit, for every type and every data (NaN and infinities included). -/
theorem C39_magnitude_even (t : Ty) (x : t.D F64) :
    magSqTy t (negTy t x) = magSqTy t x ∧ magSqTy t (reverseTy t x) = magSqTy t x ∧
    magSqTy t (oddverseTy t x) = magSqTy t x ∧ magSqTy t (dirverseTy t x) = magSqTy t x ∧
    magnitudeTy t (negTy t x) = magnitudeTy t x ∧
    magnitudeTy t (reverseTy t x) = magnitudeTy t x ∧
    magnitudeTy t (oddverseTy t x) = magnitudeTy t x ∧
    magnitudeTy t (dirverseTy t x) = magnitudeTy t x := by
  have h : magSqTy t (negTy t x) = magSqTy t x ∧ magSqTy t (reverseTy t x) = magSqTy t x ∧
      magSqTy t (oddverseTy t x) = magSqTy t x ∧ magSqTy t (dirverseTy t x) = magSqTy t x := by
    cases t <;>
      simp [magSqTy, magSqDub, negTy, reverseTy, oddverseTy, dirverseTy, sq, engabra,
        F64.neg_mul_neg']
  unfold magnitudeTy
  rw [h.1, h.2.1, h.2.2.1, h.2.2.2]
  simp

theorem smul_negTy (t : Ty) (c : F64) (x : t.D F64) :
    smulTy t c (negTy t x) = negTy t (smulTy t c x) := by
  cases t <;> simp [smulTy, negTy, engabra, mul_neg']

theorem smul_reverseTy (t : Ty) (c : F64) (x : t.D F64) :
    smulTy t c (reverseTy t x) = reverseTy t (smulTy t c x) := by
  cases t <;> simp [smulTy, reverseTy, engabra, mul_neg']

theorem smul_oddverseTy (t : Ty) (c : F64) (x : t.D F64) :
    smulTy t c (oddverseTy t x) = oddverseTy t (smulTy t c x) := by
  cases t <;> simp [smulTy, oddverseTy, engabra, mul_neg']

theorem smul_dirverseTy (t : Ty) (c : F64) (x : t.D F64) :
    smulTy t c (dirverseTy t x) = dirverseTy t (smulTy t c x) := by
  cases t <;> simp [smulTy, dirverseTy, engabra, mul_neg']

/-- **C39.** Multiplying by a `double` commutes bit for bit with negation and with the three
involutions. -/
theorem C39_scale_commutes (t : Ty) (c : F64) (x : t.D F64) :
    smulTy t c (negTy t x) = negTy t (smulTy t c x) ∧
    smulTy t c (reverseTy t x) = reverseTy t (smulTy t c x) ∧
    smulTy t c (oddverseTy t x) = oddverseTy t (smulTy t c x) ∧
    smulTy t c (dirverseTy t x) = dirverseTy t (smulTy t c x) :=
  ⟨smul_negTy t c x, smul_reverseTy t c x, smul_oddverseTy t c x, smul_dirverseTy t c x⟩

theorem gnull_negTy (t : Ty) (ht : t ≠ .mv) :
    negTy t (gnullTy nan t) = (gnullTy nan t : t.D F64) ∧
    reverseTy t (gnullTy nan t) = (gnullTy nan t : t.D F64) ∧
    oddverseTy t (gnullTy nan t) = (gnullTy nan t : t.D F64) ∧
    dirverseTy t (gnullTy nan t) = (gnullTy nan t : t.D F64) := by
  cases t <;> first | exact absurd rfl ht | (simp [negTy, reverseTy, oddverseTy, dirverseTy,
    gnullTy, gnull, engabra, F64.neg_nan])

/-- **C39.** `direction` commutes bit for bit with negation and the three involutions: the
direction of the opposite is the opposite of the direction.  This includes the values without
a direction, except that `null<MultiVector>()` has zeros whose sign would change; see
`C39_direction_mv`. -/
theorem C39_direction_odd (t : Ty) (ht : t ≠ .mv) (x : t.D F64) :
    directionTy t (negTy t x) = negTy t (directionTy t x) ∧
    directionTy t (reverseTy t x) = reverseTy t (directionTy t x) ∧
    directionTy t (oddverseTy t x) = oddverseTy t (directionTy t x) ∧
    directionTy t (dirverseTy t x) = dirverseTy t (directionTy t x) := by
  obtain ⟨-, -, -, -, h1, h2, h3, h4⟩ := C39_magnitude_even t x
  obtain ⟨g1, g2, g3, g4⟩ := gnull_negTy t ht
  unfold directionTy pairMagDirTy
  dsimp only
  rw [h1, h2, h3, h4]
  split
  · exact C39_scale_commutes t _ x
  · exact ⟨g1.symm, g2.symm, g3.symm, g4.symm⟩

/-- **C39.** The same for `MultiVector` whenever there is a direction. -/
theorem C39_direction_mv (x : MultiVector F64)
    (hx : Dbl.lt (Dbl.denormMin F64) (magnitudeTy .mv x) = true) :
    direction (-x) = -direction x ∧
    direction (reverse x) = reverse (direction x) ∧
    direction (oddverse x) = oddverse (direction x) ∧
    direction (dirverse x) = dirverse (direction x) := by
  obtain ⟨-, -, -, -, h1, h2, h3, h4⟩ := C39_magnitude_even .mv x
  have key : directionTy .mv (negTy .mv x) = negTy .mv (directionTy .mv x) ∧
    directionTy .mv (reverseTy .mv x) = reverseTy .mv (directionTy .mv x) ∧
    directionTy .mv (oddverseTy .mv x) = oddverseTy .mv (directionTy .mv x) ∧
    directionTy .mv (dirverseTy .mv x) = dirverseTy .mv (directionTy .mv x) := by
    unfold directionTy pairMagDirTy
    dsimp only
    rw [h1, h2, h3, h4]
    simp only [hx, if_true]
    exact C39_scale_commutes .mv _ x
  exact key

/-- **C39.** `inverse(-x) = -inverse(x)` bit for bit for blades (and for `double`-like zero data
as well: both sides are infinite or NaN together). -/
theorem C39_inverse_odd :
    (∀ x : Scalar F64, inverseBlade (-x) = -inverseBlade x) ∧
    (∀ x : Vector F64, inverseBlade (-x) = -inverseBlade x) ∧
    (∀ x : BiVector F64, inverseBlade (-x) = -inverseBlade x) ∧
    (∀ x : TriVector F64, inverseBlade (-x) = -inverseBlade x) := by
  refine ⟨fun x => ?_, fun x => ?_, fun x => ?_, fun x => ?_⟩ <;>
    simp [inverseBlade, engabra, mul_neg', neg_mul', neg_neg'', magSq]

/-- **C39.** `dual` does not change the magnitude of a value, bit for bit, for every type except
`MultiVector`, where the four partial sums of squares are added in another order. -/
theorem C39_dual_magnitude (t : Ty) (ht : t ≠ .mv) (x : t.D F64) :
    magnitudeTy (dualRes t) (dualTy t x) = magnitudeTy t x := by
  cases t <;> first | exact absurd rfl ht | skip
  all_goals
    simp [magnitudeTy, magSqTy, magSqDub, dualTy, sq, engabra, F64.neg_mul_neg', F64.add_comm']

/-! ## C40 -/

/-- **C40.** `isValid` does not see signs. -/
theorem C40_isValid_even (t : Ty) (x : t.D F64) :
    isValidTy t (negTy t x) = isValidTy t x ∧ isValidTy t (reverseTy t x) = isValidTy t x ∧
    isValidTy t (oddverseTy t x) = isValidTy t x ∧ isValidTy t (dirverseTy t x) = isValidTy t x := by
  cases t <;>
    simp [isValidTy, isValid, negTy, reverseTy, oddverseTy, dirverseTy, engabra, F64.isValidDub_neg]

theorem isSmallAbsDiff_neg (x y tol : F64) :
    isSmallAbsDiff (-x) (-y) tol = isSmallAbsDiff x y tol := by
  unfold isSmallAbsDiff isSmallAbs
  rw [F64.abs_Sz (F64.neg_sub_neg x y), F64.abs_neg']

theorem nearlyEqualsAbs_neg (x y tol : F64) :
    nearlyEqualsAbs (-x) (-y) tol = nearlyEqualsAbs x y tol := by
  unfold nearlyEqualsAbs bothAreValid
  rw [F64.isValidDub_neg, F64.isValidDub_neg, isSmallAbsDiff_neg]

theorem nearlyEqualsRel_neg (x y tol : F64) :
    nearlyEqualsRel (-x) (-y) tol = nearlyEqualsRel x y tol := by
  unfold nearlyEqualsRel bothAreValid
  simp only [F64.isValidDub_neg, F64.abs_neg', isSmallAbsDiff_neg, F64.neg_div_neg']

theorem isValidLoop_neg (b : Bool) (l : List F64) :
    isValidLoop b (l.map (- ·)) = isValidLoop b l := by
  induction l generalizing b with
  | nil => rfl
  | cons x xs ih => simp only [List.map_cons, isValidLoop, F64.isValidDub_neg, ih]

theorem isValidArr_neg (l : List F64) : isValidArr (l.map (- ·)) = isValidArr l := by
  cases l with
  | nil => rfl
  | cons x xs => simp only [List.map_cons, isValidArr, F64.isValidDub_neg, isValidLoop_neg]

theorem innerProduct_neg (a : F64) (l : List F64) :
    innerProduct a (l.map (- ·)) = innerProduct a l := by
  induction l generalizing a with
  | nil => rfl
  | cons x xs ih => simp only [List.map_cons, innerProduct, F64.neg_mul_neg', ih]

theorem smallLoop_neg (tol : F64) (b : Bool) (l m : List F64) :
    smallLoop tol b (l.map (- ·)) (m.map (- ·)) = smallLoop tol b l m := by
  induction l generalizing b m with
  | nil => rfl
  | cons x xs ih =>
    cases m with
    | nil => rfl
    | cons y ys => simp only [List.map_cons, smallLoop, isSmallAbsDiff_neg, ih]

theorem difLoop_neg (a : F64) (l m : List F64) :
    difLoop a (l.map (- ·)) (m.map (- ·)) = difLoop a l m := by
  induction l generalizing a m with
  | nil => rfl
  | cons x xs ih =>
    cases m with
    | nil => rfl
    | cons y ys =>
      simp only [List.map_cons, difLoop, ih]
      rw [F64.Sz_mul_self (F64.neg_sub_neg x y), F64.neg_mul_neg']

/-- **C40.** The array comparison, for arrays of any length: negating both arguments does not
change the answer (nor whether there is one). -/
theorem C40_nearlyEqualsArr_even (l m : List F64) (tol : F64) :
    nearlyEqualsArr (l.map (- ·)) (m.map (- ·)) tol = nearlyEqualsArr l m tol := by
  unfold nearlyEqualsArr
  simp only [isValidArr_neg, innerProduct_neg, difLoop_neg]
  cases l with
  | nil => rfl
  | cons x xs =>
    cases m with
    | nil => rfl
    | cons y ys => simp only [List.map_cons, nearlyEqualsAbs_neg, smallLoop_neg]

theorem nearlyEqualsArr1_neg (x y tol : F64) :
    nearlyEqualsArr [-x] [-y] tol = nearlyEqualsArr [x] [y] tol :=
  C40_nearlyEqualsArr_even [x] [y] tol

theorem nearlyEqualsArr3_neg (x y z a b c tol : F64) :
    nearlyEqualsArr [-x, -y, -z] [-a, -b, -c] tol = nearlyEqualsArr [x, y, z] [a, b, c] tol :=
  C40_nearlyEqualsArr_even [x, y, z] [a, b, c] tol

/-- **C40.** `nearlyEquals(-a, -b, tol) = nearlyEquals(a, b, tol)`, and the same for the three
involutions, for every type and every data. -/
theorem C40_nearlyEquals_even (t : Ty) (a b : t.D F64) (tol : F64) :
    nearlyEqualsTy t (negTy t a) (negTy t b) tol = nearlyEqualsTy t a b tol ∧
    nearlyEqualsTy t (reverseTy t a) (reverseTy t b) tol = nearlyEqualsTy t a b tol ∧
    nearlyEqualsTy t (oddverseTy t a) (oddverseTy t b) tol = nearlyEqualsTy t a b tol ∧
    nearlyEqualsTy t (dirverseTy t a) (dirverseTy t b) tol = nearlyEqualsTy t a b tol := by
  cases t <;>
    simp [nearlyEqualsTy, nearlyEquals, nearlyEqualsDub, A1.toList, A3.toList, negTy, reverseTy,
      oddverseTy, dirverseTy, engabra, nearlyEqualsRel_neg, nearlyEqualsArr1_neg,
      nearlyEqualsArr3_neg]

theorem arr1_ok (x y tol : F64) : ∃ b, nearlyEqualsArr [x] [y] tol = .ok b :=
  C25_array_defined [x] [y] tol rfl (by simp)

theorem arr3_ok (x y z a b c tol : F64) : ∃ r, nearlyEqualsArr [x, y, z] [a, b, c] tol = .ok r :=
  C25_array_defined [x, y, z] [a, b, c] tol rfl (by simp)

/-- **C40.** `nearlyEquals` between duals is `nearlyEquals`, for every type except `double`
(whose dual is a `TriVector`, compared by another rule). -/
theorem C40_nearlyEquals_dual (t : Ty) (ht : t ≠ .dub) (a b : t.D F64) (tol : F64) :
    nearlyEqualsTy (dualRes t) (dualTy t a) (dualTy t b) tol = nearlyEqualsTy t a b tol := by
  cases t <;> first | exact absurd rfl ht | skip
  all_goals
    simp only [nearlyEqualsTy, nearlyEquals, A1.toList, A3.toList, dualTy, engabra,
      nearlyEqualsArr1_neg, nearlyEqualsArr3_neg]
  case spin =>
    obtain ⟨p, hp⟩ := arr1_ok a.theSca.theData.d0 b.theSca.theData.d0 tol
    obtain ⟨q, hq⟩ := arr3_ok a.theBiv.theData.d0 a.theBiv.theData.d1 a.theBiv.theData.d2
      b.theBiv.theData.d0 b.theBiv.theData.d1 b.theBiv.theData.d2 tol
    rw [hp, hq, Run.and_ok, Run.and_ok, Bool.and_comm]
  case imsp =>
    obtain ⟨p, hp⟩ := arr1_ok a.theTri.theData.d0 b.theTri.theData.d0 tol
    obtain ⟨q, hq⟩ := arr3_ok a.theVec.theData.d0 a.theVec.theData.d1 a.theVec.theData.d2
      b.theVec.theData.d0 b.theVec.theData.d1 b.theVec.theData.d2 tol
    rw [hp, hq, Run.and_ok, Run.and_ok, Bool.and_comm]
  case cplx =>
    obtain ⟨p, hp⟩ := arr1_ok a.theSca.theData.d0 b.theSca.theData.d0 tol
    obtain ⟨q, hq⟩ := arr1_ok a.theTri.theData.d0 b.theTri.theData.d0 tol
    rw [hp, hq, Run.and_ok, Run.and_ok, Bool.and_comm]
  case dplx =>
    obtain ⟨p, hp⟩ := arr3_ok a.theVec.theData.d0 a.theVec.theData.d1 a.theVec.theData.d2
      b.theVec.theData.d0 b.theVec.theData.d1 b.theVec.theData.d2 tol
    obtain ⟨q, hq⟩ := arr3_ok a.theBiv.theData.d0 a.theBiv.theData.d1 a.theBiv.theData.d2
      b.theBiv.theData.d0 b.theBiv.theData.d1 b.theBiv.theData.d2 tol
    rw [hp, hq, Run.and_ok, Run.and_ok, Bool.and_comm]
  case mv =>
    obtain ⟨p, hp⟩ := arr3_ok a.theVec.theData.d0 a.theVec.theData.d1 a.theVec.theData.d2
      b.theVec.theData.d0 b.theVec.theData.d1 b.theVec.theData.d2 tol
    obtain ⟨q, hq⟩ := arr3_ok a.theBiv.theData.d0 a.theBiv.theData.d1 a.theBiv.theData.d2
      b.theBiv.theData.d0 b.theBiv.theData.d1 b.theBiv.theData.d2 tol
    obtain ⟨r, hr⟩ := arr1_ok a.theSca.theData.d0 b.theSca.theData.d0 tol
    obtain ⟨w, hw⟩ := arr1_ok a.theTri.theData.d0 b.theTri.theData.d0 tol
    rw [hp, hq, hr, hw]
    cases p <;> cases q <;> cases r <;> cases w <;> rfl

/-! ### Tolerances -/

theorem isSmallAbs_mono {x tol tol' : F64} (h : Dbl.lt tol tol' = true)
    (k : isSmallAbs x tol = true) : isSmallAbs x tol' = true := F64.lt_trans' k h

theorem nearlyEqualsAbs_mono {x y tol tol' : F64} (h : Dbl.lt tol tol' = true)
    (k : nearlyEqualsAbs x y tol = true) : nearlyEqualsAbs x y tol' = true := by
  unfold nearlyEqualsAbs at k ⊢
  split at k
  · next hv => rw [if_pos hv]; exact isSmallAbs_mono h k
  · cases k

theorem nearlyEqualsRel_mono {x y tol tol' : F64} (h : Dbl.lt tol tol' = true)
    (k : nearlyEqualsRel x y tol = true) : nearlyEqualsRel x y tol' = true := by
  unfold nearlyEqualsRel at k ⊢
  dsimp only at k ⊢
  split at k
  · next hv =>
    rw [if_pos hv]
    split at k
    · next hs => rw [if_pos hs]; exact isSmallAbs_mono h k
    · next hs => rw [if_neg hs]; exact isSmallAbs_mono h k
  · cases k

theorem smallLoop_mono {tol tol' : F64} (h : Dbl.lt tol tol' = true) {b b' : Bool}
    (hb : b = true → b' = true) (l m : List F64) (k : smallLoop tol b l m = true) :
    smallLoop tol' b' l m = true := by
  induction l generalizing b b' m with
  | nil => exact hb k
  | cons x xs ih =>
    cases m with
    | nil => exact hb k
    | cons y ys =>
      cases b with
      | false => cases k
      | true =>
        have := hb rfl
        subst this
        exact ih (fun q => isSmallAbs_mono h q) ys k

/-- **C40.** The array comparison, for arrays of any length, is monotone in the tolerance: what
it accepts it also accepts under a larger tolerance. -/
theorem C40_nearlyEqualsArr_mono {tol tol' : F64} (h : Dbl.lt tol tol' = true) (l m : List F64)
    (k : nearlyEqualsArr l m tol = .ok true) : nearlyEqualsArr l m tol' = .ok true := by
  unfold nearlyEqualsArr at k ⊢
  dsimp only at k ⊢
  generalize isValidArr l = vl at k ⊢
  generalize isValidArr m = vm at k ⊢
  match vl, vm with
  | .ub, _ => cases k
  | .ok false, _ => cases k
  | .ok true, .ub => cases k
  | .ok true, .ok false => cases k
  | .ok true, .ok true =>
    dsimp only at k ⊢
    by_cases hs : Dbl.lt (Dbl.sqrt (innerProduct 0 m)) (Dbl.minDub F64) = true
    · rw [if_pos hs] at k ⊢
      match l, m with
      | x :: xs, y :: ys =>
        dsimp only at k ⊢
        rw [Run.ok.injEq] at k ⊢
        exact smallLoop_mono h (nearlyEqualsAbs_mono h) xs ys k
      | [], _ => cases k
      | _ :: _, [] => cases k
    · rw [if_neg hs, Run.ok.injEq] at k ⊢
      exact isSmallAbs_mono h k

theorem Run.and_okTrue {a b : Run Bool} : a.and b = .ok true ↔ a = .ok true ∧ b = .ok true := by
  match a with
  | .ub => simp [Run.and]
  | .ok false => simp [Run.and]
  | .ok true => simp [Run.and]

/-- **C40.** `nearlyEquals` is monotone in the tolerance, for every type and every data: a larger
tolerance never turns acceptance into rejection. -/
theorem C40_nearlyEquals_mono (t : Ty) (a b : t.D F64) {tol tol' : F64}
    (h : Dbl.lt tol tol' = true) (k : nearlyEqualsTy t a b tol = .ok true) :
    nearlyEqualsTy t a b tol' = .ok true := by
  cases t <;> simp only [nearlyEqualsTy, nearlyEquals, Run.and_okTrue, Run.ok.injEq] at k ⊢
  case dub => exact nearlyEqualsRel_mono h k
  case sca | vec | biv | tri => exact C40_nearlyEqualsArr_mono h _ _ k
  case spin | imsp | cplx | dplx =>
    exact ⟨C40_nearlyEqualsArr_mono h _ _ k.1, C40_nearlyEqualsArr_mono h _ _ k.2⟩
  case mv =>
    exact ⟨⟨⟨C40_nearlyEqualsArr_mono h _ _ k.1.1.1, C40_nearlyEqualsArr_mono h _ _ k.1.1.2⟩,
      C40_nearlyEqualsArr_mono h _ _ k.1.2⟩, C40_nearlyEqualsArr_mono h _ _ k.2⟩

/-! ## Examples -/

example : magnitudeTy .vec (negTy .vec (⟨⟨1, inf true, zero true⟩⟩ : Vector F64))
    = magnitudeTy .vec (⟨⟨1, inf true, zero true⟩⟩ : Vector F64) :=
  (C39_magnitude_even .vec _).2.2.2.2.1

theorem F64.sqrt_one {x : F64} (h : HasVal x 1) : HasVal (Dbl.sqrt x) 1 := by
  obtain ⟨hf, hv⟩ := h
  cases x with
  | nan => cases hf
  | inf s => cases hf
  | zero s => simp [F64.value] at hv
  | fin v hfin =>
    have hv1 : v = 1 := hv
    subst hv1
    have e : Dbl.sqrt (fin 1 hfin) = F64.roundTo (√((1 : ℚ) : ℝ)) := by
      have : Dbl.sqrt (fin 1 hfin) = if (1 : ℚ) < 0 then nan else F64.roundTo (√((1 : ℚ) : ℝ)) := rfl
      rw [this, if_neg (by norm_num)]
    have e2 : √((1 : ℚ) : ℝ) = ((1 : ℚ) : ℝ) := by simp
    rw [e, e2, F64.roundTo_ratCast 1 (by norm_num), F64.roundTo_fin hfin]
    exact F64.hasVal_fin _

/-- The hypothesis of `C39_direction_mv` is met by `1`. -/
example : direction (-(gone : MultiVector F64)) = -direction (gone : MultiVector F64) := by
  refine (C39_direction_mv _ ?_).1
  have h1 := F64.hasVal_one
  have h0 := F64.hasVal_zero'
  have z := h0.mul_zero h0
  have v3 := ((h0.add_zero z).add_zero z).add_zero z
  have hs : HasVal (magSqTy .mv (gone : MultiVector F64)) 1 := by
    simp only [magSqTy, engabra, sq]
    exact (((h1.one_mul h1).add_zero v3).add_zero v3).add_zero z
  have hm : HasVal (magnitudeTy .mv (gone : MultiVector F64)) 1 := F64.sqrt_one hs
  have hd : HasVal (Dbl.denormMin F64) (1 / 2 ^ 1074) := by
    unfold Dbl.denormMin
    have : F64.IsFin ((1 : ℚ) / 2 ^ 1074) :=
      ⟨one_div_ne_zero (pow_ne_zero _ (by norm_num)), 1, -1074, by norm_num, by norm_num,
        by norm_num, by rw [zpow_neg, one_div, Int.cast_one, one_mul]; rfl⟩
    rw [F64.lit_def, F64.roundTo_fin this]
    exact F64.hasVal_fin _
  rw [hd.flt hm, decide_eq_true_eq]
  rw [div_lt_one (by positivity)]
  exact one_lt_pow₀ (by norm_num) (by norm_num)

/-- The hypotheses of `C40_nearlyEquals_mono` are met: `1` is nearly equal to itself under the
tolerance `1`, hence under `+inf`. -/
example : nearlyEqualsTy .dub (1 : F64) (1 : F64) (inf false) = .ok true := by
  refine C40_nearlyEquals_mono .dub (1 : F64) (1 : F64) (tol := 1) (by rw [F64.one_eq]; rfl) ?_
  refine C26_reflexive .dub (1 : F64) 1 (fun c hc => ?_) ?_
  · simp only [comps, List.mem_cons, List.not_mem_nil, or_false] at hc
    rw [hc, F64.one_eq]
    simp only [isValidDub, F64.isnormal_def, F64.isnormal, Bool.or_eq_true, decide_eq_true_eq]
    left
    rw [abs_one, div_le_one (by positivity)]
    exact one_le_pow₀ (by norm_num)
  · rw [F64.hasVal_zero'.flt F64.hasVal_one]; norm_num

end Engabra
