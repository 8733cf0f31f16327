import Verif.Model.RefMul
import Verif.Props.C50_Promotion
import Verif.Props.C33_Rounding
import Verif.Props.C27_Range
import Verif.Props.C60_Close
import Verif.Lemmas.NearChain
import Verif.Props.C56_GeneralInverse

/-! # C93: the repository's check of the products

The test program compares `MultiVector(a * b)` with `MultiVector(a) * MultiVector(b)` at the tolerance
`1.e-14` for all 100 pairs of types. -/

namespace Engabra
set_option linter.unusedSimpArgs false
open F64 (nan inf zero fin IsFin Finite HasVal)

theorem szTy_refl (t : Ty) (x : t.D F64) : SzTy t x x := by
  unfold SzTy; exact List.forall₂_same.2 fun c _ => Sz.refl c

theorem szTy_mv {x y : MultiVector F64} (h : ∀ k, Sz (cf x k) (cf y k)) : SzTy .mv x y :=
  .cons (h 0) (.cons (h 1) (.cons (h 2) (.cons (h 3) (.cons (h 4) (.cons (h 5) (.cons (h 6)
    (.cons (h 7) .nil)))))))

theorem valid_promote (t : Ty) (x : t.D F64) (h : ∀ c ∈ comps t x, isValidDub c = true) :
    ∀ c ∈ comps .mv (promote t x), isValidDub c = true := by
  have hz := isValidDub_zero'
  cases t <;> simp [comps, promote, engabra] at h ⊢ <;> simp [h, hz]

/-- **C93.** For the 73 pairs of types not in the list of 27, the check passes for all finite operands
with a valid product, at every tolerance greater than zero. -/
theorem C93_always (s t : Ty) (h : (s, t) ∉ reordered) (a : s.D F64) (b : t.D F64) (tol : F64)
    (ha : ∀ c ∈ comps s a, c.Finite) (hb : ∀ c ∈ comps t b, c.Finite)
    (hv : ∀ c ∈ comps _ (mulTy s t a b), isValidDub c = true) (ht : Dbl.lt 0 tol = true) :
    mulCheck s t a b tol = .ok true := by
  have h1 := (C50_product s t).2 h a b ha hb
  unfold mulCheck
  simp only []
  rw [← C60_zero_signs .mv _ _ _ _ (szTy_refl _ _) (szTy_mv h1) tol]
  refine C26_reflexive .mv _ tol ?_ ht
  exact valid_promote _ _ hv

/-! ## The other 27 -/

/-- Rounding of an integer: `none` where this function does not know. -/
def rint2 (s : ℤ) : Option ℤ :=
  if s % 16 = 0 ∧ s.natAbs ≤ 2 ^ 57 then some s else rint s

def T.run2 (env : Nat → ℤ) : T → Option ℤ
  | .zero => some 0
  | .var n => some (env n)
  | .neg a => (a.run2 env).map fun x => -x
  | .add a b => (a.run2 env).bind fun x => (b.run2 env).bind fun y => rint2 (x + y)
  | .sub a b => (a.run2 env).bind fun x => (b.run2 env).bind fun y => rint2 (x + -y)
  | .mul a b => (a.run2 env).bind fun x => (b.run2 env).bind fun y => rint2 (x * y)

theorem rint2_sound {n m : ℤ} (h : rint2 n = some m) :
    F64.rnVal (n : ℚ) = m ∧ |(m : ℚ)| < 2 ^ 1024 := by
  unfold rint2 at h
  split_ifs at h with h1
  · cases h
    have big : (2 : ℚ) ^ 57 < 2 ^ 1024 := pow_lt_pow_right₀ (by norm_num) (by norm_num)
    obtain ⟨q, rfl⟩ : ∃ q, n = 16 * q := ⟨n / 16, by omega⟩
    have h5 : |q| ≤ 2 ^ 53 := by rw [Int.abs_eq_natAbs]; omega
    have h6 : |(q : ℚ)| ≤ 2 ^ 53 := by rw [← Int.cast_abs]; exact_mod_cast h5
    refine ⟨F64.rnVal_exact ⟨q, 4, h5, by norm_num, by push_cast; ring⟩, lt_of_le_of_lt ?_ big⟩
    push_cast
    rw [abs_mul, abs_of_pos (by norm_num : (0 : ℚ) < 16)]
    linarith
  · exact rint_sound h

theorem T.run2_sound (env : Nat → F64) (v : Nat → ℤ) (hv : ∀ n, HasVal (env n) (v n)) (t : T) :
    ∀ m, t.run2 v = some m → HasVal (t.eval env) m := by
  induction t with
  | zero => intro m h; cases h; exact_mod_cast F64.hasVal_zero'
  | var n => intro m h; cases h; exact hv n
  | neg a ih =>
    intro m h
    simp only [T.run2, Option.map_eq_some_iff] at h
    obtain ⟨x, hx, rfl⟩ := h
    push_cast
    exact (ih x hx).neg
  | add a b iha ihb =>
    intro m h
    simp only [T.run2, Option.bind_eq_some_iff] at h
    obtain ⟨x, hx, y, hy, h⟩ := h
    obtain ⟨h1, h2⟩ := rint2_sound h
    have ha := iha x hx
    have hb := ihb y hy
    have := F64.add_spec ha.1 hb.1 (by rw [ha.2, hb.2]; push_cast at h1; rw [h1]; exact h2)
    rw [ha.2, hb.2] at this
    push_cast at h1
    rw [h1] at this
    exact this
  | sub a b iha ihb =>
    intro m h
    simp only [T.run2, Option.bind_eq_some_iff] at h
    obtain ⟨x, hx, y, hy, h⟩ := h
    obtain ⟨h1, h2⟩ := rint2_sound h
    have ha := iha x hx
    have hb := (ihb y hy).neg
    have := F64.add_spec ha.1 hb.1 (by rw [ha.2, hb.2]; push_cast at h1; rw [h1]; exact h2)
    rw [ha.2, hb.2] at this
    push_cast at h1
    rw [h1] at this
    exact this
  | mul a b iha ihb =>
    intro m h
    simp only [T.run2, Option.bind_eq_some_iff] at h
    obtain ⟨x, hx, y, hy, h⟩ := h
    obtain ⟨h1, h2⟩ := rint2_sound h
    have ha := iha x hx
    have hb := ihb y hy
    have := F64.mul_spec ha.1 hb.1 (by rw [ha.2, hb.2]; push_cast at h1; rw [h1]; exact h2)
    rw [ha.2, hb.2] at this
    push_cast at h1
    rw [h1] at this
    exact this

/-- Values of the variables for which the check fails, and the grade. -/
def checkWitness : Ty → Ty → List ℤ × Nat
  | .vec, .spin => ([0, 1, 1, 1, 0, 0, 0, 0, 1, 0, 0, 0, 2^54, 2^54, 2^54, 0], 1)
  | .vec, .imsp => ([0, -1, -1, -1, 0, 0, 0, 0, 0, -2^54, -2^54, -2^54, 0, 0, 0, -1], 2)
  | .vec, .mv => ([0, -1, -1, -1, 0, 0, 0, 0, 1, 0, 0, 0, 2^54, 2^54, 2^54, 1], 1)
  | .biv, .spin => ([0, 0, 0, 0, 1, 1, 1, 0, 1, 0, 0, 0, 2^54, 2^54, 2^54, 0], 2)
  | .biv, .imsp => ([0, 0, 0, 0, 1, 1, 1, 0, 0, 2^54, 2^54, 2^54, 0, 0, 0, 1], 1)
  | .biv, .mv => ([0, 0, 0, 0, 1, 1, 1, 0, -2^54, -2^54, -2^54, -2^54, -2^54, 2^54, 0, -1], 1)
  | .spin, .vec => ([1, 0, 0, 0, 2^54, 2^54, 2^54, 0, 0, -1, -1, -1, 0, 0, 0, 0], 1)
  | .spin, .biv => ([1, 0, 0, 0, 2^54, 2^54, 2^54, 0, 0, 0, 0, 0, 1, 1, 1, 0], 2)
  | .spin, .spin => ([0, 0, 0, 0, -1, -1, -1, 0, 1, 0, 0, 0, 2^54, 2^54, 2^54, 0], 2)
  | .spin, .imsp => ([0, 0, 0, 0, 1, 1, 1, 0, 0, -2^54, -2^54, -2^54, 0, 0, 0, -1], 1)
  | .spin, .dplx => ([-1, 0, 0, 0, -2^54, -2^54, -2^54, 0, 0, 0, 0, 0, -1, -1, -1, 0], 2)
  | .spin, .mv => ([0, 0, 0, 0, -1, -1, -1, 0, -1, 0, 0, 0, -2^54, -2^54, -2^54, -1], 2)
  | .imsp, .vec => ([0, -2^54, -2^54, -2^54, 0, 0, 0, -1, 0, 1, 1, 1, 0, 0, 0, 0], 2)
  | .imsp, .biv => ([0, -2^54, -2^54, -2^54, 0, 0, 0, -1, 0, 0, 0, 0, 1, 1, 1, 0], 1)
  | .imsp, .spin => ([0, -1, -1, -1, 0, 0, 0, 0, 1, 0, 0, 0, 2^54, 2^54, 2^54, 0], 1)
  | .imsp, .imsp => ([0, -1, -1, -1, 0, 0, 0, 0, 0, 2^54, 2^54, 2^54, 0, 0, 0, 1], 2)
  | .imsp, .dplx => ([0, 2^54, 2^54, 2^54, 0, 0, 0, 1, 0, -1, -1, -1, 1, 1, 1, 0], 1)
  | .imsp, .mv => ([0, -1, -1, -1, 0, 0, 0, 0, -1, -1, -1, -1, -2^54, -2^54, -2^54, -1], 1)
  | .dplx, .spin => ([0, 0, 0, 0, 1, 1, 1, 0, 1, 0, 0, 0, 2^54, 2^54, 2^54, 0], 2)
  | .dplx, .imsp => ([0, -1, -1, -1, 0, 0, 0, 0, 0, -2^54, -2^54, -2^54, 0, 0, 0, -1], 2)
  | .dplx, .dplx => ([0, -1, -1, 0, 0, -1, 0, 0, 0, -2^54, -2^54, 0, -1, 0, 0, 0], 2)
  | .dplx, .mv => ([0, 1, 1, 1, 0, 0, 0, 0, -1, 2^54, 2^54, 2^54, 1, 1, 1, 1], 2)
  | .mv, .vec => ([-1, 2^54, 2^54, 2^54, 1, 1, 1, 1, 0, -1, -1, -1, 0, 0, 0, 0], 2)
  | .mv, .biv => ([0, -2^54, -2^54, -2^54, 2^54, 2^54, 2^54, -1, 0, 0, 0, 0, -1, -1, -1, 0], 1)
  | .mv, .spin => ([-1, -1, -1, -1, -2^54, -2^54, -2^54, 1, 0, 0, 0, 0, 1, 1, 1, 0], 2)
  | .mv, .imsp => ([0, -1, -1, -1, 0, 0, 0, 0, 0, 2^54, 2^54, 2^54, 0, 0, 0, 1], 2)
  | .mv, .dplx => ([0, -2^54, -2^54, -2^54, -1, -1, -1, -1, 0, 1, 1, 1, 0, 0, 0, 0], 2)
  | _, _ => ([], 0)

def chkEnv (s t : Ty) (n : Nat) : ℤ := (checkWitness s t).1.getD n 0

/-- The components of a grade. -/
def gradeIdx : Nat → List (Fin 8)
  | 0 => [0]
  | 1 => [1, 2, 3]
  | 2 => [4, 5, 6]
  | _ => [7]

/-- All components of both products are known; those of the expected product are all zero in the grade
of the witness, and one of those of the typed product is not. -/
def runReject (s t : Ty) : Bool :=
  (List.finRange 8).all (fun k => ((cf (typedT s t) k).run2 (chkEnv s t)).isSome &&
    ((cf (promotedT s t) k).run2 (chkEnv s t)).isSome) &&
  (gradeIdx (checkWitness s t).2).all (fun k => (cf (promotedT s t) k).run2 (chkEnv s t) == some 0) &&
  (gradeIdx (checkWitness s t).2).any (fun k => (cf (typedT s t) k).run2 (chkEnv s t) != some 0)

theorem reject_ok : ∀ p ∈ reordered, runReject p.1 p.2 = true ∧
    ∀ z ∈ (checkWitness p.1 p.2).1, rint2 z = some z := by
  decide

/-- The doubles of the witness. -/
noncomputable def chkF (s t : Ty) (n : Nat) : F64 := F64.roundTo ((chkEnv s t n : ℤ) : ℚ)

theorem chkF_val (s t : Ty) (h : (s, t) ∈ reordered) (n : Nat) :
    HasVal (chkF s t n) (chkEnv s t n) := by
  have h1 : rint2 (chkEnv s t n) = some (chkEnv s t n) := by
    unfold chkEnv
    rw [List.getD_eq_getElem?_getD]
    cases h2 : (checkWitness s t).1[n]? with
    | none => rfl
    | some z => exact (reject_ok _ h).2 z (List.mem_of_getElem? h2)
  obtain ⟨h2, h3⟩ := rint2_sound h1
  obtain ⟨a, b⟩ := F64.roundTo_value (x := ((chkEnv s t n : ℤ) : ℚ)) (by rw [h2]; exact h3)
  exact ⟨a, b.trans h2⟩

theorem int_valid {x : F64} {n : ℤ} (h : HasVal x n) : isValidDub x = true := by
  by_cases h0 : n = 0
  · rw [F64.isValidDub_Sz (sz_zero h.1 (by rw [h.2, h0, Int.cast_zero]))]; exact isValidDub_zero'
  · refine valid_of_normal h.1 ?_
    rw [h.2]
    have h1 : (1 : ℚ) ≤ |(n : ℚ)| := by exact_mod_cast Int.one_le_abs h0
    exact le_trans (zpow_le_one_of_nonpos₀ (by norm_num) (by norm_num)) h1

theorem all_comps_mv (x : MultiVector F64) {P : F64 → Prop} (h : ∀ k, P (cf x k)) :
    ∀ c ∈ comps .mv x, P c := by
  have h0 := h 0
  have h1 := h 1
  have h2 := h 2
  have h3 := h 3
  have h4 := h 4
  have h5 := h 5
  have h6 := h 6
  have h7 := h 7
  intro c hc
  simp only [comps, List.mem_cons, List.not_mem_nil, or_false, List.append_assoc,
    List.cons_append, List.nil_append] at hc
  rcases hc with rfl | rfl | rfl | rfl | rfl | rfl | rfl | rfl <;> assumption

theorem grade_mem (x y : MultiVector F64) (q : Nat) :
    ((gradeIdx q).map (cf x), (gradeIdx q).map (cf y)) ∈ (gradeLists .mv x).zip (gradeLists .mv y) := by
  match q with
  | 0 => exact List.mem_cons_self
  | 1 => exact List.mem_cons_of_mem _ List.mem_cons_self
  | 2 => exact List.mem_cons_of_mem _ (List.mem_cons_of_mem _ List.mem_cons_self)
  | _ + 3 => exact List.mem_cons_of_mem _ (List.mem_cons_of_mem _
      (List.mem_cons_of_mem _ List.mem_cons_self))

/-- **C93.** For each of the 27 pairs of types there are operands with integer components, with a valid
product by either way, for which the check fails, at every tolerance up to 1: a whole grade is lost in
one of the two orders of summation. -/
theorem C93_rejects (s t : Ty) (h : (s, t) ∈ reordered) : ∃ (a : s.D F64) (b : t.D F64),
    (∀ c ∈ comps s a, ∃ n : ℤ, HasVal c n) ∧ (∀ c ∈ comps t b, ∃ n : ℤ, HasVal c n) ∧
    (∀ c ∈ comps .mv (promote _ (mulTy s t a b)), isValidDub c = true) ∧
    (∀ c ∈ comps .mv (promote s a * promote t b), isValidDub c = true) ∧
    ∀ tol : F64, tol.Finite → tol.value ≤ 1 → mulCheck s t a b tol = .ok false := by
  have hv := chkF_val s t h
  have hint : ∀ (t' : Ty) (m : Nat), ∀ c ∈ comps t' (mapTy (fun x => T.eval (chkF s t) x) t' (sv t' m)),
      ∃ n : ℤ, HasVal c n := by
    intro t' m
    have : ∀ n, ∃ k : ℤ, HasVal (chkF s t n) k := fun n => ⟨_, hv n⟩
    cases t' <;> simp [comps, mapTy, sv, T.eval, this]
  have hr := (reject_ok _ h).1
  unfold runReject at hr
  simp only [Bool.and_eq_true, List.all_eq_true, List.any_eq_true, bne_iff_ne, beq_iff_eq,
    List.mem_finRange, true_implies] at hr
  obtain ⟨⟨h1, h2⟩, k, hk, h3⟩ := hr
  have hx : ∀ k, ∃ n, (cf (typedT s t) k).run2 (chkEnv s t) = some n ∧
      HasVal (cf (promote _ (mulTy s t (mapTy (fun x => T.eval (chkF s t) x) s (sv s 0))
        (mapTy (fun x => T.eval (chkF s t) x) t (sv t 8)))) k) n := fun k => by
    obtain ⟨n, hn⟩ := Option.isSome_iff_exists.1 (h1 k).1
    exact ⟨n, hn, by rw [← map_typed]; exact T.run2_sound _ _ hv _ _ hn⟩
  have hy : ∀ k, ∃ n, (cf (promotedT s t) k).run2 (chkEnv s t) = some n ∧
      HasVal (cf (promote s (mapTy (fun x => T.eval (chkF s t) x) s (sv s 0)) *
        promote t (mapTy (fun x => T.eval (chkF s t) x) t (sv t 8))) k) n := fun k => by
    obtain ⟨n, hn⟩ := Option.isSome_iff_exists.1 (h1 k).2
    exact ⟨n, hn, by rw [← map_promoted]; exact T.run2_sound _ _ hv _ _ hn⟩
  refine ⟨_, _, hint s 0, hint t 8, all_comps_mv _ fun k => ?_, all_comps_mv _ fun k => ?_, fun tol htf ht => ?_⟩
  · obtain ⟨n, -, hn⟩ := hx k; exact int_valid hn
  · obtain ⟨n, -, hn⟩ := hy k; exact int_valid hn
  · unfold mulCheck
    simp only []
    generalize promote _ (mulTy s t (mapTy (fun x => T.eval (chkF s t) x) s (sv s 0))
        (mapTy (fun x => T.eval (chkF s t) x) t (sv t 8))) = x at hx ⊢
    generalize promote s (mapTy (fun x => T.eval (chkF s t) x) s (sv s 0)) *
        promote t (mapTy (fun x => T.eval (chkF s t) x) t (sv t 8)) = y at hy ⊢
    obtain ⟨b, hb⟩ := C25_defined .mv x y tol
    rw [hb]
    cases b with
    | false => rfl
    | true =>
      exfalso
      have hg := (nearly_grades .mv (by decide) x y tol).1 hb _ (grade_mem x y (checkWitness s t).2)
      simp only [] at hg
      have hz : List.Forall₂ Sz ((gradeIdx (checkWitness s t).2).map (cf y))
          ((gradeIdx (checkWitness s t).2).map fun _ => 0) := by
        rw [List.forall₂_map_left_iff, List.forall₂_map_right_iff, List.forall₂_same]
        intro j hj
        obtain ⟨n, hn, hn2⟩ := hy j
        rw [h2 j hj] at hn
        cases hn
        exact sz_zero hn2.1 (by rw [hn2.2, Int.cast_zero])
      rw [C60_array (List.forall₂_same.2 fun c _ => Sz.refl c) hz (by simp)] at hg
      rw [C27_zero_reference _ _ tol (by simp) (by
        intro e; rw [List.map_eq_nil_iff] at e; rw [e] at hk; cases hk) (by
        intro c hc
        obtain ⟨j, -, rfl⟩ := List.mem_map.1 hc
        obtain ⟨n, -, hn⟩ := hx j
        exact int_valid hn) htf (by simp)] at hg
      have h4 := hg (cf x k) (List.mem_map_of_mem hk)
      obtain ⟨n, hn, hn2⟩ := hx k
      rw [hn2.2] at h4
      have h5 : n ≠ 0 := by rintro rfl; exact h3 hn
      have h6 : (1 : ℚ) ≤ |(n : ℚ)| := by exact_mod_cast Int.one_le_abs h5
      linarith

/-! ## Products without cancellation -/

theorem dist_le_sum {ι : Type} (L : List ι) (f g e : ι → ℝ) (h : ∀ k ∈ L, |f k - g k| ≤ e k) :
    listDist (L.map f) (L.map g) ≤ (L.map e).sum := by
  induction L with
  | nil => unfold listDist listNorm; simp
  | cons k L ih =>
    have h1 := ih fun j hj => h j (List.mem_cons_of_mem _ hj)
    have h2 := h k List.mem_cons_self
    have e1 : listDist ((k :: L).map f) ((k :: L).map g)
        = √((f k - g k) * (f k - g k)
          + listDist (L.map f) (L.map g) * listDist (L.map f) (L.map g)) := by
      show listNorm ((f k - g k) :: _) = _
      rw [listNorm_cons]; rfl
    rw [e1, List.map_cons, List.sum_cons]
    have h3 := listDist_nonneg (L.map f) (L.map g)
    have h4 := abs_nonneg (f k - g k)
    refine Real.sqrt_le_iff.2 ⟨by linarith, ?_⟩
    have h5 : (f k - g k) * (f k - g k) = |f k - g k| * |f k - g k| := (abs_mul_abs_self _).symm
    rw [h5]
    nlinarith

/-- Specification: component `k` of the exact product. -/
def exactMul (s t : Ty) (a : s.D F64) (b : t.D F64) (k : Fin 8) : ℚ :=
  cf (promote s (valTy s a) * promote t (valTy t b)) k

/-- Specification: the sum of the absolute values of the terms of component `k`. -/
def termSum (s t : Ty) (a : s.D F64) (b : t.D F64) (k : Fin 8) : ℚ :=
  absMul (cf (promote s (valTy s a))) (cf (promote t (valTy t b))) k

theorem val_promote (t : Ty) (x : t.D F64) : (valTy .mv (promote t x) : MultiVector ℚ) = promote t (valTy t x) := by
  cases t <;> rfl

theorem err_typed (s t : Ty) (a : s.D F64) (b : t.D F64) (k : Fin 8)
    (hf : (cf (promote _ (mulTy s t a b)) k).Finite) :
    |(cf (promote _ (mulTy s t a b)) k).value - exactMul s t a b k|
      ≤ 9 * 2 ^ (-53 : ℤ) * termSum s t a b k + 2 ^ (-1059 : ℤ) := by
  refine (C33_error s t a b k hf).trans (add_le_add ?_ ?_)
  · refine mul_le_mul_of_nonneg_right ?_ ?_
    · unfold F64.uro; norm_num
    · unfold absMul
      refine Finset.sum_nonneg fun i _ => Finset.sum_nonneg fun j _ => ?_
      split_ifs
      · exact mul_nonneg (abs_nonneg _) (abs_nonneg _)
      · exact le_rfl
  · unfold F64.tinyErr
    rw [show (-1059 : ℤ) = 16 + -1075 from by norm_num only, zpow_add₀ (by norm_num)]
    refine le_of_eq (congrArg (· * (2 : ℚ) ^ (-1075 : ℤ)) ?_)
    norm_num

theorem err_promoted (s t : Ty) (a : s.D F64) (b : t.D F64) (k : Fin 8)
    (hf : (cf (promote s a * promote t b) k).Finite) :
    |(cf (promote s a * promote t b) k).value - exactMul s t a b k|
      ≤ 9 * 2 ^ (-53 : ℤ) * termSum s t a b k + 2 ^ (-1059 : ℤ) := by
  have := err_typed .mv .mv (promote s a) (promote t b) k hf
  unfold exactMul termSum at this ⊢
  rw [val_promote, val_promote] at this
  exact this

theorem termSum_nonneg (s t : Ty) (a : s.D F64) (b : t.D F64) (k : Fin 8) : 0 ≤ termSum s t a b k := by
  unfold termSum absMul
  refine Finset.sum_nonneg fun i _ => Finset.sum_nonneg fun j _ => ?_
  split_ifs
  · exact mul_nonneg (abs_nonneg _) (abs_nonneg _)
  · exact le_rfl

theorem valid_tiny {c : F64} (h : isValidDub c = true) (h1 : |c.value| ≤ 2 ^ (-1059 : ℤ)) : Sz c 0 := by
  rcases (C11_double c).1 h with ⟨s, rfl⟩ | ⟨v, hv, rfl, h2⟩
  · exact Sz.zeros _ _
  · exfalso
    have h3 : (1 : ℚ) / 2 ^ 1022 ≤ 2 ^ (-1059 : ℤ) := le_trans h2 h1
    have h4 : (2 : ℚ) ^ (-1059 : ℤ) < 2 ^ (-1022 : ℤ) := zpow_lt_zpow_right₀ (by norm_num) (by norm_num)
    rw [show (1 : ℚ) / 2 ^ 1022 = 2 ^ (-1022 : ℤ) by rw [zpow_neg, ← one_div]; rfl] at h3
    exact absurd h4 (not_lt.2 h3)

/-- The arithmetic of the last step. -/
theorem room {τ N E A u w : ℝ} (hu : 12 * u ≤ 1 / 1000) (hτ0 : 0 < τ) (hτ : τ ≤ 1 / 100)
    (hN : 0 < N) (hw : w ≤ 1 / 1000 * (τ * N)) (hE : E ≤ 9 * u * A + w)
    (hA : 20 * u * A ≤ τ * N) :
    2 * E ≤ τ * (1 - 12 * u) * (N - E) ∧ 9 / 10 * N ≤ N - E := by
  have hE' : E ≤ 451 / 1000 * (τ * N) := by nlinarith
  have hτN : τ * N ≤ 1 / 100 * N := mul_le_mul_of_nonneg_right hτ hN.le
  have hp : 0 < τ * N := mul_pos hτ0 hN
  have hE2 : E ≤ 1 / 100 * N := by nlinarith
  refine ⟨?_, by nlinarith⟩
  have h1 : 99 / 100 * N ≤ N - E := by linarith
  have h2 : τ * (999 / 1000) ≤ τ * (1 - 12 * u) := mul_le_mul_of_nonneg_left (by linarith) hτ0.le
  have h3 : τ * (999 / 1000) * (99 / 100 * N) ≤ τ * (1 - 12 * u) * (N - E) :=
    mul_le_mul h2 h1 (by positivity) (by nlinarith)
  nlinarith

/-- **C93.** Without cancellation the check passes for all 100 pairs of types.  In every grade either
all terms of the components are zero, or the exact grade has a length of at least `2^-400` and at
least `20 * 2^-53 / tol` of the sum of the absolute values of the terms of its components.  (At
`tol = 1.e-14` this is 22.3 per cent of that sum.) -/
theorem C93_accepts (s t : Ty) (a : s.D F64) (b : t.D F64) (tol : F64)
    (hx : Mid (comps .mv (promote _ (mulTy s t a b)))) (hy : Mid (comps .mv (promote s a * promote t b)))
    (htf : tol.Finite) (ht1 : (2 : ℚ) ^ (-60 : ℤ) ≤ tol.value) (ht2 : tol.value ≤ 1 / 100)
    (hg : ∀ q, (∀ k ∈ gradeIdx q, termSum s t a b k = 0) ∨
      ((2 : ℝ) ^ (-400 : ℤ) ≤ listNorm ((gradeIdx q).map fun k => (exactMul s t a b k : ℝ)) ∧
        20 * 2 ^ (-53 : ℤ) * ((gradeIdx q).map fun k => (termSum s t a b k : ℝ)).sum
          ≤ tol.value * listNorm ((gradeIdx q).map fun k => (exactMul s t a b k : ℝ)))) :
    mulCheck s t a b tol = .ok true := by
  unfold mulCheck
  simp only []
  have hxk : ∀ k, cf (promote _ (mulTy s t a b)) k ∈ comps .mv (promote _ (mulTy s t a b)) :=
    forall_fin8 (by simp [comps, cf]) (by simp [comps, cf]) (by simp [comps, cf]) (by simp [comps, cf])
      (by simp [comps, cf]) (by simp [comps, cf]) (by simp [comps, cf]) (by simp [comps, cf])
  have hyk : ∀ k, cf (promote s a * promote t b) k ∈ comps .mv (promote s a * promote t b) :=
    forall_fin8 (by simp [comps, cf]) (by simp [comps, cf]) (by simp [comps, cf]) (by simp [comps, cf])
      (by simp [comps, cf]) (by simp [comps, cf]) (by simp [comps, cf]) (by simp [comps, cf])
  have ex := fun k => err_typed s t a b k (valid_finite (hx _ (hxk k)).1)
  have ey := fun k => err_promoted s t a b k (valid_finite (hy _ (hyk k)).1)
  rw [nearly_grades .mv (by decide)]
  intro p hp
  obtain ⟨q, rfl⟩ : ∃ q, p = ((gradeIdx q).map (cf (promote _ (mulTy s t a b))),
      (gradeIdx q).map (cf (promote s a * promote t b))) := by
    simp only [gradeLists, List.zip_cons_cons, List.zip_nil_left, List.mem_cons, List.not_mem_nil,
      or_false] at hp
    rcases hp with rfl | rfl | rfl | rfl
    exacts [⟨0, rfl⟩, ⟨1, rfl⟩, ⟨2, rfl⟩, ⟨3, rfl⟩]
  simp only []
  have ht0 : 0 < tol.value := lt_of_lt_of_le (by positivity) ht1
  have hlen : (gradeIdx q).length ≤ 3 ∧ gradeIdx q ≠ [] := by
    match q with
    | 0 => decide
    | 1 => decide
    | 2 => decide
    | _ + 3 => exact ⟨by simp [gradeIdx], by simp [gradeIdx]⟩
  have hz : ∀ (c : F64) (k : Fin 8), termSum s t a b k = 0 → isValidDub c = true →
      |c.value - exactMul s t a b k| ≤ 9 * 2 ^ (-53 : ℤ) * termSum s t a b k + 2 ^ (-1059 : ℤ) →
      Sz c 0 := by
    intro c k h0 hc he
    have h1 : exactMul s t a b k = 0 :=
      abs_eq_zero.1 (le_antisymm ((cf_mul_le _ _ k).trans (le_of_eq h0)) (abs_nonneg _))
    rw [h0, h1, sub_zero, mul_zero, zero_add] at he
    exact valid_tiny hc he
  rcases hg q with h0 | ⟨hN, hA⟩
  · have z1 : List.Forall₂ Sz ((gradeIdx q).map (cf (promote _ (mulTy s t a b))))
        ((gradeIdx q).map fun _ => 0) := by
      rw [List.forall₂_map_left_iff, List.forall₂_map_right_iff, List.forall₂_same]
      intro j hj
      exact hz _ j (h0 j hj) (hx _ (hxk j)).1 (ex j)
    have z2 : List.Forall₂ Sz ((gradeIdx q).map (cf (promote s a * promote t b)))
        ((gradeIdx q).map fun _ => 0) := by
      rw [List.forall₂_map_left_iff, List.forall₂_map_right_iff, List.forall₂_same]
      intro j hj
      exact hz _ j (h0 j hj) (hy _ (hyk j)).1 (ey j)
    rw [C60_array z1 z2 (by simp)]
    refine (C27_zero_reference _ _ tol (by simp) ?_ ?_ htf (by simp)).2 ?_
    · simpa using hlen.2
    · simp only [List.mem_map]; rintro c ⟨_, _, rfl⟩; exact isValidDub_zero'
    · simp only [List.mem_map]; rintro c ⟨_, _, rfl⟩; rw [F64.hasVal_zero'.2, abs_zero]; exact ht0
  · have cast : ∀ (f : Fin 8 → F64), vals ((gradeIdx q).map f)
        = (gradeIdx q).map fun k => ((f k).value : ℝ) := fun f => by
      unfold vals; rw [List.map_map]; rfl
    have hE : ∀ f : Fin 8 → F64, (∀ k, |(f k).value - exactMul s t a b k|
        ≤ 9 * 2 ^ (-53 : ℤ) * termSum s t a b k + 2 ^ (-1059 : ℤ)) →
        listDist (vals ((gradeIdx q).map f)) ((gradeIdx q).map fun k => (exactMul s t a b k : ℝ))
          ≤ ((gradeIdx q).map fun k => 9 * (2 : ℝ) ^ (-53 : ℤ) * (termSum s t a b k : ℝ)
              + 2 ^ (-1059 : ℤ)).sum := fun f hf => by
      rw [cast]
      refine dist_le_sum _ _ _ _ fun k _ => ?_
      have h1 := hf k
      rw [← Rat.cast_le (K := ℝ), Rat.cast_abs, Rat.cast_sub, Rat.cast_add, Rat.cast_mul, Rat.cast_mul,
        cast_zpow, cast_zpow, Rat.cast_ofNat] at h1
      exact h1
    have hsum : ((gradeIdx q).map fun k => 9 * (2 : ℝ) ^ (-53 : ℤ) * (termSum s t a b k : ℝ)
              + 2 ^ (-1059 : ℤ)).sum = 9 * 2 ^ (-53 : ℤ)
              * ((gradeIdx q).map fun k => (termSum s t a b k : ℝ)).sum
              + (gradeIdx q).length * 2 ^ (-1059 : ℤ) := by
      generalize (2 : ℝ) ^ (-53 : ℤ) = u
      generalize (2 : ℝ) ^ (-1059 : ℤ) = w
      induction gradeIdx q with
      | nil => simp
      | cons k L ih =>
        simp only [List.map_cons, List.sum_cons, ih, List.length_cons]; push_cast; ring
    have h1 := hE _ ex
    have h2 := hE _ ey
    rw [hsum] at h1 h2
    have hNp : 0 < listNorm ((gradeIdx q).map fun k => (exactMul s t a b k : ℝ)) :=
      lt_of_lt_of_le (by positivity) hN
    have ht1' : (2 : ℝ) ^ (-60 : ℤ) ≤ tol.value := by
      have := (Rat.cast_le (K := ℝ)).2 ht1
      rw [cast_zpow] at this; exact this
    have ht0' : (0 : ℝ) < tol.value := by exact_mod_cast ht0
    have ht2' : (tol.value : ℝ) ≤ 1 / 100 := by
      have := (Rat.cast_le (K := ℝ)).2 ht2
      push_cast at this; exact this
    have hw : ((gradeIdx q).length : ℝ) * 2 ^ (-1059 : ℤ)
        ≤ 1 / 1000 * (tol.value * listNorm ((gradeIdx q).map fun k => (exactMul s t a b k : ℝ))) := by
      have h3 : (2 : ℝ) ^ (-460 : ℤ)
          ≤ tol.value * listNorm ((gradeIdx q).map fun k => (exactMul s t a b k : ℝ)) := by
        refine le_trans (le_of_eq ?_) (mul_le_mul ht1' hN (by positivity) ht0'.le)
        rw [← zpow_add₀ (by norm_num)]; norm_num only
      have h4 : (2 : ℝ) ^ (-1059 : ℤ) ≤ 2 ^ (-20 : ℤ) * 2 ^ (-460 : ℤ) := by
        rw [← zpow_add₀ (by norm_num)]; exact zpow_le_zpow_right₀ (by norm_num) (by norm_num)
      have h5 : ((gradeIdx q).length : ℝ) ≤ 3 := by exact_mod_cast hlen.1
      have h6 : (0 : ℝ) < 2 ^ (-1059 : ℤ) := by positivity
      have h7 : (2 : ℝ) ^ (-20 : ℤ) ≤ 1 / 3000 := by norm_num
      have h8 : (0 : ℝ) < 2 ^ (-460 : ℤ) := by positivity
      generalize (2 : ℝ) ^ (-1059 : ℤ) = w at *
      generalize (2 : ℝ) ^ (-460 : ℤ) = v at *
      generalize (2 : ℝ) ^ (-20 : ℤ) = z at *
      nlinarith
    obtain ⟨r1, r2⟩ := room (u := (2 : ℝ) ^ (-53 : ℤ)) (by norm_num) ht0' ht2' hNp hw le_rfl hA
    have n1 := listNorm_le_dist ((gradeIdx q).map fun k => (exactMul s t a b k : ℝ))
      (vals ((gradeIdx q).map (cf (promote s a * promote t b)))) (by simp [vals])
    have n2 := listDist_triangle (vals ((gradeIdx q).map (cf (promote _ (mulTy s t a b)))))
      ((gradeIdx q).map fun k => (exactMul s t a b k : ℝ))
      (vals ((gradeIdx q).map (cf (promote s a * promote t b)))) (by simp [vals]) (by simp [vals])
    rw [listDist_symm ((gradeIdx q).map fun k => (exactMul s t a b k : ℝ))] at n1 n2
    have n3 := (sub_le_sub_left h2 _).trans (sub_le_iff_le_add'.2 n1)
    have n4 := n2.trans (add_le_add h1 h2)
    rw [← two_mul] at n4
    refine C27_range_accepts _ _ tol (by simp) (by rw [List.length_map]; omega) ?_ ?_ htf ht1
      (ht2.trans ((by norm_num : (1 / 100 : ℚ) ≤ 1).trans (one_le_zpow₀ (by norm_num) (by norm_num)))) ?_ ?_
    · intro c hc
      obtain ⟨k, -, rfl⟩ := List.mem_map.1 hc
      exact hx _ (hxk k)
    · intro c hc
      obtain ⟨k, -, rfl⟩ := List.mem_map.1 hc
      exact hy _ (hyk k)
    · have h3 : (2 : ℝ) ^ (-440 : ℤ) ≤ 9 / 10 * 2 ^ (-400 : ℤ) := by
        have h4 : (2 : ℝ) ^ (-440 : ℤ) = 2 ^ (-40 : ℤ) * 2 ^ (-400 : ℤ) := by
          rw [← zpow_add₀ (by norm_num)]; norm_num only
        rw [h4]
        exact mul_le_mul_of_nonneg_right (by norm_num) (by positivity)
      exact h3.trans ((mul_le_mul_of_nonneg_left hN (by norm_num : (0 : ℝ) ≤ 9 / 10)).trans (r2.trans n3))
    · rw [List.length_map]
      have h5 : ((gradeIdx q).length : ℝ) ≤ 3 := by exact_mod_cast hlen.1
      have h6 : (0 : ℝ) < 2 ^ (-53 : ℤ) := by positivity
      have h7 : (tol.value : ℝ) * (1 - 12 * 2 ^ (-53 : ℤ))
          ≤ tol.value * (1 - (2 * (gradeIdx q).length + 6) * 2 ^ (-53 : ℤ)) :=
        mul_le_mul_of_nonneg_left (by nlinarith) ht0'.le
      have h8 : (0 : ℝ) ≤ tol.value * (1 - 12 * 2 ^ (-53 : ℤ)) :=
        mul_nonneg ht0'.le (by norm_num)
      refine le_trans ?_ (mul_le_mul_of_nonneg_right h7 (listNorm_nonneg _))
      exact n4.trans (r1.trans (mul_le_mul_of_nonneg_left n3 h8))

/-! ## The hypotheses are met -/

/-- A `Spinor` and two `Vector`s, as the values of the variables of `typedT`. -/
def smallEnv (n : Nat) : ℤ := [1, 8, 9, -1, 2, 3, 4, 0, 0, 5, 6, 7].getD n 0

noncomputable def smallDub (n : Nat) : F64 := F64.roundTo ((smallEnv n : ℤ) : ℚ)

theorem smallF_hasVal (n : Nat) : HasVal (smallDub n) (smallEnv n) := by
  have h1 : rint2 (smallEnv n) = some (smallEnv n) := by
    unfold smallEnv
    rw [List.getD_eq_getElem?_getD]
    cases h2 : ([1, 8, 9, -1, 2, 3, 4, 0, 0, 5, 6, 7] : List ℤ)[n]? with
    | none => rfl
    | some z =>
      exact (by decide : ∀ z ∈ ([1, 8, 9, -1, 2, 3, 4, 0, 0, 5, 6, 7] : List ℤ), rint2 z = some z) z
        (List.mem_of_getElem? h2)
  obtain ⟨h2, h3⟩ := rint2_sound h1
  obtain ⟨a, b⟩ := F64.roundTo_value (x := ((smallEnv n : ℤ) : ℚ)) (by rw [h2]; exact h3)
  exact ⟨a, b.trans h2⟩

noncomputable def smallSpin : Spinor F64 := mapTy (fun x => T.eval smallDub x) .spin (sv .spin 0)
noncomputable def smallVec : Vector F64 := mapTy (fun x => T.eval smallDub x) .vec (sv .vec 8)

theorem smallSpin_val : (valTy .spin smallSpin : Spinor ℚ) = ⟨⟨⟨1⟩⟩, ⟨⟨2, 3, 4⟩⟩⟩ := by
  have h := fun n => (smallF_hasVal n).2
  simp [smallSpin, valTy, mapTy, sv, T.eval, h, smallEnv]

theorem smallVec_val : (valTy .vec smallVec : Vector ℚ) = ⟨5, 6, 7⟩ := by
  have h := fun n => (smallF_hasVal n).2
  simp [smallVec, valTy, mapTy, sv, T.eval, h, smallEnv]

/-- The vectors `8 e1 + 9 e2 - e3` and `5 e1 + 6 e2 + 7 e3` meet the hypotheses of `C93_always`. -/
example (tol : F64) (ht : Dbl.lt 0 tol = true) :
    mulCheck .vec .vec (mapTy (fun x => T.eval smallDub x) .vec (sv .vec 0)) smallVec tol = .ok true := by
  have hf : ∀ n, (smallDub n).Finite := fun n => (smallF_hasVal n).1
  have hx : ∀ k, isValidDub (cf (promote _ (mulTy .vec .vec
      (mapTy (fun x => T.eval smallDub x) .vec (sv .vec 0)) smallVec)) k) = true := fun k => by
    have h1 : ∀ k : Fin 8, ((cf (typedT .vec .vec) k).run2 smallEnv).isSome = true := by decide
    obtain ⟨n, hn⟩ := Option.isSome_iff_exists.1 (h1 k)
    refine int_valid (n := n) ?_
    unfold smallVec
    rw [← map_typed]
    exact T.run2_sound _ _ smallF_hasVal _ _ hn
  refine C93_always .vec .vec (by decide) _ _ tol ?_ ?_ ?_ ht
  · simp [comps, mapTy, sv, T.eval, hf]
  · simp [smallVec, comps, mapTy, sv, T.eval, hf]
  · intro c hc
    simp only [comps, List.mem_cons, List.not_mem_nil, or_false, List.append_assoc,
      List.cons_append, List.nil_append, mulRes] at hc
    rcases hc with rfl | rfl | rfl | rfl
    · exact hx 0
    · exact hx 4
    · exact hx 5
    · exact hx 6

/-- The operands `1 + 2 e23 + 3 e31 + 4 e12` and `5 e1 + 6 e2 + 7 e3` meet the hypotheses of
`C93_accepts`, so the check of the test program passes for them at every tolerance from `2^-40`. -/
theorem C93_accepts_example (tol : F64) (htf : tol.Finite) (ht1 : (2 : ℚ) ^ (-40 : ℤ) ≤ tol.value)
    (ht2 : tol.value ≤ 1 / 100) : mulCheck .spin .vec smallSpin smallVec tol = .ok true := by
  have hx : ∀ k, ∃ n : ℤ, |n| ≤ 100 ∧
      HasVal (cf (promote _ (mulTy .spin .vec smallSpin smallVec)) k) n := fun k => by
    have h1 : ∀ k : Fin 8, ((cf (typedT .spin .vec) k).run2 smallEnv).any (fun n => decide (|n| ≤ 100)) = true := by
      decide
    obtain ⟨n, hn, h2⟩ := (Option.any_eq_true _ _).1 (h1 k)
    refine ⟨n, of_decide_eq_true h2, ?_⟩
    unfold smallSpin smallVec
    rw [← map_typed]
    exact T.run2_sound _ _ smallF_hasVal _ _ hn
  have hy : ∀ k, ∃ n : ℤ, |n| ≤ 100 ∧
      HasVal (cf (promote .spin smallSpin * promote .vec smallVec) k) n := fun k => by
    have h1 : ∀ k : Fin 8, ((cf (promotedT .spin .vec) k).run2 smallEnv).any (fun n => decide (|n| ≤ 100)) = true := by
      decide
    obtain ⟨n, hn, h2⟩ := (Option.any_eq_true _ _).1 (h1 k)
    refine ⟨n, of_decide_eq_true h2, ?_⟩
    unfold smallSpin smallVec
    rw [← map_promoted]
    exact T.run2_sound _ _ smallF_hasVal _ _ hn
  have mid : ∀ (c : F64) (n : ℤ), |n| ≤ 100 → HasVal c n → isValidDub c = true ∧ |c.value| ≤ 2 ^ (500 : ℤ) := by
    intro c n h1 h2
    refine ⟨int_valid h2, ?_⟩
    rw [h2.2]
    have h3 : |(n : ℚ)| ≤ 2 ^ (7 : ℤ) := by
      have : |(n : ℚ)| ≤ 100 := by exact_mod_cast h1
      exact this.trans (by norm_num)
    exact h3.trans (zpow_le_zpow_right₀ (by norm_num) (by norm_num))
  have hE : ∀ k, exactMul .spin .vec smallSpin smallVec k = [0, 8, 0, 10, 0, 0, 0, 56].getD k.val 0 := by
    unfold exactMul
    rw [smallSpin_val, smallVec_val]
    refine forall_fin8 ?_ ?_ ?_ ?_ ?_ ?_ ?_ ?_ <;> simp [engabra, promote, cf] <;> norm_num
  have hA : ∀ k, termSum .spin .vec smallSpin smallVec k = [0, 50, 40, 34, 0, 0, 0, 56].getD k.val 0 := by
    unfold termSum
    rw [smallSpin_val, smallVec_val]
    refine forall_fin8 ?_ ?_ ?_ ?_ ?_ ?_ ?_ ?_ <;>
      simp [absMul_0, absMul_1, absMul_2, absMul_3, absMul_4, absMul_5, absMul_6, absMul_7, promote, cf,
        engabra] <;> norm_num
  refine C93_accepts .spin .vec _ _ tol (all_comps_mv _ fun k => ?_) (all_comps_mv _ fun k => ?_) htf
    ((zpow_le_zpow_right₀ (by norm_num) (by norm_num)).trans ht1) ht2 fun q => ?_
  · obtain ⟨n, h1, h2⟩ := hx k; exact mid _ n h1 h2
  · obtain ⟨n, h1, h2⟩ := hy k; exact mid _ n h1 h2
  · have ht1' : (2 : ℝ) ^ (-40 : ℤ) ≤ tol.value := by
      have := (Rat.cast_le (K := ℝ)).2 ht1
      rw [cast_zpow] at this; exact this
    have small : (2 : ℝ) ^ (-400 : ℤ) ≤ 1 := zpow_le_one_of_nonpos₀ (by norm_num) (by norm_num)
    have big : ∀ (N A : ℝ), 1 ≤ N → A ≤ 130 → 20 * 2 ^ (-53 : ℤ) * A ≤ tol.value * N := by
      intro N A h1 h2
      have h3 : (20 : ℝ) * 2 ^ (-53 : ℤ) * 130 ≤ 2 ^ (-40 : ℤ) := by norm_num
      have h4 : (0 : ℝ) < 2 ^ (-53 : ℤ) := by positivity
      have h5 : (0 : ℝ) < 2 ^ (-40 : ℤ) := by positivity
      generalize (2 : ℝ) ^ (-53 : ℤ) = u at *
      generalize (2 : ℝ) ^ (-40 : ℤ) = w at *
      nlinarith
    match q with
    | 0 => exact Or.inl (by simp [gradeIdx, hA])
    | 1 =>
      have h1 : 1 ≤ listNorm ((gradeIdx 1).map fun k => (exactMul .spin .vec smallSpin smallVec k : ℝ)) := by
        simp only [gradeIdx, List.map_cons, List.map_nil, hE, listNorm]
        norm_num
      exact Or.inr ⟨small.trans h1, big _ _ h1 (by simp [gradeIdx, hA]; norm_num)⟩
    | 2 => exact Or.inl (by simp [gradeIdx, hA])
    | _ + 3 =>
      have h1 : 1 ≤ listNorm ([7].map fun k => (exactMul .spin .vec smallSpin smallVec k : ℝ)) := by
        simp only [List.map_cons, List.map_nil, hE, listNorm]
        norm_num
      exact Or.inr ⟨small.trans h1, big _ _ h1 (by simp [gradeIdx, hA]; norm_num)⟩

end Engabra
