import Verif.Lemmas.NearChain

/-! # C90: `nearlyEquals` is almost symmetric and almost transitive, and never exactly transitive

Binary64.  The objects compared are `Comparable`: valid components of absolute value at most
`2^500`, and grade by grade both zero or both of norm at least `2^-440`.  Then the answer is, up to a
few roundings of the tolerance, that of the relative distance; so the arguments can be exchanged
and comparisons chained at a stated price in the tolerance. -/

namespace Engabra
open F64 (nan inf zero fin IsFin Finite HasVal)

/-- Specification: components valid and of absolute value at most `2^500`, and every grade zero in
both objects or of norm at least `2^-440` in both. -/
def Comparable (t : Ty) (x y : t.D F64) : Prop :=
  Mid (comps t x) ∧ Mid (comps t y) ∧ List.Forall₂ SameGrade (gradeLists t x) (gradeLists t y)

/-- Specification: a finite tolerance between `2^-60` and `2^500`. -/
def TolOk (tol : F64) : Prop :=
  tol.Finite ∧ (2 : ℚ) ^ (-60 : ℤ) ≤ tol.value ∧ tol.value ≤ 2 ^ (500 : ℤ)

theorem TolOk.pos {tol : F64} (h : TolOk tol) : (0 : ℝ) < tol.value := by
  exact_mod_cast (F64.two_zpow_pos (K := ℚ) _).trans_le h.2.1

theorem forall₂_zip {A B : Type} {R : A → B → Prop} {l : List A} {m : List B}
    (h : List.Forall₂ R l m) : ∀ p ∈ l.zip m, R p.1 p.2 := by
  induction h with
  | nil => simp
  | cons h _ ih =>
    intro p hp
    rw [List.zip_cons_cons, List.mem_cons] at hp
    rcases hp with rfl | hp
    · exact h
    · exact ih p hp

theorem zip_forall₂ {A B : Type} {R : A → B → Prop} {l : List A} {m : List B}
    (hl : l.length = m.length) (h : ∀ p ∈ l.zip m, R p.1 p.2) : List.Forall₂ R l m := by
  induction l generalizing m with
  | nil => cases m with
    | nil => exact .nil
    | cons b m => simp at hl
  | cons a l ih => cases m with
    | nil => simp at hl
    | cons b m =>
      exact .cons (h (a, b) (by simp)) (ih (by simpa using hl) fun p hp => h p (by simp [hp]))

theorem gradeLists_length (t : Ty) (x y : t.D F64) :
    (gradeLists t x).length = (gradeLists t y).length := by cases t <;> rfl

/-- An accepted pair is at a relative distance of at most `tol · (1 + 12 · 2^-53)`. -/
theorem near_grades (t : Ty) (htd : t ≠ .dub) (x y : t.D F64) (hc : Comparable t x y) {tol : F64}
    (ht : TolOk tol) (h : nearlyEqualsTy t x y tol = .ok true) :
    List.Forall₂ (NearGrade (tol.value * (1 + 12 * 2 ^ (-53 : ℤ)))) (gradeLists t x)
      (gradeLists t y) := by
  have k := C27_type_accepted_partial t htd x y tol hc.1 hc.2.1 ht.1 ht.2.1 h
  refine zip_forall₂ (gradeLists_length t x y) fun p hp => ?_
  have hs := forall₂_zip hc.2.2 p hp
  refine ⟨(grade_length t x y p hp).1, hs, ?_⟩
  rcases hs with ⟨_, h2⟩ | ⟨h1, h2⟩
  · exact (k p hp).1 h2
  · rw [norm_zero h2, dist_zero h1 h2, mul_zero]

/-- A pair at a relative distance of at most `tol · (1 - 12 · 2^-53)` is accepted. -/
theorem grades_near (t : Ty) (htd : t ≠ .dub) (x y : t.D F64) (hx : Mid (comps t x))
    (hy : Mid (comps t y)) {tol : F64} (ht : TolOk tol) {ε : ℝ}
    (hε : ε ≤ tol.value * (1 - 12 * 2 ^ (-53 : ℤ)))
    (h : List.Forall₂ (NearGrade ε) (gradeLists t x) (gradeLists t y)) :
    nearlyEqualsTy t x y tol = .ok true := by
  rw [nearly_grades t htd]
  intro p hp
  obtain ⟨hl, hl3, hne, hcx, hcy⟩ := grade_length t x y p hp
  obtain ⟨_, hs, hd⟩ := forall₂_zip h p hp
  rcases hs with ⟨_, h2⟩ | ⟨h1, h2⟩
  · refine C27_range_accepts p.1 p.2 tol hl (by omega) (fun c hc => hx c (hcx c hc))
      (fun c hc => hy c (hcy c hc)) ht.1 ht.2.1 ht.2.2 h2 (hd.trans ?_)
    refine mul_le_mul_of_nonneg_right (hε.trans (mul_le_mul_of_nonneg_left ?_ ht.pos.le))
      (listNorm_nonneg _)
    have h3 : (p.1.length : ℝ) ≤ 3 := by exact_mod_cast hl3
    have := mul_le_mul_of_nonneg_right (by linarith : 2 * (p.1.length : ℝ) + 6 ≤ 12)
      (by positivity : (0 : ℝ) ≤ 2 ^ (-53 : ℤ))
    linarith
  · have z : ∀ l : List F64, Mid l → (∀ c ∈ l, c.value = 0) →
        List.Forall₂ Sz l (l.map fun _ => 0) := by
      intro l hm hz
      induction l with
      | nil => exact .nil
      | cons c l ih =>
        exact .cons (sz_zero (F64.valid_finite (hm c (by simp)).1) (hz c (by simp)))
          (ih (fun d hd => hm d (by simp [hd])) fun d hd => hz d (by simp [hd]))
    rw [C60_array (z p.1 (fun c hc => hx c (hcx c hc)) h1) (z p.2 (fun c hc => hy c (hcy c hc)) h2)
      hl tol]
    have e : (p.1.map fun _ => (0 : F64)) = p.2.map fun _ => 0 := by
      rw [List.map_const', List.map_const', hl]
    rw [e]
    refine C26_array _ tol ?_ ?_ ?_
    · intro h0
      rw [List.map_eq_nil_iff] at h0
      rw [h0] at hl
      exact hne (List.length_eq_zero_iff.1 hl)
    · intro c hc
      obtain ⟨_, _, rfl⟩ := List.mem_map.1 hc
      exact isValidDub_zero false
    · rw [F64.hasVal_zero'.flt ⟨ht.1, rfl⟩, decide_eq_true_iff]
      exact_mod_cast ht.pos

theorem Comparable.symm {t : Ty} {x y : t.D F64} (h : Comparable t x y) : Comparable t y x :=
  ⟨h.2.1, h.1, h.2.2.flip.imp fun _ _ h => SameGrade.symm h⟩

theorem Comparable.trans {t : Ty} {x y z : t.D F64} (h : Comparable t x y) (k : Comparable t y z) :
    Comparable t x z :=
  ⟨h.1, k.2.1, forall₂_comp h.2.2 k.2.2 fun _ _ _ h k => h.trans k⟩

/-- **C90.**  If `nearlyEquals(x, y, tol)` with `tol ≤ 1/2` then `nearlyEquals(y, x, tol')` for every
`tol' ≥ tol / (1 - tol) · (1 + 2^-47)`. -/
theorem C90_symmetric (t : Ty) (htd : t ≠ .dub) (x y : t.D F64) (hc : Comparable t x y)
    {tol tol' : F64} (ht : TolOk tol) (ht' : TolOk tol') (h1 : tol.value ≤ 1 / 2)
    (h2 : tol.value / (1 - tol.value) * (1 + 2 ^ (-47 : ℤ)) ≤ tol'.value)
    (h : nearlyEqualsTy t x y tol = .ok true) : nearlyEqualsTy t y x tol' = .ok true := by
  have hp := ht.pos
  have h1r : (tol.value : ℝ) ≤ 1 / 2 := by
    have := (Rat.cast_le (K := ℝ)).2 h1
    push_cast at this
    exact this
  have h2r : (tol.value : ℝ) / (1 - tol.value) * (1 + 2 ^ (-47 : ℤ)) ≤ tol'.value := by
    have := (Rat.cast_le (K := ℝ)).2 h2
    push_cast at this
    exact this
  have n := near_grades t htd x y hc ht h
  generalize (tol.value : ℝ) = a at *
  have hu : (2 : ℝ) ^ (-47 : ℤ) = 64 * 2 ^ (-53 : ℤ) := by norm_num
  have hu1 : (0 : ℝ) ≤ 2 ^ (-53 : ℤ) := by positivity
  have hu2 : (2 : ℝ) ^ (-53 : ℤ) ≤ 1 / 1000000 := by norm_num
  rw [hu] at h2r
  have hs : a * (1 + 12 * 2 ^ (-53 : ℤ)) < 1 := by
    generalize (2 : ℝ) ^ (-53 : ℤ) = u at *
    nlinarith
  refine grades_near t htd y x hc.2.1 hc.1 ht' ?_
    (n.flip.imp fun _ _ h => NearGrade.symm (by positivity) hs h)
  generalize (tol'.value : ℝ) = b at *
  generalize (2 : ℝ) ^ (-53 : ℤ) = u at *
  rw [div_mul_eq_mul_div, div_le_iff₀ (by linarith)] at h2r
  rw [div_le_iff₀ (by linarith)]
  -- `a (1 + 12u) ≤ b (1 - 12u) (1 - a (1 + 12u))`
  have hb : 0 ≤ b := by
    by_contra hb
    rw [not_le] at hb
    have := mul_neg_of_neg_of_pos hb (by linarith : 0 < 1 - a)
    have := mul_pos hp (by linarith : 0 < 1 + 64 * u)
    linarith
  have e1 : (1 - a) * (1 - 12 * u) ≤ 1 - a * (1 + 12 * u) := by nlinarith
  have e2 : b * (1 - 12 * u) * ((1 - a) * (1 - 12 * u))
      ≤ b * (1 - 12 * u) * (1 - a * (1 + 12 * u)) :=
    mul_le_mul_of_nonneg_left e1 (mul_nonneg hb (by linarith))
  refine le_trans ?_ e2
  have e3 : b * (1 - 12 * u) * ((1 - a) * (1 - 12 * u))
      = b * (1 - a) * ((1 - 12 * u) * (1 - 12 * u)) := by ring
  rw [e3]
  refine le_trans ?_ (mul_le_mul_of_nonneg_right h2r (mul_self_nonneg _))
  rw [mul_assoc]
  refine mul_le_mul_of_nonneg_left ?_ hp.le
  have e4 : u * u ≤ u * (1 / 1000000) := mul_le_mul_of_nonneg_left hu2 hu1
  nlinarith [mul_nonneg hu1 (mul_nonneg hu1 hu1)]

/-- **C90.**  If `nearlyEquals(x, y, s)` and `nearlyEquals(y, z, r)` then `nearlyEquals(x, z, tol)` for
every `tol ≥ (s + r + s·r) · (1 + 2^-47)`. -/
theorem C90_transitive (t : Ty) (htd : t ≠ .dub) (x y z : t.D F64) (hc : Comparable t x y)
    (hd : Comparable t y z) {s r tol : F64} (hs : TolOk s) (hr : TolOk r) (ht : TolOk tol)
    (h2 : (s.value + r.value + s.value * r.value) * (1 + 2 ^ (-47 : ℤ)) ≤ tol.value)
    (h : nearlyEqualsTy t x y s = .ok true) (k : nearlyEqualsTy t y z r = .ok true) :
    nearlyEqualsTy t x z tol = .ok true := by
  have n := near_grades t htd x y hc hs h
  have m := near_grades t htd y z hd hr k
  have h2r : ((s.value : ℝ) + r.value + s.value * r.value) * (1 + 2 ^ (-47 : ℤ)) ≤ tol.value := by
    have := (Rat.cast_le (K := ℝ)).2 h2
    push_cast at this
    exact this
  have hp := hs.pos
  have hq := hr.pos
  generalize (s.value : ℝ) = a at *
  generalize (r.value : ℝ) = b at *
  refine grades_near t htd x z hc.1 hd.2.1 ht ?_
    (forall₂_comp n m fun _ _ _ h k => h.trans (by positivity) k)
  have hu : (2 : ℝ) ^ (-47 : ℤ) = 64 * 2 ^ (-53 : ℤ) := by norm_num
  have hu1 : (0 : ℝ) ≤ 2 ^ (-53 : ℤ) := by positivity
  have hu2 : (2 : ℝ) ^ (-53 : ℤ) ≤ 1 / 1000000 := by norm_num
  rw [hu] at h2r
  generalize (tol.value : ℝ) = c at *
  generalize (2 : ℝ) ^ (-53 : ℤ) = u at *
  refine le_trans ?_ (mul_le_mul_of_nonneg_right h2r (by linarith))
  have e1 : (1 + a * (1 + 12 * u)) * (1 + b * (1 + 12 * u)) - 1
      ≤ (a + b + a * b) * ((1 + 12 * u) * (1 + 12 * u)) := by
    have : (a + b) * (1 + 12 * u) ≤ (a + b) * ((1 + 12 * u) * (1 + 12 * u)) :=
      mul_le_mul_of_nonneg_left (by nlinarith) (by linarith)
    nlinarith
  refine e1.trans ?_
  rw [mul_assoc]
  refine mul_le_mul_of_nonneg_left ?_ (by positivity)
  nlinarith

theorem chain_grades (t : Ty) (htd : t ≠ .dub) (l : List (t.D F64)) {tol : F64} (ht : TolOk tol) :
    ∀ x, (∀ y ∈ l, Comparable t x y) →
      List.IsChain (fun a b => nearlyEqualsTy t a b tol = .ok true) (x :: l) →
      x :: l = [x] ∨ List.Forall₂ (NearGrade ((1 + tol.value * (1 + 12 * 2 ^ (-53 : ℤ))) ^ l.length - 1))
        (gradeLists t x) (gradeLists t ((x :: l).getLast (by simp))) := by
  induction l with
  | nil => intro x _ _; exact .inl rfl
  | cons y l ih =>
    intro x hx h
    rw [List.isChain_cons_cons] at h
    have hxy := hx y (by simp)
    have n := near_grades t htd x y hxy ht h.1
    right
    rw [List.getLast_cons_cons]
    have hb : (0 : ℝ) ≤ tol.value * (1 + 12 * 2 ^ (-53 : ℤ)) :=
      mul_nonneg ht.pos.le (by positivity)
    rcases ih y (fun z hz => hxy.symm.trans (hx z (by simp [hz]))) h.2 with e | m
    · rw [List.cons.injEq] at e
      obtain ⟨_, rfl⟩ := e
      simpa using n
    · refine (forall₂_comp n m fun _ _ _ h k => h.trans hb k).imp fun _ _ h => h.mono (le_of_eq ?_)
      rw [List.length_cons, pow_succ]
      ring

/-- **C90.**  In a chain of objects, of any length, each accepted against the next with tolerance
`tol`, the first is accepted against the last with any tolerance `tol'` for which
`(1 + tol·(1 + 12·2^-53))^n - 1 ≤ tol'·(1 - 12·2^-53)`, `n` being the number of comparisons. -/
theorem C90_chain (t : Ty) (htd : t ≠ .dub) (x : t.D F64) (l : List (t.D F64)) (hl : l ≠ [])
    (hc : ∀ y ∈ l, Comparable t x y) {tol tol' : F64} (ht : TolOk tol) (ht' : TolOk tol')
    (h2 : (1 + tol.value * (1 + 12 * 2 ^ (-53 : ℤ))) ^ l.length - 1
      ≤ tol'.value * (1 - 12 * 2 ^ (-53 : ℤ)))
    (h : List.IsChain (fun a b => nearlyEqualsTy t a b tol = .ok true) (x :: l)) :
    nearlyEqualsTy t x (l.getLast hl) tol' = .ok true := by
  rcases chain_grades t htd l ht x hc h with e | m
  · rw [List.cons.injEq] at e
    exact absurd e.2 hl
  · rw [List.getLast_cons hl] at m
    have hy := hc _ (List.getLast_mem hl)
    refine grades_near t htd x _ hy.1 hy.2.1 ht' ?_ m
    have := (Rat.cast_le (K := ℝ)).2 h2
    push_cast at this
    exact this

/-- Compound growth is at most twice linear as long as the linear growth is at most 1/4. -/
theorem compound_le (a : ℝ) (ha : 0 ≤ a) (n : ℕ) (h : n * a ≤ 1 / 2) :
    (1 + a) ^ n - 1 ≤ n * a * (1 + n * a) := by
  induction n with
  | zero => simp
  | succ n ih =>
    push_cast at h ⊢
    have hn : (n : ℝ) * a ≤ 1 / 2 := by nlinarith
    have k := ih hn
    have h0 : 0 ≤ (n : ℝ) * a := mul_nonneg n.cast_nonneg ha
    rw [pow_succ]
    have e : (1 + a) ^ n * (1 + a) - 1 = ((1 + a) ^ n - 1) * (1 + a) + a := by ring
    rw [e]
    rw [show ((n : ℝ) + 1) * a = n * a + a by ring] at h ⊢
    generalize (n : ℝ) * a = s at *
    have := mul_le_mul_of_nonneg_right k (by linarith : 0 ≤ 1 + a)
    nlinarith [mul_nonneg h0 ha, mul_nonneg (mul_nonneg h0 ha) (by linarith : 0 ≤ 1 - s)]

/-- **C90.**  In a chain of `n` comparisons with tolerance `tol`, `n · tol ≤ 1/4`, the first object is
accepted against the last with tolerance `2 · n · tol`, and so with any greater one. -/
theorem C90_chain_linear (t : Ty) (htd : t ≠ .dub) (x : t.D F64) (l : List (t.D F64)) (hl : l ≠ [])
    (hc : ∀ y ∈ l, Comparable t x y) {tol tol' : F64} (ht : TolOk tol) (ht' : TolOk tol')
    (h1 : l.length * tol.value ≤ 1 / 4) (h2 : 2 * (l.length * tol.value) ≤ tol'.value)
    (h : List.IsChain (fun a b => nearlyEqualsTy t a b tol = .ok true) (x :: l)) :
    nearlyEqualsTy t x (l.getLast hl) tol' = .ok true := by
  refine C90_chain t htd x l hl hc ht ht' ?_ h
  have h1r := (Rat.cast_le (K := ℝ)).2 h1
  have h2r := (Rat.cast_le (K := ℝ)).2 h2
  rw [← Rat.cast_le (K := ℝ)]
  push_cast at h1r h2r ⊢
  have hp := ht.pos
  generalize (tol.value : ℝ) = a at *
  generalize (tol'.value : ℝ) = b at *
  have hu1 : (0 : ℝ) ≤ 2 ^ (-53 : ℤ) := by positivity
  have hu2 : (2 : ℝ) ^ (-53 : ℤ) ≤ 1 / 1000000 := by norm_num
  generalize (2 : ℝ) ^ (-53 : ℤ) = u at *
  have h0 : 0 ≤ (l.length : ℝ) * a := mul_nonneg (Nat.cast_nonneg _) hp.le
  have e : (l.length : ℝ) * (a * (1 + 12 * u)) = l.length * a * (1 + 12 * u) := by ring
  have k := compound_le (a * (1 + 12 * u)) (by positivity) l.length (by rw [e]; nlinarith)
  rw [e] at k
  generalize (l.length : ℝ) * a = s at *
  refine k.trans ?_
  have : s * (1 + 12 * u) * (1 + s * (1 + 12 * u)) ≤ s * (3 / 2) := by
    rw [mul_assoc]
    refine mul_le_mul_of_nonneg_left ?_ h0
    have e1 : 1 + 12 * u ≤ 11 / 10 := by linarith
    have e2 : s * (1 + 12 * u) ≤ 1 / 4 * (11 / 10) :=
      mul_le_mul h1r e1 (by linarith) (by norm_num)
    have := mul_le_mul e1 (by linarith : 1 + s * (1 + 12 * u) ≤ 1 + 1 / 4 * (11 / 10))
      (by nlinarith) (by norm_num)
    linarith
  nlinarith

/-- `7/4 + k · 2^-j` is a double. -/
theorem isFin_step (j k : ℕ) (hj : 2 ≤ j) (hj2 : j ≤ 52) (hk : k ≤ 3) :
    IsFin (7 / 4 + k * (1 / 2 ^ j)) := by
  obtain ⟨i, rfl⟩ := Nat.exists_eq_add_of_le' hj
  have hp : (2 : ℕ) ^ i ≤ 2 ^ 50 := Nat.pow_le_pow_right (by norm_num) (by omega)
  refine ⟨by positivity, ((7 * 2 ^ i + k : ℕ) : ℤ), -((i + 2 : ℕ) : ℤ), ?_, by omega, by omega, ?_⟩
  · have : 7 * 2 ^ i + k < 2 ^ 53 := by
      generalize 2 ^ i = z at *
      omega
    rw [Nat.abs_cast]
    exact_mod_cast this
  · rw [zpow_neg, zpow_natCast]
    push_cast
    rw [pow_add]
    field_simp
    ring

/-- **C90.**  For no tolerance between `2^-52` (the default) and `1/8` is the comparison transitive:
there are three valid Scalars, the first accepted against the second and the second against the
third, but not the first against the third. -/
theorem C90_never_transitive (tol : F64) (htf : tol.Finite) (h1 : (2 : ℚ) ^ (-52 : ℤ) ≤ tol.value)
    (h2 : tol.value ≤ 1 / 8) :
    ∃ a b c : Scalar F64, Comparable .sca a b ∧ Comparable .sca b c ∧
      nearlyEqualsTy .sca a b tol = .ok true ∧ nearlyEqualsTy .sca b c tol = .ok true ∧
      nearlyEqualsTy .sca a c tol = .ok false := by
  obtain ⟨j, hj2, hj52, hd1, hd2⟩ : ∃ j : ℕ, 2 ≤ j ∧ j ≤ 52 ∧ (1 : ℚ) / 2 ^ j ≤ 3 / 2 * tol.value ∧
      3 / 2 * tol.value < 2 * (1 / 2 ^ j) := by
    have hex : ∃ j : ℕ, (1 : ℚ) / 2 ^ j ≤ 3 / 2 * tol.value := ⟨52, by
      have : (1 : ℚ) / 2 ^ 52 = 2 ^ (-52 : ℤ) := by norm_num
      rw [this]
      have h0 := F64.two_zpow_pos (K := ℚ) (-52)
      generalize (2 : ℚ) ^ (-52 : ℤ) = z at *
      linarith⟩
    refine ⟨Nat.find hex, ?_, Nat.find_min' hex ?_, Nat.find_spec hex, ?_⟩
    · rw [Nat.le_find_iff]
      intro m hm
      rw [not_le]
      have : (1 : ℚ) / 4 ≤ 1 / 2 ^ m := by
        interval_cases m <;> norm_num
      linarith
    · have : (1 : ℚ) / 2 ^ 52 = 2 ^ (-52 : ℤ) := by norm_num
      rw [this]
      have h0 := F64.two_zpow_pos (K := ℚ) (-52)
      generalize (2 : ℚ) ^ (-52 : ℤ) = z at *
      linarith
    · have hp : 0 < Nat.find hex := by
        rw [Nat.find_pos]
        norm_num
        linarith
      have := Nat.find_min hex (Nat.sub_lt hp one_pos)
      rw [not_le] at this
      refine this.trans_le (le_of_eq ?_)
      obtain ⟨k, hk⟩ := Nat.exists_eq_succ_of_ne_zero hp.ne'
      rw [hk, Nat.succ_sub_one, pow_succ]
      field_simp
  set d : ℚ := 1 / 2 ^ j with hd
  have hd0 : 0 < d := by positivity
  let q : ℕ → F64 := fun k => if hk : k ≤ 3 then fin (7 / 4 + k * d) (isFin_step j k hj2 hj52 hk) else 0
  have hq : ∀ k, k ≤ 3 → (q k).Finite ∧ (q k).value = 7 / 4 + k * d := by
    intro k hk
    simp only [q, dif_pos hk]
    exact ⟨trivial, rfl⟩
  have hd1' : d ≤ 3 / 16 := by linarith
  have hkd : ∀ k : ℕ, k ≤ 3 → (k : ℚ) * d ≤ 1 ∧ 0 ≤ (k : ℚ) * d := by
    intro k hk
    have : (k : ℚ) ≤ 3 := by exact_mod_cast hk
    exact ⟨by nlinarith, by positivity⟩
  have hmid : ∀ k, k ≤ 3 → Mid [q k] := by
    intro k hk c hc
    rw [List.mem_singleton] at hc
    subst hc
    obtain ⟨e1, e2⟩ := hkd k hk
    have hpos : 0 ≤ 7 / 4 + (k : ℚ) * d := by linarith
    refine ⟨valid_of_normal (hq k hk).1 ?_, ?_⟩
    · rw [(hq k hk).2, abs_of_nonneg hpos]
      refine (zpow_le_zpow_right₀ (by norm_num) (by norm_num : (-1022 : ℤ) ≤ 0)).trans ?_
      rw [zpow_zero]
      linarith
    · rw [(hq k hk).2, abs_of_nonneg hpos]
      refine le_trans ?_ (zpow_le_zpow_right₀ (by norm_num) (by norm_num : (2 : ℤ) ≤ 500))
      norm_num
      linarith
  have hnorm : ∀ k, k ≤ 3 → listNorm (vals [q k]) = 7 / 4 + (k : ℝ) * d := by
    intro k hk
    obtain ⟨_, e2⟩ := hkd k hk
    have e : vals [q k] = [((q k).value : ℝ)] := rfl
    rw [e, (hq k hk).2]
    unfold listNorm
    simp only [List.map_cons, List.map_nil, List.sum_cons, List.sum_nil, add_zero]
    rw [Real.sqrt_mul_self]
    · push_cast; ring
    · exact_mod_cast (by linarith : (0 : ℚ) ≤ 7 / 4 + k * d)
  have hdist : ∀ k i, i ≤ k → k ≤ 3 →
      listDist (vals [q k]) (vals [q i]) = ((k : ℝ) - i) * d := by
    intro k i hik hk
    have e : ∀ k, vals [q k] = [((q k).value : ℝ)] := fun _ => rfl
    rw [e, e, (hq k hk).2, (hq i (hik.trans hk)).2]
    unfold listDist listNorm
    simp only [List.zipWith_cons_cons, List.zipWith_nil_right, List.map_cons, List.map_nil,
      List.sum_cons, List.sum_nil, add_zero]
    have hki : (i : ℝ) ≤ k := by exact_mod_cast hik
    have hdr : (0 : ℝ) < d := by exact_mod_cast hd0
    rw [show (((7 / 4 + k * d : ℚ) : ℝ) - ((7 / 4 + i * d : ℚ) : ℝ)) = ((k : ℝ) - i) * d by
      push_cast; ring]
    exact Real.sqrt_mul_self (mul_nonneg (by linarith) hdr.le)
  have hbig : ∀ k, k ≤ 3 → (2 : ℝ) ^ (-440 : ℤ) ≤ listNorm (vals [q k]) := by
    intro k hk
    rw [hnorm k hk]
    refine (zpow_le_zpow_right₀ (by norm_num) (by norm_num : (-440 : ℤ) ≤ 0)).trans ?_
    have hdr : (0 : ℝ) < d := by exact_mod_cast hd0
    rw [zpow_zero]
    have := mul_nonneg (Nat.cast_nonneg (α := ℝ) k) hdr.le
    linarith
  have hcomp : ∀ k i, k ≤ 3 → i ≤ 3 → Comparable .sca (⟨⟨q k⟩⟩ : Scalar F64) (⟨⟨q i⟩⟩ : Scalar F64) :=
    fun k i hk hi => ⟨hmid k hk, hmid i hi, .cons (.inl ⟨hbig k hk, hbig i hi⟩) .nil⟩
  have ht1 : (2 : ℚ) ^ (-60 : ℤ) ≤ tol.value :=
    (zpow_le_zpow_right₀ (by norm_num) (by norm_num)).trans h1
  have hT : TolOk tol := ⟨htf, ht1, h2.trans (le_trans (by norm_num)
    (one_le_zpow₀ (by norm_num : (1 : ℚ) ≤ 2) (by norm_num : (0 : ℤ) ≤ 500)))⟩
  have hd1r : (d : ℝ) ≤ 3 / 2 * tol.value := by
    have := (Rat.cast_le (K := ℝ)).2 hd1; push_cast at this; exact this
  have hd2r : 3 / 2 * (tol.value : ℝ) < 2 * d := by
    have := (Rat.cast_lt (K := ℝ)).2 hd2; push_cast at this; exact this
  have hu1 : (0 : ℝ) ≤ 2 ^ (-53 : ℤ) := by positivity
  have hu2 : (2 : ℝ) ^ (-53 : ℤ) ≤ 1 / 1000000 := by norm_num
  have hpos := hT.pos
  have hdr : (0 : ℝ) < d := by exact_mod_cast hd0
  have step : ∀ k, k ≤ 2 → nearlyEqualsTy .sca (⟨⟨q (k + 1)⟩⟩ : Scalar F64)
      (⟨⟨q k⟩⟩ : Scalar F64) tol = .ok true := by
    intro k hk
    refine grades_near .sca (by decide) (⟨⟨q (k + 1)⟩⟩ : Scalar F64) (⟨⟨q k⟩⟩ : Scalar F64)
      (hmid _ (by omega)) (hmid _ (by omega)) hT le_rfl (.cons ⟨rfl,
        .inl ⟨hbig _ (by omega), hbig _ (by omega)⟩, ?_⟩ .nil)
    have e1 := hdist (k + 1) k (by omega) (by omega)
    have e2 := hnorm k (by omega)
    refine (le_of_eq e1).trans (le_trans ?_ (le_of_eq (congrArg _ e2.symm)))
    push_cast
    have := mul_nonneg (Nat.cast_nonneg (α := ℝ) k) hdr.le
    generalize (2 : ℝ) ^ (-53 : ℤ) = u at *
    have e3 : tol.value * (99 / 100) * (7 / 4) ≤ tol.value * (1 - 12 * u) * (7 / 4 + k * (d : ℝ)) :=
      mul_le_mul (mul_le_mul_of_nonneg_left (by linarith) hpos.le) (by linarith) (by norm_num)
        (mul_nonneg hpos.le (by linarith))
    linarith
  have last : nearlyEqualsTy .sca (⟨⟨q 3⟩⟩ : Scalar F64) (⟨⟨q 0⟩⟩ : Scalar F64) tol = .ok false := by
    obtain ⟨b, hb⟩ := C25_defined .sca (⟨⟨q 3⟩⟩ : Scalar F64) (⟨⟨q 0⟩⟩ : Scalar F64) tol
    cases b with
    | false => exact hb
    | true =>
      exfalso
      have n := near_grades .sca (by decide) _ _ (hcomp 3 0 le_rfl (by norm_num)) hT hb
      cases n with
      | cons n _ =>
        have e := n.2.2
        have e1 := hdist 3 0 (by norm_num) le_rfl
        have e2 := hnorm 0 (by norm_num)
        have e3 := (le_of_eq e1.symm).trans (e.trans (le_of_eq (congrArg _ e2)))
        push_cast at e3
        generalize (2 : ℝ) ^ (-53 : ℤ) = u at *
        have e4 : tol.value * (1 + 12 * u) ≤ tol.value * (101 / 100) :=
          mul_le_mul_of_nonneg_left (by linarith) hpos.le
        linarith
  obtain ⟨b, hb⟩ := C25_defined .sca (⟨⟨q 2⟩⟩ : Scalar F64) (⟨⟨q 0⟩⟩ : Scalar F64) tol
  cases b with
  | true => exact ⟨_, _, _, hcomp 3 2 (by norm_num) (by norm_num), hcomp 2 0 (by norm_num) (by norm_num),
      step 2 (by norm_num), hb, last⟩
  | false => exact ⟨_, _, _, hcomp 2 1 (by norm_num) (by norm_num), hcomp 1 0 (by norm_num) (by norm_num),
      step 1 (by norm_num), step 0 (by norm_num), hb⟩

/-! ## Doubles -/

/-- Specification: a reference value that is not too small to divide by. -/
def RefOk (a : F64) : Prop := isValidDub a = true ∧ (2 : ℚ) ^ (-970 : ℤ) ≤ |a.value|

/-- Specification: `tol` widened by the rounding errors of the comparison of doubles. -/
def widen (tol : ℚ) : ℚ := tol * (1 + 1 / 2 ^ 50) + 1 / 2 ^ 50

/-- Specification: `tol` narrowed by the rounding errors of the comparison of doubles. -/
def narrow (tol : ℚ) : ℚ := tol * (1 - 1 / 2 ^ 50) - 1 / 2 ^ 50

theorem RefOk.ne {a : F64} (h : RefOk a) : a.value ≠ 0 := by
  intro e
  have := h.2
  rw [e, abs_zero] at this
  exact absurd this (not_le.2 (F64.two_zpow_pos _))

theorem double_near {a b tol : F64} (ht : tol.Finite) (hb : RefOk b)
    (h : nearlyEqualsDub a b tol = true) : |a.value / b.value - 1| < widen tol.value := by
  by_contra hc
  rw [not_lt] at hc
  rw [C27_double_rejects a b tol ht hb.2 hc] at h
  cases h

theorem widen_pos {a b tol : F64} (ht : tol.Finite) (hb : RefOk b)
    (h : nearlyEqualsDub a b tol = true) : 0 < widen tol.value :=
  (abs_nonneg _).trans_lt (double_near ht hb h)

/-- **C90**, doubles: exchanging the arguments. -/
theorem C90_double_symmetric (a b : F64) (ha : RefOk a) (hb : RefOk b) {tol tol' : F64}
    (ht : tol.Finite) (ht' : tol'.Finite) (ht1 : tol'.value ≤ 2 ^ 1000)
    (h1 : widen tol.value < 1) (h2 : widen tol.value / (1 - widen tol.value) ≤ narrow tol'.value)
    (h : nearlyEqualsDub a b tol = true) : nearlyEqualsDub b a tol' = true := by
  have n := double_near ht hb h
  refine C27_double_accepts b a tol' hb.1 ha.1 ht' ha.2 ht1 (le_trans ?_ h2)
  rw [le_div_iff₀ (by linarith)]
  have e : b.value / a.value - 1 = -((a.value / b.value - 1) / (a.value / b.value)) := by
    field_simp [ha.ne, hb.ne]
    ring
  have hq : a.value / b.value ≠ 0 := div_ne_zero ha.ne hb.ne
  rw [e, abs_neg, abs_div, div_mul_eq_mul_div, div_le_iff₀ (abs_pos.2 hq)]
  generalize widen tol.value = S at *
  generalize a.value / b.value = q at *
  have h3 : 1 - S ≤ |q| := by
    have := abs_sub_abs_le_abs_sub 1 q
    rw [abs_one, abs_sub_comm] at this
    linarith
  have h0 := abs_nonneg (q - 1)
  nlinarith

theorem double_chain (l : List F64) {tol : F64} (ht : tol.Finite) :
    ∀ x, (∀ y ∈ l, RefOk y) → List.IsChain (fun a b => nearlyEqualsDub a b tol = true) (x :: l) →
      ∀ hl : l ≠ [], |x.value / (l.getLast hl).value - 1| ≤ (1 + widen tol.value) ^ l.length - 1 := by
  induction l with
  | nil => intro x _ _ hl; exact absurd rfl hl
  | cons y l ih =>
    intro x hy h _
    rw [List.isChain_cons_cons] at h
    have hb := hy y (by simp)
    have n := double_near ht hb h.1
    have hS := widen_pos ht hb h.1
    by_cases hl : l = []
    · subst hl
      simpa using n.le
    · have m := ih y (fun z hz => hy z (by simp [hz])) h.2 hl
      have hz := hy (l.getLast hl) (List.mem_cons_of_mem _ (List.getLast_mem hl))
      rw [List.getLast_cons hl, List.length_cons, pow_succ]
      have e : x.value / (l.getLast hl).value - 1
          = (x.value / y.value - 1) * (y.value / (l.getLast hl).value)
            + (y.value / (l.getLast hl).value - 1) := by
        field_simp [hb.ne, hz.ne]
        ring
      rw [e]
      refine (abs_add_le _ _).trans ?_
      rw [abs_mul]
      generalize (1 + widen tol.value) ^ l.length = P at *
      generalize widen tol.value = S at *
      generalize y.value / (l.getLast hl).value = q at *
      generalize x.value / y.value - 1 = r at *
      have hq : |q| ≤ P := by
        have := abs_sub_abs_le_abs_sub q 1
        rw [abs_one] at this
        linarith
      have := mul_le_mul n.le hq (abs_nonneg _) hS.le
      linarith

/-- **C90**, doubles: a chain of `n` comparisons. -/
theorem C90_double_chain (x : F64) (l : List F64) (hl : l ≠ []) (hx : isValidDub x = true)
    (hy : ∀ y ∈ l, RefOk y) {tol tol' : F64} (ht : tol.Finite) (ht' : tol'.Finite)
    (ht1 : tol'.value ≤ 2 ^ 1000) (h2 : (1 + widen tol.value) ^ l.length - 1 ≤ narrow tol'.value)
    (h : List.IsChain (fun a b => nearlyEqualsDub a b tol = true) (x :: l)) :
    nearlyEqualsDub x (l.getLast hl) tol' = true := by
  have hz := hy _ (List.getLast_mem hl)
  exact C27_double_accepts _ _ _ hx hz.1 ht' hz.2 ht1 ((double_chain l ht x hy h hl).trans h2)

/-! ## Cases meeting the hypotheses -/

section Examples
open F64 (pow2)

theorem tolOk_pow2 {e : ℤ} (h1 : -60 ≤ e) (h2 : e ≤ 500) : TolOk (pow2 e) := by
  have h := F64.pow2_val (e := e) (by omega) (by omega)
  refine ⟨h.1, ?_, ?_⟩ <;> rw [h.2] <;> exact zpow_le_zpow_right₀ (by norm_num) (by omega)

/-- Three Scalars for which the comparison with tolerance `2^-10` is not transitive: with `2^-8` the
first is accepted against the third (by `C90_transitive` and by both theorems on chains), and with
`2^-9` the second against the first. -/
example : ∃ a b c : Scalar F64, nearlyEqualsTy .sca a c (pow2 (-10)) = .ok false ∧
    nearlyEqualsTy .sca a c (pow2 (-8)) = .ok true ∧ nearlyEqualsTy .sca b a (pow2 (-9)) = .ok true := by
  have h10 := F64.pow2_val (e := -10) (by norm_num) (by norm_num)
  have h9 := F64.pow2_val (e := -9) (by norm_num) (by norm_num)
  have h8 := F64.pow2_val (e := -8) (by norm_num) (by norm_num)
  obtain ⟨a, b, c, hab, hbc, h1, h2, h3⟩ := C90_never_transitive (pow2 (-10)) h10.1
    (by rw [h10.2]; exact zpow_le_zpow_right₀ (by norm_num) (by norm_num)) (by rw [h10.2]; norm_num)
  refine ⟨a, b, c, h3, ?_, ?_⟩
  · have t1 := C90_transitive .sca (by decide) a b c hab hbc (tolOk_pow2 (e := -10) (by norm_num)
      (by norm_num)) (tolOk_pow2 (e := -10) (by norm_num) (by norm_num))
      (tolOk_pow2 (e := -8) (by norm_num) (by norm_num)) (by rw [h10.2, h8.2]; norm_num) h1 h2
    have t2 := C90_chain .sca (by decide) a [b, c] (by simp) (by
        intro y hy
        rw [List.mem_cons, List.mem_singleton] at hy
        rcases hy with rfl | rfl
        · exact hab
        · exact hab.trans hbc) (tolOk_pow2 (e := -10) (by norm_num)
      (by norm_num)) (tolOk_pow2 (e := -8) (by norm_num) (by norm_num)) (by
        rw [h10.2, h8.2]; norm_num) (.cons_cons h1 (.cons_cons h2 (.singleton _)))
    have t3 := C90_chain_linear .sca (by decide) a [b, c] (by simp) (by
        intro y hy
        rw [List.mem_cons, List.mem_singleton] at hy
        rcases hy with rfl | rfl
        · exact hab
        · exact hab.trans hbc) (tolOk_pow2 (e := -10) (by norm_num)
      (by norm_num)) (tolOk_pow2 (e := -8) (by norm_num) (by norm_num)) (by
        rw [h10.2]; norm_num) (by rw [h10.2, h8.2]; norm_num)
        (.cons_cons h1 (.cons_cons h2 (.singleton _)))
    exact t1
  · exact C90_symmetric .sca (by decide) a b hab (tolOk_pow2 (e := -10) (by norm_num)
      (by norm_num)) (tolOk_pow2 (e := -9) (by norm_num) (by norm_num)) (by rw [h10.2]; norm_num)
      (by rw [h10.2, h9.2]; norm_num) h1

/-- The doubles 4, 2, 1, each accepted against the next with tolerance 2; and 1 accepted against 2 with
tolerance 3/4. -/
example : nearlyEqualsDub (pow2 2) (pow2 0) (pow2 4) = true ∧
    nearlyEqualsDub (pow2 1) (pow2 0) (pow2 4) = true := by
  have h2 := F64.pow2_val (e := 2) (by norm_num) (by norm_num)
  have h1 := F64.pow2_val (e := 1) (by norm_num) (by norm_num)
  have h0 := F64.pow2_val (e := 0) (by norm_num) (by norm_num)
  have h4 := F64.pow2_val (e := 4) (by norm_num) (by norm_num)
  have hm := F64.pow2_val (e := -1) (by norm_num) (by norm_num)
  have hr : ∀ e : ℤ, -10 ≤ e → e ≤ 10 → RefOk (pow2 e) := by
    intro e h h'
    refine ⟨F64.pow2_valid (by omega) (by omega), ?_⟩
    rw [(F64.pow2_val (e := e) (by omega) (by omega)).2, abs_of_pos (F64.two_zpow_pos _)]
    exact zpow_le_zpow_right₀ (by norm_num) (by omega)
  have hb : ∀ {a : F64}, a.value ≤ 16 → a.value ≤ 2 ^ 1000 := fun h => h.trans (by
    rw [show (16 : ℚ) = 2 ^ 4 by norm_num]
    exact pow_le_pow_right₀ (by norm_num) (by norm_num))
  have s1 : nearlyEqualsDub (pow2 1) (pow2 0) (pow2 1) = true :=
    C27_double_accepts _ _ _ (hr 1 (by norm_num) (by norm_num)).1 (hr 0 (by norm_num) (by norm_num)).1
      h1.1 (hr 0 (by norm_num) (by norm_num)).2 (hb (by rw [h1.2]; norm_num))
      (by rw [h1.2, h0.2]; norm_num)
  have s2 : nearlyEqualsDub (pow2 2) (pow2 1) (pow2 1) = true :=
    C27_double_accepts _ _ _ (hr 2 (by norm_num) (by norm_num)).1 (hr 1 (by norm_num) (by norm_num)).1
      h1.1 (hr 1 (by norm_num) (by norm_num)).2 (hb (by rw [h1.2]; norm_num))
      (by rw [h1.2, h2.2]; norm_num)
  have s3 : nearlyEqualsDub (pow2 0) (pow2 1) (fin (3 / 4) ⟨by norm_num, 3, -2, by norm_num,
      by norm_num, by norm_num, by norm_num⟩) = true :=
    C27_double_accepts _ _ _ (hr 0 (by norm_num) (by norm_num)).1 (hr 1 (by norm_num) (by norm_num)).1
      trivial (hr 1 (by norm_num) (by norm_num)).2 (hb (by simp only [F64.value]; norm_num))
      (by rw [h1.2, h0.2]; simp only [F64.value]; norm_num [abs_of_nonpos])
  refine ⟨?_, ?_⟩
  · exact C90_double_chain (pow2 2) [pow2 1, pow2 0] (by simp) (hr 2 (by norm_num) (by norm_num)).1
      (by
        intro y hy
        rw [List.mem_cons, List.mem_singleton] at hy
        rcases hy with rfl | rfl
        · exact hr 1 (by norm_num) (by norm_num)
        · exact hr 0 (by norm_num) (by norm_num)) h1.1 h4.1 (hb (by rw [h4.2]; norm_num))
      (by unfold widen narrow; rw [h1.2, h4.2]; norm_num)
      (.cons_cons s2 (.cons_cons s1 (.singleton _)))
  · exact C90_double_symmetric (pow2 0) (pow2 1) (hr 0 (by norm_num) (by norm_num))
      (hr 1 (by norm_num) (by norm_num)) (tol := fin (3 / 4) ⟨by norm_num, 3, -2, by norm_num,
        by norm_num, by norm_num, by norm_num⟩) trivial h4.1 (hb (by rw [h4.2]; norm_num))
      (by unfold widen; simp only [F64.value]; norm_num)
      (by unfold widen narrow; rw [h4.2]; simp only [F64.value]; norm_num) s3

end Examples

end Engabra
