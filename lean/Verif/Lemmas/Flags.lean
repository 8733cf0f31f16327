import Verif.Model.Flags
import Verif.Props.C34_Null
import Verif.Props.C57_Contraction

/-! # Lemmas on exception flags -/

namespace Engabra

open F64 (Finite HasVal)

@[simp] theorem Flags.none_or (f : Flags) : Flags.none.or f = f := by
  cases f; simp [Flags.or, Flags.none]
@[simp] theorem Flags.or_none (f : Flags) : f.or Flags.none = f := by
  cases f; simp [Flags.or, Flags.none]

theorem Flags.or_eq_none {f g : Flags} : f.or g = Flags.none ↔ f = Flags.none ∧ g = Flags.none := by
  obtain ⟨a, b, c⟩ := f; obtain ⟨a', b', c'⟩ := g
  cases a <;> cases b <;> cases c <;> cases a' <;> cases b' <;> cases c' <;> decide

@[simp] theorem Flags.or_invalid (f g : Flags) : (f.or g).invalid = (f.invalid || g.invalid) := rfl
@[simp] theorem Flags.or_divByZero (f g : Flags) : (f.or g).divByZero = (f.divByZero || g.divByZero) := rfl
@[simp] theorem Flags.or_overflow (f g : Flags) : (f.or g).overflow = (f.overflow || g.overflow) := rfl

theorem Flags.eq_none {f : Flags} (h1 : f.invalid = false) (h2 : f.divByZero = false)
    (h3 : f.overflow = false) : f = Flags.none := by
  obtain ⟨a, b, c⟩ := f
  simp only at h1 h2 h3
  subst h1 h2 h3; rfl

@[simp] theorem allFlags_nil : allFlags [] = Flags.none := rfl
@[simp] theorem allFlags_cons (a : FV) (l : List FV) : allFlags (a :: l) = a.fl.or (allFlags l) := rfl

theorem allFlags_none {l : List FV} : allFlags l = Flags.none ↔ ∀ a ∈ l, a.fl = Flags.none := by
  induction l with
  | nil => simp
  | cons a l ih => rw [allFlags_cons, Flags.or_eq_none, ih]; simp

theorem allFlags_invalid {l : List FV} : (allFlags l).invalid = true ↔ ∃ a ∈ l, a.fl.invalid = true := by
  induction l with
  | nil => simp [Flags.none]
  | cons a l ih => rw [allFlags_cons, Flags.or_invalid, Bool.or_eq_true, ih]; simp

theorem allFlags_divByZero {l : List FV} :
    (allFlags l).divByZero = true ↔ ∃ a ∈ l, a.fl.divByZero = true := by
  induction l with
  | nil => simp [Flags.none]
  | cons a l ih => rw [allFlags_cons, Flags.or_divByZero, Bool.or_eq_true, ih]; simp

theorem allFlags_overflow {l : List FV} :
    (allFlags l).overflow = true ↔ ∃ a ∈ l, a.fl.overflow = true := by
  induction l with
  | nil => simp [Flags.none]
  | cons a l ih => rw [allFlags_cons, Flags.or_overflow, Bool.or_eq_true, ih]; simp

namespace F64

theorem inf?_of_finite {x : F64} (h : x.Finite) : x.inf? = false := by
  cases x <;> first | rfl | exact absurd h id

theorem isFin_of_finite {x : F64} (h : x.Finite) : x.isFin = true := by
  cases x <;> first | rfl | exact absurd h id

theorem finite_of_add {x y : F64} (h : (x + y).Finite) : x.Finite ∧ y.Finite := by
  cases x <;> cases y <;>
    first
      | exact ⟨trivial, trivial⟩
      | exact absurd h id
      | (rename_i s t; cases s <;> cases t <;> exact absurd h id)

theorem finite_of_neg {x : F64} (h : (-x).Finite) : x.Finite := by
  cases x <;> trivial

theorem finite_of_sub {x y : F64} (h : (x - y).Finite) : x.Finite ∧ y.Finite := by
  obtain ⟨h1, h2⟩ := finite_of_add (x := x) (y := -y) h
  exact ⟨h1, finite_of_neg h2⟩

theorem finite_of_mul {x y : F64} (h : (x * y).Finite) : x.Finite ∧ y.Finite := by
  cases x <;> cases y <;> first | exact ⟨trivial, trivial⟩ | exact absurd h id


theorem addFlags_none {x y x' y' : F64} (hx : x = nan ∨ x = x') (hy : y = nan ∨ y = y')
    (h : (x' + y').Finite) : addFlags x y = Flags.none ∧ (x + y = nan ∨ x + y = x' + y') := by
  rcases hx with rfl | rfl
  · exact ⟨Flags.eq_none rfl rfl rfl, Or.inl rfl⟩
  · rcases hy with rfl | rfl
    · refine ⟨Flags.eq_none ?_ rfl ?_, Or.inl (add_nan _)⟩ <;> cases x <;> rfl
    · obtain ⟨h1, h2⟩ := finite_of_add h
      refine ⟨Flags.eq_none ?_ rfl ?_, Or.inr rfl⟩
      · simp [addFlags, inf?_of_finite h1]
      · have : (add x y).inf? = false := inf?_of_finite h
        simp [addFlags, this]

theorem mulFlags_none {x y x' y' : F64} (hx : x = nan ∨ x = x') (hy : y = nan ∨ y = y')
    (h : (x' * y').Finite) : mulFlags x y = Flags.none ∧ (x * y = nan ∨ x * y = x' * y') := by
  rcases hx with rfl | rfl
  · exact ⟨Flags.eq_none rfl rfl rfl, Or.inl rfl⟩
  · rcases hy with rfl | rfl
    · refine ⟨Flags.eq_none ?_ rfl ?_, Or.inl ?_⟩ <;> cases x <;> rfl
    · obtain ⟨h1, h2⟩ := finite_of_mul h
      have h3 : (mul x y).inf? = false := inf?_of_finite h
      refine ⟨Flags.eq_none ?_ rfl ?_, Or.inr rfl⟩
      · cases x <;> cases y <;> first | rfl | exact absurd h1 id | exact absurd h2 id
      · simp [mulFlags, h3]

theorem finite_or_inf {x : F64} (h : x ≠ nan) (hi : x.inf? = false) : x.Finite := by
  cases x with
  | nan => exact absurd rfl h
  | inf _ => simp [inf?] at hi
  | zero _ => trivial
  | fin _ _ => trivial

theorem roundTo_ne_nan {K : Type} [Field K] [LinearOrder K] [IsStrictOrderedRing K] [FloorRing K]
    (x : K) : roundTo x ≠ nan := by
  unfold roundTo
  split_ifs <;> exact fun h => by cases h

theorem add_ne_nan {x y : F64} (hx : x.Finite) (hy : y.Finite) : x + y ≠ nan := by
  have : x + y = addFin x y := by
    cases x <;> cases y <;> first | rfl | exact absurd hx id | exact absurd hy id
  rw [this]; unfold addFin
  split_ifs
  · exact fun h => by cases h
  · exact roundTo_ne_nan _

theorem mul_ne_nan {x y : F64} (hx : x.Finite) (hy : y.Finite) : x * y ≠ nan := by
  have : x * y = mulFin x y := by
    cases x <;> cases y <;> first | rfl | exact absurd hx id | exact absurd hy id
  rw [this]; unfold mulFin
  split_ifs
  · exact fun h => by cases h
  · exact roundTo_ne_nan _

theorem finite_of_addFlags {x y : F64} (hx : x.Finite) (hy : y.Finite)
    (h : (addFlags x y).overflow = false) : (x + y).Finite := by
  refine finite_or_inf (add_ne_nan hx hy) ?_
  change (add x y).inf? = false
  simpa [addFlags, isFin_of_finite hx, isFin_of_finite hy] using h

theorem finite_of_mulFlags {x y : F64} (hx : x.Finite) (hy : y.Finite)
    (h : (mulFlags x y).overflow = false) : (x * y).Finite := by
  refine finite_or_inf (mul_ne_nan hx hy) ?_
  change (mul x y).inf? = false
  simpa [mulFlags, isFin_of_finite hx, isFin_of_finite hy] using h

/-- Null data replaced by zero. -/
def denull : F64 → F64
  | nan => zero false
  | x => x

theorem denull_or (x : F64) : x = nan ∨ x = x.denull := by
  cases x <;> first | exact Or.inl rfl | exact Or.inr rfl

end F64

open F64 (denull)

theorem ev_val (env : Nat → F64) (t : T) : (t.ev fun n => FV.clean (env n)).val = t.ev env := by
  induction t with
  | zero => rfl
  | var n => rfl
  | add a b iha ihb => show (T.ev (fun n => FV.clean (env n)) a).val + (T.ev (fun n => FV.clean (env n)) b).val = _; rw [iha, ihb]; rfl
  | sub a b iha ihb => show (T.ev (fun n => FV.clean (env n)) a).val - (T.ev (fun n => FV.clean (env n)) b).val = _; rw [iha, ihb]; rfl
  | mul a b iha ihb => show (T.ev (fun n => FV.clean (env n)) a).val * (T.ev (fun n => FV.clean (env n)) b).val = _; rw [iha, ihb]; rfl
  | neg a ih => show - (T.ev (fun n => FV.clean (env n)) a).val = _; rw [ih]; rfl

theorem ev_silent (env : Nat → F64) (t : T) (h : (t.ev fun n => (env n).denull).Finite) :
    (t.ev fun n => FV.clean (env n)).fl = Flags.none ∧
      (t.ev env = .nan ∨ t.ev env = t.ev fun n => (env n).denull) := by
  induction t with
  | zero => exact ⟨rfl, Or.inr rfl⟩
  | var n => exact ⟨rfl, F64.denull_or _⟩
  | add a b iha ihb =>
    obtain ⟨h1, h2⟩ := F64.finite_of_add h
    obtain ⟨a1, a2⟩ := iha h1
    obtain ⟨b1, b2⟩ := ihb h2
    obtain ⟨c1, c2⟩ := F64.addFlags_none a2 b2 h
    refine ⟨?_, c2⟩
    show ((T.ev (fun n => FV.clean (env n)) a).fl.or (T.ev (fun n => FV.clean (env n)) b).fl).or _ = _
    rw [a1, b1, ev_val, ev_val, c1]; rfl
  | sub a b iha ihb =>
    obtain ⟨h1, h2⟩ := F64.finite_of_sub h
    obtain ⟨a1, a2⟩ := iha h1
    obtain ⟨b1, b2⟩ := ihb h2
    have b3 : F64.neg (b.ev env) = .nan ∨ F64.neg (b.ev env) = F64.neg (b.ev fun n => (env n).denull) := by
      rcases b2 with e | e
      · left; rw [e]; rfl
      · right; rw [e]
    obtain ⟨c1, c2⟩ := F64.addFlags_none a2 b3 h
    refine ⟨?_, c2⟩
    show ((T.ev (fun n => FV.clean (env n)) a).fl.or (T.ev (fun n => FV.clean (env n)) b).fl).or _ = _
    rw [a1, b1, ev_val, ev_val, c1]; rfl
  | mul a b iha ihb =>
    obtain ⟨h1, h2⟩ := F64.finite_of_mul h
    obtain ⟨a1, a2⟩ := iha h1
    obtain ⟨b1, b2⟩ := ihb h2
    obtain ⟨c1, c2⟩ := F64.mulFlags_none a2 b2 h
    refine ⟨?_, c2⟩
    show ((T.ev (fun n => FV.clean (env n)) a).fl.or (T.ev (fun n => FV.clean (env n)) b).fl).or _ = _
    rw [a1, b1, ev_val, ev_val, c1]; rfl
  | neg a ih =>
    obtain ⟨a1, a2⟩ := ih (F64.finite_of_neg h)
    refine ⟨a1, ?_⟩
    show -(a.ev env) = _ ∨ -(a.ev env) = -(T.ev (fun n => (env n).denull) a)
    rcases a2 with e | e
    · left; rw [e]; rfl
    · right; rw [e]

theorem ev_overflow (env : Nat → F64) (hf : ∀ n, (env n).Finite) (t : T)
    (h : (t.ev fun n => FV.clean (env n)).fl = Flags.none) : (t.ev env).Finite := by
  induction t with
  | zero => exact F64.hasVal_zero'.1
  | var n => exact hf n
  | add a b iha ihb =>
    change ((T.ev (fun n => FV.clean (env n)) a).fl.or (T.ev (fun n => FV.clean (env n)) b).fl).or _ = _ at h
    obtain ⟨h1, h3⟩ := Flags.or_eq_none.1 h
    obtain ⟨h1, h2⟩ := Flags.or_eq_none.1 h1
    rw [ev_val, ev_val] at h3
    exact F64.finite_of_addFlags (iha h1) (ihb h2) (by rw [h3]; rfl)
  | sub a b iha ihb =>
    change ((T.ev (fun n => FV.clean (env n)) a).fl.or (T.ev (fun n => FV.clean (env n)) b).fl).or _ = _ at h
    obtain ⟨h1, h3⟩ := Flags.or_eq_none.1 h
    obtain ⟨h1, h2⟩ := Flags.or_eq_none.1 h1
    rw [ev_val, ev_val] at h3
    exact F64.finite_of_addFlags (iha h1) (F64.neg_finite (ihb h2)) (by rw [h3]; rfl)
  | mul a b iha ihb =>
    change ((T.ev (fun n => FV.clean (env n)) a).fl.or (T.ev (fun n => FV.clean (env n)) b).fl).or _ = _ at h
    obtain ⟨h1, h3⟩ := Flags.or_eq_none.1 h
    obtain ⟨h1, h2⟩ := Flags.or_eq_none.1 h1
    rw [ev_val, ev_val] at h3
    exact F64.finite_of_mulFlags (iha h1) (ihb h2) (by rw [h3]; rfl)
  | neg a ih => exact F64.neg_finite (ih h)

theorem add_nan_iff (x y : F64) : x + y = .nan ↔ x = .nan ∨ y = .nan ∨ (F64.addFlags x y).invalid = true := by
  by_cases hx : x.Finite
  · by_cases hy : y.Finite
    · have h1 : x ≠ .nan := fun e => by rw [e] at hx; exact hx
      have h2 : y ≠ .nan := fun e => by rw [e] at hy; exact hy
      simp [F64.add_ne_nan hx hy, F64.addFlags, F64.inf?_of_finite hx, h1, h2]
    · cases y with
      | nan => simp [F64.add_nan]
      | inf t => cases x <;> first | exact absurd hx id | (constructor <;> intro h <;> simp_all [F64.addFlags, F64.inf?, F64.add_def, F64.add])
      | zero _ => exact absurd trivial hy
      | fin _ _ => exact absurd trivial hy
  · cases x with
    | nan => simp [F64.nan_add]
    | inf s =>
      cases y with
      | nan => simp [F64.add_nan]
      | inf t => cases s <;> cases t <;> simp [F64.addFlags, F64.inf?, F64.add_def, F64.add, F64.signbit]
      | zero _ => simp [F64.addFlags, F64.inf?, F64.add_def, F64.add]
      | fin _ _ => simp [F64.addFlags, F64.inf?, F64.add_def, F64.add]
    | zero _ => exact absurd trivial hx
    | fin _ _ => exact absurd trivial hx

theorem mul_nan_iff (x y : F64) : x * y = .nan ↔ x = .nan ∨ y = .nan ∨ (F64.mulFlags x y).invalid = true := by
  by_cases h : x.Finite ∧ y.Finite
  · obtain ⟨hx, hy⟩ := h
    have h1 : x ≠ .nan := fun e => by rw [e] at hx; exact hx
    have h2 : y ≠ .nan := fun e => by rw [e] at hy; exact hy
    have h3 : (F64.mulFlags x y).invalid = false := by
      cases x <;> cases y <;> first | rfl | exact absurd hx id | exact absurd hy id
    simp [F64.mul_ne_nan hx hy, h1, h2, h3]
  · cases x with
    | nan => exact ⟨fun _ => Or.inl rfl, fun _ => rfl⟩
    | inf s =>
      cases y with
      | nan => exact ⟨fun _ => Or.inr (Or.inl rfl), fun _ => rfl⟩
      | inf t => simp [F64.mulFlags, F64.mul_def, F64.mul]
      | zero t => simp [F64.mulFlags, F64.mul_def, F64.mul]
      | fin v hv => simp [F64.mulFlags, F64.mul_def, F64.mul]
    | zero s =>
      cases y with
      | nan => exact ⟨fun _ => Or.inr (Or.inl rfl), fun _ => rfl⟩
      | inf t => simp [F64.mulFlags, F64.mul_def, F64.mul]
      | zero t => exact absurd ⟨trivial, trivial⟩ h
      | fin v hv => exact absurd ⟨trivial, trivial⟩ h
    | fin w hw =>
      cases y with
      | nan => exact ⟨fun _ => Or.inr (Or.inl rfl), fun _ => rfl⟩
      | inf t => simp [F64.mulFlags, F64.mul_def, F64.mul]
      | zero t => exact absurd ⟨trivial, trivial⟩ h
      | fin v hv => exact absurd ⟨trivial, trivial⟩ h

theorem neg_nan_iff (x : F64) : F64.neg x = .nan ↔ x = .nan := by
  cases x <;> simp [F64.neg]

/-- Invalid was raised exactly for the terms which are NaN. -/
theorem ev_invalid (env : Nat → F64) (hn : ∀ n, env n ≠ .nan) (t : T) :
    (t.ev fun n => FV.clean (env n)).fl.invalid = true ↔ t.ev env = .nan := by
  induction t with
  | zero => exact ⟨fun h => absurd h Bool.false_ne_true, fun h => nomatch h⟩
  | var n => exact ⟨fun h => absurd h Bool.false_ne_true, fun h => absurd h (hn n)⟩
  | add a b iha ihb =>
    show (((T.ev (fun n => FV.clean (env n)) a).fl.or (T.ev (fun n => FV.clean (env n)) b).fl).or
      (F64.addFlags _ _)).invalid = true ↔ a.ev env + b.ev env = _
    rw [Flags.or_invalid, Flags.or_invalid, Bool.or_eq_true, Bool.or_eq_true, iha, ihb, ev_val, ev_val,
      add_nan_iff, or_assoc]
  | sub a b iha ihb =>
    show (((T.ev (fun n => FV.clean (env n)) a).fl.or (T.ev (fun n => FV.clean (env n)) b).fl).or
      (F64.addFlags _ (F64.neg _))).invalid = true ↔ a.ev env + F64.neg (b.ev env) = _
    rw [Flags.or_invalid, Flags.or_invalid, Bool.or_eq_true, Bool.or_eq_true, iha, ihb, ev_val, ev_val,
      add_nan_iff, or_assoc, neg_nan_iff]
  | mul a b iha ihb =>
    show (((T.ev (fun n => FV.clean (env n)) a).fl.or (T.ev (fun n => FV.clean (env n)) b).fl).or
      (F64.mulFlags _ _)).invalid = true ↔ a.ev env * b.ev env = _
    rw [Flags.or_invalid, Flags.or_invalid, Bool.or_eq_true, Bool.or_eq_true, iha, ihb, ev_val, ev_val,
      mul_nan_iff, or_assoc]
  | neg a ih => exact ih.trans (neg_nan_iff _).symm

theorem comps_mapTy' {α β : Type} (f : α → β) (t : Ty) (x : t.D α) :
    comps t (mapTy f t x) = (comps t x).map f := by
  cases t <;> rfl

theorem mapTy_mapTy' {α β γ : Type} (f : α → β) (g : β → γ) (t : Ty) (x : t.D α) :
    mapTy g t (mapTy f t x) = mapTy (fun c => g (f c)) t x := by
  cases t <;> rfl

theorem mapTy_congr' {α β : Type} {f g : α → β} (h : ∀ a, f a = g a) (t : Ty) (x : t.D α) :
    mapTy f t x = mapTy g t x := by
  rw [funext h]

theorem eval_sym' {α : Type} [Add α] [Sub α] [Mul α] [Neg α] [Zero α]
    (env : Nat → Sigma fun t : Ty => t.D F64) (f : F64 → α) (e : Expr) :
    e.eval (fun i => mapS f (env i))
      = (e.eval (symEnv env)).map (mapS (T.ev fun n => f (varEnv env n))) := by
  rw [← eval_map, symEnv_map env f]

/-! ## Sums of squares -/

namespace FV

/-- Neither invalid nor divide-by-zero so far, and the number is not negative and not NaN; overflow
was raised exactly if the number is infinite, unless `o`. -/
def Nice (o : Bool) (a : FV) : Prop :=
  a.fl.invalid = false ∧ a.fl.divByZero = false ∧
    ((a.val = .inf false ∧ (o = false → a.fl.overflow = true)) ∨
      (a.val.Finite ∧ 0 ≤ a.val.value ∧ (o = false → a.fl.overflow = false)))

theorem Nice.zero {o : Bool} : Nice o 0 :=
  ⟨rfl, rfl, Or.inr ⟨F64.hasVal_zero'.1, by rw [show (0 : FV).val = 0 from rfl, F64.hasVal_zero'.2], fun _ => rfl⟩⟩

theorem round_nn {q : ℚ} (h : 0 ≤ q) : F64.roundTo q = .inf false ∨
    ((F64.roundTo q).Finite ∧ 0 ≤ (F64.roundTo q).value) := by
  unfold F64.roundTo
  split_ifs with h1 h2 h3
  · exact Or.inr ⟨trivial, le_rfl⟩
  · exact Or.inr ⟨trivial, le_rfl⟩
  · exact Or.inr ⟨trivial, F64.rnVal_nonneg h⟩
  · exact Or.inl (by rw [decide_eq_false (not_lt.2 h)])

theorem mul_fin {x y : F64} (hx : x.Finite) (hy : y.Finite) : x * y = F64.mulFin x y := by
  cases x <;> cases y <;> first | rfl | exact absurd hx id | exact absurd hy id

theorem add_fin {x y : F64} (hx : x.Finite) (hy : y.Finite) : x + y = F64.addFin x y := by
  cases x <;> cases y <;> first | rfl | exact absurd hx id | exact absurd hy id

theorem sq_nn {x : F64} (hx : x.Finite) :
    x * x = .inf false ∨ ((x * x).Finite ∧ 0 ≤ (x * x).value) := by
  rw [mul_fin hx hx]
  unfold F64.mulFin
  split_ifs with h
  · exact Or.inr ⟨trivial, le_rfl⟩
  · exact round_nn (mul_self_nonneg _)

theorem sum_nn {x y : F64} (hx : x.Finite) (hy : y.Finite) (h0 : 0 ≤ x.value) (h1 : 0 ≤ y.value) :
    x + y = .inf false ∨ ((x + y).Finite ∧ 0 ≤ (x + y).value) := by
  rw [add_fin hx hy]
  unfold F64.addFin
  split_ifs with h
  · exact Or.inr ⟨trivial, le_rfl⟩
  · exact round_nn (add_nonneg h0 h1)

theorem mulFlags_invalid {x y : F64} (hx : x.Finite) (hy : y.Finite) :
    (F64.mulFlags x y).invalid = false := by
  cases x <;> cases y <;> first | rfl | exact absurd hx id | exact absurd hy id

theorem addFlags_invalid {x y : F64} (hx : x.Finite) : (F64.addFlags x y).invalid = false := by
  simp [F64.addFlags, F64.inf?_of_finite hx]

theorem addFlags_invalid' {x y : F64} (hy : y.Finite) : (F64.addFlags x y).invalid = false := by
  simp [F64.addFlags, F64.inf?_of_finite hy]

/-- The square of a number computed without invalid operation. -/
theorem Nice.sq {o : Bool} {a : FV} (h1 : a.fl.invalid = false) (h2 : a.fl.divByZero = false)
    (h3 : a.val ≠ .nan) (h4 : o = false → a.val.Finite ∧ a.fl.overflow = false) : Nice o (a * a) := by
  obtain ⟨x, f⟩ := a
  simp only at h1 h2 h3 h4
  by_cases hx : x.Finite
  · refine ⟨?_, ?_, ?_⟩
    · show ((f.or f).or (F64.mulFlags x x)).invalid = false
      simp [h1, mulFlags_invalid hx hx]
    · show ((f.or f).or (F64.mulFlags x x)).divByZero = false
      simp [h2, F64.mulFlags]
    · rcases sq_nn hx with h | ⟨h, h'⟩
      · refine Or.inl ⟨h, fun _ => ?_⟩
        show ((f.or f).or (F64.mulFlags x x)).overflow = true
        have : (F64.mul x x).inf? = true := by
          rw [show F64.mul x x = .inf false from h]; rfl
        simp [F64.mulFlags, F64.isFin_of_finite hx, this]
      · refine Or.inr ⟨h, h', fun e => ?_⟩
        show ((f.or f).or (F64.mulFlags x x)).overflow = false
        have : (F64.mul x x).inf? = false := F64.inf?_of_finite h
        simp [F64.mulFlags, this, (h4 e).2]
  · cases x with
    | nan => exact absurd rfl h3
    | zero _ => exact absurd trivial hx
    | fin _ _ => exact absurd trivial hx
    | inf s =>
      refine ⟨?_, ?_, Or.inl ⟨?_, fun e => absurd (h4 e).1 id⟩⟩
      · show ((f.or f).or (F64.mulFlags (.inf s) (.inf s))).invalid = false
        simp [h1, F64.mulFlags]
      · show ((f.or f).or (F64.mulFlags (.inf s) (.inf s))).divByZero = false
        simp [h2, F64.mulFlags]
      · show F64.mul (.inf s) (.inf s) = _
        cases s <;> rfl

theorem Nice.add {o : Bool} {a b : FV} (ha : Nice o a) (hb : Nice o b) : Nice o (a + b) := by
  obtain ⟨x, f⟩ := a
  obtain ⟨y, g⟩ := b
  obtain ⟨a1, a2, a3⟩ := ha
  obtain ⟨b1, b2, b3⟩ := hb
  simp only at a1 a2 a3 b1 b2 b3
  have hd : ((f.or g).or (F64.addFlags x y)).divByZero = false := by
    simp [a2, b2, F64.addFlags]
  rcases a3 with ⟨rfl, a3⟩ | ⟨a3, a4, a5⟩
  · rcases b3 with ⟨rfl, b3⟩ | ⟨b3, b4, b5⟩
    · refine ⟨?_, hd, Or.inl ⟨rfl, fun e => ?_⟩⟩
      · show ((f.or g).or (F64.addFlags (.inf false) (.inf false))).invalid = false
        simp [a1, b1, F64.addFlags, F64.signbit]
      · show ((f.or g).or (F64.addFlags (.inf false) (.inf false))).overflow = true
        simp [a3 e]
    · refine ⟨?_, hd, Or.inl ⟨?_, fun e => ?_⟩⟩
      · show ((f.or g).or (F64.addFlags (.inf false) y)).invalid = false
        simp [a1, b1, addFlags_invalid' b3]
      · show F64.add (.inf false) y = _
        cases y <;> first | rfl | exact absurd b3 id
      · show ((f.or g).or (F64.addFlags (.inf false) y)).overflow = true
        simp [a3 e]
  · rcases b3 with ⟨rfl, b3⟩ | ⟨b3, b4, b5⟩
    · refine ⟨?_, hd, Or.inl ⟨?_, fun e => ?_⟩⟩
      · show ((f.or g).or (F64.addFlags x (.inf false))).invalid = false
        simp [a1, b1, addFlags_invalid a3]
      · show F64.add x (.inf false) = _
        cases x <;> first | rfl | exact absurd a3 id
      · show ((f.or g).or (F64.addFlags x (.inf false))).overflow = true
        simp [b3 e]
    · refine ⟨?_, hd, ?_⟩
      · show ((f.or g).or (F64.addFlags x y)).invalid = false
        simp [a1, b1, addFlags_invalid a3]
      · rcases sum_nn a3 b3 a4 b4 with h | ⟨h, h'⟩
        · refine Or.inl ⟨h, fun _ => ?_⟩
          show ((f.or g).or (F64.addFlags x y)).overflow = true
          have : (F64.add x y).inf? = true := by
            rw [show F64.add x y = .inf false from h]; rfl
          simp [F64.addFlags, F64.isFin_of_finite a3, F64.isFin_of_finite b3, this]
        · refine Or.inr ⟨h, h', fun e => ?_⟩
          show ((f.or g).or (F64.addFlags x y)).overflow = false
          have : (F64.add x y).inf? = false := F64.inf?_of_finite h
          simp [F64.addFlags, this, a5 e, b5 e]

theorem Nice.sqrt {o : Bool} {a : FV} (h : Nice o a) : Nice o (FV.sqrt a) := by
  obtain ⟨x, f⟩ := a
  obtain ⟨h1, h2, h3⟩ := h
  simp only at h1 h2 h3
  rcases h3 with ⟨rfl, h3⟩ | ⟨h3, h4, h5⟩
  · have e : (f.or (F64.sqrtFlags (.inf false))) = f := Flags.or_none f
    exact ⟨by show (f.or (F64.sqrtFlags (.inf false))).invalid = false; rw [e]; exact h1,
      by show (f.or (F64.sqrtFlags (.inf false))).divByZero = false; rw [e]; exact h2,
      Or.inl ⟨rfl, by show o = false → (f.or (F64.sqrtFlags (.inf false))).overflow = true; rw [e]; exact h3⟩⟩
  · have e : f.or (F64.sqrtFlags x) = f := by
      have : F64.sqrtFlags x = Flags.none := by
        cases x with
        | nan => exact absurd h3 id
        | inf _ => exact absurd h3 id
        | zero _ => rfl
        | fin v _ =>
          have h6 : ¬ v < 0 := not_lt.2 h4
          simp only [F64.sqrtFlags, decide_eq_false h6]; rfl
      rw [this, Flags.or_none]
    obtain ⟨g1, -⟩ := sqrt_total h3 h4
    refine ⟨by show (f.or (F64.sqrtFlags x)).invalid = false; rw [e]; exact h1,
      by show (f.or (F64.sqrtFlags x)).divByZero = false; rw [e]; exact h2,
      Or.inr ⟨g1, ?_, by show o = false → (f.or (F64.sqrtFlags x)).overflow = false; rw [e]; exact h5⟩⟩
    show 0 ≤ (F64.sqrt x).value
    cases x with
    | nan => exact absurd h3 id
    | inf _ => exact absurd h3 id
    | zero _ => exact le_rfl
    | fin v _ =>
      have h6 : ¬ v < 0 := not_lt.2 h4
      simp only [F64.sqrt]
      rw [if_neg h6]
      unfold F64.roundTo
      split_ifs
      · exact le_rfl
      · exact le_rfl
      · exact F64.rnVal_nonneg (Real.sqrt_nonneg _)
      · exact le_rfl

theorem Nice.ne_nan {o : Bool} {a : FV} (h : Nice o a) : a.val ≠ .nan := by
  rcases h.2.2 with ⟨h, -⟩ | ⟨h, -⟩
  · rw [h]; exact fun h => by cases h
  · intro e; rw [e] at h; exact h

end FV

theorem ltFlags_none {x y : F64} (hx : x ≠ .nan) (hy : y ≠ .nan) : F64.ltFlags x y = Flags.none := by
  cases x <;> cases y <;> first | rfl | exact absurd rfl hx | exact absurd rfl hy

/-- `magSq` of a finite object raises overflow if the sum is infinite, and nothing else. -/
theorem magSq_nice (t : Ty) (x : t.D F64) (hf : ∀ c ∈ comps t x, c.Finite) :
    FV.Nice false (magSqTy t (mapTy FV.clean t x)) := by
  have hs : ∀ c ∈ comps t x, FV.Nice false (FV.clean c * FV.clean c) := fun c hc =>
    FV.Nice.sq rfl rfl (fun e => by have := hf c hc; rw [show c = .nan from e] at this; exact this)
      fun _ => ⟨hf c hc, rfl⟩
  cases t <;>
    simp only [comps, List.forall_mem_cons, List.not_mem_nil, false_imp_iff, implies_true,
      and_true] at hs <;> (try casesm* _ ∧ _) <;>
    simp only [engabra, mapTy]
  all_goals
    repeat' first
      | with_reducible exact FV.Nice.zero
      | with_reducible apply FV.Nice.add
      | assumption

theorem magSq_valF (t : Ty) (x : t.D FV) : (magSqTy t x).val = magSqTy t (mapTy FV.val t x) := by
  cases t <;> rfl

theorem smul_valF (t : Ty) (s : FV) (x : t.D FV) :
    mapTy FV.val t (smulTy t s x) = smulTy t s.val (mapTy FV.val t x) := by
  cases t <;> rfl

theorem reverse_valF (t : Ty) (x : t.D FV) :
    mapTy FV.val t (reverseTy t x) = reverseTy t (mapTy FV.val t x) := by
  cases t <;> rfl

theorem val_clean (t : Ty) (x : t.D F64) : mapTy FV.val t (mapTy FV.clean t x) = x := by
  cases t <;> rfl

theorem comps_smulF (t : Ty) (s : FV) (x : t.D FV) :
    comps t (smulTy t s x) = (comps t x).map fun c => s * c := by
  cases t <;> rfl

theorem magSq_finite (t : Ty) (x : t.D F64) (h : (magSqTy t x).Finite) : ∀ c ∈ comps t x, c.Finite := by
  have ha : ∀ {a b : F64}, (a + b).Finite → a.Finite ∧ b.Finite := F64.finite_of_add
  have hm : ∀ {a : F64}, (a * a).Finite → a.Finite := fun h => (F64.finite_of_mul h).1
  have hv : ∀ {a b c : F64}, (((0 + a * a) + b * b) + c * c).Finite → a.Finite ∧ b.Finite ∧ c.Finite := by
    intro a b c h
    obtain ⟨h, h2⟩ := ha h; obtain ⟨h, h1⟩ := ha h; obtain ⟨-, h0⟩ := ha h
    exact ⟨hm h0, hm h1, hm h2⟩
  cases t <;> simp only [engabra] at h <;>
    simp only [comps, List.forall_mem_cons, List.not_mem_nil, false_imp_iff, implies_true, and_true]
  · exact hm h
  · exact hm h
  · exact hv h
  · exact hv h
  · exact hm h
  · obtain ⟨h1, h2⟩ := ha h; exact ⟨hm h1, hv h2⟩
  · obtain ⟨h1, h2⟩ := ha h
    obtain ⟨a, b, c⟩ := hv h1; exact ⟨a, b, c, hm h2⟩
  · obtain ⟨h1, h2⟩ := ha h; exact ⟨hm h1, hm h2⟩
  · obtain ⟨h1, h2⟩ := ha h
    obtain ⟨a, b, c⟩ := hv h1; exact ⟨a, b, c, hv h2⟩
  · obtain ⟨h, h4⟩ := ha h
    obtain ⟨h, h3⟩ := ha h
    obtain ⟨h1, h2⟩ := ha h
    obtain ⟨a, b, c⟩ := hv h2
    obtain ⟨d, e, f⟩ := hv h3
    exact ⟨hm h1, a, b, c, d, e, f, hm h4⟩

theorem magSq_nanTy (t : Ty) (x : t.D F64) (h : F64.nan ∈ comps t x) : magSqTy t x = .nan := by
  have hn : ∀ a : F64, F64.nan * a = .nan := fun _ => rfl
  cases t <;> simp only [comps, List.mem_cons, List.not_mem_nil, or_false] at h <;>
    simp only [engabra] <;> (try casesm* _ ∨ _) <;>
    simp only [← h, hn, F64.nan_add, F64.add_nan]

theorem Nice_true (t : Ty) (x : t.D F64) (h : F64.nan ∉ comps t x) :
    FV.Nice true (magSqTy t (mapTy FV.clean t x)) := by
  have hs : ∀ c ∈ comps t x, FV.Nice true (FV.clean c * FV.clean c) := fun c hc =>
    FV.Nice.sq rfl rfl (fun e => h (by rw [← show c = .nan from e]; exact hc)) fun e => by cases e
  cases t <;>
    simp only [comps, List.forall_mem_cons, List.not_mem_nil, false_imp_iff, implies_true,
      and_true] at hs <;> (try casesm* _ ∧ _) <;>
    simp only [engabra, mapTy]
  all_goals
    repeat' first
      | with_reducible exact FV.Nice.zero
      | with_reducible apply FV.Nice.add
      | assumption

/-- `magSq` never divides. -/
theorem magSq_div (t : Ty) (x : t.D FV) (h : ∀ c ∈ comps t x, c.fl.divByZero = false) :
    (magSqTy t x).fl.divByZero = false := by
  have hm : ∀ a b : FV, a.fl.divByZero = false → b.fl.divByZero = false → (a * b).fl.divByZero = false := by
    intro a b ha hb
    show ((a.fl.or b.fl).or _).divByZero = false
    simp [ha, hb, F64.mulFlags]
  have hp : ∀ a b : FV, a.fl.divByZero = false → b.fl.divByZero = false → (a + b).fl.divByZero = false := by
    intro a b ha hb
    show ((a.fl.or b.fl).or _).divByZero = false
    simp [ha, hb, F64.addFlags]
  have hz : (0 : FV).fl.divByZero = false := rfl
  cases t <;>
    simp only [comps, List.forall_mem_cons, List.not_mem_nil, false_imp_iff, implies_true,
      and_true] at h <;> (try casesm* _ ∧ _) <;>
    simp only [engabra]
  all_goals
    repeat' first
      | with_reducible exact hz
      | with_reducible apply hp
      | with_reducible apply hm
      | assumption

end Engabra
