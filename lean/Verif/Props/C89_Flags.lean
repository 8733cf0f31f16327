import Verif.Lemmas.Flags
import Verif.Lemmas.InverseEst
import Verif.Props.C25_C28_Compare

/-! # C89: exception flags -/

namespace Engabra

open F64 (Finite HasVal denull)

/-! ## Expressions -/

/-- **C89.**  Recording flags does not change the numbers. -/
theorem C89_values (env : Nat → Sigma fun t : Ty => t.D F64) (e : Expr) :
    (e.eval fun i => mapS FV.clean (env i)).map (mapS FV.val) = e.eval env := by
  rw [eval_sym', eval_sym env, Option.map_map]
  congr 1
  funext r
  show mapS FV.val (mapS _ r) = _
  unfold mapS
  simp only
  rw [mapTy_mapTy', mapTy_congr' (ev_val _)]

theorem flags_eval (env : Nat → Sigma fun t : Ty => t.D F64) (e : Expr)
    (r : Sigma fun t : Ty => t.D FV) (h : (e.eval fun i => mapS FV.clean (env i)) = some r) :
    ∃ q, e.eval (symEnv env) = some q ∧
      comps r.1 r.2 = (comps q.1 q.2).map (T.ev fun n => FV.clean (varEnv env n)) := by
  rw [eval_sym', Option.map_eq_some_iff] at h
  obtain ⟨q, hq, rfl⟩ := h
  exact ⟨q, hq, comps_mapTy' _ _ _⟩

theorem varEnv_ind {P : F64 → Prop} (h0 : P 0) (env : Nat → Sigma fun t : Ty => t.D F64)
    (hv : ∀ i, ∀ c ∈ comps (env i).1 (env i).2, P c) (n : Nat) : P (varEnv env n) := by
  unfold varEnv
  have h := hv (n / 8)
  generalize (⟨n % 8, _⟩ : Fin 8) = k
  generalize env (n / 8) = x at *
  obtain ⟨t, x⟩ := x
  revert k
  cases t <;>
    simp only [comps, List.forall_mem_cons, List.not_mem_nil, false_imp_iff, implies_true,
      and_true] at h <;> (try casesm* _ ∧ _) <;>
    refine forall_fin8 ?_ ?_ ?_ ?_ ?_ ?_ ?_ ?_ <;> first | exact h0 | assumption

/-- **C89.**  An expression of finite objects raises no exception exactly if every component of its
result is finite: overflow is never lost in a later step. -/
theorem C89_finite_iff (env : Nat → Sigma fun t : Ty => t.D F64) (e : Expr)
    (hv : ∀ i, ∀ c ∈ comps (env i).1 (env i).2, c.Finite)
    (r : Sigma fun t : Ty => t.D FV) (h : (e.eval fun i => mapS FV.clean (env i)) = some r) :
    allFlags (comps r.1 r.2) = Flags.none ↔ ∀ c ∈ comps r.1 r.2, c.val.Finite := by
  obtain ⟨q, -, hq⟩ := flags_eval env e r h
  have hf := varEnv_ind F64.hasVal_zero'.1 env hv
  have hd : (fun n => (varEnv env n).denull) = varEnv env := funext fun n =>
    ((F64.denull_or (varEnv env n)).resolve_left fun e => by
      have := hf n; rw [e] at this; exact this).symm
  rw [allFlags_none, hq]
  constructor
  · intro h c hc
    obtain ⟨s, hs, rfl⟩ := List.mem_map.1 hc
    rw [ev_val]
    exact ev_overflow _ hf s (h _ hc)
  · intro h c hc
    have h1 := h c hc
    obtain ⟨s, hs, rfl⟩ := List.mem_map.1 hc
    rw [ev_val] at h1
    exact (ev_silent _ s (by rw [hd]; exact h1)).1

/-- **C89.**  Null data (NaN) go through the operators silently: if the expression has finite
components with zero in place of the NaN components, no exception is raised. -/
theorem C89_null (env : Nat → Sigma fun t : Ty => t.D F64) (e : Expr)
    (r' : Sigma fun t : Ty => t.D F64) (h' : (e.eval fun i => mapS denull (env i)) = some r')
    (hf : ∀ c ∈ comps r'.1 r'.2, c.Finite)
    (r : Sigma fun t : Ty => t.D FV) (h : (e.eval fun i => mapS FV.clean (env i)) = some r) :
    allFlags (comps r.1 r.2) = Flags.none := by
  obtain ⟨q, hq1, hq⟩ := flags_eval env e r h
  rw [eval_sym', hq1, Option.map_some, Option.some.injEq] at h'
  subst h'
  rw [allFlags_none, hq]
  intro c hc
  obtain ⟨s, hs, rfl⟩ := List.mem_map.1 hc
  refine (ev_silent _ s (hf _ ?_)).1
  obtain ⟨t, q⟩ := q
  have e := comps_mapTy' (T.ev fun n => (varEnv env n).denull) t q
  exact e.symm ▸ List.mem_map.2 ⟨s, hs, rfl⟩

/-- **C89.**  No NaN comes into being silently: if no operand has a NaN component (infinite ones are
allowed), each component of the result is NaN exactly if its computation raised invalid. -/
theorem C89_invalid_iff (env : Nat → Sigma fun t : Ty => t.D F64) (e : Expr)
    (hv : ∀ i, ∀ c ∈ comps (env i).1 (env i).2, c ≠ .nan)
    (r : Sigma fun t : Ty => t.D FV) (h : (e.eval fun i => mapS FV.clean (env i)) = some r) :
    ∀ c ∈ comps r.1 r.2, c.fl.invalid = true ↔ c.val = .nan := by
  obtain ⟨q, -, hq⟩ := flags_eval env e r h
  rw [hq]
  intro c hc
  obtain ⟨s, hs, rfl⟩ := List.mem_map.1 hc
  rw [ev_val]
  exact ev_invalid _ (varEnv_ind (fun e => by cases e) env hv) s

/-- Positions of the components of a type in a `MultiVector`. -/
def ixTy : Ty → List (Fin 8)
  | .dub => [0]
  | .sca => [0]
  | .vec => [1, 2, 3]
  | .biv => [4, 5, 6]
  | .tri => [7]
  | .spin => [0, 4, 5, 6]
  | .imsp => [1, 2, 3, 7]
  | .cplx => [0, 7]
  | .dplx => [1, 2, 3, 4, 5, 6]
  | .mv => [0, 1, 2, 3, 4, 5, 6, 7]

theorem comps_ix {α : Type} [Zero α] (t : Ty) (x : t.D α) :
    comps t x = (ixTy t).map (cf (promote t x)) := by
  cases t <;> rfl

theorem denull_comps {t : Ty} {x : t.D F64} {M : ℕ}
    (h : ∀ c ∈ comps t x, c = .nan ∨ (c.Finite ∧ |c.value| ≤ M)) :
    ∀ c ∈ comps t (mapTy denull t x), c.Finite ∧ |c.value| ≤ M := by
  rw [comps_mapTy']
  intro c hc
  obtain ⟨d, hd, rfl⟩ := List.mem_map.1 hc
  rcases h d hd with rfl | h
  · exact ⟨trivial, by simp [denull, F64.value]⟩
  · rwa [← (F64.denull_or d).resolve_left fun e => by rw [e] at h; exact h.1]

/-- **C89.**  Data which are null (NaN) or at most `M` in absolute value raise no exception in an
expression whose subexpressions all have a bound below `2^1022`, counting nine products for each
product of two objects. -/
theorem C89_bounded (env : Nat → Sigma fun t : Ty => t.D F64) (M : ℕ) (e : Expr)
    (hv : ∀ i, ∀ c ∈ comps (env i).1 (env i).2, c = .nan ∨ (c.Finite ∧ |c.value| ≤ M))
    (hc : ∀ f ∈ e.subs, f.fusedCap M ≤ 2 ^ 1022)
    (r : Sigma fun t : Ty => t.D FV) (h : (e.eval fun i => mapS FV.clean (env i)) = some r) :
    allFlags (comps r.1 r.2) = Flags.none := by
  have hv' : ∀ i, ∀ c ∈ comps (mapS denull (env i)).1 (mapS denull (env i)).2, c.Finite ∧ |c.value| ≤ M :=
    fun i => denull_comps (hv i)
  obtain ⟨q, hq1, -⟩ := flags_eval env e r h
  have h' : (e.eval fun i => mapS denull (env i)) = some (mapS (T.ev fun n => (varEnv env n).denull) q) := by
    rw [eval_sym', hq1]; rfl
  refine C89_null env e _ h' ?_ r h
  intro c hcc
  rw [comps_ix] at hcc
  obtain ⟨k, -, rfl⟩ := List.mem_map.1 hcc
  have hm := C57_uncontracted _ e _ h' k
  obtain ⟨y, hy, hd⟩ := hm
  refine ((expr_good _ e (fun i _ c hc => (hv' i c hc).1) (fun f hf k => ?_) y hy k).1 _ hd).1
  have h1 : f.fusedBound (fun i => cf (exactEnv (fun i => mapS denull (env i)) i)) k ≤ f.fusedCap M := by
    refine fusedBound_le_cap f (fun i hi k => ?_) k
    change |cf (promote (mapS denull (env i)).1 (valTy (mapS denull (env i)).1 (mapS denull (env i)).2)) k| ≤ _
    rw [cf_val]
    exact comps_le _ _ _ (Nat.cast_nonneg M) (fun c hc => (hv' i c hc).2) k
  exact h1.trans (by exact_mod_cast hc f hf)

/-! ## Magnitude and direction -/

theorem mag_valF (t : Ty) (x : t.D F64) :
    (FV.sqrt (magSqTy t (mapTy FV.clean t x))).val = magnitudeTy t x := by
  show Dbl.sqrt (magSqTy t (mapTy FV.clean t x)).val = _
  rw [magSq_valF, val_clean]; rfl

/-- **C89.**  Recording flags does not change magnitude and direction. -/
theorem C89_direction_values (t : Ty) (x : t.D F64) :
    (pairMagDirF t (mapTy FV.clean t x)).1.val = (pairMagDirTy t x).1 ∧
      mapTy FV.val t (pairMagDirF t (mapTy FV.clean t x)).2.1 = (pairMagDirTy t x).2 := by
  have hm := mag_valF t x
  have hl : (FV.lt (.clean (Dbl.denormMin F64)) (FV.sqrt (magSqTy t (mapTy FV.clean t x)))).1
      = Dbl.lt (Dbl.denormMin F64) (magnitudeTy t x) := by rw [← hm]; rfl
  unfold pairMagDirF pairMagDirTy
  simp only [hl]
  split_ifs
  · refine ⟨hm, ?_⟩
    rw [smul_valF, val_clean, ← hm]; rfl
  · refine ⟨hm, ?_⟩
    cases t <;> rfl

theorem comps_ne_nil {α : Type} (t : Ty) (x : t.D α) : ∃ c, c ∈ comps t x := by
  cases t <;> exact ⟨_, List.mem_cons_self⟩

theorem denorm_ne_nan : Dbl.denormMin F64 ≠ .nan := by
  intro e
  have := F64.denormMin_val.1
  rw [e] at this; exact this

theorem lt_pos {m : F64} (h : Dbl.lt (Dbl.denormMin F64) m = true) :
    m = .inf false ∨ (m.Finite ∧ 0 < m.value) := by
  cases m with
  | nan =>
    have : Dbl.lt (Dbl.denormMin F64) F64.nan = false := by
      generalize Dbl.denormMin F64 = d; cases d <;> rfl
    rw [this] at h; cases h
  | inf s =>
    cases s
    · exact Or.inl rfl
    · have h1 := F64.denormMin_val.1
      generalize Dbl.denormMin F64 = d at *
      cases d <;> first | cases h | exact absurd h1 id
  | zero s =>
    rw [F64.denormMin_val.flt (F64.hasVal_zero s), decide_eq_true_iff] at h
    exact absurd h (not_lt.2 (F64.two_zpow_pos _).le)
  | fin v hv =>
    rw [F64.denormMin_val.flt (HasVal.of (x := .fin v hv) trivial), decide_eq_true_iff] at h
    exact Or.inr ⟨trivial, (F64.two_zpow_pos _).trans h⟩

theorem one_div_flags {m : F64} (h : m = .inf false ∨ (m.Finite ∧ 0 < m.value)) :
    (F64.divFlags 1 m).invalid = false ∧ (F64.divFlags 1 m).divByZero = false ∧
      (F64.divFlags 1 m).overflow = (1 / m).inf? := by
  have e1 : ∀ m : F64, (1 / m) = F64.div (.fin 1 F64.isFin_one) m := fun m => by rw [← F64.one_eq]; rfl
  rw [e1, F64.one_eq]
  rcases h with rfl | ⟨h1, h2⟩
  · exact ⟨rfl, rfl, rfl⟩
  · cases m with
    | nan => exact absurd h1 id
    | inf _ => exact absurd h1 id
    | zero _ => exact absurd h2 (lt_irrefl _)
    | fin v hv => exact ⟨rfl, rfl, rfl⟩

/-- **C89.**  `direction` (and `pairMagDirFrom`) of a finite object raises neither invalid nor
divide-by-zero, and overflow exactly if the magnitude is infinite. -/
theorem C89_direction (t : Ty) (x : t.D F64) (hf : ∀ c ∈ comps t x, c.Finite) :
    (pairMagDirF t (mapTy FV.clean t x)).2.2.invalid = false ∧
    (pairMagDirF t (mapTy FV.clean t x)).2.2.divByZero = false ∧
    ((pairMagDirF t (mapTy FV.clean t x)).2.2.overflow = true ↔ magnitudeTy t x = .inf false) := by
  have hn := (magSq_nice t x hf).sqrt
  have hv := mag_valF t x
  have hd := C34_null_or_bounded t x hf
  unfold pairMagDirF
  simp only []
  generalize FV.sqrt (magSqTy t (mapTy FV.clean t x)) = m at *
  have hlt : (FV.lt (.clean (Dbl.denormMin F64)) m).2 = m.fl := by
    show ((Flags.none.or m.fl).or (F64.ltFlags _ m.val)) = _
    rw [show F64.ltFlags (FV.clean (Dbl.denormMin F64)).val m.val = Flags.none from
      ltFlags_none denorm_ne_nan hn.ne_nan, Flags.none_or, Flags.or_none]
  have hov : m.fl.overflow = true ↔ magnitudeTy t x = .inf false := by
    rcases hn.2.2 with ⟨h1, h2⟩ | ⟨h1, -, h2⟩
    · exact ⟨fun _ => hv ▸ h1, fun _ => h2 rfl⟩
    · refine ⟨fun h => ?_, fun h => ?_⟩
      · rw [h2 rfl] at h; cases h
      · rw [hv, h] at h1; exact absurd h1 id
  rw [hlt]
  split_ifs with hb
  · have hb' : Dbl.lt (Dbl.denormMin F64) (magnitudeTy t x) = true := by rw [← hv]; exact hb
    have hfin : ∀ c ∈ comps t x, (1 / magnitudeTy t x * c).Finite := by
      rcases hd with ⟨-, h1, -⟩ | ⟨-, -, h3⟩
      · rw [h1] at hb'
        rcases lt_pos hb' with h | ⟨-, h⟩
        · cases h
        · exact absurd h (lt_irrefl _)
      · intro c hc
        refine (h3 _ ?_).1
        unfold directionTy pairMagDirTy
        simp only [if_pos hb']
        rw [comps_smul]
        exact List.mem_map.2 ⟨c, hc, rfl⟩
    have h1 : (1 / magnitudeTy t x).Finite := by
      obtain ⟨c, hc⟩ := comps_ne_nil t x
      exact (F64.finite_of_mul (hfin c hc)).1
    have hdiv : F64.divFlags 1 m.val = Flags.none := by
      obtain ⟨a, b, c⟩ := one_div_flags (hv ▸ lt_pos hb')
      refine Flags.eq_none a b (c.trans ?_)
      rw [hv]; exact F64.inf?_of_finite h1
    have hall : allFlags (comps t (smulTy t (1 / m) (mapTy FV.clean t x))) = m.fl := by
      have : ∀ a ∈ comps t (smulTy t (1 / m) (mapTy FV.clean t x)), a.fl = m.fl := by
        rw [comps_smulF, comps_mapTy']
        intro a ha
        obtain ⟨b, hb, rfl⟩ := List.mem_map.1 ha
        obtain ⟨c, hc, rfl⟩ := List.mem_map.1 hb
        show ((((Flags.none.or m.fl).or (F64.divFlags 1 m.val)).or Flags.none).or
          (F64.mulFlags (1 / m.val) c)) = m.fl
        rw [hdiv, (F64.mulFlags_none (Or.inr rfl) (Or.inr rfl) (by rw [hv]; exact hfin c hc)).1]
        simp
      obtain ⟨c, hc⟩ := comps_ne_nil t (smulTy t (1 / m) (mapTy FV.clean t x))
      have idem : ∀ f : Flags, f.or f = f := fun f => by cases f; simp [Flags.or]
      have gen : ∀ l : List FV, (∀ a ∈ l, a.fl = m.fl) → l ≠ [] → allFlags l = m.fl := by
        intro l
        induction l with
        | nil => exact fun _ h => absurd rfl h
        | cons a l ih =>
          intro h _
          rw [allFlags_cons, h a List.mem_cons_self]
          cases l with
          | nil => simp
          | cons b l => rw [ih (fun c hc => h c (List.mem_cons_of_mem _ hc)) (by simp), idem]
      exact gen _ this (List.ne_nil_of_mem hc)
    rw [hall]
    refine ⟨by simp [hn.1], by simp [hn.2.1], by simpa using hov⟩
  · exact ⟨hn.1, hn.2.1, hov⟩

theorem mag_div (t : Ty) (x : t.D F64) :
    (FV.sqrt (magSqTy t (mapTy FV.clean t x))).fl.divByZero = false := by
  show (Flags.or _ _).divByZero = false
  rw [Flags.or_divByZero, magSq_div t (mapTy FV.clean t x) (by
    rw [comps_mapTy']; intro c hc; obtain ⟨d, -, rfl⟩ := List.mem_map.1 hc; rfl)]
  generalize (magSqTy t (mapTy FV.clean t x)).val = v
  cases v with
  | inf s => cases s <;> rfl
  | _ => rfl

/-- **C89.**  `direction` of any object never divides by zero, and it is invalid exactly if a
component is NaN or infinite. -/
theorem C89_direction_invalid (t : Ty) (x : t.D F64) :
    (pairMagDirF t (mapTy FV.clean t x)).2.2.divByZero = false ∧
    ((pairMagDirF t (mapTy FV.clean t x)).2.2.invalid = true ↔ ∃ c ∈ comps t x, ¬ c.Finite) := by
  by_cases hf : ∀ c ∈ comps t x, c.Finite
  · obtain ⟨h1, h2, -⟩ := C89_direction t x hf
    refine ⟨h2, ?_⟩
    rw [h1]
    exact ⟨fun h => (by cases h), fun ⟨c, hc, h⟩ => absurd (hf c hc) h⟩
  · have hd := mag_div t x
    have hv := mag_valF t x
    push Not at hf
    have hdz : (pairMagDirF t (mapTy FV.clean t x)).2.2.divByZero = false := by
      unfold pairMagDirF
      simp only []
      generalize FV.sqrt (magSqTy t (mapTy FV.clean t x)) = m at *
      have hlt : (FV.lt (.clean (Dbl.denormMin F64)) m).2.divByZero = false := by
        show ((Flags.none.or m.fl).or (F64.ltFlags _ m.val)).divByZero = false
        rw [Flags.none_or, Flags.or_divByZero, hd]
        generalize Dbl.denormMin F64 = d
        cases d <;> cases m.val <;> rfl
      split_ifs with hb
      · rw [Flags.or_divByZero, hlt, Bool.false_or, Bool.eq_false_iff, Ne, allFlags_divByZero, comps_smulF,
          comps_mapTy']
        rintro ⟨a, ha, h⟩
        obtain ⟨b, hb', rfl⟩ := List.mem_map.1 ha
        obtain ⟨c, hc, rfl⟩ := List.mem_map.1 hb'
        change ((((Flags.none.or m.fl).or (F64.divFlags 1 m.val)).or Flags.none).or
          (F64.mulFlags (1 / m.val) c)).divByZero = true at h
        have := (one_div_flags (lt_pos hb)).2.1
        simp [hd, this, F64.mulFlags, Flags.none] at h
      · exact hlt
    refine ⟨hdz, ⟨fun _ => hf, fun _ => ?_⟩⟩
    by_cases hn : F64.nan ∈ comps t x
    · have hm : magnitudeTy t x = .nan := by
        unfold magnitudeTy; rw [magSq_nanTy t x hn]; rfl
      unfold pairMagDirF
      simp only []
      have hi : (FV.lt (.clean (Dbl.denormMin F64)) (FV.sqrt (magSqTy t (mapTy FV.clean t x)))).2.invalid = true := by
        show (Flags.or _ (F64.ltFlags _ (FV.sqrt (magSqTy t (mapTy FV.clean t x))).val)).invalid = true
        rw [Flags.or_invalid, hv, hm]
        generalize (FV.clean (Dbl.denormMin F64)).val = d
        cases d <;> simp [F64.ltFlags]
      split_ifs
      · rw [Flags.or_invalid, hi]; rfl
      · exact hi
    · have hN := (Nice_true t x hn).sqrt
      have hm : magnitudeTy t x = .inf false := by
        have h1 := Nice_true t x hn
        rw [FV.Nice, magSq_valF, val_clean] at h1
        rcases h1.2.2 with ⟨h, -⟩ | ⟨h, -⟩
        · unfold magnitudeTy; rw [h]; rfl
        · obtain ⟨c, hc, hc'⟩ := hf
          exact absurd (magSq_finite t x h c hc) hc'
      unfold pairMagDirF
      simp only []
      generalize FV.sqrt (magSqTy t (mapTy FV.clean t x)) = m at *
      have hlt : (FV.lt (.clean (Dbl.denormMin F64)) m).1 = true := by
        show Dbl.lt (Dbl.denormMin F64) m.val = true
        rw [hv, hm]
        have h1 := F64.denormMin_val.1
        generalize Dbl.denormMin F64 = d at h1
        cases d <;> first | rfl | exact absurd h1 id
      rw [if_pos hlt]
      show (Flags.or _ _).invalid = true
      rw [Flags.or_invalid, Bool.or_eq_true, allFlags_invalid, comps_smulF, comps_mapTy']
      right
      obtain ⟨c, hc, hc'⟩ := hf
      refine ⟨1 / m * FV.clean c, List.mem_map.2 ⟨_, List.mem_map.2 ⟨c, hc, rfl⟩, rfl⟩, ?_⟩
      show (Flags.or _ (F64.mulFlags (1 / m.val) c)).invalid = true
      rw [hv, hm, show (1 : F64) / .inf false = .zero false by rw [F64.one_eq]; rfl, Flags.or_invalid]
      cases c with
      | nan => exact absurd hc hn
      | inf s => simp [F64.mulFlags]
      | zero _ => exact absurd trivial hc'
      | fin _ _ => exact absurd trivial hc'

/-! ## Inverse of blades -/

/-- **C89.**  Recording flags does not change the inverse. -/
theorem C89_inverse_values (t : Ty) (ht : t = .sca ∨ t = .vec ∨ t = .biv ∨ t = .tri) (x : t.D F64) :
    inverseTy t x = some (mapTy FV.val t (inverseF t (mapTy FV.clean t x))) := by
  have e : inverseTy t x = some (smulTy t (1 / magSqTy t x) (reverseTy t x)) := by
    rcases ht with rfl | rfl | rfl | rfl <;> rfl
  rw [e]
  unfold inverseF
  simp only []
  rw [smul_valF, reverse_valF, val_clean]
  show _ = some (smulTy t (1 / (magSqTy t (mapTy FV.clean t x)).val) _)
  rw [magSq_valF, val_clean]

theorem reverse_clean (t : Ty) (x : t.D F64) :
    reverseTy t (mapTy FV.clean t x) = mapTy FV.clean t (reverseTy t x) := by
  cases t <;> rfl

theorem reverse_finite (t : Ty) (ht : t = .sca ∨ t = .vec ∨ t = .biv ∨ t = .tri) (x : t.D F64)
    (h : ∀ c ∈ comps t x, c.Finite) : ∀ c ∈ comps t (reverseTy t x), c.Finite := by
  rcases comps_reverse t x ht with e | e <;> rw [e]
  · exact h
  · intro c hc
    obtain ⟨d, hd, rfl⟩ := List.mem_map.1 hc
    exact F64.neg_finite (h d hd)

theorem magSq_zero_iff (t : Ty) (x : t.D F64) (hf : ∀ c ∈ comps t x, c.Finite) :
    (∃ s, magSqTy t x = .zero s) ↔ ∀ c ∈ comps t x, c.value * c.value ≤ (2 : ℚ) ^ (-1075 : ℤ) := by
  constructor
  · rintro ⟨s, h⟩
    rcases C34_null_or_bounded t x hf with ⟨h1, -⟩ | ⟨-, h2, -⟩
    · exact h1
    · exfalso
      unfold magnitudeTy at h2
      rw [h] at h2
      rw [show Dbl.sqrt (F64.zero s) = .zero s from rfl, F64.hasVal_zero'.flt (F64.hasVal_zero s)] at h2
      simp at h2
  · exact fun h => ⟨false, magSq_underflow' t x fun c hc => ⟨hf c hc, h c hc⟩⟩

/-- **C89.**  `inverse` of a finite blade raises divide-by-zero exactly if all its squared components
are at most half of the smallest double; and it raises nothing exactly if the squared magnitude and
the result are finite. -/
theorem C89_inverse (t : Ty) (ht : t = .sca ∨ t = .vec ∨ t = .biv ∨ t = .tri) (x : t.D F64)
    (hf : ∀ c ∈ comps t x, c.Finite) :
    ((allFlags (comps t (inverseF t (mapTy FV.clean t x)))).divByZero = true ↔
      ∀ c ∈ comps t x, c.value * c.value ≤ (2 : ℚ) ^ (-1075 : ℤ)) ∧
    (allFlags (comps t (inverseF t (mapTy FV.clean t x))) = Flags.none ↔
      (magSqTy t x).Finite ∧ ∀ c ∈ comps t (inverseF t (mapTy FV.clean t x)), c.val.Finite) := by
  have hn := magSq_nice t x hf
  have hv : (magSqTy t (mapTy FV.clean t x)).val = magSqTy t x := by rw [magSq_valF, val_clean]
  have hr := reverse_finite t ht x hf
  rw [← magSq_zero_iff t x hf]
  unfold inverseF
  simp only []
  rw [reverse_clean, comps_smulF, comps_mapTy', List.map_map]
  generalize magSqTy t (mapTy FV.clean t x) = m at *
  have hc : ∀ c : F64, (1 / m * FV.clean c).fl = (m.fl.or (F64.divFlags 1 m.val)).or (F64.mulFlags (1 / m.val) c) := by
    intro c
    show ((((Flags.none.or m.fl).or (F64.divFlags 1 m.val)).or Flags.none).or
          (F64.mulFlags (1 / m.val) c)) = _
    rw [Flags.none_or, Flags.or_none]
  have hdz : (F64.divFlags 1 m.val).divByZero = true ↔ ∃ s, magSqTy t x = .zero s := by
    rw [← hv, F64.one_eq]
    cases m.val <;> simp [F64.divFlags, Flags.none]
  constructor
  · rw [allFlags_divByZero, ← hdz]
    constructor
    · rintro ⟨a, ha, h⟩
      obtain ⟨c, -, rfl⟩ := List.mem_map.1 ha
      simp only [Function.comp, hc, Flags.or_divByZero, hn.2.1, Bool.false_or] at h
      simpa [F64.mulFlags] using h
    · intro h
      obtain ⟨c, hcc⟩ := comps_ne_nil t (reverseTy t x)
      refine ⟨_, List.mem_map.2 ⟨c, hcc, rfl⟩, ?_⟩
      simp only [Function.comp, hc, Flags.or_divByZero, h, Bool.or_true, Bool.true_or]
  · rw [allFlags_none]
    constructor
    · intro h
      obtain ⟨c0, hc0⟩ := comps_ne_nil t (reverseTy t x)
      have h0 := h _ (List.mem_map.2 ⟨c0, hc0, rfl⟩)
      simp only [Function.comp, hc] at h0
      obtain ⟨h1, -⟩ := Flags.or_eq_none.1 h0
      obtain ⟨h1, h2⟩ := Flags.or_eq_none.1 h1
      have hmf : m.val.Finite := by
        rcases hn.2.2 with ⟨-, h3⟩ | ⟨h3, -⟩
        · rw [h1] at h3; exact absurd (h3 rfl) (by simp [Flags.none])
        · exact h3
      have hdf : (1 / m.val).Finite := by
        rw [F64.one_eq] at h2 ⊢
        change (F64.div _ m.val).Finite
        revert h2 hmf
        cases m.val with
        | nan => exact fun _ h => absurd h id
        | inf _ => exact fun _ h => absurd h id
        | zero _ => exact fun h => absurd h (by simp [F64.divFlags, Flags.none])
        | fin v hv =>
          intro h _
          refine F64.finite_or_inf (F64.roundTo_ne_nan _) ?_
          have := congrArg Flags.overflow h
          exact this
      refine ⟨hv ▸ hmf, fun a ha => ?_⟩
      obtain ⟨c, hcc, rfl⟩ := List.mem_map.1 ha
      have h3 := h _ ha
      simp only [Function.comp, hc] at h3
      obtain ⟨-, h3⟩ := Flags.or_eq_none.1 h3
      exact F64.finite_of_mulFlags (x := 1 / m.val) (y := c) hdf (hr c hcc) (by rw [h3]; rfl)
    · rintro ⟨h1, h2⟩ a ha
      have h3 := h2 a ha
      obtain ⟨c, hcc, rfl⟩ := List.mem_map.1 ha
      change (1 / m.val * c).Finite at h3
      simp only [Function.comp, hc]
      have h4 := (F64.finite_of_mul h3).1
      rw [(F64.mulFlags_none (Or.inr rfl) (Or.inr rfl) h3).1, Flags.or_none]
      have hm0 : m.fl = Flags.none := by
        rcases hn.2.2 with ⟨h5, -⟩ | ⟨-, -, h5⟩
        · rw [← hv, h5] at h1; exact absurd h1 id
        · exact Flags.eq_none hn.1 hn.2.1 (h5 rfl)
      rw [hm0, Flags.none_or]
      rw [← hv] at h1
      rw [F64.one_eq] at h4 ⊢
      revert h1 h4
      cases m.val with
      | nan => exact fun h _ => absurd h id
      | inf _ => exact fun h _ => absurd h id
      | zero _ => exact fun _ h => absurd h id
      | fin v hv =>
        intro _ h
        exact Flags.eq_none rfl rfl (F64.inf?_of_finite h)

/-! ## Comparison -/

theorem innerF_val (l : List F64) (a : FV) :
    (innerProductF a (l.map .clean)).val = l.foldl (fun s y => s + y * y) a.val := by
  induction l generalizing a with
  | nil => rfl
  | cons x l ih => exact ih _

theorem innerF_nice (l : List F64) (h : ∀ c ∈ l, c.Finite) (a : FV) (ha : a.Nice false) :
    (innerProductF a (l.map .clean)).Nice false := by
  induction l generalizing a with
  | nil => exact ha
  | cons x l ih =>
    have hx := h x List.mem_cons_self
    refine ih (fun c hc => h c (List.mem_cons_of_mem _ hc)) _ (ha.add (FV.Nice.sq rfl rfl ?_ fun _ => ⟨hx, rfl⟩))
    intro e; rw [show x = .nan from e] at hx; exact hx

theorem difF_val (l m : List F64) (a : FV) : (difLoopF a (l.map .clean) (m.map .clean)).val
    = (l.zip m).foldl (fun s p => s + (p.1 - p.2) * (p.1 - p.2)) a.val := by
  induction l generalizing a m with
  | nil => rfl
  | cons x l ih =>
    cases m with
    | nil => rfl
    | cons y m => exact ih m _

theorem sub_clean {x y : F64} (hx : x.Finite) (hy : y.Finite) :
    (FV.clean x - FV.clean y).fl.invalid = false ∧ (FV.clean x - FV.clean y).fl.divByZero = false ∧
      (FV.clean x - FV.clean y).val ≠ .nan :=
  ⟨FV.addFlags_invalid hx, rfl, F64.add_ne_nan hx (F64.neg_finite hy)⟩

theorem difF_nice (l m : List F64) (hl : ∀ c ∈ l, c.Finite) (hm : ∀ c ∈ m, c.Finite) (a : FV)
    (ha : a.Nice true) : (difLoopF a (l.map .clean) (m.map .clean)).Nice true := by
  induction l generalizing a m with
  | nil => exact ha
  | cons x l ih =>
    cases m with
    | nil => exact ha
    | cons y m =>
      obtain ⟨h1, h2, h3⟩ := sub_clean (hl x List.mem_cons_self) (hm y List.mem_cons_self)
      exact ih m (fun c hc => hl c (List.mem_cons_of_mem _ hc)) (fun c hc => hm c (List.mem_cons_of_mem _ hc)) _
        (ha.add (FV.Nice.sq h1 h2 h3 fun e => by cases e))

theorem abs_ne_nan {x : F64} (h : x ≠ .nan) : F64.abs x ≠ .nan := by
  intro e
  unfold F64.abs at e
  split_ifs at e
  · cases x <;> first | exact h rfl | cases e
  · exact h e

theorem ltFlags_invalid {x y : F64} : (F64.ltFlags x y).invalid = true ↔ x = .nan ∨ y = .nan := by
  cases x <;> cases y <;> simp [F64.ltFlags, Flags.none]

theorem ltFlags_div (x y : F64) : (F64.ltFlags x y).divByZero = false := by
  cases x <;> cases y <;> rfl

theorem small_flags {x y tol : F64} (hx : x.Finite) (hy : y.Finite) :
    ((isSmallAbsDiffF (.clean x) (.clean y) (.clean tol)).2.invalid = true ↔ tol = .nan) ∧
      (isSmallAbsDiffF (.clean x) (.clean y) (.clean tol)).2.divByZero = false := by
  obtain ⟨h1, h2, h3⟩ := sub_clean hx hy
  constructor
  · show (Flags.or (Flags.or (FV.clean x - FV.clean y).fl Flags.none) (F64.ltFlags (F64.abs _) tol)).invalid = true ↔ _
    rw [Flags.or_none, Flags.or_invalid, h1, Bool.false_or, ltFlags_invalid]
    exact ⟨fun h => h.resolve_left (abs_ne_nan h3), Or.inr⟩
  · show (Flags.or (Flags.or (FV.clean x - FV.clean y).fl Flags.none) (F64.ltFlags (F64.abs _) tol)).divByZero = false
    rw [Flags.or_none, Flags.or_divByZero, h2, ltFlags_div]; rfl

theorem smallLoop_flags (tol : F64) (l m : List F64) (hl : ∀ c ∈ l, c.Finite) (hm : ∀ c ∈ m, c.Finite)
    (s : Bool × Flags) (hs : s.2.invalid = true ↔ tol = .nan) (hd : s.2.divByZero = false) :
    ((smallLoopF (.clean tol) s (l.map .clean) (m.map .clean)).2.invalid = true ↔ tol = .nan) ∧
      (smallLoopF (.clean tol) s (l.map .clean) (m.map .clean)).2.divByZero = false := by
  induction l generalizing s m with
  | nil => exact ⟨hs, hd⟩
  | cons x l ih =>
    cases m with
    | nil => exact ⟨hs, hd⟩
    | cons y m =>
      simp only [List.map_cons, smallLoopF]
      split_ifs
      · obtain ⟨h1, h2⟩ := small_flags (tol := tol) (hl x List.mem_cons_self) (hm y List.mem_cons_self)
        refine ih m (fun c hc => hl c (List.mem_cons_of_mem _ hc)) (fun c hc => hm c (List.mem_cons_of_mem _ hc)) _ ?_ ?_
        · simp only [Flags.or_invalid, Bool.or_eq_true, hs, h1, or_self]
        · simp only [Flags.or_divByZero, hd, h2, Bool.or_self]
      · exact ⟨hs, hd⟩

theorem smallF_val (x y tol : F64) :
    (isSmallAbsDiffF (.clean x) (.clean y) (.clean tol)).1 = isSmallAbsDiff x y tol := rfl

theorem smallLoopF_val (tol : F64) (l m : List F64) (s : Bool × Flags) :
    (smallLoopF (.clean tol) s (l.map .clean) (m.map .clean)).1 = smallLoop tol s.1 l m := by
  induction l generalizing s m with
  | nil => rfl
  | cons x l ih =>
    cases m with
    | nil => rfl
    | cons y m =>
      simp only [List.map_cons, smallLoopF, smallLoop]
      split_ifs
      · rw [ih]; rfl
      · rfl

theorem inner_foldl (l : List F64) (a : F64) : innerProduct a l = l.foldl (fun s y => s + y * y) a := by
  induction l generalizing a with
  | nil => rfl
  | cons x l ih => exact ih _

theorem dif_foldl (l m : List F64) (a : F64) :
    difLoop a l m = (l.zip m).foldl (fun s p => s + (p.1 - p.2) * (p.1 - p.2)) a := by
  induction l generalizing a m with
  | nil => rfl
  | cons x l ih =>
    cases m with
    | nil => rfl
    | cons y m => exact ih m _

/-- **C89.**  Recording flags does not change the answer of a comparison. -/
theorem C89_compare_values (got ref : List F64) (tol : F64) :
    (nearlyEqualsArrF got ref tol).1 = nearlyEqualsArr got ref tol := by
  unfold nearlyEqualsArrF nearlyEqualsArr
  cases isValidArr got with
  | ub => rfl
  | ok b =>
    cases b with
    | false => rfl
    | true =>
      cases isValidArr ref with
      | ub => rfl
      | ok b =>
        cases b with
        | false => rfl
        | true =>
          have hs : (FV.lt (FV.sqrt (innerProductF 0 (ref.map .clean))) (.clean (Dbl.minDub F64))).1
              = Dbl.lt (Dbl.sqrt (innerProduct 0 ref)) (Dbl.minDub F64) := by
            rw [inner_foldl]
            show Dbl.lt (Dbl.sqrt (innerProductF 0 (ref.map .clean)).val) _ = _
            rw [innerF_val]; rfl
          simp only [hs]
          split_ifs
          · cases got with
            | nil => rfl
            | cons x xs =>
              cases ref with
              | nil => rfl
              | cons y ys =>
                simp only [List.map_cons, smallLoopF_val]
                congr 2
                unfold nearlyEqualsAbs
                show (if bothAreValid x y = true then _ else _ : Bool × Flags).1 = _
                split_ifs <;> rfl
          · show Run.ok (Dbl.lt (F64.abs (Dbl.sqrt ((difLoopF 0 (got.map .clean) (ref.map .clean)).val
              / (innerProductF 0 (ref.map .clean)).val))) tol) = _
            rw [difF_val, innerF_val, inner_foldl, dif_foldl]; rfl

/-- **C89.**  A comparison with data which are not valid raises nothing. -/
theorem C89_compare_null (got ref : List F64) (tol : F64)
    (h : ∃ c ∈ got ++ ref, isValidDub c = false) : (nearlyEqualsArrF got ref tol).2 = Flags.none := by
  unfold nearlyEqualsArrF
  rw [C11_array got, C11_array ref]
  have hn : (got ++ ref).all isValidDub = false := by
    rw [Bool.eq_false_iff, Ne, List.all_eq_true]
    obtain ⟨c, hc, h⟩ := h
    exact fun h' => by rw [h' c hc] at h; cases h
  rw [List.all_append] at hn
  by_cases hg : got = []
  · rw [if_pos hg]
  · rw [if_neg hg]
    cases e : got.all isValidDub with
    | false => rfl
    | true =>
      rw [e, Bool.true_and] at hn
      rw [hn]
      by_cases hr : ref = []
      · rw [if_pos hr]
      · rw [if_neg hr]

theorem finite_of_valid {x : F64} (h : isValidDub x = true) : x.Finite := by
  rcases (C11_double x).1 h with ⟨s, rfl⟩ | ⟨v, hv, rfl, -⟩ <;> trivial

/-- The quotient of two sums of squares. -/
theorem quot_cases {d r : F64} (hd : d = .inf false ∨ (d.Finite ∧ 0 ≤ d.value))
    (hr : r = .inf false ∨ (r.Finite ∧ 0 < r.value)) :
    (F64.divFlags d r).divByZero = false ∧
      (((F64.divFlags d r).invalid = true ∧ d / r = .nan ∧ d = .inf false ∧ r = .inf false) ∨
       ((F64.divFlags d r).invalid = false ∧ ¬ (d = .inf false ∧ r = .inf false) ∧
        (d / r = .inf false ∨ ((d / r).Finite ∧ 0 ≤ (d / r).value)))) := by
  rcases hr with rfl | ⟨hr, hr0⟩
  · rcases hd with rfl | ⟨hd, hd0⟩
    · exact ⟨rfl, Or.inl ⟨rfl, rfl, rfl, rfl⟩⟩
    · cases d with
      | nan => exact absurd hd id
      | inf _ => exact absurd hd id
      | zero s => exact ⟨rfl, Or.inr ⟨rfl, fun h => (by cases h.1), Or.inr ⟨trivial, le_rfl⟩⟩⟩
      | fin v hv => exact ⟨rfl, Or.inr ⟨rfl, fun h => (by cases h.1), Or.inr ⟨trivial, le_rfl⟩⟩⟩
  · cases r with
    | nan => exact absurd hr id
    | inf _ => exact absurd hr id
    | zero s => exact absurd hr0 (lt_irrefl _)
    | fin w hw =>
      have hw0 : 0 < w := hr0
      rcases hd with rfl | ⟨hd, hd0⟩
      · refine ⟨rfl, Or.inr ⟨rfl, fun h => (by cases h.2), Or.inl ?_⟩⟩
        show F64.inf (xor false (decide (w < 0))) = _
        rw [decide_eq_false (not_lt.2 hw0.le)]; rfl
      · cases d with
        | nan => exact absurd hd id
        | inf _ => exact absurd hd id
        | zero s => exact ⟨rfl, Or.inr ⟨rfl, fun h => (by cases h.1), Or.inr ⟨trivial, le_rfl⟩⟩⟩
        | fin v hv =>
          exact ⟨rfl, Or.inr ⟨rfl, fun h => (by cases h.1), FV.round_nn (div_nonneg hd0 hw0.le)⟩⟩

theorem Nice_cases {o : Bool} {a : FV} (h : a.Nice o) :
    a.val = .inf false ∨ (a.val.Finite ∧ 0 ≤ a.val.value) := by
  rcases h.2.2 with ⟨h, -⟩ | ⟨h, h', -⟩
  · exact Or.inl h
  · exact Or.inr ⟨h, h'⟩

/-- **C89.**  A comparison of valid data never divides by zero.  It is invalid exactly if the
tolerance is NaN, or the sum of the squares of the reference and that of the differences both
overflow. -/
theorem C89_compare (got ref : List F64) (tol : F64) (hne : got ≠ []) (hlen : got.length = ref.length)
    (hg : ∀ c ∈ got, isValidDub c = true) (hr : ∀ c ∈ ref, isValidDub c = true) :
    (nearlyEqualsArrF got ref tol).2.divByZero = false ∧
    ((nearlyEqualsArrF got ref tol).2.invalid = true ↔
      tol = .nan ∨ (ref.foldl (fun s y => s + y * y) 0 = .inf false ∧
        (got.zip ref).foldl (fun s p => s + (p.1 - p.2) * (p.1 - p.2)) 0 = .inf false)) := by
  have hne' : ref ≠ [] := fun h => by rw [h, List.length_nil, List.length_eq_zero_iff] at hlen; exact hne hlen
  have fg : ∀ c ∈ got, c.Finite := fun c hc => finite_of_valid (hg c hc)
  have fr : ∀ c ∈ ref, c.Finite := fun c hc => finite_of_valid (hr c hc)
  have e1 : isValidArr got = .ok true := by rw [C11_array, if_neg hne, List.all_eq_true.2 hg]
  have e2 : isValidArr ref = .ok true := by rw [C11_array, if_neg hne', List.all_eq_true.2 hr]
  have nR := innerF_nice ref fr 0 FV.Nice.zero
  have nD := difF_nice got ref fg fr 0 FV.Nice.zero
  have vR := innerF_val ref 0
  have vD := difF_val got ref 0
  rw [show (0 : FV).val = 0 from rfl] at vR vD
  rw [← vR, ← vD]
  unfold nearlyEqualsArrF
  rw [e1, e2]
  simp only []
  generalize innerProductF 0 (ref.map .clean) = R at *
  generalize difLoopF 0 (got.map .clean) (ref.map .clean) = D at *
  have nS := nR.sqrt
  have hmin : Dbl.minDub F64 ≠ .nan := by
    intro e; have := F64.minDub_val.1; rw [e] at this; exact this
  have hsm : (FV.lt (FV.sqrt R) (.clean (Dbl.minDub F64))).2 = (FV.sqrt R).fl := by
    show ((FV.sqrt R).fl.or Flags.none).or (F64.ltFlags (FV.sqrt R).val (Dbl.minDub F64)) = _
    rw [ltFlags_none nS.ne_nan hmin, Flags.or_none, Flags.or_none]
  rw [hsm]
  split_ifs with hb
  · have hRn : R.val ≠ .inf false := by
      intro e
      change Dbl.lt (Dbl.sqrt R.val) (Dbl.minDub F64) = true at hb
      rw [e, show Dbl.sqrt (F64.inf false) = F64.inf false from rfl] at hb
      have := F64.minDub_val.1
      generalize Dbl.minDub F64 = d at *
      cases d <;> cases hb
    cases got with
    | nil => exact absurd rfl hne
    | cons x xs =>
      cases ref with
      | nil => exact absurd rfl hne'
      | cons y ys =>
        have hx := hg x List.mem_cons_self
        have hy := hr y List.mem_cons_self
        have hv : bothAreValid (FV.clean x).val (FV.clean y).val = true := by
          show (isValidDub x && isValidDub y) = true
          rw [hx, hy]; rfl
        simp only [List.map_cons, if_pos hv]
        obtain ⟨h1, h2⟩ := small_flags (tol := tol) (finite_of_valid hx) (finite_of_valid hy)
        obtain ⟨h3, h4⟩ := smallLoop_flags tol xs ys (fun c hc => fg c (List.mem_cons_of_mem _ hc))
          (fun c hc => fr c (List.mem_cons_of_mem _ hc)) _ h1 h2
        refine ⟨by rw [Flags.or_divByZero, nS.2.1, h4]; rfl, ?_⟩
        rw [Flags.or_invalid, nS.1, Bool.false_or, h3]
        exact ⟨Or.inl, fun h => h.resolve_right fun h => hRn h.1⟩
  · have hRp : R.val = .inf false ∨ (R.val.Finite ∧ 0 < R.val.value) := by
      rcases Nice_cases nR with h | ⟨h, h'⟩
      · exact Or.inl h
      · refine Or.inr ⟨h, lt_of_le_of_ne h' fun e => hb ?_⟩
        change Dbl.lt (Dbl.sqrt R.val) (Dbl.minDub F64) = true
        revert h e
        cases R.val with
        | nan => exact fun h _ => absurd h id
        | inf _ => exact fun h _ => absurd h id
        | fin v hv => exact fun _ e => absurd e.symm hv.1
        | zero s =>
          intro _ _
          rw [show Dbl.sqrt (F64.zero s) = .zero s from rfl, (F64.hasVal_zero s).flt F64.minDub_val,
            decide_eq_true_iff]
          exact F64.two_zpow_pos _
    obtain ⟨q1, q2⟩ := quot_cases (Nice_cases nD) hRp
    have hfl : (FV.lt (FV.abs (FV.sqrt (D / R))) (.clean tol)).2
        = (((D.fl.or R.fl).or (F64.divFlags D.val R.val)).or (F64.sqrtFlags (D.val / R.val))).or
          (F64.ltFlags (F64.abs (Dbl.sqrt (D.val / R.val))) tol) := by
      show ((_ : Flags).or Flags.none).or _ = _
      rw [Flags.or_none]; rfl
    have hsd : ∀ z : F64, (F64.sqrtFlags z).divByZero = false := by
      intro z
      cases z with
      | inf s => cases s <;> rfl
      | _ => rfl
    refine ⟨?_, ?_⟩
    · rw [Flags.or_divByZero, hfl]
      simp only [Flags.or_divByZero, nS.2.1, nD.2.1, nR.2.1, q1, hsd, ltFlags_div, Bool.or_self]
    · rw [Flags.or_invalid, hfl]
      simp only [Flags.or_invalid, nS.1, nD.1, nR.1, Bool.false_or]
      rcases q2 with ⟨h1, h2, h3, h4⟩ | ⟨h1, h2, h3⟩
      · rw [h1]; exact ⟨fun _ => Or.inr ⟨h4, h3⟩, fun _ => rfl⟩
      · have hN : FV.Nice true ⟨D.val / R.val, Flags.none⟩ :=
          ⟨rfl, rfl, h3.imp (fun h => ⟨h, fun e => by cases e⟩) fun h => ⟨h.1, h.2, fun e => by cases e⟩⟩
        have h5 := hN.sqrt.1
        change (Flags.none.or (F64.sqrtFlags (D.val / R.val))).invalid = false at h5
        rw [Flags.none_or] at h5
        have h6 : Dbl.sqrt (D.val / R.val) ≠ .nan := hN.sqrt.ne_nan
        rw [h1, h5, Bool.false_or, Bool.false_or, ltFlags_invalid]
        refine ⟨fun h => Or.inl (h.resolve_left (abs_ne_nan h6)), fun h => ?_⟩
        rcases h with h | h
        · exact Or.inr h
        · exact absurd ⟨h.2, h.1⟩ h2

/-! ## Concrete cases -/

/-- **C89.**  `direction` of null data is the null object, but not silently. -/
theorem C89_direction_null (t : Ty) :
    (pairMagDirF t (mapTy FV.clean t (gnullTy .nan t))).2.2.invalid = true := by
  obtain ⟨l, hl⟩ := comps_null t
  exact (C89_direction_invalid t _).2.2 ⟨.nan, by
    rw [show gnullTy F64.nan t = gnullTy (Dbl.nan : F64) t from rfl, hl]; exact List.mem_cons_self, id⟩

/-- The product of the vectors `(1, NaN, 0)` raises nothing. -/
example (r : Sigma fun t : Ty => t.D FV)
    (h : ((Expr.mul (.var 0) (.var 1)).eval fun _ => mapS FV.clean ⟨.vec, ⟨⟨1, .nan, 0⟩⟩⟩) = some r) :
    allFlags (comps r.1 r.2) = Flags.none := by
  refine C89_bounded (fun _ => ⟨.vec, ⟨⟨1, .nan, 0⟩⟩⟩) 1 (.mul (.var 0) (.var 1)) (fun i => ?_) ?_ r h
  · simp only [comps, List.forall_mem_cons, List.not_mem_nil, false_imp_iff, implies_true, and_true]
    refine ⟨Or.inr ⟨F64.hasVal_one.1, ?_⟩, Or.inl trivial, Or.inr ⟨F64.hasVal_zero'.1, ?_⟩⟩
    · rw [F64.hasVal_one.2]; norm_num
    · rw [F64.hasVal_zero'.2]; norm_num
  · have e : (2 : ℕ) ^ 4 ≤ 2 ^ 1022 := Nat.pow_le_pow_right two_pos (by norm_num only)
    simp only [Expr.subs, List.cons_append, List.nil_append, List.forall_mem_cons, List.not_mem_nil,
      false_imp_iff, implies_true, and_true, Expr.fusedCap]
    refine ⟨?_, ?_, ?_⟩ <;> refine le_trans ?_ e <;> norm_num

/-- Such an expression has a value. -/
example : ∃ r, ((Expr.mul (.var 0) (.var 1)).eval fun _ => mapS FV.clean ⟨.vec, ⟨⟨1, .nan, 0⟩⟩⟩) = some r :=
  ⟨_, rfl⟩

/-- The square of the scalar `2^900` raises overflow, by `C89_finite_iff`. -/
example (r : Sigma fun t : Ty => t.D FV)
    (h : ((Expr.mul (.var 0) (.var 1)).eval fun _ => mapS FV.clean ⟨.sca, ⟨⟨F64.pow2 900⟩⟩⟩) = some r) :
    allFlags (comps r.1 r.2) ≠ Flags.none := by
  have v : HasVal (F64.pow2 900) ((2 : ℚ) ^ (900 : ℤ)) := F64.pow2_val (by norm_num) (by norm_num)
  have h2 : (2 : ℚ) ^ (1024 : ℤ) ≤ 2 ^ (900 : ℤ) * 2 ^ (900 : ℤ) :=
    (zpow_le_zpow_right₀ (by norm_num) (by norm_num only : (1024 : ℤ) ≤ 900 + 900)).trans
      (le_of_eq (zpow_add₀ two_ne_zero _ _))
  have h3 := (le_of_eq (zpow_natCast (2 : ℚ) 1024).symm).trans h2
  generalize (2 : ℚ) ^ (900 : ℤ) = w at *
  generalize F64.pow2 900 = x at *
  obtain ⟨f, hw⟩ := v
  have e : (2 : ℚ) ^ 1024 ≤ x.value * x.value := by subst hw; exact h3
  rw [Ne, C89_finite_iff (fun _ => ⟨.sca, ⟨⟨x⟩⟩⟩) _ (fun i => by
    simp only [comps, List.forall_mem_cons, List.not_mem_nil, false_imp_iff, implies_true, and_true]
    exact f) r h]
  cases h
  intro hf
  have h1 := hf _ List.mem_cons_self
  change (x * x).Finite at h1
  have hp : (0 : ℚ) < 2 ^ 1024 := pow_pos two_pos _
  rw [FV.mul_fin f f, F64.mulFin, if_neg (hp.trans_le e).ne', F64.roundTo_overflow e] at h1
  exact h1

/-- The difference of infinite scalars raises invalid, by `C89_invalid_iff`. -/
example (r : Sigma fun t : Ty => t.D FV)
    (h : ((Expr.sub (.var 0) (.var 1)).eval fun _ => mapS FV.clean ⟨.sca, ⟨⟨F64.inf false⟩⟩⟩) = some r) :
    ∀ c ∈ comps r.1 r.2, c.fl.invalid = true := by
  have h1 := C89_invalid_iff (fun _ => ⟨.sca, ⟨⟨F64.inf false⟩⟩⟩) _ (fun i => by
    simp [comps]) r h
  intro c hc
  rw [h1 c hc]
  cases h
  obtain rfl | h2 := List.mem_cons.1 hc
  · rfl
  · cases h2

/-- `inverse` of the zero vector raises divide-by-zero. -/
example : (allFlags (comps .vec (inverseF .vec (mapTy FV.clean .vec ⟨⟨0, 0, 0⟩⟩)))).divByZero = true := by
  have h0 := F64.hasVal_zero'
  refine ((C89_inverse .vec (by decide) ⟨⟨0, 0, 0⟩⟩ ?_).1).2 ?_ <;>
    simp only [comps, List.forall_mem_cons, List.not_mem_nil, false_imp_iff, implies_true, and_true]
  · exact ⟨h0.1, h0.1, h0.1⟩
  · rw [h0.2]
    have : (0 : ℚ) < 2 ^ (-1075 : ℤ) := F64.two_zpow_pos _
    simp only [mul_zero, and_self]
    exact this.le

/-- The vector `(1, 0, 0)` has a direction, without exceptions. -/
example : (pairMagDirF .vec (mapTy FV.clean .vec ⟨⟨1, 0, 0⟩⟩)).2.2.invalid = false := by
  have h0 := F64.hasVal_zero'
  refine (C89_direction .vec ⟨⟨1, 0, 0⟩⟩ ?_).1
  simp only [comps, List.forall_mem_cons, List.not_mem_nil, false_imp_iff, implies_true, and_true]
  exact ⟨F64.hasVal_one.1, h0.1, h0.1⟩

/-- Comparison of ones: only a NaN tolerance raises invalid. -/
example (tol : F64) : (nearlyEqualsArrF [1] [1] tol).2.invalid = true ↔ tol = .nan := by
  have v : ∀ c ∈ [(1 : F64)], isValidDub c = true := by simpa using isValidDub_one
  rw [(C89_compare [1] [1] tol (by simp) rfl v v).2]
  refine ⟨fun h => h.resolve_right fun h => ?_, Or.inl⟩
  have h1 := h.1
  simp only [List.foldl_cons, List.foldl_nil] at h1
  have h2 := F64.hasVal_zero'.zero_add (F64.hasVal_one.one_mul F64.hasVal_one)
  rw [h1] at h2
  exact h2.1

end Engabra
