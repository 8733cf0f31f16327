import Verif.Model.Harness
import Verif.Props.C30_Format
import Verif.Props.C48_Inverse
import Verif.Props.C50_Promotion
import Verif.Lemmas.InverseEst
import Verif.Props.C60_Checks

/-! # C86: the verdict of the repository's test programs

What a passing and a failing test program says about the values it compared; what the inverse test
does not look at. -/

namespace Engabra
open F64

/-- The check was accepted: `nearlyEquals(got, exp, tol)` is true. -/
def Check.Accepted (c : Check) : Prop := nearlyEqualsTy c.t c.got c.exp c.tol = .ok true

/-- A value as it is shown: a `double` with six significant digits, the blades of any other object
with six decimals and one blank between them. -/
def shown : (t : Ty) → t.D F64 → List Char
  | .dub, x => numText .general 6 x
  | t, x => [' '].intercalate ((blades t x).map (fixedBlade 3 6))

/-- The three lines written about a check that was not accepted. -/
def Check.report (c : Check) : List Char :=
  "Failure of ".toList ++ c.title ++ " test\n".toList
    ++ "exp: ".toList ++ shown c.t c.exp ++ "\n".toList
    ++ "got: ".toList ++ shown c.t c.got ++ "\n".toList

/-! ## Lemmas -/

/-- A string stream with the formatting of a new one, holding the text `w`. -/
def strm (w : List Char) : OStream := { OStream.fresh with out := w }

theorem strm_putStr (w s : List Char) : (strm w).putStr s = strm (w ++ s) := by
  simp [strm, OStream.putStr, OStream.fresh]

theorem ostream_ext {a b : OStream} (h1 : a.out = b.out) (h2 : a.ff = b.ff) (h3 : a.prec = b.prec)
    (h4 : a.width = b.width) (h5 : a.fill = b.fill) (h6 : a.adj = b.adj) : a = b := by
  cases a; cases b; simp_all

theorem strm_insert (w : List Char) (t : Ty) (x : t.D F64) :
    insertTy t (strm w) x = strm (w ++ shown t x) := by
  obtain ⟨a1, a2, a3, a4, a5⟩ := C30_insert_state t x (strm w)
  refine ostream_ext ?_ a1 a2 a5 a3 a4
  by_cases ht : t = .dub
  · subst ht
    simp [insertTy, strm, OStream.putDub, OStream.fresh, shown, numText]
  · rw [C30_insert_text t ht x _ rfl]
    cases t <;> first | exact absurd rfl ht | rfl

theorem report_strm (t : Ty) (w f title u x n g : List Char) (exp got : t.D F64) :
    (insertTy t (((insertTy t (((((strm w).putStr f).putStr title).putStr u).putStr x) exp).putStr
      n).putStr g) got).putStr n
      = strm (w ++ (f ++ title ++ u ++ x ++ shown t exp ++ n ++ g ++ shown t got ++ n)) := by
  simp only [strm_putStr, strm_insert, List.append_assoc]

open Classical in
theorem checkGotExp_strm (w : List Char) (c : Check) :
    checkGotExp c.t (strm w) c.got c.exp c.title c.tol
      = .ok (strm (w ++ if c.Accepted then [] else c.report)) := by
  obtain ⟨b, hb⟩ := C25_defined c.t c.got c.exp c.tol
  unfold checkGotExp
  have ha : c.Accepted ↔ b = true := by
    unfold Check.Accepted; rw [hb, Run.ok.injEq]
  rw [hb]
  cases b
  · rw [if_neg (fun h => Bool.false_ne_true (ha.1 h))]
    exact congrArg Run.ok (report_strm c.t w _ c.title _ _ _ _ c.exp c.got)
  · rw [if_pos (ha.2 rfl), List.append_nil]
    rfl

open Classical in
/-- The text about a list of checks. -/
noncomputable def reports (cs : List Check) : List Char :=
  ((cs.filter fun c => ¬ c.Accepted).map Check.report).flatten

open Classical in
theorem reports_cons (c : Check) (cs : List Check) :
    reports (c :: cs) = (if c.Accepted then [] else c.report) ++ reports cs := by
  unfold reports
  by_cases h : c.Accepted <;> simp [h]

theorem reports_append (a b : List Check) : reports (a ++ b) = reports a ++ reports b := by
  simp [reports]

theorem report_ne_nil (c : Check) : c.report ≠ [] := by
  unfold Check.report
  exact List.append_ne_nil_of_right_ne_nil _ (by decide)

theorem reports_nil_iff (cs : List Check) : reports cs = [] ↔ ∀ c ∈ cs, c.Accepted := by
  induction cs with
  | nil => simp [reports]
  | cons c cs ih =>
    rw [reports_cons, List.append_eq_nil_iff, ih]
    by_cases h : c.Accepted
    · simp [h]
    · simp [h, report_ne_nil]

theorem runChecks_strm (w : List Char) (cs : List Check) :
    runChecks (strm w) cs = .ok (strm (w ++ reports cs)) := by
  induction cs generalizing w with
  | nil => simp [runChecks, reports]
  | cons c cs ih =>
    rw [runChecks, checkGotExp_strm, Run.bind, ih, reports_cons, List.append_assoc]

theorem gather_strm (w : List Char) (tests : List (List Check)) :
    gather (strm w) tests = .ok (strm (w ++ reports tests.flatten)) := by
  induction tests generalizing w with
  | nil => simp [gather, reports]
  | cons t ts ih =>
    rw [gather, testText, show OStream.fresh = strm [] from rfl, runChecks_strm]
    simp only [Run.bind, strm_putStr]
    rw [ih, List.flatten_cons, reports_append]
    simp [strm]

/-! ## The theorems -/

/-- **C86.**  One check: nothing is written when it is accepted, three lines otherwise, and what the
stream held before stays. -/
theorem C86_check (w : List Char) (c : Check) :
    (c.Accepted → checkGotExp c.t (strm w) c.got c.exp c.title c.tol = .ok (strm w)) ∧
    (¬ c.Accepted →
      checkGotExp c.t (strm w) c.got c.exp c.title c.tol = .ok (strm (w ++ c.report))) := by
  rw [checkGotExp_strm]
  constructor <;> intro h <;> simp [h]

open Classical in
/-- **C86.**  A test program returns 0, and writes nothing to `std::cerr`, exactly when every check of
every test is accepted; otherwise it returns 1 and writes the name of the file and the reports of
exactly the checks that were not accepted, in order.  For any number of tests and checks. -/
theorem C86_verdict (file : List Char) (tests : List (List Check)) :
    ∃ v, testMain file tests = .ok v ∧
      (v.status = 0 ↔ ∀ test ∈ tests, ∀ c ∈ test, c.Accepted) ∧
      (v.status = 0 → v.cerr = []) ∧
      (v.status ≠ 0 → v.status = 1 ∧
        v.cerr = "### FAILURE in test file: ".toList ++ file ++ "\n".toList ++
          ((tests.flatten.filter fun c => ¬ c.Accepted).map Check.report).flatten) := by
  have h0 : (∀ test ∈ tests, ∀ c ∈ test, c.Accepted) ↔ reports tests.flatten = [] := by
    rw [reports_nil_iff]
    constructor
    · intro h c hc
      obtain ⟨t, ht, hc⟩ := List.mem_flatten.1 hc
      exact h t ht c hc
    · intro h t ht c hc
      exact h c (List.mem_flatten.2 ⟨t, ht, hc⟩)
  have e : gather OStream.fresh tests = .ok (strm (reports tests.flatten)) := gather_strm [] tests
  rw [h0]
  unfold testMain
  rw [e]
  by_cases hr : reports tests.flatten = []
  · refine ⟨⟨0, []⟩, ?_, by simp [hr], fun _ => rfl, fun h => absurd rfl h⟩
    simp [Run.bind, strm, hr]
  · have hr' : (strm (reports tests.flatten)).out.isEmpty = false := by simpa [strm] using hr
    have e2 : ((((OStream.fresh.putStr "### FAILURE in test file: ".toList).putStr file).putStr
        "\n".toList).putStr (strm (reports tests.flatten)).out).out
        = "### FAILURE in test file: ".toList ++ file ++ "\n".toList ++
          ((tests.flatten.filter fun c => ¬ c.Accepted).map Check.report).flatten := by
      rw [show OStream.fresh = strm [] from rfl, strm_putStr, strm_putStr, strm_putStr, strm_putStr]
      rfl
    refine ⟨⟨1, _⟩, ?_, by simp [hr], fun h => absurd h one_ne_zero, fun _ => ⟨rfl, e2⟩⟩
    simp only [Run.bind]
    rw [if_neg (by rw [hr']; exact Bool.false_ne_true)]

/-- **C86.**  A passing program has compared valid data only, each with a tolerance above zero: no
null, NaN, infinite or subnormal component can be in a result that passes. -/
theorem C86_pass_valid (file : List Char) (tests : List (List Check)) (v : Verdict)
    (h : testMain file tests = .ok v) (h0 : v.status = 0) : ∀ test ∈ tests, ∀ c ∈ test,
      (∀ x ∈ comps c.t c.got, isValidDub x = true) ∧ (∀ x ∈ comps c.t c.exp, isValidDub x = true) ∧
      Dbl.lt 0 c.tol = true := by
  obtain ⟨v', h1, h2, -⟩ := C86_verdict file tests
  rw [h, Run.ok.injEq] at h1
  subst h1
  intro t ht c hc
  have ha := h2.1 h0 t ht c hc
  exact ⟨(C25_valid _ _ _ _ ha).1, (C25_valid _ _ _ _ ha).2, C25_tolerance _ _ _ _ ha⟩

/-- **C86.**  Without an argument for it the tolerance is epsilon, for both kinds of check. -/
theorem C86_default (t : Ty) (os : OStream) (x y : t.D F64) (title : List Char) :
    checkGotExp t os x y title = checkGotExp t os x y title (Dbl.lit (1 / 2 ^ 52)) ∧
    checkInverse t os x y title = checkInverse t os x y title (Dbl.lit (1 / 2 ^ 52)) :=
  ⟨rfl, rfl⟩

/-- **C86.**  The inverse test writes nothing exactly when `nearlyEquals(fwd * inv, 1, tol)`: the
product in the other order, which it computes and prints, never decides.  Whatever `inv` is. -/
theorem C86_inverse_verdict (t : Ty) (w : List Char) (fwd inv : t.D F64) (title : List Char)
    (tol : F64) : ∃ os, checkInverse t (strm w) fwd inv title tol = .ok os ∧
      (os = strm w ↔ nearlyEqualsTy .mv (promote t fwd * promote t inv) gone tol = .ok true) := by
  obtain ⟨b, hb⟩ := C25_defined .mv (promote t fwd * promote t inv) (gone : MultiVector F64) tol
  unfold checkInverse
  dsimp only
  rw [hb]
  cases b
  · refine ⟨_, rfl, ?_⟩
    simp only [inverseReport, strm_putStr, strm_insert, Bool.not_false, if_true]
    constructor
    · intro h
      have := congrArg (fun o => o.out.length) h
      simp only [strm, List.length_append] at this
      have h2 : 0 < ['\n'].length := by decide
      omega
    · intro h; simp at h
  · exact ⟨_, rfl, by simp⟩

/-- The lines about one product in the inverse test. -/
noncomputable def inverseLines (t : Ty) (label title : List Char) (fwd inv : t.D F64) (got : MultiVector F64)
    (tol : F64) : List Char :=
  "Failure of inverse ".toList ++ title ++ " test\n".toList
    ++ "fwd: ".toList ++ shown t fwd ++ ['\n'] ++ "inv: ".toList ++ shown t inv ++ ['\n']
    ++ "got".toList ++ label ++ ":".toList ++ shown .mv got ++ ['\n']
    ++ "got".toList ++ label ++ ":".toList
      ++ [' ', ' '].intercalate ((blades .mv got).map (enoteBlade 5)) ++ ['\n']
    ++ "exp".toList ++ label ++ ":".toList
      ++ [' ', ' '].intercalate ((blades .mv gone).map (enoteBlade 5)) ++ ['\n']
    ++ "  tol:".toList ++ enoteDub tol 5 ++ ['\n']

theorem inverseReport_strm (t : Ty) (w label title : List Char) (fwd inv : t.D F64)
    (got : MultiVector F64) (tol : F64) :
    inverseReport t (strm w) fwd inv label title got gone tol
      = strm (w ++ inverseLines t label title fwd inv got tol) := by
  have h : ∀ x : MultiVector F64, (enoteTy 5 .mv x).getD []
      = [' ', ' '].intercalate ((blades .mv x).map (enoteBlade 5)) := fun x => by
    rw [C30_enote_object, if_neg (by simp), Option.getD_some]
  unfold inverseReport inverseLines
  dsimp only
  rw [h, h]
  simp only [strm_putStr, strm_insert, List.append_assoc]

/-- **C86.**  When `fwd * inv` is not nearly one, the inverse test reports both products, whether or
not `inv * fwd` is. -/
theorem C86_inverse_text (t : Ty) (w : List Char) (fwd inv : t.D F64) (title : List Char) (tol : F64)
    (h : nearlyEqualsTy .mv (promote t fwd * promote t inv) gone tol ≠ .ok true) :
    checkInverse t (strm w) fwd inv title tol = .ok (strm (w ++
      inverseLines t "FI".toList title fwd inv (promote t fwd * promote t inv) tol ++
      inverseLines t "IF".toList title fwd inv (promote t inv * promote t fwd) tol)) := by
  obtain ⟨b, hb⟩ := C25_defined .mv (promote t fwd * promote t inv) (gone : MultiVector F64) tol
  have hbf : b = false := by
    cases b
    · rfl
    · exact absurd hb h
  subst hbf
  unfold checkInverse
  dsimp only
  rw [hb]
  simp only [Run.bind, Bool.not_false, if_true]
  rw [inverseReport_strm, inverseReport_strm]

/-- **C86.**  The inverse test is silent for every blade with components between `2^-200` and `2^200`
in size (or zero) and the library's inverse, at every tolerance from `2^-48` on. -/
theorem C86_inverse_blades (t : Ty) (ht : t = .sca ∨ t = .vec ∨ t = .biv ∨ t = .tri) (x : t.D F64)
    (hx : ∀ c ∈ comps t x, c.Finite ∧
      (c.value = 0 ∨ (2 : ℚ) ^ (-200 : ℤ) ≤ |c.value| ∧ |c.value| ≤ 2 ^ (200 : ℤ)))
    (hne : ∃ c ∈ comps t x, c.value ≠ 0) (tol : F64) (htf : tol.Finite)
    (ht1 : (2 : ℚ) ^ (-48 : ℤ) ≤ tol.value) (ht2 : tol.value ≤ 2 ^ (500 : ℤ)) (w title : List Char) :
    ∃ y : t.D F64, inverseTy t x = some y ∧
      checkInverse t (strm w) x y title tol = .ok (strm w) := by
  have hC : Central t x := by
    refine ⟨fun c hc => ⟨(hx c hc).1, ?_⟩, ?_⟩
    · rcases (hx c hc).2 with h | h
      · rw [h, abs_zero]; exact (F64.two_zpow_pos _).le
      · exact h.2.trans (zpow_le_zpow_right₀ (by norm_num) (by norm_num))
    · obtain ⟨c, hc, h0⟩ := hne
      exact ⟨c, hc, ((hx c hc).2.resolve_left h0).1.trans' (zpow_le_zpow_right₀ (by norm_num) (by norm_num))⟩
  obtain ⟨y, hy, hn, -⟩ := C48_nearly t ht x hx hne tol htf ht1 ht2
  obtain ⟨y', hy', f, hf, hfc⟩ := C48_inverse t ht x hC
  rw [hy, Option.some.injEq] at hy'
  subst hy'
  have hyf : ∀ c ∈ comps t y, c.Finite := by
    intro c hc
    rw [hf] at hc
    obtain ⟨d, hd, rfl⟩ := List.mem_map.1 hc
    exact (hfc d hd).1
  refine ⟨y, hy, ?_⟩
  have hr : (t, t) ∉ reordered := by rcases ht with rfl | rfl | rfl | rfl <;> decide
  have hs := (C50_product t t).2 hr x y (fun c hc => (hx c hc).1) hyf
  have hm : nearlyEqualsTy .mv (promote t x * promote t y) gone tol = .ok true := by
    have hp := (C60_promote _ (by rcases ht with rfl | rfl | rfl | rfl <;> simp) _ _ tol).trans hn
    rw [← hp]
    refine (C60_zero_signs .mv _ _ _ _ ?_ ?_ tol).symm
    · simp only [SzTy, comps, List.forall₂_cons, List.Forall₂.nil, and_true]
      exact ⟨hs 0, hs 1, hs 2, hs 3, hs 4, hs 5, hs 6, hs 7⟩
    · simp only [SzTy, comps, List.forall₂_cons, List.Forall₂.nil, and_true]
      rcases ht with rfl | rfl | rfl | rfl <;>
        exact ⟨Sz.refl _, Sz.refl _, Sz.refl _, Sz.refl _, Sz.refl _, Sz.refl _, Sz.refl _, Sz.refl _⟩
  obtain ⟨os, h1, h2⟩ := C86_inverse_verdict t w x y title tol
  rw [h1, h2.2 hm]

theorem sca_central : Central .sca thirtyOne := by
  refine ⟨fun c hc => ?_, Dbl.lit 31, by simp [comps, thirtyOne], ?_⟩
  · simp only [comps, thirtyOne, List.mem_singleton] at hc
    subst hc
    refine ⟨lit31.1, ?_⟩
    rw [lit31.2, abs_of_pos (by norm_num)]
    calc (31 : ℚ) ≤ 2 ^ (5 : ℤ) := by norm_num
      _ ≤ _ := zpow_le_zpow_right₀ (by norm_num) (by norm_num)
  · rw [lit31.2, abs_of_pos (by norm_num)]
    exact (zpow_le_one_of_nonpos₀ (by norm_num) (by norm_num)).trans (by norm_num)

/-- **C86.**  At the default tolerance it is not: it reports the inverse of the scalar 31, which is
correct to the last place. -/
theorem C86_inverse_default (w title : List Char) : ∃ y : Scalar F64,
    inverseTy .sca thirtyOne = some y ∧ checkInverse .sca (strm w) thirtyOne y title ≠ .ok (strm w) := by
  obtain ⟨y, hy, hn⟩ := C48_fails_default
  refine ⟨y, hy, ?_⟩
  obtain ⟨y', hy', f, hf, hfc⟩ := C48_inverse .sca (by simp) thirtyOne sca_central
  rw [hy, Option.some.injEq] at hy'
  subst hy'
  have hyf : ∀ c ∈ comps .sca y, c.Finite := by
    intro c hc
    rw [hf] at hc
    obtain ⟨d, hd, rfl⟩ := List.mem_map.1 hc
    exact (hfc d hd).1
  have hs := (C50_product .sca .sca).2 (by decide) thirtyOne y (fun c hc => (sca_central.1 c hc).1) hyf
  have hm : nearlyEqualsTy .mv (promote .sca thirtyOne * promote .sca y) gone (Dbl.epsilon F64)
      = .ok false := by
    have hp := (C60_promote _ (by simp) _ _ (Dbl.epsilon F64)).trans hn
    rw [← hp]
    refine (C60_zero_signs .mv _ _ _ _ ?_ ?_ _).symm
    · simp only [SzTy, comps, List.forall₂_cons, List.Forall₂.nil, and_true]
      exact ⟨hs 0, hs 1, hs 2, hs 3, hs 4, hs 5, hs 6, hs 7⟩
    · simp only [SzTy, comps, List.forall₂_cons, List.Forall₂.nil, and_true]
      exact ⟨Sz.refl _, Sz.refl _, Sz.refl _, Sz.refl _, Sz.refl _, Sz.refl _, Sz.refl _, Sz.refl _⟩
  obtain ⟨os, h1, h2⟩ := C86_inverse_verdict .sca w thirtyOne y title (Dbl.epsilon F64)
  rw [h1]
  intro h
  have := h2.1 (Run.ok.inj h)
  rw [hm] at this
  exact Bool.false_ne_true (Run.ok.inj this)

/-! ## What the inverse test misses -/

theorem lit_val {m : ℤ} {e : ℤ} (hm : |m| < 2 ^ 53) (he : -1074 ≤ e) (he' : e ≤ 971)
    (h0 : (m : ℚ) * 2 ^ e ≠ 0) : HasVal (Dbl.lit ((m : ℚ) * 2 ^ e) : F64) (m * 2 ^ e) := by
  have h : F64.IsFin ((m : ℚ) * 2 ^ e) := ⟨h0, m, e, hm, he, he', rfl⟩
  rw [F64.lit_def, F64.roundTo_fin h]
  exact F64.hasVal_fin h

/-- `(2^10 + 2^-10) / 2` -/
noncomputable def cSum : F64 := Dbl.lit ((1048577 : ℤ) * 2 ^ (-11 : ℤ))
/-- `(2^10 - 2^-10) / 2` -/
noncomputable def cDif : F64 := Dbl.lit ((1048575 : ℤ) * 2 ^ (-11 : ℤ))
/-- `2^-43` -/
noncomputable def cErr : F64 := Dbl.lit ((1 : ℤ) * 2 ^ (-43 : ℤ))

/-- `2^10` on one side of the mirror `e1`, `2^-10` on the other. -/
noncomputable def lopsided : MultiVector F64 :=
  ⟨⟨⟨cSum⟩⟩, ⟨⟨cDif, 0, 0⟩⟩, ⟨⟨0, 0, 0⟩⟩, ⟨⟨0⟩⟩⟩

/-- Its exact inverse with `2^-43` added in two places. -/
noncomputable def wrongInverse : MultiVector F64 :=
  ⟨⟨⟨cSum⟩⟩, ⟨⟨-cDif, 0, cErr⟩⟩, ⟨⟨0, cErr, 0⟩⟩, ⟨⟨0⟩⟩⟩

theorem F64.HasVal.mulD {x y : F64} {p q r : ℚ} (hx : HasVal x p) (hy : HasVal y q) (e : p * q = r)
    (hr : F64.Rep r) (hb : |r| ≤ 2 ^ 60) : HasVal (x * y) r := by
  subst e
  exact hx.mul hy hr (lt_of_le_of_lt hb (pow_lt_pow_right₀ (by norm_num) (by norm_num)))

theorem F64.HasVal.addD {x y : F64} {p q r : ℚ} (hx : HasVal x p) (hy : HasVal y q) (e : p + q = r)
    (hr : F64.Rep r) (hb : |r| ≤ 2 ^ 60) : HasVal (x + y) r := by
  subst e
  exact hx.add hy hr (lt_of_le_of_lt hb (pow_lt_pow_right₀ (by norm_num) (by norm_num)))

theorem F64.HasVal.subD {x y : F64} {p q r : ℚ} (hx : HasVal x p) (hy : HasVal y q) (e : p - q = r)
    (hr : F64.Rep r) (hb : |r| ≤ 2 ^ 60) : HasVal (x - y) r := by
  subst e
  exact hx.sub hy hr (lt_of_le_of_lt hb (pow_lt_pow_right₀ (by norm_num) (by norm_num)))

theorem rep_of (m e : ℤ) {r : ℚ} (h : r = m * 2 ^ e) (hm : |m| ≤ 2 ^ 53) (he : -1074 ≤ e) :
    F64.Rep r := ⟨m, e, hm, he, h⟩

/-- The products that occur, as numbers. -/
theorem miss_products {S D E H : F64} (hS : HasVal S (1048577 * 2 ^ (-11 : ℤ)))
    (hD : HasVal D (1048575 * 2 ^ (-11 : ℤ))) (hE : HasVal E (-(1048575 * 2 ^ (-11 : ℤ))))
    (hH : HasVal H (2 ^ (-43 : ℤ))) :
    HasVal (S * S + D * E) 1 ∧ HasVal (D * S + S * E) 0 ∧ HasVal (S * H - D * H) (2 ^ (-53 : ℤ)) ∧
    HasVal (S * S + E * D) 1 ∧ HasVal (E * S + S * D) 0 ∧ HasVal (H * S + H * D) (2 ^ (-33 : ℤ)) ∧
    HasVal (S * H) (1048577 * 2 ^ (-54 : ℤ)) ∧ HasVal (D * H) (1048575 * 2 ^ (-54 : ℤ)) := by
  have b : ∀ {r : ℚ}, |r| ≤ 2 ^ 45 → |r| ≤ 2 ^ 60 := fun h => h.trans (by norm_num)
  have hSS : HasVal (S * S) (1099513724929 * 2 ^ (-22 : ℤ)) := hS.mulD hS (by norm_num)
    (rep_of (1099513724929) (-22) (by norm_num) (by norm_num) (by norm_num)) (b (by rw [abs_le]; norm_num))
  have hDE : HasVal (D * E) (-1099509530625 * 2 ^ (-22 : ℤ)) := hD.mulD hE (by norm_num)
    (rep_of (-1099509530625) (-22) (by norm_num) (by norm_num) (by norm_num)) (b (by rw [abs_le]; norm_num))
  have hED : HasVal (E * D) (-1099509530625 * 2 ^ (-22 : ℤ)) := hE.mulD hD (by norm_num)
    (rep_of (-1099509530625) (-22) (by norm_num) (by norm_num) (by norm_num)) (b (by rw [abs_le]; norm_num))
  have hDS : HasVal (D * S) (1099511627775 * 2 ^ (-22 : ℤ)) := hD.mulD hS (by norm_num)
    (rep_of (1099511627775) (-22) (by norm_num) (by norm_num) (by norm_num)) (b (by rw [abs_le]; norm_num))
  have hSD : HasVal (S * D) (1099511627775 * 2 ^ (-22 : ℤ)) := hS.mulD hD (by norm_num)
    (rep_of (1099511627775) (-22) (by norm_num) (by norm_num) (by norm_num)) (b (by rw [abs_le]; norm_num))
  have hSE : HasVal (S * E) (-1099511627775 * 2 ^ (-22 : ℤ)) := hS.mulD hE (by norm_num)
    (rep_of (-1099511627775) (-22) (by norm_num) (by norm_num) (by norm_num)) (b (by rw [abs_le]; norm_num))
  have hES : HasVal (E * S) (-1099511627775 * 2 ^ (-22 : ℤ)) := hE.mulD hS (by norm_num)
    (rep_of (-1099511627775) (-22) (by norm_num) (by norm_num) (by norm_num)) (b (by rw [abs_le]; norm_num))
  have hSH : HasVal (S * H) (1048577 * 2 ^ (-54 : ℤ)) := hS.mulD hH (by norm_num)
    (rep_of (1048577) (-54) (by norm_num) (by norm_num) (by norm_num)) (b (by rw [abs_le]; norm_num))
  have hHS : HasVal (H * S) (1048577 * 2 ^ (-54 : ℤ)) := hH.mulD hS (by norm_num)
    (rep_of (1048577) (-54) (by norm_num) (by norm_num) (by norm_num)) (b (by rw [abs_le]; norm_num))
  have hDH : HasVal (D * H) (1048575 * 2 ^ (-54 : ℤ)) := hD.mulD hH (by norm_num)
    (rep_of (1048575) (-54) (by norm_num) (by norm_num) (by norm_num)) (b (by rw [abs_le]; norm_num))
  have hHD : HasVal (H * D) (1048575 * 2 ^ (-54 : ℤ)) := hH.mulD hD (by norm_num)
    (rep_of (1048575) (-54) (by norm_num) (by norm_num) (by norm_num)) (b (by rw [abs_le]; norm_num))
  refine ⟨hSS.addD hDE ?_ ?_ ?_, hDS.addD hSE ?_ ?_ ?_, hSH.subD hDH ?_ ?_ ?_,
    hSS.addD hED ?_ ?_ ?_, hES.addD hSD ?_ ?_ ?_, hHS.addD hHD ?_ ?_ ?_, hSH, hDH⟩
  · norm_num
  · exact rep_of 1 0 (by norm_num) (by norm_num) (by norm_num)
  · norm_num
  · norm_num
  · exact rep_of 0 0 (by norm_num) (by norm_num) (by norm_num)
  · norm_num
  · norm_num
  · exact rep_of 1 (-53) (by norm_num) (by norm_num) (by norm_num)
  · exact b (by rw [abs_le]; norm_num)
  · norm_num
  · exact rep_of 1 0 (by norm_num) (by norm_num) (by norm_num)
  · norm_num
  · norm_num
  · exact rep_of 0 0 (by norm_num) (by norm_num) (by norm_num)
  · norm_num
  · norm_num
  · exact rep_of 1 (-33) (by norm_num) (by norm_num) (by norm_num)
  · exact b (by rw [abs_le]; norm_num)


/-- Sums of products that have a zero factor are zero. -/
macro "zeros" : tactic => `(tactic| repeat (first
  | assumption
  | exact F64.hasVal_zero'
  | exact F64.hasVal_zero_mul (by assumption)
  | exact F64.hasVal_mul_zero (by assumption)
  | refine F64.HasVal.add_zero ?_ ?_))

theorem miss_values {S D E H : F64} (hS : HasVal S (1048577 * 2 ^ (-11 : ℤ)))
    (hD : HasVal D (1048575 * 2 ^ (-11 : ℤ))) (hE : HasVal E (-(1048575 * 2 ^ (-11 : ℤ))))
    (hH : HasVal H (2 ^ (-43 : ℤ))) (M X : MultiVector F64)
    (hM : M = ⟨⟨⟨S⟩⟩, ⟨⟨D, 0, 0⟩⟩, ⟨⟨0, 0, 0⟩⟩, ⟨⟨0⟩⟩⟩)
    (hX : X = ⟨⟨⟨S⟩⟩, ⟨⟨E, 0, H⟩⟩, ⟨⟨0, H, 0⟩⟩, ⟨⟨0⟩⟩⟩) :
    (∀ k, HasVal (cf (M * X) k) (![1, 0, 0, 2 ^ (-53 : ℤ), 0, 2 ^ (-53 : ℤ), 0, 0] k)) ∧
    (∀ k, HasVal (cf (X * M) k) (![1, 0, 0, 2 ^ (-33 : ℤ), 0, 2 ^ (-33 : ℤ), 0, 0] k)) := by
  obtain ⟨p1, p2, p3, q1, q2, q3, r1, r2⟩ := miss_products hS hD hE hH
  have fS := hS.1; have fD := hD.1; have fE := hE.1; have fH := hH.1
  have f0 : (0 : F64).Finite := trivial
  have fin : ∀ {x y : F64}, HasVal x (1048577 * 2 ^ (-54 : ℤ)) → HasVal y (1048575 * 2 ^ (-54 : ℤ)) →
      HasVal (x - y) (2 ^ (-53 : ℤ)) := fun hx hy => hx.subD hy (by norm_num)
    (rep_of 1 (-53) (by norm_num) (by norm_num) (by norm_num)) (by rw [abs_le]; norm_num)
  subst hM hX
  constructor
  · apply forall_fin8 <;> simp only [cf_0, cf_1, cf_2, cf_3, cf_4, cf_5, cf_6, cf_7, engabra]
    · refine F64.HasVal.sub_zero (p := 1) ?_ ?_ <;> zeros
    · refine F64.HasVal.sub_zero (p := 0) ?_ ?_ <;> zeros
    · refine F64.HasVal.sub_zero (p := 0) ?_ ?_ <;> zeros
    · refine fin ?_ ?_
      · exact F64.HasVal.add_zero (F64.HasVal.zero_add (by zeros) r1) (by zeros)
      · exact F64.HasVal.add_zero (F64.HasVal.add_zero (F64.HasVal.zero_add (by zeros) r2)
          (by zeros)) (by zeros)
    · refine F64.HasVal.sub_zero (p := 0) ?_ ?_ <;> zeros
    · refine fin ?_ ?_
      · exact F64.HasVal.add_zero (F64.HasVal.add_zero (F64.HasVal.zero_add (by zeros) r1)
          (by zeros)) (by zeros)
      · exact F64.HasVal.add_zero r2 (by zeros)
    · refine F64.HasVal.sub_zero (p := 0) ?_ ?_ <;> zeros
    · change HasVal _ 0; zeros
  · apply forall_fin8 <;> simp only [cf_0, cf_1, cf_2, cf_3, cf_4, cf_5, cf_6, cf_7, engabra]
    · refine F64.HasVal.sub_zero (p := 1) ?_ ?_ <;> zeros
    · refine F64.HasVal.sub_zero (p := 0) ?_ ?_ <;> zeros
    · refine F64.HasVal.sub_zero (p := 0) ?_ ?_ <;> zeros
    · refine F64.HasVal.sub_zero (p := 2 ^ (-33 : ℤ)) ?_ ?_ <;> zeros
    · refine F64.HasVal.sub_zero (p := 0) ?_ ?_ <;> zeros
    · refine F64.HasVal.sub_zero (p := 2 ^ (-33 : ℤ)) ?_ ?_ <;> zeros
    · refine F64.HasVal.sub_zero (p := 0) ?_ ?_ <;> zeros
    · change HasVal _ 0; zeros

theorem lopsided_values :
    (∀ k, HasVal (cf (lopsided * wrongInverse) k)
      (![1, 0, 0, 2 ^ (-53 : ℤ), 0, 2 ^ (-53 : ℤ), 0, 0] k)) ∧
    (∀ k, HasVal (cf (wrongInverse * lopsided) k)
      (![1, 0, 0, 2 ^ (-33 : ℤ), 0, 2 ^ (-33 : ℤ), 0, 0] k)) := by
  have hS : HasVal cSum (1048577 * 2 ^ (-11 : ℤ)) :=
    lit_val (m := 1048577) (e := -11) (by norm_num) (by norm_num) (by norm_num) (by norm_num)
  have hD : HasVal cDif (1048575 * 2 ^ (-11 : ℤ)) :=
    lit_val (m := 1048575) (e := -11) (by norm_num) (by norm_num) (by norm_num) (by norm_num)
  have hH : HasVal cErr (2 ^ (-43 : ℤ)) := by
    have := lit_val (m := 1) (e := -43) (by norm_num) (by norm_num) (by norm_num) (by norm_num)
    rw [show ((1 : ℤ) : ℚ) * 2 ^ (-43 : ℤ) = 2 ^ (-43 : ℤ) by rw [Int.cast_one, one_mul]] at this
    unfold cErr
    rw [show ((1 : ℤ) : ℚ) * 2 ^ (-43 : ℤ) = 2 ^ (-43 : ℤ) by rw [Int.cast_one, one_mul]]
    exact this
  exact miss_values hS hD hD.neg hH lopsided wrongInverse rfl rfl

theorem tol2_val : HasVal (Dbl.lit 2 * Dbl.epsilon F64) ((2 : ℚ) ^ (-51 : ℤ)) := by
  have h2 : HasVal (Dbl.lit 2 : F64) 2 := by
    have := lit_val (m := 1) (e := 1) (by norm_num) (by norm_num) (by norm_num) (by norm_num)
    norm_num at this
    exact this
  exact h2.mulD F64.epsilon_val (by norm_num)
    (rep_of 1 (-51) (by norm_num) (by norm_num) (by norm_num)) (by rw [abs_le]; norm_num)

theorem valid_of_val {x : F64} {p : ℚ} (h : HasVal x p) (hp : p = 0 ∨ (2 : ℚ) ^ (-1022 : ℤ) ≤ |p|) :
    isValidDub x = true := valid_of_value h.1 (by rwa [h.2])

theorem eq_one_of_val {x : F64} (h : HasVal x 1) : x = 1 := by
  have := h.2
  rw [F64.one_eq]
  cases x with
  | nan => exact absurd h.1 id
  | inf _ => exact absurd h.1 id
  | zero _ => exact absurd this (by simp [F64.value])
  | fin v hv =>
    simp only [F64.value] at this
    subst this
    rfl

/-- **C86.**  An inverse that is wrong from one side passes the inverse test at the tolerance used by
the repository (two epsilon): for the multivector `lopsided` and the result `wrongInverse`, the
product `inv * fwd` is more than two hundred thousand times the tolerance away from one in a component, and
`nearlyEquals` would say so, but the test writes nothing. -/
theorem C86_inverse_misses (w title : List Char) :
    checkInverse .mv (strm w) lopsided wrongInverse title (Dbl.lit 2 * Dbl.epsilon F64)
      = .ok (strm w) ∧
    nearlyEqualsTy .mv (wrongInverse * lopsided) gone (Dbl.lit 2 * Dbl.epsilon F64) = .ok false ∧
    200000 * (Dbl.lit 2 * Dbl.epsilon F64).value ≤ |(cf (wrongInverse * lopsided) 3).value| := by
  obtain ⟨hA, hB⟩ := lopsided_values
  have ht := tol2_val
  have htf := ht.1
  generalize hT : Dbl.lit 2 * Dbl.epsilon F64 = tol at *
  refine ⟨?_, ?_, ?_⟩
  · obtain ⟨os, h1, h2⟩ := C86_inverse_verdict .mv w lopsided wrongInverse title tol
    rw [h1, h2.2]
    change nearlyEqualsTy .mv (lopsided * wrongInverse) gone tol = .ok true
    rw [nearly_grades .mv (by simp)]
    simp only [gradeLists, List.zip_cons_cons, List.zip_nil_right, List.forall_mem_cons,
      List.not_mem_nil, false_imp_iff, implies_true, and_true]
    have z : ∀ k, k ≠ 0 → isValidDub (cf (lopsided * wrongInverse) k) = true ∧
        |(cf (lopsided * wrongInverse) k).value| < tol.value := by
      intro k hk
      have hv : ∀ k : Fin 8, k ≠ 0 →
          (![1, 0, 0, 2 ^ (-53 : ℤ), 0, 2 ^ (-53 : ℤ), 0, 0] k : ℚ) = 0 ∨
          (![1, 0, 0, 2 ^ (-53 : ℤ), 0, 2 ^ (-53 : ℤ), 0, 0] k : ℚ) = 2 ^ (-53 : ℤ) := by
        apply forall_fin8 <;> simp
      rw [ht.2, (hA k).2]
      refine ⟨valid_of_val (hA k) ?_, ?_⟩
      · refine (hv k hk).imp id fun h => ?_
        rw [h, abs_of_pos (F64.two_zpow_pos _)]
        exact zpow_le_zpow_right₀ (by norm_num) (by norm_num)
      · rcases hv k hk with h | h <;> rw [h]
        · rw [abs_zero]; exact F64.two_zpow_pos _
        · rw [abs_of_pos (F64.two_zpow_pos _)]
          exact zpow_lt_zpow_right₀ (by norm_num) (by norm_num)
    have hpos : Dbl.lt 0 tol = true := by
      rw [F64.hasVal_zero'.flt ht]
      exact decide_eq_true (F64.two_zpow_pos _)
    refine ⟨?_, ?_, ?_, ?_⟩
    · change nearlyEqualsArr [cf (lopsided * wrongInverse) 0] [1] tol = .ok true
      rw [eq_one_of_val (hA 0)]
      exact C26_array [1] tol (by simp) (by simp [isValidDub_one]) hpos
    · exact accept_zero htf (z 1 (by decide)).1 (z 2 (by decide)).1 (z 3 (by decide)).1
        (z 1 (by decide)).2 (z 2 (by decide)).2 (z 3 (by decide)).2
    · exact accept_zero htf (z 4 (by decide)).1 (z 5 (by decide)).1 (z 6 (by decide)).1
        (z 4 (by decide)).2 (z 5 (by decide)).2 (z 6 (by decide)).2
    · refine (C27_zero_reference [cf (lopsided * wrongInverse) 7] [0] tol rfl (by simp) ?_ htf ?_).2 ?_
      · simp [(z 7 (by decide)).1]
      · simp
      · simp [(z 7 (by decide)).2]
  · obtain ⟨b, hb⟩ := C25_defined .mv (wrongInverse * lopsided) (gone : MultiVector F64) tol
    cases b
    · exact hb
    · exfalso
      have h := (nearly_grades .mv (by simp) _ _ _).1 hb
      simp only [gradeLists, List.zip_cons_cons, List.zip_nil_right, List.forall_mem_cons,
        List.not_mem_nil, false_imp_iff, implies_true, and_true] at h
      have hv : nearlyEqualsArr [cf (wrongInverse * lopsided) 1, cf (wrongInverse * lopsided) 2,
        cf (wrongInverse * lopsided) 3] [0, 0, 0] tol = .ok true := h.2.1
      have h2 := (C27_zero_reference [cf (wrongInverse * lopsided) 1,
        cf (wrongInverse * lopsided) 2, cf (wrongInverse * lopsided) 3] [0, 0, 0] tol rfl (by simp) (C25_array_valid _ _ _ hv).1 htf
        (by simp)).1 hv (cf (wrongInverse * lopsided) 3) (by simp)
      rw [(hB 3).2, ht.2] at h2
      change |(2 : ℚ) ^ (-33 : ℤ)| < _ at h2
      norm_num at h2
  · rw [ht.2, (hB 3).2]
    change _ ≤ |(2 : ℚ) ^ (-33 : ℤ)|
    norm_num

/-! ## What a report does not show -/

/-- `2^-30` -/
noncomputable def slight : F64 := Dbl.lit (2 ^ (-30 : ℤ))

theorem slight_val : HasVal slight (2 ^ (-30 : ℤ)) := by
  have := lit_val (m := 1) (e := -30) (by norm_num) (by norm_num) (by norm_num) (by norm_num)
  rwa [show ((1 : ℤ) : ℚ) * 2 ^ (-30 : ℤ) = 2 ^ (-30 : ℤ) by rw [Int.cast_one, one_mul]] at this

theorem slight_text : numText .fixed 6 slight = numText .fixed 6 0 := by
  obtain ⟨hf, hv⟩ := slight_val
  generalize slight = x at *
  have h0 : F64.rhe ((0 : ℚ) * 10 ^ 6) = 0 := F64.rhe_eq (Or.inl (by norm_num))
  have h1 : F64.rhe (|(2 : ℚ) ^ (-30 : ℤ)| * 10 ^ 6) = 0 := F64.rhe_eq (Or.inl (by norm_num))
  cases x with
  | nan => exact absurd hf id
  | inf _ => exact absurd hf id
  | zero _ => exact absurd hv (by simp only [F64.value]; exact (F64.two_zpow_pos _).ne)
  | fin v hv' =>
    simp only [F64.value] at hv
    subst hv
    rw [F64.zero_def]
    have hs : (F64.fin ((2 : ℚ) ^ (-30 : ℤ)) hv').signbit = false :=
      decide_eq_false (not_lt.2 (F64.two_zpow_pos _).le)
    simp only [numText, signText, bodyText, magText, fixedText, h0, h1, hs]
    rfl

/-- **C86.**  A report can show the same text for the expected and the computed value: six decimals do
not show the difference that made the check fail. -/
theorem C86_report_same : ∃ c : Check, c.tol = Dbl.epsilon F64 ∧ ¬ c.Accepted ∧
    shown c.t c.got = shown c.t c.exp := by
  refine ⟨⟨.sca, ⟨⟨slight⟩⟩, ⟨⟨0⟩⟩, [], Dbl.epsilon F64⟩, rfl, ?_, ?_⟩
  · intro h
    have h' : nearlyEqualsArr [slight] [0] (Dbl.epsilon F64) = .ok true := h
    have h2 := (C27_zero_reference [slight] [0] _ rfl (by simp) (C25_array_valid _ _ _ h').1
      F64.epsilon_val.1 (by simp)).1 h' slight (by simp)
    rw [slight_val.2, F64.epsilon_val.2] at h2
    norm_num at h2
  · simp only [shown, blades, List.map_cons, List.map_nil, fixedBlade, C30_fixed_number, slight_text]

/-! ## Examples -/

/-- A program with two tests, the second with two checks: it fails, on the last check only. -/
example : ∃ v, testMain "t.cpp".toList
      [[⟨.dub, 1, 1, "one".toList, Dbl.epsilon F64⟩],
       [⟨.vec, e1, e1, "e1".toList, Dbl.epsilon F64⟩,
        ⟨.sca, ⟨⟨slight⟩⟩, ⟨⟨0⟩⟩, "sca".toList, Dbl.epsilon F64⟩]] = .ok v ∧ v.status ≠ 0 := by
  obtain ⟨v, h1, h2, -⟩ := C86_verdict "t.cpp".toList
      [[⟨.dub, 1, 1, "one".toList, Dbl.epsilon F64⟩],
       [⟨.vec, e1, e1, "e1".toList, Dbl.epsilon F64⟩,
        ⟨.sca, ⟨⟨slight⟩⟩, ⟨⟨0⟩⟩, "sca".toList, Dbl.epsilon F64⟩]]
  refine ⟨v, h1, fun h => ?_⟩
  have h3 := h2.1 h _ (List.mem_cons_of_mem _ (List.mem_singleton.2 rfl)) _
    (List.mem_cons_of_mem _ (List.mem_singleton.2 rfl))
  have h' : nearlyEqualsArr [slight] [0] (Dbl.epsilon F64) = .ok true := h3
  have h2 := (C27_zero_reference [slight] [0] _ rfl (by simp) (C25_array_valid _ _ _ h').1
    F64.epsilon_val.1 (by simp)).1 h' slight (by simp)
  rw [slight_val.2, F64.epsilon_val.2] at h2
  norm_num at h2

/-- A program that passes. -/
example : ∃ v, testMain "t.cpp".toList [[⟨.sca, ⟨⟨1⟩⟩, ⟨⟨1⟩⟩, "one".toList, Dbl.epsilon F64⟩]] = .ok v ∧
    v.status = 0 := by
  obtain ⟨v, h1, h2, -⟩ := C86_verdict "t.cpp".toList
    [[⟨.sca, ⟨⟨1⟩⟩, ⟨⟨1⟩⟩, "one".toList, Dbl.epsilon F64⟩]]
  refine ⟨v, h1, h2.2 ?_⟩
  intro t ht c hc
  rw [List.mem_singleton] at ht
  subst ht
  rw [List.mem_singleton] at hc
  subst hc
  refine C26_reflexive .sca _ _ (by simp [comps, isValidDub_one]) ?_
  rw [F64.hasVal_zero'.flt F64.epsilon_val]
  exact decide_eq_true (F64.two_zpow_pos _)

/-- The vector `(8, 1, 0)` passes the inverse test at `2^-40`. -/
example (w title : List Char) : ∃ y, inverseTy .vec (⟨⟨F64.pow2 3, F64.pow2 0, 0⟩⟩ : Vector F64) = some y ∧
    checkInverse .vec (strm w) (⟨⟨F64.pow2 3, F64.pow2 0, 0⟩⟩ : Vector F64) y title (F64.pow2 (-40))
      = .ok (strm w) := by
  have ht := F64.pow2_val (e := -40) (by norm_num) (by norm_num)
  exact C86_inverse_blades .vec (by simp) _ sample_blade.1 sample_blade.2.1 (F64.pow2 (-40)) ht.1
    (by rw [ht.2]; exact zpow_le_zpow_right₀ (by norm_num) (by norm_num))
    (by rw [ht.2]; exact zpow_le_zpow_right₀ (by norm_num) (by norm_num)) w title

end Engabra
