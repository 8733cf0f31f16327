import Verif.Props.C41_Sequences
import Verif.Props.C34_Direction
import Verif.Lemmas.InverseEst

/-! Reading a number whose last characters are missing. -/

namespace Engabra

open F64 (nan inf zero fin IsFin Finite rnVal rhe Rep)

theorem prefix_append_cases {q a b : List Char} (h : q <+: a ++ b) :
    q <+: a ∨ ∃ q', q = a ++ q' ∧ q' <+: b := by
  rcases List.prefix_or_prefix_of_prefix h (List.prefix_append a b) with h1 | ⟨r, rfl⟩
  · exact Or.inl h1
  · exact Or.inr ⟨r, rfl, (List.prefix_append_right_inj a).1 h⟩

/-- A decimal number with an exponent of at most two digits and one digit before the point is a
valid double. -/
theorem decToF64_valid (neg : Bool) (m k : Nat) (x : ℤ) (hx : -99 ≤ x) (hx' : x ≤ 99)
    (hm : m = 0 ∨ (10 ^ k ≤ m ∧ m < 10 ^ (k + 1))) :
    isValidDub (decToF64 neg m (x - k)) = true := by
  unfold decToF64
  split
  · exact isValidDub_zero _
  rename_i h0
  rcases hm with hm | ⟨hm1, hm2⟩
  · exact absurd hm h0
  set w : ℚ := (if neg = true then -(m : ℚ) else (m : ℚ)) * (10 : ℚ) ^ (x - (k : ℤ)) with hw
  have ht : (0 : ℚ) < (10 : ℚ) ^ (x - (k : ℤ)) := zpow_pos (by norm_num) _
  have habs : |w| = (m : ℚ) * (10 : ℚ) ^ (x - (k : ℤ)) := by
    rw [hw, abs_mul, abs_of_pos ht]
    congr 1
    split
    · rw [abs_neg, Nat.abs_cast]
    · rw [Nat.abs_cast]
  have h1 : (10 : ℚ) ^ x ≤ |w| := by
    rw [habs]
    calc (10 : ℚ) ^ x = (10 : ℚ) ^ k * (10 : ℚ) ^ (x - (k : ℤ)) := by
          rw [← zpow_natCast, ← zpow_add₀ (by norm_num)]; congr 1; ring
      _ ≤ _ := by
          apply mul_le_mul_of_nonneg_right _ ht.le
          exact_mod_cast hm1
  have h2 : |w| ≤ (10 : ℚ) ^ (x + 1) := by
    rw [habs]
    calc _ ≤ (10 : ℚ) ^ (k + 1) * (10 : ℚ) ^ (x - (k : ℤ)) := by
          apply mul_le_mul_of_nonneg_right _ ht.le
          exact_mod_cast hm2.le
      _ = _ := by rw [← zpow_natCast, ← zpow_add₀ (by norm_num)]; congr 1; push_cast; ring
  have hbig : (10 : ℚ) ^ 100 ≤ 2 ^ 400 := by
    rw [show (400 : ℕ) = 4 * 100 from rfl, pow_mul]; gcongr; norm_num
  have l1 : (2 : ℚ) ^ (-1022 : ℤ) ≤ |w| := by
    refine le_trans ?_ h1
    calc (2 : ℚ) ^ (-1022 : ℤ) ≤ (2 : ℚ) ^ (-400 : ℤ) := zpow_le_zpow_right₀ (by norm_num) (by norm_num)
      _ ≤ (10 : ℚ) ^ (-100 : ℤ) := by
          rw [zpow_neg, zpow_neg, zpow_ofNat, zpow_ofNat]
          exact inv_anti₀ (pow_pos (by norm_num) _) hbig
      _ ≤ (10 : ℚ) ^ (-99 : ℤ) := zpow_le_zpow_right₀ (by norm_num) (by norm_num)
      _ ≤ _ := zpow_le_zpow_right₀ (by norm_num) hx
  have l2 : |w| ≤ (2 : ℚ) ^ (400 : ℤ) := by
    refine h2.trans ?_
    calc _ ≤ (10 : ℚ) ^ (100 : ℤ) := zpow_le_zpow_right₀ (by norm_num) (by omega)
      _ ≤ _ := by rw [zpow_ofNat, zpow_ofNat]; exact hbig
  have r1 : (2 : ℚ) ^ (-1022 : ℤ) ≤ |rnVal w| := F64.le_rnVal_abs (by norm_num) l1
  have r2 : |rnVal w| < 2 ^ 1024 := by
    have := F64.rnVal_le_rep (x := |w|) (F64.rep_pow 400 (by norm_num)) (by simpa using l2)
    rw [F64.rnVal_abs] at this
    refine lt_of_le_of_lt this ?_
    rw [show ((400 : ℤ)) = ((400 : ℕ) : ℤ) from rfl, zpow_natCast]
    exact pow_lt_pow_right₀ (by norm_num) (by norm_num)
  obtain ⟨f1, f2⟩ := F64.roundTo_value r2
  exact valid_of_normal f1 (by rw [f2]; exact r1)

/-- Conversion of a token with one digit before the point: it fails, or gives a valid double. -/
theorem convert_cut (neg : Bool) (ip fp : List Char) (ex : Option (Bool × List Char)) (hip : ip ≠ [])
    (hex : ∀ s ds, ex = some (s, ds) → digitsVal ds ≤ 99)
    (hm : digitsVal (ip ++ fp) = 0 ∨
      (10 ^ fp.length ≤ digitsVal (ip ++ fp) ∧ digitsVal (ip ++ fp) < 10 ^ (fp.length + 1))) :
    (NumTok.convert ⟨neg, ip, fp, ex⟩).2 = false →
      isValidDub (NumTok.convert ⟨neg, ip, fp, ex⟩).1 = true := by
  have key : ∀ x : ℤ, -99 ≤ x → x ≤ 99 → ∀ r : F64 × Bool,
      (match decToF64 neg (digitsVal (ip ++ fp)) (x - fp.length) with
        | .inf s => (maxDub s, true)
        | v => (v, false)) = r → r.2 = false → isValidDub r.1 = true := by
    intro x h1 h2 r hr hf
    have := decToF64_valid neg _ _ x h1 h2 hm
    generalize decToF64 neg (digitsVal (ip ++ fp)) (x - fp.length) = v at hr this
    cases v with
    | inf s => rw [← hr] at hf; cases hf
    | nan => rw [← hr]; exact this
    | zero s => rw [← hr]; exact this
    | fin v h => rw [← hr]; exact this
  unfold NumTok.convert
  rw [if_neg (fun h => hip h.1)]
  rcases ex with _ | ⟨s, ds⟩
  · exact key 0 (by norm_num) (by norm_num) _ rfl
  · rcases ds with _ | ⟨c, ds⟩
    · intro h; cases h
    · have := hex s (c :: ds) rfl
      refine key (if s = true then -(digitsVal (c :: ds) : ℤ) else digitsVal (c :: ds)) ?_ ?_ _ rfl
      · split <;> omega
      · split <;> omega

theorem scan_head (neg : Bool) (ip M : List Char) (hd : AllDig ip) (hn : ip ≠ [])
    (hM : ∀ c ∈ M.head?, isDig c = false) :
    scanNum (sgn neg ++ (ip ++ M)) =
      (⟨neg, ip, (scanFrac M).1, (scanExp true (scanFrac M).2).1⟩, (scanExp true (scanFrac M).2).2) := by
  have hemp : ip.isEmpty = false := by rw [List.isEmpty_eq_false_iff]; exact hn
  unfold scanNum
  rw [scanSign_sgn hd hn]
  dsimp only
  rw [span_dig hd hM]
  dsimp only
  rw [hemp, Bool.false_and, Bool.not_false]

theorem digitsVal_lt {ds : List Char} (h : AllDig ds) : digitsVal ds < 10 ^ ds.length := by
  induction ds using List.reverseRecOn with
  | nil => simp [digitsVal]
  | append_singleton ds c ih =>
    have h1 := ih (fun c hc => h c (List.mem_append_left _ hc))
    have h2 := h c (by simp)
    have h3 : digitVal c < 10 := by
      unfold isDig at h2
      simp only [Bool.and_eq_true, decide_eq_true_eq] at h2
      unfold digitVal; omega
    rw [digitsVal_snoc, List.length_append, List.length_singleton, pow_succ]
    omega

/-- The digits of a significand, some of the last ones missing. -/
theorem mant_cut (d n : Nat) (hn : n = 0 ∨ (10 ^ d ≤ n ∧ n < 10 ^ (d + 1))) (q : List Char)
    (hq : q <+: fixedDigits d (n % 10 ^ d)) :
    digitsVal (natDigits (n / 10 ^ d) ++ q) = 0 ∨
      (10 ^ q.length ≤ digitsVal (natDigits (n / 10 ^ d) ++ q) ∧
        digitsVal (natDigits (n / 10 ^ d) ++ q) < 10 ^ (q.length + 1)) := by
  have hdq : AllDig q := fun c hc => fixedDigits_dig _ _ c (hq.subset hc)
  have hlt := digitsVal_lt hdq
  rw [digitsVal_append, digitsVal_natDigits]
  rcases hn with rfl | ⟨h1, h2⟩
  · left
    obtain ⟨t, ht⟩ := hq
    have h3 : digitsVal (q ++ t) = 0 := by rw [ht, digitsVal_fixedDigits]; simp
    rw [digitsVal_append] at h3
    have h4 : 0 < 10 ^ t.length := by positivity
    have h5 : digitsVal q = 0 := by
      rcases Nat.eq_zero_or_pos (digitsVal q) with h | h
      · exact h
      · have := Nat.mul_pos h h4; omega
    rw [h5]; simp
  · right
    have hlo : 1 ≤ n / 10 ^ d := by rw [Nat.le_div_iff_mul_le (by positivity)]; omega
    have hhi : n / 10 ^ d < 10 := by
      rw [Nat.div_lt_iff_lt_mul (by positivity)]; rw [pow_succ] at h2; omega
    generalize n / 10 ^ d = a at *
    rw [pow_succ]
    have hP : 0 < 10 ^ q.length := by positivity
    generalize 10 ^ q.length = P at *
    constructor
    · nlinarith
    · nlinarith

/-- What the extraction of a number leaves when its text is cut: nothing to read, end of file,
and either a failure or a valid number. -/
def Cuts (w : List Char) : Prop := ∀ q ws old, q <+: w → q ≠ w → AllWs ws →
  ∃ b v, extractDub ⟨ws ++ q, false, false⟩ old = (⟨[], true, b⟩, v) ∧
    (b = false → isValidDub v = true)

theorem sci_cuts (neg : Bool) (d n : Nat) (e : ℤ) (hd : 1 ≤ d)
    (hn : n = 0 ∨ (10 ^ d ≤ n ∧ n < 10 ^ (d + 1))) (he : e.natAbs < 1000) :
    Cuts (sgn neg ++ mantText d n ++ 'e' :: expText e) := by
  intro q ws old hq hne hws
  -- once the characters are scanned, the rest is `convert_cut`
  have fin_ : ∀ (M : List Char) (fp : List Char) (ex : Option (Bool × List Char)),
      q = sgn neg ++ (natDigits (n / 10 ^ d) ++ M) → (∀ c ∈ M.head?, isDig c = false) →
      scanFrac M = (fp, (scanFrac M).2) → scanExp true (scanFrac M).2 = (ex, []) →
      fp <+: fixedDigits d (n % 10 ^ d) → (∀ s ds, ex = some (s, ds) → digitsVal ds ≤ 99) →
      ∃ b v, extractDub ⟨ws ++ q, false, false⟩ old = (⟨[], true, b⟩, v) ∧
        (b = false → isValidDub v = true) := by
    intro M fp ex h1 h2 h3 h4 h5 h6
    have hs := scan_head neg (natDigits (n / 10 ^ d)) M (natDigits_dig _) (natDigits_ne_nil _) h2
    rw [h4, h3, ← h1] at hs
    have hc : ∃ c cs, q = c :: cs ∧ isWs c = false := by
      rw [h1]
      have hd := natDigits_dig (n / 10 ^ d)
      have hn := natDigits_ne_nil (n / 10 ^ d)
      generalize natDigits (n / 10 ^ d) = ds at hd hn
      rcases ds with _ | ⟨c, ds⟩
      · exact absurd rfl hn
      · cases neg
        · exact ⟨c, _, rfl, (dig_facts (hd c (by simp))).2.2.2.2.2⟩
        · exact ⟨'-', _, rfl, by decide⟩
    obtain ⟨c, cs, hq', hcw⟩ := hc
    refine ⟨(NumTok.convert ⟨neg, natDigits (n / 10 ^ d), fp, ex⟩).2,
      (NumTok.convert ⟨neg, natDigits (n / 10 ^ d), fp, ex⟩).1, ?_,
      convert_cut neg _ fp ex (natDigits_ne_nil _) h6 (mant_cut d n hn fp h5)⟩
    unfold extractDub
    dsimp only
    rw [if_neg (by simp)]
    have hdrop : (ws ++ q).dropWhile isWs = q := by rw [hq', dropWhile_ws hws hcw]
    rw [hdrop, if_neg (by rw [hq']; simp), hs]
    rfl
  have hq0 : q <+: sgn neg ++ (natDigits (n / 10 ^ d) ++
      ('.' :: (fixedDigits d (n % 10 ^ d) ++ 'e' :: expText e))) := by
    convert hq using 1
    simp [mantText, fracText_eq, show d ≠ 0 by omega]
  have hone : (natDigits (n / 10 ^ d)).length = 1 := natDigits_one_digit (by
    rcases hn with rfl | h
    · positivity
    · exact h.2)
  have hsgn : q <+: sgn neg → ∃ b v, extractDub ⟨ws ++ q, false, false⟩ old = (⟨[], true, b⟩, v) ∧
      (b = false → isValidDub v = true) := by
    intro h
    have : q = [] ∨ q = ['-'] := by
      cases neg
      · left; simpa [sgn] using h
      · simp only [sgn, if_true] at h
        rcases q with _ | ⟨c, q⟩
        · exact Or.inl rfl
        · right
          rw [List.cons_prefix_cons] at h
          rw [h.1, List.prefix_nil.1 h.2]
    rcases this with rfl | rfl
    · refine ⟨true, old, ?_, by simp⟩
      rw [List.append_nil]; exact extractDub_end hws old
    · refine ⟨true, zero false, ?_, by simp⟩
      rw [extractDub_ws hws]; rfl
  rcases prefix_append_cases hq0 with h | ⟨q1, hq1, h⟩
  · exact hsgn h
  rcases prefix_append_cases h with h' | ⟨q2, hq2, h'⟩
  · -- at most the first digit
    have : q1 = [] ∨ q1 = natDigits (n / 10 ^ d) := by
      rcases hl : natDigits (n / 10 ^ d) with _ | ⟨c, _ | ⟨c', cs⟩⟩
      · rw [hl] at hone; cases hone
      · rw [hl] at h'
        rcases q1 with _ | ⟨a, q1⟩
        · exact Or.inl rfl
        · right
          rw [List.cons_prefix_cons] at h'
          rw [h'.1, List.prefix_nil.1 h'.2]
      · rw [hl] at hone; simp at hone
    rcases this with h0 | h0
    · exact hsgn (by rw [hq1, h0, List.append_nil])
    · exact fin_ [] [] none (by rw [hq1, h0, List.append_nil]) (by simp) rfl rfl (List.nil_prefix)
        (by simp)
  rcases q2 with _ | ⟨c, q3⟩
  · exact fin_ [] [] none (by rw [hq1, hq2]) (by simp) rfl rfl (List.nil_prefix) (by simp)
  rw [List.cons_prefix_cons] at h'
  obtain ⟨rfl, h3⟩ := h'
  have hdot : ∀ M, ∀ c ∈ ('.' :: M).head?, isDig c = false := by
    intro M c hc
    simp only [List.head?_cons, Option.mem_def, Option.some.injEq] at hc
    subst hc; decide
  have hfd := fixedDigits_dig d (n % 10 ^ d)
  rcases prefix_append_cases h3 with h4 | ⟨q4, hq4, h4⟩
  · have hdq : AllDig q3 := fun c hc => hfd c (h4.subset hc)
    have hsp := span_dig hdq (rest := []) (by simp)
    rw [List.append_nil] at hsp
    have hfr : scanFrac ('.' :: q3) = (q3, []) := by
      simp only [scanFrac, if_true]; exact hsp
    refine fin_ ('.' :: q3) q3 none (by rw [hq1, hq2]) (hdot _) (by rw [hfr]) (by rw [hfr]; rfl) h4
      (by simp)
  rcases q4 with _ | ⟨c, q5⟩
  · have hsp := span_dig hfd (rest := []) (by simp)
    have hfr : scanFrac ('.' :: q3) = (fixedDigits d (n % 10 ^ d), []) := by
      rw [hq4]; simp only [scanFrac, if_true]; exact hsp
    exact fin_ ('.' :: q3) _ none (by rw [hq1, hq2]) (hdot _) (by rw [hfr]) (by rw [hfr]; rfl)
      List.prefix_rfl (by simp)
  rw [List.cons_prefix_cons] at h4
  obtain ⟨rfl, h5⟩ := h4
  have hfr : scanFrac ('.' :: q3) = (fixedDigits d (n % 10 ^ d), 'e' :: q5) := by
    rw [hq4]; simp only [scanFrac, if_true]
    exact span_dig hfd (by intro c hc; simp only [List.head?_cons, Option.mem_def, Option.some.injEq] at hc; subst hc; decide)
  rw [expText_eq] at h5
  rcases q5 with _ | ⟨sg, q6⟩
  · refine fin_ ('.' :: q3) _ (some (false, [])) (by rw [hq1, hq2]) (hdot _) (by rw [hfr])
      (by rw [hfr]; rfl) List.prefix_rfl ?_
    intro s ds h
    simp only [Option.some.injEq, Prod.mk.injEq] at h
    rw [← h.2]; simp [digitsVal]
  rw [List.cons_prefix_cons] at h5
  obtain ⟨hsg, h6⟩ := h5
  have hd6 : AllDig q6 := fun c hc => expDigits_dig e c (h6.subset hc)
  have hlen : q6.length ≤ 2 := by
    have h7 : q6 ≠ expDigits e := by
      intro h8
      apply hne
      rw [hq1, hq2, hq4, hsg, h8, ← expText_eq]
      simp [mantText, fracText_eq, show d ≠ 0 by omega]
    have h8 : (expDigits e).length ≤ 3 := by
      unfold expDigits
      split
      · rename_i h9
        have := natDigits_length_le e.natAbs 1 le_rfl (by simpa using h9)
        simp only [List.length_cons]; omega
      · exact natDigits_length_le e.natAbs 3 (by norm_num) (by norm_num; exact he)
    have h9 : q6.length < (expDigits e).length := by
      refine lt_of_le_of_ne h6.length_le (fun h => h7 (h6.eq_of_length h))
    omega
  have hsc : ∃ s, scanSign (sg :: q6) = (s, q6) := by
    rw [hsg]
    by_cases h : e < 0
    · exact ⟨true, by simp [scanSign, h]⟩
    · exact ⟨false, by simp [scanSign, h]⟩
  obtain ⟨s, hsc⟩ := hsc
  have hsp := span_dig hd6 (rest := []) (by simp)
  rw [List.append_nil] at hsp
  refine fin_ ('.' :: q3) _ (some (s, q6)) (by rw [hq1, hq2]) (hdot _) (by rw [hfr]) ?_
    List.prefix_rfl ?_
  · rw [hfr]
    unfold scanExp
    dsimp only
    rw [if_pos ⟨Or.inl rfl, rfl⟩, hsc, hsp]
  · intro s ds h
    simp only [Option.some.injEq, Prod.mk.injEq] at h
    rw [← h.2]
    have h1 := digitsVal_lt hd6
    have h2 : 10 ^ q6.length ≤ 10 ^ 2 := Nat.pow_le_pow_right (by norm_num) hlen
    omega

end Engabra
