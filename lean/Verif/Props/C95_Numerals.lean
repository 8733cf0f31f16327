import Verif.Spec.Decimal
import Verif.Lemmas.Decimal
import Verif.Props.C94_Ieee
import Verif.Props.C73_AnyText

/-! # C95 — numbers written and read are decimal numerals

`>>` into a double reads a decimal numeral of the C standard and gives its value rounded to nearest;
`<<` writes a numeral with the number of digits asked for that is nearest to the double. -/

namespace Engabra

open Numeral (natVal)

/-! ## Digits -/

theorem natVal_eq (ds : List Char) : natVal ds = digitsVal ds := by
  induction ds using List.reverseRecOn with
  | nil => rfl
  | append_singleton ds c ih =>
    rw [digitsVal_snoc, ← ih]
    unfold natVal digitVal
    rw [List.reverse_append, List.reverse_singleton, List.singleton_append, List.map_cons, Nat.ofDigits_cons]
    show (c.toNat - 48 : ℕ) + 10 * _ = _
    omega

theorem isDigit_iff (c : Char) : c.isDigit = true ↔ isDig c = true := by
  unfold Char.isDigit isDig
  simp only [Bool.and_eq_true, decide_eq_true_eq, ge_iff_le, UInt32.le_iff_toNat_le]
  rfl

theorem allDig_iff (cs : List Char) : (∀ c ∈ cs, c.isDigit = true) ↔ AllDig cs :=
  forall₂_congr fun c _ => isDigit_iff c

theorem blank_iff (c : Char) : Blank c ↔ isWs c = true := by
  unfold Blank isWs
  simp only [List.mem_cons, List.not_mem_nil, or_false, Bool.or_eq_true, beq_iff_eq, Bool.and_eq_true,
    decide_eq_true_eq]
  constructor
  · rintro (h | h | h | h | h | h) <;> subst h <;> simp
  · rintro (h | ⟨h1, h2⟩)
    · exact Or.inl h
    · right
      have e : ∀ d : Char, c.toNat = d.toNat → c = d := fun d h => Char.toNat_inj.1 h
      have : c.toNat = 9 ∨ c.toNat = 10 ∨ c.toNat = 11 ∨ c.toNat = 12 ∨ c.toNat = 13 := by omega
      rcases this with h | h | h | h | h
      · exact Or.inl (e '\t' h)
      · exact Or.inr (Or.inl (e '\n' h))
      · exact Or.inr (Or.inr (Or.inl (e '\x0b' h)))
      · exact Or.inr (Or.inr (Or.inr (Or.inl (e '\x0c' h))))
      · exact Or.inr (Or.inr (Or.inr (Or.inr (e '\r' h))))

/-! ## Reading -/

/-- What the scanner accumulates for a numeral. -/
def Numeral.tok (n : Numeral) : NumTok :=
  ⟨n.minus, n.ip, n.frac, n.ex.map fun x => (x.2.1 == some true, x.2.2)⟩

theorem scanSign_opt (s : Option Bool) {cs : List Char} (h : ∀ c ∈ cs.head?, c ≠ '-' ∧ c ≠ '+') :
    scanSign (Numeral.signText s ++ cs) = (s == some true, cs) := by
  rcases s with _ | _ | _
  · rcases cs with _ | ⟨c, cs⟩
    · rfl
    · have := h c (by simp)
      simp [Numeral.signText, scanSign, this.1, this.2]
  · simp [Numeral.signText, scanSign]
  · simp [Numeral.signText, scanSign]

/-- What the scanner can accumulate: a numeral, or the beginning of one. -/
def Numeral.Part (n : Numeral) : Prop :=
  (∀ c ∈ n.ip, c.isDigit = true) ∧ (∀ c ∈ n.frac, c.isDigit = true) ∧ (n.ex ≠ none → n.ip ++ n.frac ≠ []) ∧
  ∀ c s ds, n.ex = some (c, s, ds) → (c = 'e' ∨ c = 'E') ∧ ∀ d ∈ ds, d.isDigit = true

theorem Numeral.Ok.part {n : Numeral} (h : n.Ok) : n.Part :=
  ⟨h.1, h.2.1, fun _ => h.2.2.1, fun c s ds he => ⟨(h.2.2.2 c s ds he).1, (h.2.2.2 c s ds he).2.2⟩⟩

theorem scan_part {n : Numeral} (h : n.Part) {rest : List Char} (hr : Ends rest) :
    scanNum (n.text ++ rest) = (n.tok, rest) := by
  obtain ⟨h1, h2, h3, h4⟩ := h
  rw [allDig_iff] at h1 h2
  set E : List Char := (match n.ex with | none => [] | some (c, s, ds) => c :: (Numeral.signText s ++ ds)) ++ rest
    with hE
  set F : List Char := (match n.fp with | none => [] | some f => '.' :: f) ++ E with hF
  have htext : n.text ++ rest = Numeral.signText n.sign ++ (n.ip ++ F) := by
    rw [hF, hE]; unfold Numeral.text
    rcases n.fp with _ | _ <;> rcases n.ex with _ | ⟨_, _, _⟩ <;> simp
  -- heads
  have hEh : ∀ c ∈ E.head?, isDig c = false ∧ c ≠ '.' ∧ c ≠ '-' ∧ c ≠ '+' := by
    intro c hc
    rcases hx : n.ex with _ | ⟨c', s, ds⟩
    · rw [hE, hx] at hc
      have := ws_facts (hr c hc)
      exact ⟨this.1, this.2.1, this.2.2.2.2⟩
    · rw [hE, hx] at hc
      simp at hc
      subst hc
      rcases (h4 _ _ _ hx).1 with rfl | rfl <;> decide
  have hFh : ∀ c ∈ F.head?, isDig c = false ∧ c ≠ '-' ∧ c ≠ '+' := by
    intro c hc
    rcases hx : n.fp with _ | f
    · rw [hF, hx] at hc
      have := hEh c hc
      exact ⟨this.1, this.2.2⟩
    · rw [hF, hx] at hc
      simp at hc
      subst hc; decide
  have hs : scanSign (n.text ++ rest) = (n.minus, n.ip ++ F) := by
    rw [htext]
    apply scanSign_opt
    intro c hc
    rcases hi : n.ip with _ | ⟨d, ds⟩
    · rw [hi] at hc
      exact (hFh c hc).2
    · rw [hi] at hc h1
      simp at hc
      subst hc
      have := dig_facts (h1 d (by simp))
      exact ⟨this.1, this.2.1⟩
  have hf : scanFrac F = (n.frac, E) := by
    unfold Numeral.frac at *
    rcases hx : n.fp with _ | f
    · have : F = E := by rw [hF, hx]; rfl
      rw [this]
      rcases hEE : E with _ | ⟨c, cs⟩
      · rfl
      · have := (hEh c (by rw [hEE]; simp)).2.1
        simp [scanFrac, this]
    · have : F = '.' :: (f ++ E) := by rw [hF, hx]; rfl
      rw [this]
      simp only [scanFrac, if_true, Option.getD_some]
      rw [hx] at h2
      exact span_dig h2 fun c hc => (hEh c hc).1
  have he : scanExp (!(n.ip.isEmpty && n.frac.isEmpty)) E =
      (n.ex.map fun x => (x.2.1 == some true, x.2.2), rest) := by
    rcases hx : n.ex with _ | ⟨c', s, ds⟩
    · have : E = rest := by rw [hE, hx]; rfl
      rw [this]
      rcases rest with _ | ⟨c, cs⟩
      · rfl
      · have := ws_facts (hr c (by simp))
        simp [scanExp, this.2.2.1, this.2.2.2.1]
    · obtain ⟨a, d⟩ := h4 _ _ _ hx
      have hseen : (!(n.ip.isEmpty && n.frac.isEmpty)) = true := by
        have h3 := h3 (by rw [hx]; simp)
        rcases hi : n.ip with _ | ⟨d, ds⟩
        · rw [hi, List.nil_append] at h3
          simpa using h3
        · simp
      rw [hseen]
      rw [allDig_iff] at d
      have hEe : E = c' :: (Numeral.signText s ++ (ds ++ rest)) := by rw [hE, hx]; simp
      have hsg : scanSign (Numeral.signText s ++ (ds ++ rest)) = (s == some true, ds ++ rest) := by
        apply scanSign_opt
        intro c hc
        rcases ds with _ | ⟨d', ds⟩
        · exact (ws_facts (hr c hc)).2.2.2.2
        · simp at hc
          subst hc
          have := dig_facts (d d' (by simp))
          exact ⟨this.1, this.2.1⟩
      rw [hEe]
      unfold scanExp
      dsimp only
      rw [if_pos ⟨a, rfl⟩, hsg, span_dig d (ends_not_dig hr)]
      rfl
  unfold scanNum
  rw [hs]
  dsimp only
  rw [span_dig h1 fun c hc => (hFh c hc).1]
  dsimp only
  rw [hf]
  dsimp only
  rw [he]
  rfl

theorem scan_numeral {n : Numeral} (h : n.Ok) {rest : List Char} (hr : Ends rest) :
    scanNum (n.text ++ rest) = (n.tok, rest) := scan_part h.part hr

theorem convert_numeral {n : Numeral} (h : n.Ok) :
    n.tok.convert = match decToF64 n.minus n.mant (n.expo - n.frac.length) with
      | .inf s => (maxDub s, true)
      | v => (v, false) := by
  obtain ⟨-, -, h3, h4⟩ := h
  unfold NumTok.convert Numeral.tok Numeral.mant Numeral.expo
  dsimp only
  rw [if_neg (fun h => h3 (by rw [h.1, h.2]; rfl)), natVal_eq]
  rcases hx : n.ex with _ | ⟨c, s, ds⟩
  · rfl
  · obtain ⟨-, b, -⟩ := h4 _ _ _ hx
    rcases ds with _ | ⟨d, ds⟩
    · exact absurd rfl b
    · dsimp only [Option.map_some]
      rw [natVal_eq]
      simp only [beq_iff_eq]
      rfl

theorem value_nonneg (n : Numeral) : 0 ≤ n.value := by unfold Numeral.value; positivity

theorem value_eq_zero (n : Numeral) : n.value = 0 ↔ n.mant = 0 := by
  unfold Numeral.value
  rw [mul_eq_zero, or_iff_left (zpow_ne_zero _ (by norm_num)), Nat.cast_eq_zero]

theorem signed_eq (n : Numeral) :
    (if n.minus then -(n.mant : ℚ) else (n.mant : ℚ)) * (10 : ℚ) ^ (n.expo - n.frac.length) = n.signed := by
  unfold Numeral.signed Numeral.value; split_ifs <;> ring

theorem signed_neg {n : Numeral} (h : n.value ≠ 0) : decide ((n.signed : ℝ) < 0) = n.minus := by
  have h0 : (0 : ℝ) < n.value := by exact_mod_cast lt_of_le_of_ne (value_nonneg n) (Ne.symm h)
  unfold Numeral.signed
  cases n.minus
  · simp only [Bool.false_eq_true, if_false, decide_eq_false_iff_not, not_lt]; exact h0.le
  · simp only [if_true, decide_eq_true_iff]; push_cast; linarith

theorem abs_signed (n : Numeral) : |(n.signed : ℝ)| = n.value := by
  have h0 : (0 : ℝ) ≤ n.value := by exact_mod_cast value_nonneg n
  unfold Numeral.signed
  cases n.minus <;> simp [abs_of_nonneg h0]

/-- What the conversion of a numeral gives. -/
theorem outcome {n : Numeral} (h : n.Ok) :
    (n.value = 0 → n.tok.convert.2 = false ∧ n.tok.convert.1 = .zero n.minus) ∧
    (n.value ≠ 0 → n.value < 2 ^ 1024 - 2 ^ 970 →
      n.tok.convert.2 = false ∧ Ieee.RoundsTo (n.signed : ℚ) n.tok.convert.1) ∧
    (2 ^ 1024 - 2 ^ 970 ≤ n.value → n.tok.convert.2 = true ∧ n.tok.convert.1 = maxDub n.minus) := by
  rw [convert_numeral h]
  have hbig : (0 : ℚ) < 2 ^ 1024 - 2 ^ 970 := by
    rw [sub_pos]; exact pow_lt_pow_right₀ (by norm_num) (by norm_num)
  by_cases h0 : n.value = 0
  · have : decToF64 n.minus n.mant (n.expo - n.frac.length) = .zero n.minus := by
      unfold decToF64; rw [if_pos ((value_eq_zero n).1 h0)]
    rw [this]
    refine ⟨fun _ => ⟨rfl, rfl⟩, fun h => absurd h0 h, fun h => ?_⟩
    rw [h0] at h
    exact absurd h (not_le.2 hbig)
  · have e : decToF64 n.minus n.mant (n.expo - n.frac.length) = Dbl.lit n.signed := by
      unfold decToF64
      rw [if_neg (fun h => h0 ((value_eq_zero n).2 h)), signed_eq]
      rfl
    have hs0 : n.signed ≠ 0 := by
      unfold Numeral.signed; split_ifs
      · exact neg_ne_zero.2 h0
      · exact h0
    have hR := (C94_literal n.signed).2 hs0
    rw [e]
    refine ⟨fun h => absurd h h0, fun _ hlt => ?_, fun hge => ?_⟩
    · have hlt' : |(n.signed : ℝ)| < 2 ^ 1024 - 2 ^ 970 := by
        rw [abs_signed]; exact_mod_cast hlt
      have hfin : (Dbl.lit n.signed : F64).Finite := by
        rcases hR with ⟨a, -⟩ | ⟨-, a, -⟩
        · exact absurd hlt' (not_lt.2 a)
        · exact a
      generalize (Dbl.lit n.signed : F64) = y at hR hfin
      cases y with
      | nan => exact ⟨rfl, hR⟩
      | inf s => exact absurd hfin (by simp [F64.Finite])
      | zero s => exact ⟨rfl, hR⟩
      | fin v hv => exact ⟨rfl, hR⟩
    · have hge' : 2 ^ 1024 - 2 ^ 970 ≤ |(n.signed : ℝ)| := by
        rw [abs_signed]; exact_mod_cast hge
      rcases hR with ⟨-, a⟩ | ⟨a, -⟩
      · rw [a, signed_neg h0]; exact ⟨rfl, rfl⟩
      · exact absurd hge' (not_le.2 a)

/-- **C95.** Reading a double from a text that holds white space, a decimal numeral, and then white space
or nothing consumes exactly the white space and the numeral, sets `eofbit` exactly when nothing follows,
and gives: a zero with the sign of the numeral if the numeral denotes zero; failure and the largest finite
double with that sign if it is at least `2^1024 - 2^970`; otherwise success and the number rounded to
nearest, ties to even. -/
theorem C95_read {n : Numeral} (h : n.Ok) {ws rest : List Char} (hw : ∀ c ∈ ws, Blank c)
    (hr : ∀ c ∈ rest.head?, Blank c) (old : F64) :
    ∃ f y, extractDub ⟨ws ++ n.text ++ rest, false, false⟩ old = (⟨rest, rest.isEmpty, f⟩, y) ∧
      (n.value = 0 → f = false ∧ y = .zero n.minus) ∧
      (n.value ≠ 0 → n.value < 2 ^ 1024 - 2 ^ 970 → f = false ∧ Ieee.RoundsTo (n.signed : ℚ) y) ∧
      (2 ^ 1024 - 2 ^ 970 ≤ n.value → f = true ∧ y = maxDub n.minus) := by
  have hw' : AllWs ws := fun c hc => (blank_iff c).1 (hw c hc)
  have hr' : Ends rest := fun c hc => (blank_iff c).1 (hr c hc)
  have hhead : ∃ c cs, n.text ++ rest = c :: cs ∧ isWs c = false := by
    obtain ⟨h1, h2, h3, -⟩ := h
    rw [allDig_iff] at h1 h2
    unfold Numeral.text
    rcases n.sign with _ | _ | _
    · rcases hi : n.ip with _ | ⟨d, ds⟩
      · unfold Numeral.frac at h3
        rcases hf : n.fp with _ | f
        · rw [hi, hf] at h3; exact absurd rfl h3
        · exact ⟨'.', _, rfl, by decide⟩
      · rw [hi] at h1
        exact ⟨d, _, rfl, (dig_facts (h1 d (by simp))).2.2.2.2.2⟩
    · exact ⟨'+', _, rfl, by decide⟩
    · exact ⟨'-', _, rfl, by decide⟩
  obtain ⟨c, cs, hcs, hcw⟩ := hhead
  have hdrop : (ws ++ n.text ++ rest).dropWhile isWs = n.text ++ rest := by
    rw [List.append_assoc, hcs, dropWhile_ws hw' hcw]
  have hne : n.text ++ rest ≠ [] := by rw [hcs]; simp
  refine ⟨n.tok.convert.2, n.tok.convert.1, ?_, ?_⟩
  · unfold extractDub
    dsimp only
    rw [if_neg (by simp), hdrop, if_neg hne, scan_numeral h hr']
  exact outcome h

/-! ## Reading succeeds on nothing else -/

theorem mem_takeWhile_prop {q : Char → Bool} {c : Char} {cs : List Char} (h : c ∈ cs.takeWhile q) :
    q c = true := by
  induction cs with
  | nil => simp at h
  | cons d cs ih =>
    rw [List.takeWhile_cons] at h
    split at h
    · rcases List.mem_cons.1 h with rfl | h
      · assumption
      · exact ih h
    · simp at h

theorem span_spec (cs : List Char) : AllDig (cs.span isDig).1 ∧ cs = (cs.span isDig).1 ++ (cs.span isDig).2 := by
  rw [List.span_eq_takeWhile_dropWhile]
  exact ⟨fun c hc => mem_takeWhile_prop hc, (List.takeWhile_append_dropWhile ..).symm⟩

theorem scanSign_spec (cs : List Char) : ∃ s : Option Bool,
    cs = Numeral.signText s ++ (scanSign cs).2 ∧ (scanSign cs).1 = (s == some true) := by
  rcases cs with _ | ⟨c, cs⟩
  · exact ⟨none, rfl, rfl⟩
  · unfold scanSign
    dsimp only
    split_ifs with h1 h2
    · exact ⟨some true, by rw [h1]; rfl, rfl⟩
    · exact ⟨some false, by rw [h2]; rfl, rfl⟩
    · exact ⟨none, rfl, rfl⟩

theorem scanFrac_spec (cs : List Char) : ∃ fp : Option (List Char),
    cs = (match fp with | none => [] | some f => '.' :: f) ++ (scanFrac cs).2 ∧
      (scanFrac cs).1 = fp.getD [] ∧ AllDig (scanFrac cs).1 := by
  rcases cs with _ | ⟨c, cs⟩
  · exact ⟨none, rfl, rfl, fun c hc => by simp [scanFrac] at hc⟩
  · unfold scanFrac
    dsimp only
    split_ifs with h1
    · obtain ⟨a, b⟩ := span_spec cs
      exact ⟨some (cs.span isDig).1, by rw [h1]; exact congrArg _ b, rfl, a⟩
    · exact ⟨none, rfl, rfl, fun c hc => by simp at hc⟩

theorem scanExp_spec (b : Bool) (cs : List Char) : ∃ ex : Option (Char × Option Bool × List Char),
    cs = (match ex with | none => [] | some (c, s, ds) => c :: (Numeral.signText s ++ ds)) ++
      (scanExp b cs).2 ∧
      (scanExp b cs).1 = ex.map (fun x => (x.2.1 == some true, x.2.2)) ∧
      ∀ c s ds, ex = some (c, s, ds) → (c = 'e' ∨ c = 'E') ∧ AllDig ds ∧ b = true := by
  rcases cs with _ | ⟨c, cs⟩
  · exact ⟨none, rfl, rfl, by simp⟩
  · unfold scanExp
    dsimp only
    split_ifs with h1
    · obtain ⟨s, a1, a2⟩ := scanSign_spec cs
      obtain ⟨b1, b2⟩ := span_spec (scanSign cs).2
      refine ⟨some (c, s, ((scanSign cs).2.span isDig).1), ?_, ?_, ?_⟩
      · dsimp only
        rw [List.cons_append, List.append_assoc, ← b2, ← a1]
      · dsimp only [Option.map_some]; rw [a2]
      · intro c' s' ds' he
        simp only [Option.some.injEq, Prod.mk.injEq] at he
        obtain ⟨rfl, rfl, rfl⟩ := he
        exact ⟨h1.1, b1, h1.2⟩
    · exact ⟨none, rfl, rfl, by simp⟩

/-- **C95.** If reading a double succeeds, the characters consumed are white space and a decimal numeral. -/
theorem C95_read_only {s rest : List Char} {e : Bool} {old y : F64}
    (h : extractDub ⟨s, false, false⟩ old = (⟨rest, e, false⟩, y)) :
    ∃ ws n, s = ws ++ Numeral.text n ++ rest ∧ (∀ c ∈ ws, Blank c) ∧ n.Ok := by
  unfold extractDub at h
  rw [if_neg (by simp)] at h
  dsimp only at h
  split_ifs at h with h0
  · simp at h
  simp only [Prod.mk.injEq, IStream.mk.injEq] at h
  obtain ⟨⟨h1, -, h2⟩, -⟩ := h
  set cs := s.dropWhile isWs with hcs
  obtain ⟨sg, a1, a2⟩ := scanSign_spec cs
  obtain ⟨b1, b2⟩ := span_spec (scanSign cs).2
  obtain ⟨fp, c1, c2, c3⟩ := scanFrac_spec ((scanSign cs).2.span isDig).2
  obtain ⟨ex, d1, d2, d3⟩ := scanExp_spec (!(((scanSign cs).2.span isDig).1.isEmpty &&
    (scanFrac ((scanSign cs).2.span isDig).2).1.isEmpty)) (scanFrac ((scanSign cs).2.span isDig).2).2
  refine ⟨s.takeWhile isWs, ⟨sg, ((scanSign cs).2.span isDig).1, fp, ex⟩, ?_, ?_, ?_⟩
  · have hs : s = s.takeWhile isWs ++ cs := (List.takeWhile_append_dropWhile ..).symm
    conv_lhs => rw [hs]
    rw [List.append_assoc]
    congr 1
    conv_lhs => rw [a1, b2, c1, d1]
    have : rest = (scanNum cs).2 := h1.symm
    rw [this]
    unfold Numeral.text scanNum
    dsimp only
    rcases fp with _ | _ <;> rcases ex with _ | ⟨_, _, _⟩ <;> simp
  · exact fun c hc => (blank_iff c).2 (mem_takeWhile_prop hc)
  · unfold NumTok.convert scanNum at h2
    dsimp only at h2
    have h3 : ¬(((scanSign cs).2.span isDig).1 = [] ∧
        (scanFrac ((scanSign cs).2.span isDig).2).1 = []) := by
      intro h3
      rw [if_pos h3] at h2
      exact absurd h2 (by simp)
    rw [if_neg h3] at h2
    have hfr : Numeral.frac ⟨sg, ((scanSign cs).2.span isDig).1, fp, ex⟩ =
        (scanFrac ((scanSign cs).2.span isDig).2).1 := c2.symm
    refine ⟨(allDig_iff _).2 b1, (allDig_iff _).2 (by rw [hfr]; exact c3), ?_, ?_⟩
    · rw [hfr]
      intro hnil
      rw [List.append_eq_nil_iff] at hnil
      exact h3 hnil
    · intro c s' ds he
      have he' : ex = some (c, s', ds) := he
      obtain ⟨k1, k2, -⟩ := d3 _ _ _ he'
      refine ⟨k1, ?_, (allDig_iff _).2 k2⟩
      rintro rfl
      rw [d2, he'] at h2
      simp at h2

/-! ## The token of any text -/

theorem scan_parts (cs : List Char) : ∃ d : Numeral, d.Part ∧ cs = d.text ++ (scanNum cs).2 ∧
    (scanNum cs).1 = d.tok := by
  obtain ⟨sg, a1, a2⟩ := scanSign_spec cs
  obtain ⟨b1, b2⟩ := span_spec (scanSign cs).2
  obtain ⟨fp, c1, c2, c3⟩ := scanFrac_spec ((scanSign cs).2.span isDig).2
  obtain ⟨ex, d1, d2, d3⟩ := scanExp_spec (!(((scanSign cs).2.span isDig).1.isEmpty &&
    (scanFrac ((scanSign cs).2.span isDig).2).1.isEmpty)) (scanFrac ((scanSign cs).2.span isDig).2).2
  have hfr : Numeral.frac ⟨sg, ((scanSign cs).2.span isDig).1, fp, ex⟩ =
      (scanFrac ((scanSign cs).2.span isDig).2).1 := c2.symm
  refine ⟨⟨sg, ((scanSign cs).2.span isDig).1, fp, ex⟩, ⟨(allDig_iff _).2 b1,
    (allDig_iff _).2 (by rw [hfr]; exact c3), ?_, ?_⟩, ?_, ?_⟩
  · intro hne
    rcases ex with _ | ⟨c, s, ds⟩
    · exact absurd rfl hne
    · have := (d3 _ _ _ rfl).2.2
      rw [hfr]
      intro hnil
      rw [List.append_eq_nil_iff] at hnil
      have h1 : ((scanSign cs).2.span isDig).1 = [] := hnil.1
      rw [h1, hnil.2] at this
      simp at this
  · intro c s ds he
    obtain ⟨k1, k2, -⟩ := d3 _ _ _ he
    exact ⟨k1, (allDig_iff _).2 k2⟩
  · conv_lhs => rw [a1, b2, c1, d1]
    unfold Numeral.text scanNum
    dsimp only
    rcases fp with _ | _ <;> rcases ex with _ | ⟨_, _, _⟩ <;> simp
  · unfold Numeral.tok
    rw [hfr]
    unfold scanNum Numeral.minus
    dsimp only
    rw [a2, d2]

/-- The beginning of a numeral can be continued to a numeral. -/
theorem part_prefix {d : Numeral} (h : d.Part) : ∃ n : Numeral, n.Ok ∧ d.text <+: n.text := by
  obtain ⟨sg, ip, fp, ex⟩ := d
  obtain ⟨h1, h2, h3, h4⟩ := h
  dsimp only at h1 h3 h4
  rcases ex with _ | ⟨c, s, ds⟩
  · by_cases h0 : ip ++ Numeral.frac ⟨sg, ip, fp, none⟩ = []
    · rcases fp with _ | f
      · refine ⟨⟨sg, ip ++ ['0'], none, none⟩, ⟨?_, by simp [Numeral.frac], by simp, by simp⟩, ⟨['0'], ?_⟩⟩
        · intro c hc
          rcases List.mem_append.1 hc with h | h
          · exact h1 c h
          · rw [List.mem_singleton.1 h]; decide
        · simp [Numeral.text]
      · refine ⟨⟨sg, ip, some (f ++ ['0']), none⟩, ⟨h1, ?_, by simp [Numeral.frac], by simp⟩, ⟨['0'], ?_⟩⟩
        · intro c hc
          rcases List.mem_append.1 hc with h | h
          · exact h2 c h
          · rw [List.mem_singleton.1 h]; decide
        · simp [Numeral.text]
    · exact ⟨⟨sg, ip, fp, none⟩, ⟨h1, h2, h0, by simp⟩, List.prefix_rfl⟩
  · refine ⟨⟨sg, ip, fp, some (c, s, ds ++ ['0'])⟩, ⟨h1, h2, h3 (by simp), ?_⟩, ⟨['0'], ?_⟩⟩
    · intro c' s' ds' he
      simp only [Option.some.injEq, Prod.mk.injEq] at he
      obtain ⟨rfl, rfl, rfl⟩ := he
      obtain ⟨a, b⟩ := h4 _ _ _ rfl
      refine ⟨a, by simp, fun d hd => ?_⟩
      rcases List.mem_append.1 hd with h | h
      · exact b d h
      · rw [List.mem_singleton.1 h]; decide
    · simp [Numeral.text]

/-- More text never gives characters back. -/
theorem scanNum_suffix_more (u q : List Char) : (scanNum (u ++ q)).2 <:+ (scanNum u).2 ++ q := by
  by_cases h : (scanNum u).2 = []
  · rw [h, List.nil_append]
    by_cases h1 : u = []
    · subst h1
      rw [List.nil_append]
      obtain ⟨d, -, hd, -⟩ := scan_parts q
      exact ⟨_, hd.symm⟩
    have e1 := scanSign_more u q h1
    have key : ∀ {z : List Char}, (scanSign (u ++ q)).2 = (scanSign u).2 ++ q →
        ((scanFrac ((scanSign (u ++ q)).2.span isDig).2).2 <:+ z) → (scanNum (u ++ q)).2 <:+ z :=
      fun _ h => (scanExp_suffix _ _).trans h
    have e1' : (scanSign (u ++ q)).2 = (scanSign u).2 ++ q := by rw [e1]
    by_cases h2 : ((scanSign u).2.span isDig).2 = []
    · refine key e1' ((scanFrac_suffix _).trans ?_)
      rw [e1', List.span_eq_takeWhile_dropWhile]
      rw [List.span_eq_takeWhile_dropWhile] at h2
      dsimp only at h2 ⊢
      rw [List.dropWhile_append, h2]
      simp only [List.isEmpty_nil, if_true]
      exact List.dropWhile_suffix _
    have e2 := span_more isDig (scanSign u).2 q h2
    by_cases h3 : (scanFrac ((scanSign u).2.span isDig).2).2 = []
    · refine key e1' ?_
      rw [e1', e2]
      dsimp only
      generalize ((scanSign u).2.span isDig).2 = w at h2 h3
      rcases w with _ | ⟨c, w⟩
      · exact absurd rfl h2
      · unfold scanFrac at h3 ⊢
        dsimp only [List.cons_append] at h3 ⊢
        split_ifs at h3 ⊢ with hc
        rw [List.span_eq_takeWhile_dropWhile] at h3 ⊢
        dsimp only at h3 ⊢
        rw [List.dropWhile_append, h3]
        simp only [List.isEmpty_nil, if_true]
        exact List.dropWhile_suffix _
    have e3 := scanFrac_more ((scanSign u).2.span isDig).2 q h3
    unfold scanNum at h ⊢
    dsimp only at h ⊢
    rw [e1', e2]
    dsimp only
    rw [e3]
    dsimp only
    generalize (scanFrac ((scanSign u).2.span isDig).2).2 = w at h3 h
    rcases w with _ | ⟨c, w⟩
    · exact absurd rfl h3
    · unfold scanExp at h ⊢
      dsimp only [List.cons_append] at h ⊢
      split_ifs at h ⊢ with hc
      by_cases h5 : w = []
      · subst h5
        exact (span_suffix _ _).trans (by
          rw [List.nil_append]
          obtain ⟨s, hs, -⟩ := scanSign_spec q
          exact ⟨_, hs.symm⟩)
      · rw [scanSign_more w q h5]
        dsimp only
        rw [List.span_eq_takeWhile_dropWhile] at h ⊢
        dsimp only at h ⊢
        rw [List.dropWhile_append, h]
        simp only [List.isEmpty_nil, if_true]
        exact List.dropWhile_suffix _
  · rw [scanNum_more u q h]

/-- **C95.** Reading a double from any text that is not only white space: after the white space the longest
sequence of characters is consumed with which a numeral can begin (as the C standard prescribes for input
items), `eofbit` is set exactly if that is all there is.  If this sequence is a numeral the result is its value,
as in `C95_read`; if not, reading fails and the double becomes zero. -/
theorem C95_token {ws cs : List Char} (hw : ∀ c ∈ ws, Blank c) (hc : cs ≠ []) (hb : ∀ c ∈ cs.head?, ¬Blank c)
    (old : F64) :
    ∃ t rest f y, cs = t ++ rest ∧
      extractDub ⟨ws ++ cs, false, false⟩ old = (⟨rest, rest.isEmpty, f⟩, y) ∧
      (∃ n : Numeral, n.Ok ∧ t <+: n.text) ∧
      (∀ t', t' <+: cs → (∃ n : Numeral, n.Ok ∧ t' <+: n.text) → t' <+: t) ∧
      (∀ n : Numeral, n.Ok → t = n.text →
        (n.value = 0 → f = false ∧ y = .zero n.minus) ∧
        (n.value ≠ 0 → n.value < 2 ^ 1024 - 2 ^ 970 → f = false ∧ Ieee.RoundsTo (n.signed : ℚ) y) ∧
        (2 ^ 1024 - 2 ^ 970 ≤ n.value → f = true ∧ y = maxDub n.minus)) ∧
      ((∀ n : Numeral, n.Ok → t ≠ n.text) → f = true ∧ y = .zero false) := by
  obtain ⟨d, hd, h1, h2⟩ := scan_parts cs
  have hw' : AllWs ws := fun c hc => (blank_iff c).1 (hw c hc)
  have hdrop : (ws ++ cs).dropWhile isWs = cs := by
    rcases cs with _ | ⟨c, cs⟩
    · exact absurd rfl hc
    · have := hb c (by simp)
      rw [blank_iff, Bool.not_eq_true] at this
      exact dropWhile_ws hw' this
  have hself : scanNum d.text = (d.tok, []) := by
    have := scan_part hd ends_nil
    rwa [List.append_nil] at this
  refine ⟨d.text, (scanNum cs).2, d.tok.convert.2, d.tok.convert.1, h1, ?_, part_prefix hd, ?_, ?_, ?_⟩
  · unfold extractDub
    dsimp only
    rw [if_neg (by simp), hdrop, if_neg hc, h2]
  · rintro t' ⟨w, rfl⟩ ⟨n, hn, v, hv⟩
    have hnil : (scanNum t').2 = [] := by
      by_contra hne
      have e := scanNum_more t' v hne
      have e' := scan_numeral hn ends_nil
      rw [List.append_nil, ← hv, e] at e'
      have := (Prod.mk.inj e').2
      rw [List.append_eq_nil_iff] at this
      exact hne this.1
    have hs := scanNum_suffix_more t' w
    rw [hnil, List.nil_append] at hs
    obtain ⟨z, hz⟩ := hs
    refine ⟨z, ?_⟩
    have : t' ++ z ++ (scanNum (t' ++ w)).2 = d.text ++ (scanNum (t' ++ w)).2 := by
      rw [← h1, List.append_assoc, hz]
    exact List.append_cancel_right this
  · intro n hn ht
    have e := scan_numeral hn ends_nil
    rw [List.append_nil, ← ht, hself] at e
    rw [(Prod.mk.inj e).1]
    exact outcome hn
  · intro hno
    have hnot : ¬d.Ok := fun h => hno d h rfl
    obtain ⟨k1, k2, k3, k4⟩ := hd
    unfold NumTok.convert Numeral.tok
    dsimp only
    by_cases h0 : d.ip = [] ∧ d.frac = []
    · rw [if_pos h0]; exact ⟨rfl, rfl⟩
    · rw [if_neg h0]
      rcases hx : d.ex with _ | ⟨c, s, ds⟩
      · exact absurd ⟨k1, k2, fun h => h0 (List.append_eq_nil_iff.1 h), by rw [hx]; simp⟩ hnot
      · rcases ds with _ | ⟨e, ds⟩
        · exact ⟨rfl, rfl⟩
        · refine absurd ⟨k1, k2, fun h => h0 (List.append_eq_nil_iff.1 h), ?_⟩ hnot
          intro c' s' ds' he
          rw [hx] at he
          simp only [Option.some.injEq, Prod.mk.injEq] at he
          obtain ⟨rfl, rfl, rfl⟩ := he
          obtain ⟨a, b⟩ := k4 _ _ _ hx
          exact ⟨a, by simp, b⟩

/-! ## Writing -/

/-- `v` in units `u`, rounded to a natural number, ties to even. -/
theorem nearest_unit {v u : ℚ} (hv : 0 ≤ v) (hu : 0 < u) :
    |((F64.rhe (v / u)).toNat : ℚ) * u - v| < 1 / 2 * u ∨
      (|((F64.rhe (v / u)).toNat : ℚ) * u - v| = 1 / 2 * u ∧ Even (F64.rhe (v / u)).toNat) := by
  have hn := toNat_rhe (x := v / u) (by positivity)
  set r := F64.rhe (v / u) with hr
  have hnr : ((r.toNat : ℕ) : ℚ) = (r : ℚ) := by exact_mod_cast congrArg (Int.cast (R := ℚ)) hn
  have e : |(r.toNat : ℚ) * u - v| = |v / u - r| * u := by
    rw [hnr, show (r : ℚ) * u - v = -(v / u - r) * u by field_simp; ring, abs_mul, abs_neg, abs_of_pos hu]
  rw [e]
  rcases F64.rhe_cases (v / u) with h | ⟨h1, h2⟩
  · exact Or.inl (mul_lt_mul_of_pos_right h hu)
  · refine Or.inr ⟨by rw [← hr] at h1; rw [h1], ?_⟩
    rw [← hr, ← hn] at h2
    exact_mod_cast h2

theorem natDigits_head (n : ℕ) : (natDigits n).head? = some '0' → natDigits n = ['0'] := by
  induction n using natDigits.induct with
  | case1 n h =>
    rw [natDigits, if_pos h]
    intro h'
    simp only [List.head?_cons, Option.some.injEq] at h'
    rw [h']
  | case2 n h ih =>
    rw [natDigits, if_neg h]
    intro h'
    have hne := natDigits_ne_nil (n / 10)
    rw [List.head?_append_of_ne_nil _ hne] at h'
    have e := ih h'
    have := digitsVal_natDigits (n / 10)
    rw [e] at this
    have : n / 10 = 0 := by rw [← this]; decide
    omega

/-- A significand of `p` digits after the point. -/
def mantNumeral (neg : Bool) (p n : ℕ) (ex : Option (Char × Option Bool × List Char)) : Numeral :=
  ⟨if neg then some true else none, natDigits (n / 10 ^ p),
    if p = 0 then none else some (fixedDigits p (n % 10 ^ p)), ex⟩

theorem mantNumeral_frac (neg : Bool) (p n : ℕ) (ex) :
    (mantNumeral neg p n ex).frac = fixedDigits p (n % 10 ^ p) := by
  unfold mantNumeral Numeral.frac
  dsimp only
  split_ifs with h
  · subst h; rfl
  · rfl

theorem mantNumeral_mant (neg : Bool) (p n : ℕ) (ex) : (mantNumeral neg p n ex).mant = n := by
  unfold Numeral.mant
  rw [mantNumeral_frac, natVal_eq]
  exact mant_val p n

theorem mantNumeral_text (neg : Bool) (p n : ℕ) (ex) :
    (mantNumeral neg p n ex).text = (if neg then ['-'] else []) ++ mantText p n ++
      (match ex with | none => [] | some (c, s, ds) => c :: (Numeral.signText s ++ ds)) := by
  unfold Numeral.text mantNumeral mantText fracText
  dsimp only
  cases neg <;> split_ifs <;> rcases ex with _ | ⟨_, _, _⟩ <;> simp [Numeral.signText]

theorem mantNumeral_ok (neg : Bool) (p n : ℕ) {ex : Option (Char × Option Bool × List Char)}
    (h : ∀ c s ds, ex = some (c, s, ds) → (c = 'e' ∨ c = 'E') ∧ ds ≠ [] ∧ ∀ d ∈ ds, d.isDigit = true) :
    (mantNumeral neg p n ex).Ok := by
  refine ⟨(allDig_iff _).2 (natDigits_dig _), (allDig_iff _).2 ?_, ?_, h⟩
  · rw [mantNumeral_frac]; exact fixedDigits_dig _ _
  · intro hn
    exact natDigits_ne_nil _ (List.append_eq_nil_iff.1 hn).1

/-- The text of a finite double. -/
theorem numText_finite (f : FloatField) (p : ℕ) {x : F64} (hx : x.Finite) :
    numText f p x = (if x.signbit then ['-'] else []) ++ magText f p |x.value| := by
  cases x with
  | nan => exact absurd hx (by simp [F64.Finite])
  | inf s => exact absurd hx (by simp [F64.Finite])
  | zero s => simp [numText, signText, bodyText, F64.value]
  | fin v hv => rfl

/-- **C95.** A finite double written with `std::fixed` and precision `p` is a decimal numeral with a minus
sign exactly if the sign bit is set and no plus sign, no exponent, at least one digit before the point
and no superfluous leading zero, `p` digits after the point (no point if `p` is zero), and of all such
numerals the nearest to the double: the error is less than half a unit of the last digit, or exactly that
and the last digit is even. -/
theorem C95_fixed (p : ℕ) {x : F64} (hx : x.Finite) :
    ∃ n : Numeral, numText .fixed p x = n.text ∧ n.Ok ∧
      n.sign = (if x.signbit then some true else none) ∧ n.ex = none ∧
      n.ip ≠ [] ∧ (n.ip.head? = some '0' → n.ip = ['0']) ∧
      (n.fp = none ↔ p = 0) ∧ n.frac.length = p ∧
      (|n.value - (|x.value|)| < 1 / 2 * (10 : ℚ) ^ (-(p : ℤ)) ∨
        (|n.value - (|x.value|)| = 1 / 2 * (10 : ℚ) ^ (-(p : ℤ)) ∧ Even n.mant)) := by
  have hu : (0 : ℚ) < (10 : ℚ) ^ (-(p : ℤ)) := zpow_pos (by norm_num) _
  have hdiv : |x.value| * 10 ^ p = |x.value| / (10 : ℚ) ^ (-(p : ℤ)) := by
    rw [zpow_neg, zpow_natCast, div_inv_eq_mul]
  set N := (F64.rhe (|x.value| * 10 ^ p)).toNat with hN
  refine ⟨mantNumeral x.signbit p N none, ?_, mantNumeral_ok _ _ _ (by simp), rfl, rfl,
    natDigits_ne_nil _, natDigits_head _, ?_, ?_, ?_⟩
  · rw [numText_finite _ _ hx, mantNumeral_text]
    simp only [List.append_nil]
    rfl
  · unfold mantNumeral
    dsimp only
    split_ifs with h <;> simp [h]
  · rw [mantNumeral_frac, fixedDigits_length]
  · have hval : (mantNumeral x.signbit p N none).value = (N : ℚ) * (10 : ℚ) ^ (-(p : ℤ)) := by
      unfold Numeral.value
      rw [mantNumeral_mant, mantNumeral_frac, fixedDigits_length]
      show _ * (10 : ℚ) ^ ((0 : ℤ) - p) = _
      rw [zero_sub]
    rw [hval, mantNumeral_mant, hN, hdiv]
    exact nearest_unit (abs_nonneg _) hu

theorem natDigits_digit {d : ℕ} (h : d < 10) : natDigits d = [digitChar d] := by
  rw [natDigits, if_pos h]

theorem digitChar_ne_zero : ∀ d < 10, d ≠ 0 → digitChar d ≠ '0' := by decide

theorem expDigits_facts (e : ℤ) : 2 ≤ (expDigits e).length ∧
    ((expDigits e).head? = some '0' → (expDigits e).length = 2) := by
  unfold expDigits
  split_ifs with h
  · rw [natDigits_digit h]; simp
  · refine ⟨natDigits_length_ge _ 1 (by omega), fun h' => ?_⟩
    have e1 := natDigits_head _ h'
    have := digitsVal_natDigits e.natAbs
    rw [e1] at this
    have : e.natAbs = 0 := by rw [← this]; decide
    omega

/-- A significand and an exponent. -/
def sciNumeral (neg : Bool) (p n : ℕ) (e : ℤ) : Numeral :=
  mantNumeral neg p n (some ('e', some (decide (e < 0)), expDigits e))

theorem sciNumeral_expo (neg : Bool) (p n : ℕ) (e : ℤ) : (sciNumeral neg p n e).expo = e := by
  unfold Numeral.expo sciNumeral mantNumeral
  dsimp only
  rw [natVal_eq, digitsVal_expDigits]
  by_cases he : e < 0
  · rw [if_pos (by simpa using he)]; omega
  · rw [if_neg (by simpa using he)]; omega

theorem sciNumeral_value (neg : Bool) (p n : ℕ) (e : ℤ) :
    (sciNumeral neg p n e).value = (n : ℚ) * (10 : ℚ) ^ (e - (p : ℤ)) := by
  unfold Numeral.value
  rw [sciNumeral_expo]
  unfold sciNumeral
  rw [mantNumeral_mant, mantNumeral_frac, fixedDigits_length]

theorem sciNumeral_text (neg : Bool) (p n : ℕ) (e : ℤ) :
    (sciNumeral neg p n e).text = (if neg then ['-'] else []) ++ (mantText p n ++ 'e' :: expText e) := by
  unfold sciNumeral
  rw [mantNumeral_text, expText_eq]
  by_cases he : e < 0 <;> simp [he, Numeral.signText]

/-- The significand and exponent of e-notation: with `k` the decimal exponent of the number, its nearest
multiple of `10^(k-p)`. -/
theorem sciParts_near (p : ℕ) {v : ℚ} (hv : 0 < v) :
    ∃ (k : ℤ) (m : ℕ), (10 : ℚ) ^ k ≤ v ∧ v < (10 : ℚ) ^ (k + 1) ∧
      ((sciParts p v).1 : ℚ) * (10 : ℚ) ^ ((sciParts p v).2 - (p : ℤ)) = m * (10 : ℚ) ^ (k - (p : ℤ)) ∧
      (|(m : ℚ) * (10 : ℚ) ^ (k - (p : ℤ)) - v| < 1 / 2 * (10 : ℚ) ^ (k - (p : ℤ)) ∨
        (|(m : ℚ) * (10 : ℚ) ^ (k - (p : ℤ)) - v| = 1 / 2 * (10 : ℚ) ^ (k - (p : ℤ)) ∧ Even m)) := by
  have hlo : (10 : ℚ) ^ Int.log 10 v ≤ v := by
    have := Int.zpow_log_le_self (b := 10) (r := v) (by norm_num) hv
    exact_mod_cast this
  have hhi : v < (10 : ℚ) ^ (Int.log 10 v + 1) := by
    have := Int.lt_zpow_succ_log_self (b := 10) (by norm_num) v
    exact_mod_cast this
  refine ⟨Int.log 10 v, (F64.rhe (v / (10 : ℚ) ^ (Int.log 10 v - (p : ℤ)))).toNat, hlo, hhi, ?_,
    nearest_unit hv.le (zpow_pos (by norm_num) _)⟩
  unfold sciParts
  dsimp only
  split
  · rename_i heq
    rw [heq]
    push_cast
    rw [show Int.log 10 v + 1 - (p : ℤ) = (Int.log 10 v - p) + 1 by ring, zpow_add₀ (by norm_num), zpow_one,
      pow_succ]
    ring
  · rfl

/-- **C95.** A finite double written with `std::scientific` and precision `p` is a decimal numeral with a
minus sign exactly if the sign bit is set and no plus sign, one digit before the point, which is zero only
for zero, `p` digits after it (no point if `p` is zero), and an exponent with the letter `e`, a sign, and two
digits, or more without a leading zero; no minus sign for the exponent zero.  The number is the double
rounded to `p + 1` significant digits, ties to even; zero has exponent zero. -/
theorem C95_scientific (p : ℕ) {x : F64} (hx : x.Finite) :
    ∃ n : Numeral, numText .scientific p x = n.text ∧ n.Ok ∧
      n.sign = (if x.signbit then some true else none) ∧
      (∃ d, n.ip = [d] ∧ (d = '0' ↔ x.value = 0)) ∧
      (n.fp = none ↔ p = 0) ∧ n.frac.length = p ∧
      (∃ ds, n.ex = some ('e', some (decide (n.expo < 0)), ds) ∧ 2 ≤ ds.length ∧
        (ds.head? = some '0' → ds.length = 2)) ∧
      (x.value = 0 → n.value = 0 ∧ n.expo = 0) ∧
      (x.value ≠ 0 → ∃ (k : ℤ) (m : ℕ), (10 : ℚ) ^ k ≤ |x.value| ∧ |x.value| < (10 : ℚ) ^ (k + 1) ∧
        n.value = m * (10 : ℚ) ^ (k - (p : ℤ)) ∧
        (|n.value - (|x.value|)| < 1 / 2 * (10 : ℚ) ^ (k - (p : ℤ)) ∨
          (|n.value - (|x.value|)| = 1 / 2 * (10 : ℚ) ^ (k - (p : ℤ)) ∧ Even m))) := by
  have hex : ∀ e : ℤ, ∀ c s ds, some ('e', some (decide (e < 0)), expDigits e) = some (c, s, ds) →
      (c = 'e' ∨ c = 'E') ∧ ds ≠ [] ∧ ∀ d ∈ ds, d.isDigit = true := by
    intro e c s ds h
    simp only [Option.some.injEq, Prod.mk.injEq] at h
    obtain ⟨rfl, -, rfl⟩ := h
    exact ⟨Or.inl rfl, expDigits_ne_nil e, (allDig_iff _).2 (expDigits_dig e)⟩
  have hfp : ∀ (N : ℕ) (e : ℤ), (sciNumeral x.signbit p N e).fp = none ↔ p = 0 := by
    intro N e
    unfold sciNumeral mantNumeral
    dsimp only
    split_ifs with h <;> simp [h]
  have hfr : ∀ (N : ℕ) (e : ℤ), (sciNumeral x.signbit p N e).frac.length = p := by
    intro N e
    unfold sciNumeral
    rw [mantNumeral_frac, fixedDigits_length]
  have hE : ∀ (N : ℕ) (e : ℤ), ∃ ds, (sciNumeral x.signbit p N e).ex =
      some ('e', some (decide ((sciNumeral x.signbit p N e).expo < 0)), ds) ∧ 2 ≤ ds.length ∧
        (ds.head? = some '0' → ds.length = 2) := by
    intro N e
    rw [sciNumeral_expo]
    exact ⟨expDigits e, rfl, expDigits_facts e⟩
  by_cases h0 : x.value = 0
  · refine ⟨sciNumeral x.signbit p 0 0, ?_, mantNumeral_ok _ _ _ (hex 0), rfl, ⟨'0', ?_, ?_⟩, hfp _ _,
      hfr _ _, hE _ _, fun _ => ⟨?_, sciNumeral_expo ..⟩, fun h => absurd h0 h⟩
    · rw [numText_finite _ _ hx, sciNumeral_text]
      show _ ++ sciText p |x.value| = _
      have hz : |x.value| = 0 := by rw [h0, abs_zero]
      unfold sciText
      rw [if_pos hz]
    · show natDigits (0 / 10 ^ p) = _
      rw [Nat.zero_div, natDigits_digit (by norm_num)]; rfl
    · simp [h0]
    · rw [sciNumeral_value]; simp
  · have hpos : 0 < |x.value| := abs_pos.2 h0
    obtain ⟨a, b, -⟩ := sciParts_spec p hpos
    have hd : (sciParts p |x.value|).1 / 10 ^ p < 10 := by
      rw [Nat.div_lt_iff_lt_mul (by positivity), ← pow_succ']; exact b
    have hd0 : (sciParts p |x.value|).1 / 10 ^ p ≠ 0 :=
      Nat.pos_iff_ne_zero.1 (Nat.div_pos a (by positivity))
    refine ⟨sciNumeral x.signbit p (sciParts p |x.value|).1 (sciParts p |x.value|).2, ?_,
      mantNumeral_ok _ _ _ (hex _), rfl, ⟨_, natDigits_digit hd, ?_⟩, hfp _ _, hfr _ _, hE _ _,
      fun h => absurd h h0, fun _ => ?_⟩
    · rw [numText_finite _ _ hx, sciNumeral_text]
      show _ ++ sciText p |x.value| = _
      unfold sciText
      rw [if_neg hpos.ne']
    · exact iff_of_false (digitChar_ne_zero _ hd hd0) h0
    · rw [sciNumeral_value]
      obtain ⟨k, m, c1, c2, c3, c4⟩ := sciParts_near p hpos
      rw [c3]
      exact ⟨k, m, c1, c2, rfl, c4⟩

/-! ## Writing without a format -/

/-- Digits without trailing zeros. -/
def trimZ (cs : List Char) : List Char := (cs.reverse.dropWhile (· == '0')).reverse

theorem trimZ_spec (cs : List Char) : ∃ k, cs = trimZ cs ++ List.replicate k '0' := by
  refine ⟨(cs.reverse.takeWhile (· == '0')).length, ?_⟩
  have h1 : cs.reverse.takeWhile (· == '0') =
      List.replicate (cs.reverse.takeWhile (· == '0')).length '0' :=
    List.eq_replicate_iff.2 ⟨rfl, fun c hc => by simpa using mem_takeWhile_prop hc⟩
  have h2 : cs.reverse = cs.reverse.takeWhile (· == '0') ++ cs.reverse.dropWhile (· == '0') :=
    (List.takeWhile_append_dropWhile ..).symm
  have h3 := congrArg List.reverse h2
  rw [List.reverse_reverse, List.reverse_append] at h3
  conv_lhs => rw [h3]
  unfold trimZ
  congr 1
  conv_lhs => rw [h1, List.reverse_replicate]

theorem trimZ_last (cs : List Char) : (trimZ cs).getLast? ≠ some '0' := by
  unfold trimZ
  rw [List.getLast?_reverse]
  intro h
  have := List.head?_dropWhile_not (· == '0') cs.reverse
  rw [h] at this
  simp at this

theorem trimZ_dig {cs : List Char} (h : AllDig cs) : AllDig (trimZ cs) := by
  obtain ⟨k, hk⟩ := trimZ_spec cs
  intro c hc
  exact h c (by rw [hk]; exact List.mem_append_left _ hc)

theorem strip_nopoint {I : List Char} (hI : AllDig I) : stripZeros I = I := by
  unfold stripZeros
  rw [if_neg]
  intro h
  rw [List.contains_iff_mem] at h
  exact (dig_facts (hI _ h)).2.2.1 rfl

theorem strip_point {I F : List Char} (hI : AllDig I) (hF : AllDig F) :
    stripZeros (I ++ '.' :: F) = I ++ (if trimZ F = [] then [] else '.' :: trimZ F) := by
  unfold stripZeros
  rw [if_pos (by simp)]
  have hr : (I ++ '.' :: F).reverse = F.reverse ++ '.' :: I.reverse := by simp
  rw [hr, List.dropWhile_append]
  have hI' : I.reverse.dropWhile (· == '.') = I.reverse := by
    rcases hc : I.reverse with _ | ⟨c, cs⟩
    · rfl
    · have hm : c ∈ I := by rw [← List.mem_reverse, hc]; simp
      have := (dig_facts (hI c hm)).2.2.1
      simp [this]
  by_cases h0 : trimZ F = []
  · have h1 : F.reverse.dropWhile (· == '0') = [] := by
      unfold trimZ at h0; simpa using h0
    rw [if_pos h0, h1]
    simp [hI']
  · have h1 : F.reverse.dropWhile (· == '0') ≠ [] := by
      intro h; apply h0; unfold trimZ; rw [h]; rfl
    rw [if_neg h0]
    unfold trimZ at *
    have hd := trimZ_dig hF
    unfold trimZ at hd
    generalize F.reverse.dropWhile (· == '0') = D at *
    rcases D with _ | ⟨d, D⟩
    · exact absurd rfl h1
    · have := (dig_facts (hd d (by simp))).2.2.1
      simp [this]

/-- A significand without trailing zeros after the point. -/
def trimNumeral (neg : Bool) (p n : ℕ) (ex : Option (Char × Option Bool × List Char)) : Numeral :=
  ⟨if neg then some true else none, natDigits (n / 10 ^ p),
    if trimZ (fixedDigits p (n % 10 ^ p)) = [] then none else some (trimZ (fixedDigits p (n % 10 ^ p))), ex⟩

theorem trimNumeral_frac (neg : Bool) (p n : ℕ) (ex) :
    (trimNumeral neg p n ex).frac = trimZ (fixedDigits p (n % 10 ^ p)) := by
  unfold trimNumeral Numeral.frac
  dsimp only
  split_ifs with h
  · rw [h]; rfl
  · rfl

theorem digitsVal_zeros (k : ℕ) : digitsVal (List.replicate k '0') = 0 := by
  induction k with
  | zero => rfl
  | succ k ih => rw [List.replicate_succ', digitsVal_snoc, ih]; rfl

theorem trimNumeral_value (neg : Bool) (p n : ℕ) (ex) :
    (trimNumeral neg p n ex).value = (n : ℚ) * (10 : ℚ) ^ ((trimNumeral neg p n ex).expo - (p : ℤ)) := by
  obtain ⟨k, hk⟩ := trimZ_spec (fixedDigits p (n % 10 ^ p))
  have hlen : (trimZ (fixedDigits p (n % 10 ^ p))).length + k = p := by
    have := congrArg List.length hk
    rw [fixedDigits_length, List.length_append, List.length_replicate] at this
    exact this.symm
  have hn : n = (trimNumeral neg p n ex).mant * 10 ^ k := by
    unfold Numeral.mant
    rw [trimNumeral_frac, natVal_eq]
    show n = digitsVal (natDigits (n / 10 ^ p) ++ _) * 10 ^ k
    conv_lhs => rw [← mant_val p n, hk, ← List.append_assoc, digitsVal_append, digitsVal_zeros,
      List.length_replicate]
    omega
  have hn' : (n : ℚ) = ((trimNumeral neg p n ex).mant : ℚ) * (10 : ℚ) ^ (k : ℤ) := by
    rw [zpow_natCast]; exact_mod_cast hn
  unfold Numeral.value
  rw [trimNumeral_frac]
  generalize (trimNumeral neg p n ex).mant = A at hn'
  generalize (trimNumeral neg p n ex).expo = B
  rw [hn', mul_assoc, ← zpow_add₀ (by norm_num)]
  congr 2
  omega

theorem trimNumeral_text (neg : Bool) (p n : ℕ) (ex) :
    (trimNumeral neg p n ex).text = (if neg then ['-'] else []) ++ (stripZeros (mantText p n) ++
      (match ex with | none => [] | some (c, s, ds) => c :: (Numeral.signText s ++ ds))) := by
  have hm : stripZeros (mantText p n) = natDigits (n / 10 ^ p) ++
      (if trimZ (fixedDigits p (n % 10 ^ p)) = [] then [] else '.' :: trimZ (fixedDigits p (n % 10 ^ p))) := by
    unfold mantText fracText
    split_ifs with h1 h2 h2
    · rw [List.append_nil]; exact strip_nopoint (natDigits_dig _)
    · subst h1; exact absurd rfl h2
    · rw [strip_point (natDigits_dig _) (fixedDigits_dig _ _), if_pos h2]
    · rw [strip_point (natDigits_dig _) (fixedDigits_dig _ _), if_neg h2]
  rw [hm]
  unfold Numeral.text trimNumeral
  dsimp only
  cases neg <;> split_ifs <;> rcases ex with _ | ⟨_, _, _⟩ <;> simp [Numeral.signText]

theorem trimNumeral_ok (neg : Bool) (p n : ℕ) {ex : Option (Char × Option Bool × List Char)}
    (h : ∀ c s ds, ex = some (c, s, ds) → (c = 'e' ∨ c = 'E') ∧ ds ≠ [] ∧ ∀ d ∈ ds, d.isDigit = true) :
    (trimNumeral neg p n ex).Ok := by
  refine ⟨(allDig_iff _).2 (natDigits_dig _), (allDig_iff _).2 ?_, ?_, h⟩
  · rw [trimNumeral_frac]; exact trimZ_dig (fixedDigits_dig _ _)
  · intro hn
    exact natDigits_ne_nil _ (List.append_eq_nil_iff.1 hn).1

theorem trimNumeral_fp (neg : Bool) (p n : ℕ) (ex) : (trimNumeral neg p n ex).fp ≠ some [] := by
  unfold trimNumeral
  dsimp only
  split_ifs with h
  · simp
  · simpa using h

/-- Rounding to the last place that e-notation shows gives the significand of e-notation. -/
theorem sciParts_rhe (p : ℕ) {v : ℚ} (hv : 0 < v) :
    F64.rhe (v / (10 : ℚ) ^ ((sciParts p v).2 - (p : ℤ))) = ((sciParts p v).1 : ℤ) := by
  unfold sciParts
  dsimp only
  set e := Int.log 10 v
  have hU : (0 : ℚ) < (10 : ℚ) ^ (e - (p : ℤ)) := zpow_pos (by norm_num) _
  have hn := toNat_rhe (x := v / (10 : ℚ) ^ (e - (p : ℤ))) (by positivity)
  have herr := F64.rhe_err (v / (10 : ℚ) ^ (e - (p : ℤ)))
  split
  · rename_i heq
    dsimp only
    rw [heq] at hn
    rw [← hn] at herr
    have e1 : v / (10 : ℚ) ^ (e + 1 - (p : ℤ)) = v / (10 : ℚ) ^ (e - (p : ℤ)) / 10 := by
      rw [show e + 1 - (p : ℤ) = (e - p) + 1 by ring, zpow_add₀ (by norm_num), zpow_one]
      field_simp
    rw [e1]
    apply F64.rhe_eq
    left
    push_cast at herr ⊢
    rw [pow_succ] at herr
    generalize v / (10 : ℚ) ^ (e - (p : ℤ)) = t at herr
    generalize (10 : ℚ) ^ p = a at herr
    rw [abs_le] at herr
    rw [abs_lt]
    constructor <;> linarith
  · dsimp only
    exact hn.symm

/-- **C95.** A finite double written without a format and with precision `p` (one if `p` is zero) is a decimal
numeral with a minus sign exactly if the sign bit is set, without trailing zeros after the point or a bare
point and without superfluous leading zeros, whose value is the double rounded to `p` significant digits,
ties to even; with `10^X` the decimal place of the first digit of that value, the numeral has an exponent exactly
if `X` is below `-4` or at least `p`, then equal to `X` with one digit before the point. -/
theorem C95_general (p : ℕ) {x : F64} (hx : x.Finite) :
    ∃ n : Numeral, numText .general p x = n.text ∧ n.Ok ∧
      n.sign = (if x.signbit then some true else none) ∧
      n.fp ≠ some [] ∧ n.frac.getLast? ≠ some '0' ∧
      n.ip ≠ [] ∧ (n.ip.head? = some '0' → n.ip = ['0']) ∧
      (x.value = 0 → n.value = 0 ∧ n.ex = none) ∧
      (x.value ≠ 0 → (∃ (k : ℤ) (m : ℕ), (10 : ℚ) ^ k ≤ |x.value| ∧ |x.value| < (10 : ℚ) ^ (k + 1) ∧
          n.value = m * (10 : ℚ) ^ (k + 1 - (max p 1 : ℕ)) ∧
          (|n.value - (|x.value|)| < 1 / 2 * (10 : ℚ) ^ (k + 1 - (max p 1 : ℕ)) ∨
            (|n.value - (|x.value|)| = 1 / 2 * (10 : ℚ) ^ (k + 1 - (max p 1 : ℕ)) ∧ Even m))) ∧
        ∃ X : ℤ, (10 : ℚ) ^ X ≤ n.value ∧ n.value < (10 : ℚ) ^ (X + 1) ∧
          (-4 ≤ X ∧ X < (max p 1 : ℕ) → n.ex = none) ∧
          (¬(-4 ≤ X ∧ X < (max p 1 : ℕ)) → n.expo = X ∧ (∃ d, n.ip = [d]) ∧
            ∃ ds, n.ex = some ('e', some (decide (X < 0)), ds) ∧ 2 ≤ ds.length ∧
              (ds.head? = some '0' → ds.length = 2))) := by
  have hq : (if p = 0 then 1 else p) = max p 1 := by split_ifs <;> omega
  by_cases h0 : x.value = 0
  · refine ⟨trimNumeral x.signbit (max p 1 - 1) 0 none, ?_, trimNumeral_ok _ _ _ (by simp), rfl,
      trimNumeral_fp _ _ _ _, ?_, natDigits_ne_nil _, natDigits_head _, fun _ => ⟨?_, rfl⟩, fun h => absurd h0 h⟩
    · rw [numText_finite _ _ hx, trimNumeral_text, h0, abs_zero]
      show _ ++ generalText p 0 = _
      unfold generalText
      dsimp only
      have hc : (-4 : ℤ) ≤ 0 ∧ (0 : ℤ) < (max p 1 : ℕ) := ⟨by norm_num, by positivity⟩
      rw [hq, if_pos rfl, if_pos hc]
      simp only [List.append_nil]
      unfold fixedText mantText
      have : ((max p 1 : ℕ) - 1 - 0 : ℤ).toNat = max p 1 - 1 := by omega
      rw [this, zero_mul]
      have : (F64.rhe (0 : ℚ)) = 0 := by simpa using F64.rhe_int (K := ℚ) 0
      rw [this]
      rfl
    · rw [trimNumeral_frac]; exact trimZ_last _
    · rw [trimNumeral_value]; simp
  · have hpos : 0 < |x.value| := abs_pos.2 h0
    set v := |x.value| with hv
    obtain ⟨P, hP⟩ : ∃ P, max p 1 = P + 1 := ⟨max p 1 - 1, by omega⟩
    obtain ⟨a, b, -⟩ := sciParts_spec P hpos
    obtain ⟨k, m, c1, c2, c3, c4⟩ := sciParts_near P hpos
    have hr := sciParts_rhe P hpos
    set M := (sciParts P v).1 with hM
    set X := (sciParts P v).2 with hX
    have hk : ∀ k : ℤ, k + 1 - ((P + 1 : ℕ) : ℤ) = k - (P : ℤ) := by intro k; push_cast; ring
    have hU : (0 : ℚ) < (10 : ℚ) ^ (X - (P : ℤ)) := zpow_pos (by norm_num) _
    have hlo : (10 : ℚ) ^ X ≤ (M : ℚ) * (10 : ℚ) ^ (X - (P : ℤ)) := by
      have e : (10 : ℚ) ^ X = 10 ^ P * (10 : ℚ) ^ (X - (P : ℤ)) := by
        rw [← zpow_natCast, ← zpow_add₀ (by norm_num)]; congr 1; ring
      rw [e]
      exact mul_le_mul_of_nonneg_right (by exact_mod_cast a) hU.le
    have hhi : (M : ℚ) * (10 : ℚ) ^ (X - (P : ℤ)) < (10 : ℚ) ^ (X + 1) := by
      have e : (10 : ℚ) ^ (X + 1) = 10 ^ (P + 1) * (10 : ℚ) ^ (X - (P : ℤ)) := by
        rw [← zpow_natCast, ← zpow_add₀ (by norm_num)]; congr 1; push_cast; ring
      rw [e]
      exact mul_lt_mul_of_pos_right (by exact_mod_cast b) hU
    have hgen : generalText p v = if -4 ≤ X ∧ X < (max p 1 : ℕ) then
        stripZeros (fixedText (((max p 1 : ℕ) : ℤ) - 1 - X).toNat v)
        else stripZeros (mantText P M) ++ 'e' :: expText X := by
      unfold generalText
      dsimp only
      rw [hq, hP, Nat.add_sub_cancel, if_neg hpos.ne']
    rw [hP]
    simp only [hk]
    rw [hP] at hgen
    by_cases hstyle : -4 ≤ X ∧ X < ((P + 1 : ℕ) : ℤ)
    · obtain ⟨D, hD⟩ : ∃ D : ℕ, (D : ℤ) = P - X := ⟨((P : ℤ) - X).toNat, by
        have := hstyle.2; push_cast at this; omega⟩
      have hDD : (((P + 1 : ℕ) : ℤ) - 1 - X).toNat = D := by push_cast; omega
      have hunit : v * 10 ^ D = v / (10 : ℚ) ^ (X - (P : ℤ)) := by
        rw [show X - (P : ℤ) = -(D : ℤ) by omega, zpow_neg, zpow_natCast, div_inv_eq_mul]
      have hfix : fixedText D v = mantText D M := by
        unfold fixedText mantText
        dsimp only
        rw [hunit, hr, Int.toNat_natCast]
      have hval : (trimNumeral x.signbit D M none).value = (M : ℚ) * (10 : ℚ) ^ (X - (P : ℤ)) := by
        rw [trimNumeral_value]
        show _ * (10 : ℚ) ^ ((0 : ℤ) - D) = _
        congr 2; omega
      refine ⟨trimNumeral x.signbit D M none, ?_, trimNumeral_ok _ _ _ (by simp), rfl,
        trimNumeral_fp _ _ _ _, ?_, natDigits_ne_nil _, natDigits_head _, fun h => absurd h h0, fun _ => ⟨?_, ?_⟩⟩
      · rw [numText_finite _ _ hx, trimNumeral_text]
        show _ ++ generalText p v = _
        rw [hgen, if_pos hstyle, hDD, hfix]
        simp only [List.append_nil]
      · rw [trimNumeral_frac]; exact trimZ_last _
      · rw [hval, c3]; exact ⟨k, m, c1, c2, rfl, c4⟩
      · rw [hval]
        exact ⟨X, hlo, hhi, fun _ => rfl, fun h => absurd hstyle h⟩
    · have hexp : (trimNumeral x.signbit P M (some ('e', some (decide (X < 0)), expDigits X))).expo = X :=
        sciNumeral_expo x.signbit P M X
      have hval : (trimNumeral x.signbit P M (some ('e', some (decide (X < 0)), expDigits X))).value =
          (M : ℚ) * (10 : ℚ) ^ (X - (P : ℤ)) := by
        rw [trimNumeral_value, hexp]
      have hd : M / 10 ^ P < 10 := by
        rw [Nat.div_lt_iff_lt_mul (by positivity), ← pow_succ']; exact b
      refine ⟨trimNumeral x.signbit P M (some ('e', some (decide (X < 0)), expDigits X)), ?_,
        trimNumeral_ok _ _ _ ?_, rfl,
        trimNumeral_fp _ _ _ _, ?_, natDigits_ne_nil _, natDigits_head _, fun h => absurd h h0, fun _ => ⟨?_, ?_⟩⟩
      · rw [numText_finite _ _ hx, trimNumeral_text]
        show _ ++ generalText p v = _
        rw [hgen, if_neg hstyle, expText_eq]
        by_cases he : X < 0 <;> simp [he, Numeral.signText]
      · intro c s ds h
        simp only [Option.some.injEq, Prod.mk.injEq] at h
        obtain ⟨rfl, -, rfl⟩ := h
        exact ⟨Or.inl rfl, expDigits_ne_nil X, (allDig_iff _).2 (expDigits_dig X)⟩
      · rw [trimNumeral_frac]; exact trimZ_last _
      · rw [hval, c3]; exact ⟨k, m, c1, c2, rfl, c4⟩
      · rw [hval]
        exact ⟨X, hlo, hhi, fun h => absurd h hstyle, fun _ => ⟨hexp, ⟨_, natDigits_digit hd⟩,
          expDigits X, rfl, expDigits_facts X⟩⟩

/-! ## Hypotheses met -/

/-- `-12.50e+03` followed by a line end is a numeral. -/
example : let n : Numeral := ⟨some true, ['1', '2'], some ['5', '0'], some ('e', some false, ['0', '3'])⟩
    n.Ok ∧ n.text = "-12.50e+03".toList ∧ n.value = 12500 ∧ n.minus = true ∧
      (∀ c ∈ ['\n'].head?, Blank c) := by
  refine ⟨⟨by decide, by decide, by decide, ?_⟩, by decide, ?_, rfl, by unfold Blank; decide⟩
  · intro c s ds h
    simp only [Option.some.injEq, Prod.mk.injEq] at h
    obtain ⟨rfl, rfl, rfl⟩ := h
    decide
  · unfold Numeral.value Numeral.mant Numeral.expo natVal Numeral.frac
    norm_num [Nat.ofDigits, show '0'.toNat = 48 from rfl, show '1'.toNat = 49 from rfl,
      show '2'.toNat = 50 from rfl, show '3'.toNat = 51 from rfl, show '5'.toNat = 53 from rfl]

/-- Reading `.5` succeeds. -/
example : ∃ y, extractDub ⟨['.', '5'], false, false⟩ (.zero false) = (⟨[], true, false⟩, y) := by
  obtain ⟨f, y, h, -, h2, -⟩ := C95_read (n := ⟨none, [], some ['5'], none⟩)
    ⟨by decide, by decide, by decide, by simp⟩ (ws := []) (rest := []) (by simp) (by simp) (.zero false)
  have hv : Numeral.value ⟨none, [], some ['5'], none⟩ = 1 / 2 := by
    unfold Numeral.value Numeral.mant Numeral.expo natVal Numeral.frac
    norm_num [Nat.ofDigits, show '0'.toNat = 48 from rfl, show '1'.toNat = 49 from rfl,
      show '2'.toNat = 50 from rfl, show '3'.toNat = 51 from rfl, show '5'.toNat = 53 from rfl]
  obtain ⟨rfl, -⟩ := h2 (by rw [hv]; norm_num) (by
    rw [hv]
    have : (2 : ℚ) ^ 970 * 2 ≤ 2 ^ 1024 := by
      rw [← pow_succ]; exact pow_le_pow_right₀ (by norm_num) (by norm_num)
    have h1 : (1 : ℚ) ≤ 2 ^ 970 := one_le_pow₀ (by norm_num)
    clear h2 h
    generalize (2 : ℚ) ^ 970 = a at *
    generalize (2 : ℚ) ^ 1024 = b at *
    linarith)
  exact ⟨y, h⟩

/-- A text that is not a numeral: `1e` and a comma.  The token is `1e`. -/
example : (∀ c ∈ ['1', 'e', ','].head?, ¬Blank c) ∧
    extractDub ⟨['1', 'e', ','], false, false⟩ 1 = (⟨[','], false, true⟩, .zero false) := by
  refine ⟨by unfold Blank; decide, ?_⟩
  simp [extractDub, scanNum, scanSign, scanFrac, scanExp, isWs, isDig, NumTok.convert, List.span_eq_takeWhile_dropWhile]

/-- The largest negative double is finite. -/
example : (maxDub true).Finite ∧ (maxDub true).signbit = true := by
  refine ⟨trivial, ?_⟩
  unfold maxDub F64.signbit
  simp only [if_true, decide_eq_true_iff]
  have : (0 : ℚ) < 2 ^ (971 : ℤ) := F64.two_zpow_pos _
  exact mul_neg_of_neg_of_pos (by norm_num) this

end Engabra
