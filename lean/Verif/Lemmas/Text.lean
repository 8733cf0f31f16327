import Verif.Model.IO
import Verif.Lemmas.F64

/-! Lemmas on decimal text: digits, scanning, the text of a number read back. -/

namespace Engabra

/-! ## Digits -/

theorem digit_facts : ∀ d < 10, digitVal (digitChar d) = d ∧ isDig (digitChar d) = true ∧
    isWs (digitChar d) = false ∧ digitChar d ≠ '-' ∧ digitChar d ≠ '+' := by decide

theorem digitVal_digitChar {d : Nat} (h : d < 10) : digitVal (digitChar d) = d :=
  (digit_facts d h).1

/-- All characters are digits. -/
def AllDig (cs : List Char) : Prop := ∀ c ∈ cs, isDig c = true

theorem AllDig.append {a b : List Char} (ha : AllDig a) (hb : AllDig b) : AllDig (a ++ b) := by
  intro c hc
  rcases List.mem_append.1 hc with h | h
  exacts [ha c h, hb c h]

theorem allDig_single {d : Nat} (h : d < 10) : AllDig [digitChar d] := by
  intro c hc
  rw [List.mem_singleton.1 hc]; exact (digit_facts d h).2.1

theorem fixedDigits_length (p n : Nat) : (fixedDigits p n).length = p := by
  induction p generalizing n with
  | zero => rfl
  | succ p ih => simp [fixedDigits, ih]

theorem fixedDigits_dig (p n : Nat) : AllDig (fixedDigits p n) := by
  induction p generalizing n with
  | zero => intro c hc; simp [fixedDigits] at hc
  | succ p ih => exact (ih _).append (allDig_single (Nat.mod_lt _ (by norm_num)))

theorem natDigits_dig (n : Nat) : AllDig (natDigits n) := by
  induction n using natDigits.induct with
  | case1 n h => rw [natDigits, if_pos h]; exact allDig_single h
  | case2 n h ih =>
    rw [natDigits, if_neg h]; exact ih.append (allDig_single (Nat.mod_lt _ (by norm_num)))

theorem natDigits_ne_nil (n : Nat) : natDigits n ≠ [] := by
  rw [natDigits]; split <;> simp

theorem digitsVal_snoc (cs : List Char) (c : Char) :
    digitsVal (cs ++ [c]) = 10 * digitsVal cs + digitVal c := by
  simp [digitsVal, List.foldl_append]

theorem digitsVal_append (a b : List Char) :
    digitsVal (a ++ b) = digitsVal a * 10 ^ b.length + digitsVal b := by
  induction b using List.reverseRecOn with
  | nil => simp [digitsVal]
  | append_singleton b c ih =>
    rw [← List.append_assoc, digitsVal_snoc, ih, digitsVal_snoc, List.length_append,
      List.length_singleton, pow_succ]
    ring

theorem digitsVal_fixedDigits (p n : Nat) : digitsVal (fixedDigits p n) = n % 10 ^ p := by
  induction p generalizing n with
  | zero => simp [fixedDigits, digitsVal, Nat.mod_one]
  | succ p ih =>
    rw [fixedDigits, digitsVal_snoc, ih, digitVal_digitChar (Nat.mod_lt _ (by norm_num)), pow_succ,
      mul_comm (10 ^ p) 10, Nat.mod_mul]
    ring

theorem digitsVal_natDigits (n : Nat) : digitsVal (natDigits n) = n := by
  induction n using natDigits.induct with
  | case1 n h =>
    rw [natDigits, if_pos h]
    simp [digitsVal, digitVal_digitChar h]
  | case2 n h ih =>
    rw [natDigits, if_neg h, digitsVal_snoc, ih, digitVal_digitChar (Nat.mod_lt _ (by norm_num))]
    omega

theorem natDigits_length_pos (n : Nat) : 1 ≤ (natDigits n).length :=
  List.length_pos_iff.2 (natDigits_ne_nil n)

theorem natDigits_length_le (n k : Nat) (hk : 1 ≤ k) (h : n < 10 ^ k) :
    (natDigits n).length ≤ k := by
  induction n using natDigits.induct generalizing k with
  | case1 n h' => rw [natDigits, if_pos h']; simpa using hk
  | case2 n h' ih =>
    rw [natDigits, if_neg h', List.length_append, List.length_singleton]
    rcases k with _ | _ | k
    · omega
    · simp at h; omega
    · have := ih (k + 1) (by omega) (by
        rw [Nat.div_lt_iff_lt_mul (by norm_num)]; rwa [pow_succ] at h)
      omega

theorem natDigits_length_ge (n k : Nat) (h : 10 ^ k ≤ n) : k + 1 ≤ (natDigits n).length := by
  induction n using natDigits.induct generalizing k with
  | case1 n h' =>
    rcases k with _ | k
    · exact natDigits_length_pos n
    · have : 10 ^ 1 ≤ 10 ^ (k + 1) := Nat.pow_le_pow_right (by norm_num) (by omega)
      omega
  | case2 n h' ih =>
    rw [natDigits, if_neg h', List.length_append, List.length_singleton]
    rcases k with _ | k
    · omega
    · have := ih k (by rw [Nat.le_div_iff_mul_le (by norm_num)]; rwa [pow_succ] at h)
      omega

/-! ## Scanning -/

/-- What may follow a number: nothing, or white space. -/
def Ends (rest : List Char) : Prop := ∀ c ∈ rest.head?, isWs c = true

theorem ends_nil : Ends [] := by intro c hc; simp at hc

theorem ends_space (cs : List Char) : Ends (' ' :: cs) := by
  intro c hc
  simp at hc
  subst hc; decide

theorem ws_facts {c : Char} (h : isWs c = true) :
    isDig c = false ∧ c ≠ '.' ∧ c ≠ 'e' ∧ c ≠ 'E' ∧ c ≠ '-' ∧ c ≠ '+' := by
  unfold isWs at h
  have h' : c.toNat = 32 ∨ (9 ≤ c.toNat ∧ c.toNat ≤ 13) := by
    simp only [Bool.or_eq_true, Bool.and_eq_true, decide_eq_true_eq, beq_iff_eq] at h
    rcases h with h | h
    · left; subst h; rfl
    · right; exact h
  refine ⟨?_, ?_, ?_, ?_, ?_, ?_⟩
  · unfold isDig
    simp only [Bool.and_eq_false_iff, decide_eq_false_iff_not]; omega
  all_goals (rintro rfl; simp at h')

theorem span_dig {ds rest : List Char} (hd : AllDig ds)
    (hr : ∀ c ∈ rest.head?, isDig c = false) : (ds ++ rest).span isDig = (ds, rest) := by
  rw [List.span_eq_takeWhile_dropWhile]
  have h1 : ∀ c ∈ ds, isDig c = true := hd
  rw [List.takeWhile_append_of_pos h1, List.dropWhile_append_of_pos h1]
  rcases rest with _ | ⟨c, cs⟩
  · simp
  · have := hr c (by simp)
    simp [this]

theorem dig_facts {c : Char} (h : isDig c = true) :
    c ≠ '-' ∧ c ≠ '+' ∧ c ≠ '.' ∧ c ≠ 'e' ∧ c ≠ 'E' ∧ isWs c = false := by
  unfold isDig at h
  simp only [Bool.and_eq_true, decide_eq_true_eq] at h
  refine ⟨?_, ?_, ?_, ?_, ?_, ?_⟩
  iterate 5 (rintro rfl; simp at h)
  unfold isWs
  simp only [Bool.or_eq_false_iff, Bool.and_eq_false_iff, decide_eq_false_iff_not, beq_eq_false_iff_ne]
  refine ⟨?_, by omega⟩
  rintro rfl; simp at h

theorem scanSign_of_dig {cs rest : List Char} (h : AllDig cs) (hn : cs ≠ []) :
    scanSign (cs ++ rest) = (false, cs ++ rest) := by
  rcases cs with _ | ⟨c, cs⟩
  · exact absurd rfl hn
  · have := dig_facts (h c (by simp))
    simp [scanSign, this.1, this.2.1]

/-- Sign characters. -/
def sgn (neg : Bool) : List Char := if neg then ['-'] else []

theorem scanSign_sgn {neg : Bool} {cs rest : List Char} (h : AllDig cs) (hn : cs ≠ []) :
    scanSign (sgn neg ++ (cs ++ rest)) = (neg, cs ++ rest) := by
  cases neg
  · simp only [sgn, Bool.false_eq_true, if_false, List.nil_append]
    exact scanSign_of_dig h hn
  · simp [sgn, scanSign]

theorem fracText_eq (p n : Nat) :
    fracText p n = if p = 0 then [] else '.' :: fixedDigits p n := rfl

theorem scanFrac_fracText {p n : Nat} {rest : List Char} (hr : ∀ c ∈ rest.head?, isDig c = false ∧ c ≠ '.') :
    scanFrac (fracText p n ++ rest) = (fixedDigits p n, rest) := by
  unfold fracText
  split
  · rename_i h
    subst h
    rcases rest with _ | ⟨c, cs⟩
    · rfl
    · have := (hr c (by simp)).2
      simp [scanFrac, this, fixedDigits]
  · simp only [List.cons_append, scanFrac, if_true]
    exact span_dig (fixedDigits_dig p n) (fun c hc => (hr c hc).1)

theorem fracText_head {p n : Nat} {rest : List Char} (hr : ∀ c ∈ rest.head?, isDig c = false) :
    ∀ c ∈ (fracText p n ++ rest).head?, isDig c = false := by
  unfold fracText
  split
  · simpa using hr
  · intro c hc
    simp at hc
    subst hc; decide

/-- The exponent digits. -/
def expDigits (e : ℤ) : List Char :=
  if e.natAbs < 10 then '0' :: natDigits e.natAbs else natDigits e.natAbs

theorem expText_eq (e : ℤ) : expText e = (if e < 0 then '-' else '+') :: expDigits e := rfl

theorem expDigits_dig (e : ℤ) : AllDig (expDigits e) := by
  unfold expDigits
  split
  · intro c hc
    rcases List.mem_cons.1 hc with h | h
    · subst h; decide
    · exact natDigits_dig _ c h
  · exact natDigits_dig _

theorem expDigits_ne_nil (e : ℤ) : expDigits e ≠ [] := by
  unfold expDigits
  split
  · simp
  · exact natDigits_ne_nil _

theorem digitsVal_expDigits (e : ℤ) : digitsVal (expDigits e) = e.natAbs := by
  unfold expDigits
  split
  · have : digitsVal ('0' :: natDigits e.natAbs) = digitsVal (['0'] ++ natDigits e.natAbs) := rfl
    rw [this, digitsVal_append, digitsVal_natDigits]
    have : digitsVal ['0'] = 0 := by decide
    rw [this]; ring
  · exact digitsVal_natDigits _

theorem scanExp_expText {e : ℤ} {rest : List Char} (hr : ∀ c ∈ rest.head?, isDig c = false) :
    scanExp true ('e' :: (expText e ++ rest)) = (some (decide (e < 0), expDigits e), rest) := by
  have hs : scanSign (expText e ++ rest) = (decide (e < 0), expDigits e ++ rest) := by
    rw [expText_eq]
    by_cases he : e < 0
    · simp [he, scanSign]
    · simp [he, scanSign]
  unfold scanExp
  dsimp only
  rw [if_pos ⟨Or.inl rfl, rfl⟩, hs, span_dig (expDigits_dig e) hr]

theorem scanNum_sci (neg : Bool) (p n : Nat) (e : ℤ) {rest : List Char}
    (hr : ∀ c ∈ rest.head?, isDig c = false) :
    scanNum (sgn neg ++ mantText p n ++ 'e' :: expText e ++ rest) =
      (⟨neg, natDigits (n / 10 ^ p), fixedDigits p (n % 10 ^ p),
        some (decide (e < 0), expDigits e)⟩, rest) := by
  have h0 : sgn neg ++ mantText p n ++ 'e' :: expText e ++ rest =
      sgn neg ++ (natDigits (n / 10 ^ p) ++
        (fracText p (n % 10 ^ p) ++ 'e' :: (expText e ++ rest))) := by
    simp [mantText]
  have he : ∀ c ∈ ('e' :: (expText e ++ rest)).head?, isDig c = false ∧ c ≠ '.' := by
    intro c hc
    simp at hc
    subst hc; decide
  have hemp : (natDigits (n / 10 ^ p)).isEmpty = false := by
    rw [List.isEmpty_eq_false_iff]; exact natDigits_ne_nil _
  unfold scanNum
  rw [h0, scanSign_sgn (natDigits_dig _) (natDigits_ne_nil _)]
  dsimp only
  rw [span_dig (natDigits_dig _) (fracText_head (fun c hc => (he c hc).1))]
  dsimp only
  rw [scanFrac_fracText he]
  dsimp only
  rw [hemp, Bool.false_and, Bool.not_false, scanExp_expText hr]

theorem scanNum_fixed (neg : Bool) (p n : Nat) {rest : List Char} (hr : Ends rest) :
    scanNum (sgn neg ++ mantText p n ++ rest) =
      (⟨neg, natDigits (n / 10 ^ p), fixedDigits p (n % 10 ^ p), none⟩, rest) := by
  have h0 : sgn neg ++ mantText p n ++ rest =
      sgn neg ++ (natDigits (n / 10 ^ p) ++ (fracText p (n % 10 ^ p) ++ rest)) := by
    simp [mantText]
  have he : ∀ c ∈ rest.head?, isDig c = false ∧ c ≠ '.' := fun c hc =>
    ⟨(ws_facts (hr c hc)).1, (ws_facts (hr c hc)).2.1⟩
  unfold scanNum
  rw [h0, scanSign_sgn (natDigits_dig _) (natDigits_ne_nil _)]
  dsimp only
  rw [span_dig (natDigits_dig _) (fracText_head (fun c hc => (he c hc).1))]
  dsimp only
  rw [scanFrac_fracText he]
  dsimp only
  have : ∀ b, scanExp b rest = (none, rest) := by
    intro b
    rcases rest with _ | ⟨c, cs⟩
    · rfl
    · have := ws_facts (hr c (by simp))
      simp [scanExp, this.2.2.1, this.2.2.2.1]
  rw [this]

theorem mant_val (p n : Nat) :
    digitsVal (natDigits (n / 10 ^ p) ++ fixedDigits p (n % 10 ^ p)) = n := by
  rw [digitsVal_append, digitsVal_natDigits, digitsVal_fixedDigits, fixedDigits_length, Nat.mod_mod]
  exact Nat.div_add_mod' n (10 ^ p)

theorem convert_sci (neg : Bool) (p n : Nat) (e : ℤ) (x : F64)
    (h : decToF64 neg n (e - p) = x) (hx : ∀ s, x ≠ .inf s) :
    NumTok.convert ⟨neg, natDigits (n / 10 ^ p), fixedDigits p (n % 10 ^ p),
        some (decide (e < 0), expDigits e)⟩ = (x, false) := by
  unfold NumTok.convert
  rw [if_neg (fun h => natDigits_ne_nil _ h.1)]
  have hne := expDigits_ne_nil e
  have hv := digitsVal_expDigits e
  generalize expDigits e = ds at hne hv
  rcases ds with _ | ⟨d, ds⟩
  · exact absurd rfl hne
  dsimp only
  have hexp : (if decide (e < 0) = true then -(digitsVal (d :: ds) : ℤ) else digitsVal (d :: ds)) = e := by
    rw [hv]
    by_cases he : e < 0
    · rw [if_pos (by simpa using he)]; omega
    · rw [if_neg (by simpa using he)]; omega
  rw [mant_val, hexp, fixedDigits_length, h]
  rcases x with _ | s | s | ⟨v, hv⟩
  · rfl
  · exact absurd rfl (hx s)
  · rfl
  · rfl

theorem convert_fixed (neg : Bool) (p n : Nat) (x : F64)
    (h : decToF64 neg n (-(p : ℤ)) = x) (hx : ∀ s, x ≠ .inf s) :
    NumTok.convert ⟨neg, natDigits (n / 10 ^ p), fixedDigits p (n % 10 ^ p), none⟩ = (x, false) := by
  unfold NumTok.convert
  rw [if_neg (fun h => natDigits_ne_nil _ h.1)]
  dsimp only
  rw [mant_val, fixedDigits_length, zero_sub, h]
  rcases x with _ | s | s | ⟨v, hv⟩
  · rfl
  · exact absurd rfl (hx s)
  · rfl
  · rfl

/-! ## Extraction of a number -/

/-- Only white space. -/
def AllWs (cs : List Char) : Prop := ∀ c ∈ cs, isWs c = true

theorem allWs_replicate (n : Nat) : AllWs (List.replicate n ' ') := by
  intro c hc
  rw [List.eq_of_mem_replicate hc]; decide

theorem sgn_mant_cons (neg : Bool) (p n : Nat) (rest : List Char) :
    ∃ c cs, sgn neg ++ mantText p n ++ rest = c :: cs ∧ isWs c = false := by
  have hd := natDigits_dig (n / 10 ^ p)
  have hn := natDigits_ne_nil (n / 10 ^ p)
  unfold mantText
  generalize natDigits (n / 10 ^ p) = ds at hd hn
  rcases ds with _ | ⟨d, ds⟩
  · exact absurd rfl hn
  · cases neg
    · exact ⟨d, _, rfl, (dig_facts (hd d (by simp))).2.2.2.2.2⟩
    · exact ⟨'-', _, rfl, by decide⟩

theorem dropWhile_ws {ws : List Char} (hw : AllWs ws) {c : Char} {cs : List Char}
    (hc : isWs c = false) : (ws ++ c :: cs).dropWhile isWs = c :: cs := by
  rw [List.dropWhile_append_of_pos hw]
  simp [hc]

theorem extract_scan {ws txt rest : List Char} {tok : NumTok} {x : F64} (old : F64) (hw : AllWs ws)
    (hc : ∃ c cs, txt ++ rest = c :: cs ∧ isWs c = false)
    (hs : scanNum (txt ++ rest) = (tok, rest)) (hv : tok.convert = (x, false)) :
    extractDub ⟨ws ++ txt ++ rest, false, false⟩ old = (⟨rest, rest.isEmpty, false⟩, x) := by
  obtain ⟨c, cs, hcs, hcw⟩ := hc
  have hdrop : (ws ++ txt ++ rest).dropWhile isWs = txt ++ rest := by
    rw [List.append_assoc, hcs, dropWhile_ws hw hcw]
  have hne : txt ++ rest ≠ [] := by rw [hcs]; simp
  unfold extractDub
  dsimp only
  rw [if_neg (by simp), hdrop, if_neg hne, hs]
  dsimp only
  rw [hv]

theorem ends_not_dig {rest : List Char} (hr : Ends rest) : ∀ c ∈ rest.head?, isDig c = false :=
  fun c hc => (ws_facts (hr c hc)).1

/-- A number in e-notation, preceded by white space and followed by white space or the end. -/
theorem extract_sci {ws rest : List Char} (hw : AllWs ws) (hr : Ends rest) (neg : Bool) (p n : Nat)
    (e : ℤ) (x old : F64) (h : decToF64 neg n (e - p) = x) (hx : ∀ s, x ≠ .inf s) :
    extractDub ⟨ws ++ (sgn neg ++ mantText p n ++ 'e' :: expText e) ++ rest, false, false⟩ old =
      (⟨rest, rest.isEmpty, false⟩, x) := by
  refine extract_scan old hw ?_ (scanNum_sci neg p n e (ends_not_dig hr)) (convert_sci neg p n e x h hx)
  rw [List.append_assoc]
  exact sgn_mant_cons neg p n _

/-- A number in fixed notation, preceded by white space and followed by white space or the
end. -/
theorem extract_fixed {ws rest : List Char} (hw : AllWs ws) (hr : Ends rest) (neg : Bool) (p n : Nat)
    (x old : F64) (h : decToF64 neg n (-(p : ℤ)) = x) (hx : ∀ s, x ≠ .inf s) :
    extractDub ⟨ws ++ (sgn neg ++ mantText p n) ++ rest, false, false⟩ old =
      (⟨rest, rest.isEmpty, false⟩, x) :=
  extract_scan old hw (sgn_mant_cons neg p n _) (scanNum_fixed neg p n hr) (convert_fixed neg p n x h hx)

end Engabra
