import Verif.Props.C29_Extraction

/-! # C30: formatted output -/

namespace Engabra

open F64 (nan inf zero fin IsFin Finite)

/-! ## Specification -/

/-- `n` blanks. -/
def blanks (n : Nat) : List Char := List.replicate n ' '

/-- White-space separated words of a text. -/
def words (cs : List Char) : List (List Char) := cs.splitOnP isWs |>.filter (· ≠ [])

/-- A right-aligned field: the text of the number, padded on the left to width `w`. -/
def field (w : Nat) (num : List Char) : List Char := blanks (w - num.length) ++ num

/-! ## Lemmas -/

/-- A stream whose padding is the default one and which has no pending width. -/
structure Plain (os : OStream) : Prop where
  width : os.width = 0
  fill : os.fill = ' '
  adj : os.adj = .none

theorem plain_fresh : Plain OStream.fresh := ⟨rfl, rfl, rfl⟩

theorem putStr_zero {os : OStream} (h : os.width = 0) (s : List Char) :
    os.putStr s = { os with out := os.out ++ s, width := 0 } := by
  unfold OStream.putStr
  rw [h]
  rcases os.adj <;> simp

theorem Plain.putStr {os : OStream} (h : Plain os) (s : List Char) : Plain (os.putStr s) := by
  rw [putStr_zero h.width]; exact ⟨rfl, h.fill, h.adj⟩

theorem Plain.out_putStr {os : OStream} (h : Plain os) (s : List Char) :
    (os.putStr s).out = os.out ++ s := by
  rw [putStr_zero h.width]

theorem foldl_putStr (parts : List (List Char)) (os : OStream) (h : Plain os) :
    Plain (parts.foldl OStream.putStr os) ∧
      (parts.foldl OStream.putStr os).out = os.out ++ parts.flatten := by
  induction parts generalizing os with
  | nil => exact ⟨h, by simp⟩
  | cons p ps ih =>
    obtain ⟨i1, i2⟩ := ih _ (h.putStr p)
    refine ⟨i1, ?_⟩
    rw [List.foldl_cons, i2, h.out_putStr]; simp

theorem catStr_eq (parts : List (List Char)) : catStr parts = parts.flatten := by
  unfold catStr
  rw [(foldl_putStr parts _ plain_fresh).2]; rfl

/-- Text written by a format object followed by a number. -/
theorem putFixed_spec (fmt : DoubleFormat) {os : OStream} (h : Plain os) (x : F64) :
    Plain ((fmt.prepareFixed os).putDub x) ∧ ((fmt.prepareFixed os).putDub x).out =
      os.out ++ ' ' :: field fmt.fieldWide (numText .fixed fmt.theNumDigFrac x) := by
  unfold DoubleFormat.prepareFixed
  rw [putStr_zero h.width]
  obtain ⟨h1, h2, h3⟩ := h
  unfold OStream.putDub OStream.setFixed OStream.setPrec OStream.setW
  dsimp only
  rw [h2, h3]
  exact ⟨⟨rfl, rfl, rfl⟩, by simp [field, blanks, numText]⟩

theorem putEnote_spec (d : Nat) {os : OStream} (h : Plain os) (x : F64) :
    Plain ((prepareEnote os d).putDub x) ∧ ((prepareEnote os d).putDub x).out =
      os.out ++ field (7 + d) (numText .scientific d x) := by
  obtain ⟨h1, h2, h3⟩ := h
  unfold prepareEnote OStream.putDub OStream.setScientific OStream.setPrec OStream.setW
  dsimp only
  rw [h2, h3]
  exact ⟨⟨rfl, rfl, rfl⟩, by simp [field, blanks, numText]⟩

theorem foldl_fixed (fmt : DoubleFormat) (xs : List F64) (os : OStream) (h : Plain os) :
    (xs.foldl (fun oss elem => (fmt.prepareFixed oss).putDub elem) os).out = os.out ++
      (xs.map fun x => ' ' :: field fmt.fieldWide (numText .fixed fmt.theNumDigFrac x)).flatten := by
  induction xs generalizing os with
  | nil => simp
  | cons x xs ih =>
    obtain ⟨i1, i2⟩ := putFixed_spec fmt h x
    rw [List.foldl_cons, ih _ i1, i2]; simp

theorem enoteLoop_out (d : Nat) (xs : List F64) (n : Nat) (hn : 0 < n) (os : OStream) (h : Plain os) :
    (enoteLoop d n xs os).out = os.out ++
      (xs.map fun x => ' ' :: field (7 + d) (numText .scientific d x)).flatten := by
  induction xs generalizing os n with
  | nil => simp [enoteLoop]
  | cons x xs ih =>
    rw [enoteLoop, if_pos hn]
    obtain ⟨i1, i2⟩ := putEnote_spec d (h.putStr [' ']) x
    rw [ih (n + 1) (by omega) _ i1, i2, h.out_putStr]; simp

/-! ## One number -/

/-- **C30.** `io::fixed(x, digBefore, digAfter)` is a blank followed by the number with
`digAfter` decimals (`%.*f`) right-aligned in a field of `1 + digBefore + 1 + digAfter`
characters. -/
theorem C30_fixed_number (x : F64) (b a : Nat) :
    fixedDub x b a = ' ' :: field (1 + b + 1 + a) (numText .fixed a x) := by
  unfold fixedDub
  dsimp only
  rw [(putFixed_spec ⟨b, a⟩ plain_fresh x).2]
  rfl

/-- **C30.** `io::enote(x, digAfter)` is the number in e-notation (`%.*e`) right-aligned in a
field of `7 + digAfter` characters. -/
theorem C30_enote_number (x : F64) (d : Nat) :
    enoteDub x d = field (7 + d) (numText .scientific d x) := by
  unfold enoteDub
  rw [(putEnote_spec d plain_fresh x).2]
  rfl

theorem field_length (w : Nat) (num : List Char) : (field w num).length = max w num.length := by
  simp [field, blanks]; omega

theorem fracText_length (p n : Nat) : (fracText p n).length = if p = 0 then 0 else p + 1 := by
  unfold fracText; split <;> simp [fixedDigits_length]

theorem signText_length (x : F64) : (signText x).length ≤ 1 := by
  unfold signText; split <;> simp

/-- **C30.** Alignment: when the number, rounded to `digAfter` decimals, has at most `digBefore`
digits before the point, then the text has exactly `2 + digBefore + 1 + digAfter` characters
(leading blank, sign, digits, point, digits). -/
theorem C30_fixed_width (x : F64) (hx : x.Finite) (b a : Nat) (hb : 1 ≤ b)
    (hfit : F64.rhe (|x.value| * 10 ^ a) < 10 ^ (b + a)) :
    (fixedDub x b a).length = 2 + b + 1 + a := by
  rw [C30_fixed_number, List.length_cons, field_length]
  have hnum : (numText .fixed a x).length ≤ 1 + b + 1 + a := by
    unfold numText
    have hbody : (bodyText .fixed a x).length ≤ b + 1 + a := by
      have key : ∀ v : ℚ, 0 ≤ v → F64.rhe (v * 10 ^ a) < 10 ^ (b + a) →
          (fixedText a v).length ≤ b + 1 + a := by
        intro v hv hlt
        unfold fixedText
        dsimp only
        have hn := toNat_rhe (x := v * 10 ^ a) (by positivity)
        have hlt' : (F64.rhe (v * 10 ^ a)).toNat < 10 ^ (b + a) := by
          have : (((F64.rhe (v * 10 ^ a)).toNat : ℕ) : ℤ) < ((10 ^ (b + a) : ℕ) : ℤ) := by
            rw [hn]; push_cast; exact hlt
          exact_mod_cast this
        have hi := natDigits_length_le ((F64.rhe (v * 10 ^ a)).toNat / 10 ^ a) b hb (by
          rw [Nat.div_lt_iff_lt_mul (by positivity), ← pow_add]; exact hlt')
        rw [List.length_append, fracText_length]
        split <;> omega
      cases x with
      | nan => exact absurd hx (by simp [F64.Finite])
      | inf s => exact absurd hx (by simp [F64.Finite])
      | zero s => simpa [bodyText, magText] using key 0 le_rfl (by simpa [F64.value] using hfit)
      | fin v h => simpa [bodyText, magText] using key |v| (abs_nonneg _) (by simpa [F64.value] using hfit)
    have := signText_length x
    rw [List.length_append]; omega
  omega

/-- The hypothesis of `C30_fixed_width` for the default format: `-999.999999` fits. -/
example : F64.rhe (|(-(999999999 : ℚ) / 1000000)| * 10 ^ 6) < 10 ^ (3 + 6) := by
  rw [show |(-(999999999 : ℚ) / 1000000)| * 10 ^ 6 = ((999999999 : ℤ) : ℚ) by
    rw [abs_of_neg (by norm_num)]; norm_num, F64.rhe_int]
  norm_num

theorem natDigits_one_digit {p n : Nat} (h : n < 10 ^ (p + 1)) : (natDigits (n / 10 ^ p)).length = 1 := by
  rw [natDigits, if_pos (by
    rw [Nat.div_lt_iff_lt_mul (by positivity)]; rw [pow_succ, mul_comm] at h; exact h)]
  rfl

theorem expText_length (e : ℤ) (h : e.natAbs < 100) : (expText e).length = 3 := by
  rw [expText_eq, List.length_cons]
  unfold expDigits
  split
  · rw [natDigits_small (by assumption)]; rfl
  · have h1 := natDigits_length_le e.natAbs 2 (by norm_num) (by norm_num; exact h)
    have h2 := natDigits_length_ge e.natAbs 1 (by norm_num; omega)
    omega

theorem expText_length_3 (e : ℤ) (h : 100 ≤ e.natAbs) (h' : e.natAbs < 1000) :
    (expText e).length = 4 := by
  rw [expText_eq, List.length_cons]
  unfold expDigits
  rw [if_neg (by omega)]
  have h1 := natDigits_length_le e.natAbs 3 (by norm_num) (by norm_num; exact h')
  have h2 := natDigits_length_ge e.natAbs 2 (by norm_num; exact h)
  omega

/-- **C30.** E-notation: zero, and every number whose printed exponent has two digits, is
printed with `digAfter ≥ 1` decimals in exactly `7 + digAfter` characters. -/
theorem C30_enote_width (x : F64) (hx : x.Finite) (d : Nat) (hd : 1 ≤ d)
    (hexp : x.value = 0 ∨ (sciParts d |x.value|).2.natAbs < 100) :
    (enoteDub x d).length = 7 + d := by
  rw [C30_enote_number, field_length]
  have hbody : (bodyText .scientific d x).length = 6 + d := by
    have key : ∀ n e, n < 10 ^ (d + 1) → e.natAbs < 100 →
        (mantText d n ++ 'e' :: expText e).length = 6 + d := by
      intro n e hn he
      unfold mantText
      rw [List.length_append, List.length_append, natDigits_one_digit hn, fracText_length,
        List.length_cons, expText_length e he, if_neg (by omega)]
      omega
    cases x with
    | nan => exact absurd hx (by simp [F64.Finite])
    | inf s => exact absurd hx (by simp [F64.Finite])
    | zero s =>
      rw [bodyText, magText, sciText, if_pos rfl]
      exact key 0 0 (by positivity) (by norm_num)
    | fin v h =>
      have hv : |v| ≠ 0 := abs_ne_zero.2 h.1
      rw [bodyText, magText, sciText, if_neg hv]
      refine key _ _ (sciParts_spec d (abs_pos.2 h.1)).2.1 ?_
      rcases hexp with h0 | h0
      · exact absurd h0 h.1
      · exact h0
  have := signText_length x
  unfold numText
  rw [List.length_append, hbody]
  omega

/-- **C30**, limit of the e-notation field: a negative number whose exponent has three digits
is one character wider than the field, so columns are no longer aligned. -/
theorem C30_fails_enote_width (v : ℚ) (h : IsFin v) (hneg : v < 0) (d : Nat) (hd : 1 ≤ d)
    (hexp : 100 ≤ (sciParts d |v|).2.natAbs) (hexp' : (sciParts d |v|).2.natAbs < 1000) :
    (enoteDub (fin v h) d).length = 8 + d := by
  rw [C30_enote_number, field_length]
  have : (numText .scientific d (fin v h)).length = 8 + d := by
    unfold numText signText
    rw [bodyText, magText, sciText, if_neg (abs_ne_zero.2 h.1), F64.signbit, if_pos (by simpa using hneg)]
    unfold mantText
    rw [List.length_append, List.length_append, List.length_append,
      natDigits_one_digit (sciParts_spec d (abs_pos.2 h.1)).2.1, fracText_length,
      List.length_cons, List.length_cons, expText_length_3 _ hexp hexp', if_neg (by omega)]
    simp; omega
  rw [this]; omega

/-- `-2^400` (about `-2.6e120`) is such a number, for every number of decimals. -/
example (d : Nat) (hd : 1 ≤ d) : ∃ h, (enoteDub (fin (-(2 ^ 400)) h) d).length = 8 + d := by
  have hfin : IsFin (-(2 ^ 400) : ℚ) := by
    refine ⟨neg_ne_zero.2 (pow_ne_zero _ (by norm_num)), -1, 400, by norm_num, by norm_num,
      by norm_num, ?_⟩
    rw [show ((400 : ℤ)) = ((400 : ℕ) : ℤ) from rfl, zpow_natCast]
    push_cast; ring
  have hlog : Int.log 10 (2 ^ 400 : ℚ) = 120 := by
    have hx : (0 : ℚ) < 2 ^ 400 := pow_pos (by norm_num) _
    have h1 : (10 : ℚ) ^ 120 ≤ 2 ^ 400 := by
      calc (10 : ℚ) ^ 120 = (10 ^ 3) ^ 40 := by rw [← pow_mul]
        _ ≤ (2 ^ 10) ^ 40 := by gcongr; norm_num
        _ = 2 ^ 400 := by rw [← pow_mul]
    have h2 : (2 : ℚ) ^ 400 < 10 ^ 121 := by
      calc (2 : ℚ) ^ 400 = (2 ^ 10) ^ 40 := by rw [← pow_mul]
        _ < 10 ^ 121 := by norm_num
    apply le_antisymm
    · have := (Int.lt_zpow_iff_log_lt (b := 10) (x := 121) (by norm_num) hx).1 (by
        rw [show ((121 : ℤ)) = ((121 : ℕ) : ℤ) from rfl, zpow_natCast]; exact_mod_cast h2)
      omega
    · exact (Int.zpow_le_iff_le_log (b := 10) (by norm_num) hx).1 (by
        rw [show ((120 : ℤ)) = ((120 : ℕ) : ℤ) from rfl, zpow_natCast]; exact_mod_cast h1)
  have habs : |(-(2 ^ 400) : ℚ)| = 2 ^ 400 := by
    rw [abs_neg, abs_of_pos (pow_pos (by norm_num) _)]
  have hexp : (sciParts d (2 ^ 400 : ℚ)).2 = 120 ∨ (sciParts d (2 ^ 400 : ℚ)).2 = 121 := by
    unfold sciParts
    dsimp only
    rw [hlog]
    split
    · right; rfl
    · left; rfl
  refine ⟨hfin, C30_fails_enote_width _ hfin ?_ d hd ?_ ?_⟩
  · exact neg_lt_zero.2 (pow_pos (by norm_num) _)
  · rw [habs]; rcases hexp with h | h <;> rw [h] <;> decide
  · rw [habs]; rcases hexp with h | h <;> rw [h] <;> decide

/-! ## Objects -/

/-- Text of the components of a blade with `fixed`. -/
def fixedBlade (b a : Nat) (xs : List F64) : List Char := (xs.map (fixedDub · b a)).flatten

/-- Text of the components of a blade with `enote`: fields separated by one blank. -/
def enoteBlade (d : Nat) (xs : List F64) : List Char := [' '].intercalate (xs.map (enoteDub · d))

theorem fixedArr_eq (xs : List F64) (b a : Nat) : fixedArr xs b a = fixedBlade b a xs := by
  unfold fixedArr fixedBlade
  have := (foldl_putStr (xs.map (fixedDub · b a)) _ plain_fresh).2
  rw [List.foldl_map] at this
  rw [this]; rfl

theorem intercalate_cons {β : Type} (sep a : List β) (l : List (List β)) :
    sep.intercalate (a :: l) = a ++ (l.map (sep ++ ·)).flatten := by
  induction l generalizing a with
  | nil => simp [List.intercalate]
  | cons b l ih =>
    have h1 : sep.intercalate (a :: b :: l) = a ++ (sep ++ sep.intercalate (b :: l)) := by
      simp [List.intercalate]
    rw [h1, ih]; simp

theorem enoteArr_eq (xs : List F64) (d : Nat) : enoteArr xs d = enoteBlade d xs := by
  unfold enoteArr enoteBlade
  rcases xs with _ | ⟨x, xs⟩
  · simp [enoteLoop, OStream.fresh, List.intercalate]
  · rw [enoteLoop, if_neg (by simp)]
    obtain ⟨i1, i2⟩ := putEnote_spec d plain_fresh x
    rw [enoteLoop_out d xs 1 (by norm_num) _ i1, i2, List.map_cons, intercalate_cons, C30_enote_number]
    have : xs.map (fun x => ' ' :: field (7 + d) (numText .scientific d x)) =
        (xs.map (enoteDub · d)).map ([' '] ++ ·) := by
      rw [List.map_map]
      apply List.map_congr_left
      intro c _
      simp [C30_enote_number]
    rw [this]
    rfl

/-- **C30.** `io::fixed` of an object: the blades, each of them the concatenation of its
components, separated by two blanks.  Defined for all types except `ComPlex` and `DirPlex`. -/
theorem C30_fixed_object (t : Ty) (x : t.D F64) (b a : Nat) :
    fixedTy b a t x = if t = .cplx ∨ t = .dplx then none
      else some ([' ', ' '].intercalate ((blades t x).map (fixedBlade b a))) := by
  cases t <;>
    simp [fixedTy, fixedArr_eq, catStr_eq, blades, A1.toList, A3.toList, intercalate_cons, fixedBlade]

/-- **C30.** `io::enote` of an object: the blades, each of them its components separated by one
blank, separated by two blanks.  Defined for all types except `ComPlex` and `DirPlex`. -/
theorem C30_enote_object (t : Ty) (x : t.D F64) (d : Nat) :
    enoteTy d t x = if t = .cplx ∨ t = .dplx then none
      else some ([' ', ' '].intercalate ((blades t x).map (enoteBlade d))) := by
  cases t <;>
    simp [enoteTy, enoteArr_eq, catStr_eq, blades, A1.toList, A3.toList, intercalate_cons, enoteBlade]

theorem putArr_eq (os : OStream) (xs : List F64) :
    putArr os xs = os.putStr (fixedBlade 3 6 xs) := by
  unfold putArr
  dsimp only
  rw [foldl_fixed {} xs _ plain_fresh]
  unfold fixedBlade
  simp only [C30_fixed_number]
  rfl

/-- **C30.** `ostrm << x` appends to the stream (without pending width) the blades of `x`, each
of them the concatenation of its components in the default fixed format, separated by one
blank. -/
theorem C30_insert_text (t : Ty) (ht : t ≠ .dub) (x : t.D F64) (os : OStream) (hw : os.width = 0) :
    (insertTy t os x).out = os.out ++ [' '].intercalate ((blades t x).map (fixedBlade 3 6)) := by
  have hw' : ∀ (o : OStream) (s : List Char), (o.putStr s).width = 0 := fun _ _ => rfl
  have hp : ∀ (o : OStream) (s : List Char), o.width = 0 → (o.putStr s).out = o.out ++ s := by
    intro o s h; rw [putStr_zero h]
  cases t <;> first | exact absurd rfl ht | skip
  all_goals
    simp [insertTy, putArr_eq, hp, hw, hw', blades, A1.toList, A3.toList, intercalate_cons]

/-- **C30.** With a pending width `w` (and default fill and adjustment) the padding goes in front
of the first blade as a whole. -/
theorem C30_insert_width (x : Vector F64) (os : OStream) (hf : os.fill = ' ') (ha : os.adj = .none) :
    (insertTy .vec os x).out = os.out ++ field os.width (fixedBlade 3 6 (comps .vec x)) := by
  simp only [insertTy, putArr_eq, OStream.putStr, hf, ha, field, blanks, comps, A3.toList]

/-- **C30.** `ostrm << x` leaves the formatting state of the stream (float field, precision,
fill, adjustment) as it was, for every type and every state; a pending width is used up. -/
theorem C30_insert_state (t : Ty) (x : t.D F64) (os : OStream) :
    (insertTy t os x).ff = os.ff ∧ (insertTy t os x).prec = os.prec ∧
      (insertTy t os x).fill = os.fill ∧ (insertTy t os x).adj = os.adj ∧
      (insertTy t os x).width = 0 := by
  cases t <;> simp [insertTy, putArr_eq, OStream.putStr, OStream.putDub]

/-- **C30.** Nothing already written is changed. -/
theorem C30_insert_appends (t : Ty) (x : t.D F64) (os : OStream) :
    os.out <+: (insertTy t os x).out := by
  have hs : ∀ (o : OStream) (s : List Char), o.out <+: (o.putStr s).out := fun o s =>
    List.prefix_append _ _
  cases t
  case dub => exact List.prefix_append _ _
  all_goals simp only [insertTy, putArr_eq]
  case sca => exact hs _ _
  case vec => exact hs _ _
  case biv => exact hs _ _
  case tri => exact hs _ _
  case spin => exact (hs _ _).trans ((hs _ _).trans (hs _ _))
  case imsp => exact (hs _ _).trans ((hs _ _).trans (hs _ _))
  case cplx => exact (hs _ _).trans ((hs _ _).trans (hs _ _))
  case dplx => exact (hs _ _).trans ((hs _ _).trans (hs _ _))
  case mv =>
    exact (hs _ _).trans ((hs _ _).trans ((hs _ _).trans ((hs _ _).trans ((hs _ _).trans
      ((hs _ _).trans (hs _ _))))))

/-- **C30**, contrast: the helper `put(ostrm, double, fmt)` does change the caller's stream: it
is left in fixed notation with the precision of the format. -/
theorem C30_put_changes_state (os : OStream) (x : F64) (fmt : DoubleFormat) :
    (putDub os x fmt).ff = .fixed ∧ (putDub os x fmt).prec = fmt.theNumDigFrac :=
  ⟨rfl, rfl⟩

/-! ## Words -/

theorem words_ws_append {ws : List Char} (hw : AllWs ws) (cs : List Char) :
    words (ws ++ cs) = words cs := by
  induction ws with
  | nil => rfl
  | cons c ws ih =>
    have hc := hw c List.mem_cons_self
    rw [← ih (fun d hd => hw d (List.mem_cons_of_mem _ hd))]
    unfold words
    rw [List.cons_append, List.splitOnP_cons_eq_if_modifyHead, if_pos hc]
    simp

/-- No white space in a word. -/
def NoWs (cs : List Char) : Prop := ∀ c ∈ cs, isWs c = false

theorem words_cons {w rest : List Char} (hw : NoWs w) (hne : w ≠ []) (hr : Ends rest) :
    words (w ++ rest) = w :: words rest := by
  rcases rest with _ | ⟨c, cs⟩
  · rw [List.append_nil]
    unfold words
    rw [List.splitOnP_eq_singleton hw]
    simp [hne, List.splitOnP_nil]
  · have hc : isWs c = true := hr c (by simp)
    unfold words
    rw [List.splitOnP_append_cons_of_forall_mem hw c hc, List.splitOnP_cons_eq_if_modifyHead, if_pos hc]
    simp [hne]

theorem noWs_dig {cs : List Char} (h : AllDig cs) : NoWs cs :=
  fun c hc => (dig_facts (h c hc)).2.2.2.2.2

theorem NoWs.append {a b : List Char} (ha : NoWs a) (hb : NoWs b) : NoWs (a ++ b) := by
  intro c hc
  rcases List.mem_append.1 hc with h | h
  exacts [ha c h, hb c h]

theorem NoWs.cons {c : Char} {b : List Char} (ha : isWs c = false) (hb : NoWs b) : NoWs (c :: b) := by
  intro d hd
  rcases List.mem_cons.1 hd with rfl | h
  exacts [ha, hb d h]

theorem noWs_mant (p n : Nat) : NoWs (mantText p n) := by
  unfold mantText fracText
  refine (noWs_dig (natDigits_dig _)).append ?_
  split
  · intro c hc; simp at hc
  · exact NoWs.cons (by decide) (noWs_dig (fixedDigits_dig _ _))

theorem noWs_exp (e : ℤ) : NoWs (expText e) := by
  rw [expText_eq]
  exact NoWs.cons (by split <;> decide) (noWs_dig (expDigits_dig e))

theorem noWs_num (f : FloatField) (hf : f ≠ .general) (p : Nat) (x : F64) : NoWs (numText f p x) := by
  unfold numText
  have hs : NoWs (signText x) := by
    unfold signText
    split
    · exact NoWs.cons (by decide) (by intro c hc; simp at hc)
    · intro c hc; simp at hc
  refine hs.append ?_
  have hm : ∀ v, NoWs (magText f p v) := by
    intro v
    cases f
    · exact absurd rfl hf
    · exact noWs_mant _ _
    · rw [magText, sciText]
      split <;> exact (noWs_mant _ _).append (NoWs.cons (by decide) (noWs_exp _))
  cases x
  case nan => intro c hc; fin_cases hc <;> decide
  case inf s => intro c hc; fin_cases hc <;> decide
  case zero s => exact hm _
  case fin v h => exact hm _

theorem num_ne_nil (f : FloatField) (hf : f ≠ .general) (p : Nat) (x : F64) : numText f p x ≠ [] := by
  have hmant : ∀ n, mantText p n ≠ [] := by
    intro n h
    exact natDigits_ne_nil _ (List.append_eq_nil_iff.1 h).1
  have hm : ∀ v, magText f p v ≠ [] := by
    intro v
    cases f
    · exact absurd rfl hf
    · exact hmant _
    · rw [magText, sciText]
      split <;> simp
  unfold numText
  intro h
  have := (List.append_eq_nil_iff.1 h).2
  cases x
  case nan => exact absurd this (by simp [bodyText])
  case inf s => exact absurd this (by simp [bodyText])
  case zero s => exact hm _ this
  case fin v h => exact hm _ this

/-- A sequence of words, each preceded by white space (possibly none before the first). -/
theorem words_fields (fs : List (List Char × List Char))
    (h : ∀ f ∈ fs, AllWs f.1 ∧ NoWs f.2 ∧ f.2 ≠ []) (hs : ∀ f ∈ fs.tail, f.1 ≠ []) :
    words (fs.flatMap fun f => f.1 ++ f.2) = fs.map Prod.snd := by
  induction fs with
  | nil => simp [words, List.splitOnP_nil]
  | cons f fs ih =>
    obtain ⟨h1, h2, h3⟩ := h f List.mem_cons_self
    have ih' := ih (fun g hg => h g (List.mem_cons_of_mem _ hg))
      (fun g hg => hs g (List.mem_of_mem_tail hg))
    rw [List.flatMap_cons, List.append_assoc, words_ws_append h1, words_cons h2 h3, ih', List.map_cons]
    rcases fs with _ | ⟨g, fs⟩
    · exact ends_nil
    · have hg := h g (List.mem_cons_of_mem _ List.mem_cons_self)
      have hg' := hs g (by simp)
      intro c hc
      rcases hgf : g.1 with _ | ⟨d, ds⟩
      · exact absurd hgf hg'
      · rw [List.flatMap_cons, hgf] at hc
        simp at hc
        subst hc
        exact hg.1 d (by rw [hgf]; simp)

theorem allWs_blanks (n : Nat) : AllWs (blanks n) := allWs_replicate n

/-- Fields of the text of a blade: `k` is written in front, `e` between components, `pad` in
front of each number. -/
def bladeFields (k e : List Char) (pad num : F64 → List Char) :
    List F64 → List (List Char × List Char)
  | [] => []
  | x :: xs => (k ++ pad x, num x) :: xs.map fun y => (e ++ pad y, num y)

/-- Fields of the text of an object: white space and number.  `g` is the separator of blades,
`e` that of components, `pad` what is written in front of a number. -/
def fieldsOf (g e : List Char) (pad num : F64 → List Char) :
    List (List F64) → List (List (List Char × List Char))
  | [] => []
  | b :: bs => bladeFields [] e pad num b :: bs.map (bladeFields g e pad num)

theorem bladeFields_text (k e : List Char) (pad num : F64 → List Char) (b : List F64) (hb : b ≠ []) :
    ((bladeFields k e pad num b).flatMap fun f => f.1 ++ f.2) =
      k ++ e.intercalate (b.map fun x => pad x ++ num x) := by
  rcases b with _ | ⟨x, xs⟩
  · exact absurd rfl hb
  · have hin : ((xs.map fun y => (e ++ pad y, num y)).flatMap fun f => f.1 ++ f.2) =
        ((xs.map fun x => pad x ++ num x).map (e ++ ·)).flatten := by
      rw [List.flatMap_def]
      simp [List.map_map, Function.comp_def, List.append_assoc]
    rw [bladeFields, List.flatMap_cons, hin, List.map_cons, intercalate_cons]
    simp

theorem fieldsOf_text (g e : List Char) (pad num : F64 → List Char) (bs : List (List F64))
    (hb : ∀ b ∈ bs, b ≠ []) :
    ((fieldsOf g e pad num bs).flatten.flatMap fun f => f.1 ++ f.2) =
      g.intercalate (bs.map fun b => e.intercalate (b.map fun x => pad x ++ num x)) := by
  rcases bs with _ | ⟨b, bs⟩
  · simp [fieldsOf, List.intercalate]
  · rw [fieldsOf, List.map_cons, intercalate_cons, List.flatten_cons, List.flatMap_append,
      bladeFields_text _ _ _ _ _ (hb b List.mem_cons_self), List.nil_append]
    congr 1
    have hb' : ∀ b ∈ bs, b ≠ [] := fun b h => hb b (List.mem_cons_of_mem _ h)
    clear hb
    induction bs with
    | nil => rfl
    | cons b bs ih =>
      rw [List.map_cons, List.flatten_cons, List.flatMap_append,
        bladeFields_text _ _ _ _ _ (hb' b List.mem_cons_self),
        ih (fun b h => hb' b (List.mem_cons_of_mem _ h))]
      simp

theorem bladeFields_snd (k e : List Char) (pad num : F64 → List Char) (b : List F64) :
    (bladeFields k e pad num b).map Prod.snd = b.map num := by
  rcases b with _ | ⟨x, xs⟩
  · rfl
  · simp [bladeFields, Function.comp_def]

theorem fieldsOf_snd (g e : List Char) (pad num : F64 → List Char) (bs : List (List F64)) :
    (fieldsOf g e pad num bs).map (List.map Prod.snd) = bs.map (List.map num) := by
  rcases bs with _ | ⟨b, bs⟩
  · rfl
  · rw [fieldsOf, List.map_cons, List.map_cons, List.map_map, bladeFields_snd]
    congr 1
    apply List.map_congr_left
    intro b _
    exact bladeFields_snd g e pad num b

theorem AllWs.append {a b : List Char} (ha : AllWs a) (hb : AllWs b) : AllWs (a ++ b) := by
  intro c hc
  rcases List.mem_append.1 hc with h | h
  exacts [ha c h, hb c h]

theorem allWs_nil : AllWs [] := by intro c hc; simp at hc

theorem bladeFields_forall (k e : List Char) (pad num : F64 → List Char) (b : List F64)
    (hk : AllWs k) (he : AllWs e) (P : List Char → Prop)
    (hb : ∀ x ∈ b, AllWs (pad x) ∧ P (num x)) :
    ∀ f ∈ bladeFields k e pad num b, AllWs f.1 ∧ P f.2 := by
  intro f hf
  rcases b with _ | ⟨x, xs⟩
  · simp [bladeFields] at hf
  · rcases List.mem_cons.1 hf with rfl | hf
    · obtain ⟨h1, h2⟩ := hb x List.mem_cons_self
      exact ⟨hk.append h1, h2⟩
    · obtain ⟨y, hy, rfl⟩ := List.mem_map.1 hf
      obtain ⟨h1, h2⟩ := hb y (List.mem_cons_of_mem _ hy)
      exact ⟨he.append h1, h2⟩

theorem fieldsOf_forall (g e : List Char) (pad num : F64 → List Char) (bs : List (List F64))
    (hg : AllWs g) (he : AllWs e) (P : List Char → Prop)
    (hp : ∀ b ∈ bs, ∀ x ∈ b, AllWs (pad x) ∧ P (num x)) :
    ∀ f ∈ (fieldsOf g e pad num bs).flatten, AllWs f.1 ∧ P f.2 := by
  intro f hf
  rcases bs with _ | ⟨b, bs⟩
  · simp [fieldsOf] at hf
  · rw [fieldsOf, List.flatten_cons, List.mem_append] at hf
    rcases hf with hf | hf
    · exact bladeFields_forall [] e pad num b allWs_nil he P (hp b List.mem_cons_self) f hf
    · obtain ⟨l, hl, hf⟩ := List.mem_flatten.1 hf
      obtain ⟨b', hb', rfl⟩ := List.mem_map.1 hl
      exact bladeFields_forall g e pad num b' hg he P (hp b' (List.mem_cons_of_mem _ hb')) f hf

theorem fieldsOf_sep (g e : List Char) (pad num : F64 → List Char) (bs : List (List F64))
    (hb : ∀ b ∈ bs, b ≠ []) (hg : ∀ x, g ++ pad x ≠ []) (he : ∀ x, e ++ pad x ≠ []) :
    ∀ f ∈ (fieldsOf g e pad num bs).flatten.tail, f.1 ≠ [] := by
  intro f hf
  rcases bs with _ | ⟨b, bs⟩
  · simp [fieldsOf] at hf
  · rcases b with _ | ⟨x, xs⟩
    · exact absurd rfl (hb [] List.mem_cons_self)
    · rw [fieldsOf, bladeFields, List.flatten_cons, List.cons_append, List.tail_cons,
        List.mem_append] at hf
      rcases hf with hf | hf
      · obtain ⟨y, _, rfl⟩ := List.mem_map.1 hf
        exact he y
      · obtain ⟨l, hl, hf⟩ := List.mem_flatten.1 hf
        obtain ⟨b', _, rfl⟩ := List.mem_map.1 hl
        rcases b' with _ | ⟨y, ys⟩
        · simp [bladeFields] at hf
        · rcases List.mem_cons.1 hf with rfl | hf
          · exact hg y
          · obtain ⟨z, _, rfl⟩ := List.mem_map.1 hf
            exact he z

theorem blades_ne_nil (t : Ty) (x : t.D F64) : ∀ b ∈ blades t x, b ≠ [] := by
  cases t <;> simp [blades]

theorem words_object (g e : List Char) (pad num : F64 → List Char) (t : Ty) (x : t.D F64)
    (hg : AllWs g) (he : AllWs e) (hp : ∀ x, AllWs (pad x)) (hg' : ∀ x, g ++ pad x ≠ [])
    (he' : ∀ x, e ++ pad x ≠ []) (hn : ∀ x, NoWs (num x) ∧ num x ≠ []) :
    words (g.intercalate ((blades t x).map fun b => e.intercalate (b.map fun x => pad x ++ num x))) =
      (comps t x).map num := by
  rw [← fieldsOf_text g e pad num _ (blades_ne_nil t x)]
  rw [words_fields _ (fieldsOf_forall g e pad num _ hg he (fun w => NoWs w ∧ w ≠ [])
    (fun b _ c _ => ⟨hp c, hn c⟩)) (fieldsOf_sep g e pad num _ (blades_ne_nil t x) hg' he')]
  rw [List.map_flatten, fieldsOf_snd, ← List.map_flatten, blades_join]

theorem intercalate_nil {β : Type} (l : List (List β)) : ([] : List β).intercalate l = l.flatten := by
  rcases l with _ | ⟨a, l⟩
  · simp [List.intercalate]
  · rw [intercalate_cons]; simp

theorem fixedBlade_eq (b a : Nat) (xs : List F64) : fixedBlade b a xs =
    ([] : List Char).intercalate (xs.map fun x =>
      (' ' :: blanks (1 + b + 1 + a - (numText .fixed a x).length)) ++ numText .fixed a x) := by
  rw [intercalate_nil, fixedBlade]
  simp only [C30_fixed_number, field, List.cons_append]

theorem enoteBlade_eq (d : Nat) (xs : List F64) : enoteBlade d xs =
    [' '].intercalate (xs.map fun x =>
      blanks (7 + d - (numText .scientific d x).length) ++ numText .scientific d x) := by
  rw [enoteBlade]
  simp only [C30_enote_number, field]

theorem allWs_cons_blanks (n : Nat) : AllWs (' ' :: blanks n) := by
  have := allWs_blanks (n + 1)
  rwa [blanks, List.replicate_succ] at this

/-- **C30.** `io::fixed` of an object consists of exactly one white-space separated word per
component, in declaration order: the component with `digAfter` decimals. -/
theorem C30_fixed_words (t : Ty) (x : t.D F64) (b a : Nat) (txt : List Char)
    (h : fixedTy b a t x = some txt) : words txt = (comps t x).map (numText .fixed a) := by
  rw [C30_fixed_object] at h
  split at h
  · simp at h
  injection h with h
  rw [← h]
  simp only [show fixedBlade b a = _ from funext (fixedBlade_eq b a)]
  exact words_object [' ', ' '] [] _ _ t x (allWs_blanks 2) allWs_nil
    (fun _ => allWs_cons_blanks _) (fun _ => by simp) (fun _ => by simp)
    (fun c => ⟨noWs_num _ (by simp) _ _, num_ne_nil _ (by simp) _ _⟩)

/-- **C30.** `io::enote` of an object consists of exactly one white-space separated word per
component, in declaration order: the component in e-notation. -/
theorem C30_enote_words (t : Ty) (x : t.D F64) (d : Nat) (txt : List Char)
    (h : enoteTy d t x = some txt) : words txt = (comps t x).map (numText .scientific d) := by
  rw [C30_enote_object] at h
  split at h
  · simp at h
  injection h with h
  rw [← h]
  simp only [show enoteBlade d = _ from funext (enoteBlade_eq d)]
  exact words_object [' ', ' '] [' '] _ _ t x (allWs_blanks 2) (allWs_blanks 1)
    (fun _ => allWs_blanks _) (fun _ => by simp) (fun _ => by simp)
    (fun c => ⟨noWs_num _ (by simp) _ _, num_ne_nil _ (by simp) _ _⟩)

/-- **C30.** What `ostrm << x` writes consists of exactly one white-space separated word per
component, in declaration order: the component with six decimals. -/
theorem C30_insert_words (t : Ty) (ht : t ≠ .dub) (x : t.D F64) (os : OStream) (hw : os.width = 0)
    (txt : List Char) (h : (insertTy t os x).out = os.out ++ txt) :
    words txt = (comps t x).map (numText .fixed 6) := by
  rw [C30_insert_text t ht x os hw] at h
  have h := List.append_cancel_left h
  rw [← h]
  simp only [show fixedBlade 3 6 = _ from funext (fixedBlade_eq 3 6)]
  exact words_object [' '] [] _ _ t x (allWs_blanks 1) allWs_nil
    (fun _ => allWs_cons_blanks _) (fun _ => by simp) (fun _ => by simp)
    (fun c => ⟨noWs_num _ (by simp) _ _, num_ne_nil _ (by simp) _ _⟩)

/-- A concrete text. -/
example : fixedDub (zero true) 3 6 = "   -0.000000".toList := by
  rw [C30_fixed_number]
  simp only [numText, signText, bodyText, magText, fixedText, F64.signbit, zero_mul]
  have : F64.rhe (0 : ℚ) = 0 := by simpa using F64.rhe_int (K := ℚ) 0
  rw [this]
  simp [natDigits_small, field, blanks, fracText, fixedDigits]
  decide

/-! ## NaN and infinities -/

theorem numText_nan (f : FloatField) (p : Nat) : numText f p nan = "nan".toList := by
  simp [numText, signText, bodyText, F64.signbit]

theorem numText_inf (f : FloatField) (p : Nat) (s : Bool) :
    numText f p (inf s) = if s then "-inf".toList else "inf".toList := by
  cases s <;> simp [numText, signText, bodyText, F64.signbit]

/-- **C30.** In fixed format a NaN is the word `nan` and the infinities are `inf` and `-inf`,
right-aligned like every other number. -/
theorem C30_fixed_special (b a : Nat) :
    fixedDub nan b a = ' ' :: List.replicate (b + a - 1) ' ' ++ "nan".toList ∧
    fixedDub (inf false) b a = ' ' :: List.replicate (b + a - 1) ' ' ++ "inf".toList ∧
    fixedDub (inf true) b a = ' ' :: List.replicate (b + a - 2) ' ' ++ "-inf".toList := by
  refine ⟨?_, ?_, ?_⟩ <;> rw [C30_fixed_number]
  · rw [numText_nan, field, blanks, show 1 + b + 1 + a - "nan".toList.length = b + a - 1 by
      simp; omega]
    rfl
  · rw [numText_inf, field, blanks, if_neg (by simp),
      show 1 + b + 1 + a - "inf".toList.length = b + a - 1 by simp; omega]
    rfl
  · rw [numText_inf, field, blanks, if_pos rfl,
      show 1 + b + 1 + a - "-inf".toList.length = b + a - 2 by simp; omega]
    rfl

/-- **C30.** The same in e-notation, in the field of `7 + digAfter` characters. -/
theorem C30_enote_special (d : Nat) :
    enoteDub nan d = List.replicate (4 + d) ' ' ++ "nan".toList ∧
    enoteDub (inf false) d = List.replicate (4 + d) ' ' ++ "inf".toList ∧
    enoteDub (inf true) d = List.replicate (3 + d) ' ' ++ "-inf".toList := by
  refine ⟨?_, ?_, ?_⟩ <;> rw [C30_enote_number]
  · rw [numText_nan, field, blanks, show 7 + d - "nan".toList.length = 4 + d by simp; omega]
  · rw [numText_inf, field, blanks, if_neg (by simp),
      show 7 + d - "inf".toList.length = 4 + d by simp; omega]
  · rw [numText_inf, field, blanks, if_pos rfl,
      show 7 + d - "-inf".toList.length = 3 + d by simp; omega]

/-- **C30.** A null object, all of whose components are NaN, is written by `operator<<` as one
word `nan` per component. -/
theorem C30_insert_null (t : Ty) (ht : t ≠ .dub) (x : t.D F64) (hx : ∀ c ∈ comps t x, c = nan)
    (os : OStream) (hw : os.width = 0) (txt : List Char)
    (h : (insertTy t os x).out = os.out ++ txt) :
    words txt = List.replicate (comps t x).length "nan".toList := by
  rw [C30_insert_words t ht x os hw txt h]
  refine List.eq_replicate_iff.2 ⟨by simp, fun w hw' => ?_⟩
  obtain ⟨c, hc, rfl⟩ := List.mem_map.1 hw'
  rw [hx c hc, numText_nan]

/-- The hypothesis of `C30_insert_null` for the null vector. -/
example : ∀ c ∈ comps .vec (⟨⟨nan, nan, nan⟩⟩ : Vector F64), c = nan := by
  intro c hc
  simpa [comps] using hc

end Engabra
