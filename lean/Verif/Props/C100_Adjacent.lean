import Verif.Props.C97_Words
import Verif.Props.C99_NoSkip

/-! # C100 — numbers need no white space between them

A number ends where the text can no longer be a number.  Objects are read from numerals that follow one another
directly, for instance `1-2+3`. -/

namespace Engabra

open F64 (nan inf zero fin IsFin)

/-! ## Specification -/

/-- The text after a numeral does not continue it: the next character, if there is one, is not a digit, is not
`e` or `E` unless the numeral has an exponent, and is not a point unless the numeral has a point or an exponent. -/
def Closed (n : Numeral) (rest : List Char) : Prop :=
  ∀ c ∈ rest.head?, c.isDigit = false ∧ (n.ex = none → c ≠ 'e' ∧ c ≠ 'E') ∧
    (n.ex = none → n.fp = none → c ≠ '.')

/-- Numerals with white space, possibly none, before each, and then the text `more`: no numeral is continued by
what is after it. -/
def Chained : List (List Char × Numeral) → List Char → Prop
  | [], _ => True
  | f :: fs, more => (∀ c ∈ f.1, Blank c) ∧ Closed f.2 (spacedText fs ++ more) ∧ Chained fs more

/-! ## Numbers -/

theorem scan_closed {n : Numeral} (h : n.Ok) {rest : List Char} (hr : Closed n rest) :
    scanNum (n.text ++ rest) = (n.tok, rest) := by
  obtain ⟨h1, h2, h3, h4⟩ := h
  rw [allDig_iff] at h1 h2
  have hr : ∀ c ∈ rest.head?, isDig c = false ∧ (n.ex = none → c ≠ 'e' ∧ c ≠ 'E') ∧
      (n.ex = none → n.fp = none → c ≠ '.') := by
    intro c hc
    obtain ⟨a, b⟩ := hr c hc
    refine ⟨?_, b⟩
    rw [← Bool.not_eq_true] at a ⊢
    exact fun hc => a ((isDigit_iff c).2 hc)
  set E : List Char := (match n.ex with | none => [] | some (c, s, ds) => c :: (Numeral.signText s ++ ds)) ++ rest
    with hE
  set F : List Char := (match n.fp with | none => [] | some f => '.' :: f) ++ E with hF
  have htext : n.text ++ rest = Numeral.signText n.sign ++ (n.ip ++ F) := by
    rw [hF, hE]; unfold Numeral.text
    rcases n.fp with _ | _ <;> rcases n.ex with _ | ⟨_, _, _⟩ <;> simp
  have hEh : ∀ c ∈ E.head?, isDig c = false ∧ (n.fp = none → c ≠ '.') := by
    intro c hc
    rcases hx : n.ex with _ | ⟨c', s, ds⟩
    · rw [hE, hx] at hc
      have := hr c hc
      exact ⟨this.1, this.2.2 hx⟩
    · rw [hE, hx] at hc
      simp at hc
      subst hc
      rcases (h4 _ _ _ hx).1 with rfl | rfl <;> exact ⟨by decide, fun _ => by decide⟩
  have hFh : ∀ c ∈ F.head?, isDig c = false := by
    intro c hc
    rcases hx : n.fp with _ | f
    · rw [hF, hx] at hc
      exact (hEh c hc).1
    · rw [hF, hx] at hc
      simp at hc
      subst hc; decide
  have hs : scanSign (n.text ++ rest) = (n.minus, n.ip ++ F) := by
    rw [htext]
    apply scanSign_opt
    intro c hc
    rcases hi : n.ip with _ | ⟨d, ds⟩
    · rw [hi] at hc h3
      rcases hx : n.fp with _ | f
      · unfold Numeral.frac at h3
        rw [hx] at h3
        exact absurd rfl h3
      · rw [hF, hx] at hc
        simp at hc
        subst hc; decide
    · rw [hi] at hc h1
      simp at hc
      subst hc
      have := dig_facts (h1 d (by simp))
      exact ⟨this.1, this.2.1⟩
  have hf : scanFrac F = (n.frac, E) := by
    unfold Numeral.frac at *
    rcases hx : n.fp with _ | f
    · have : F = E := by rw [hF, hx]; rfl
      rw [this]
      rcases hEE : E with _ | ⟨c, cs⟩
      · rfl
      · have := (hEh c (by rw [hEE]; simp)).2 hx
        simp [scanFrac, this]
    · have : F = '.' :: (f ++ E) := by rw [hF, hx]; rfl
      rw [this]
      simp only [scanFrac, if_true, Option.getD_some]
      rw [hx] at h2
      exact span_dig h2 fun c hc => (hEh c hc).1
  have he : scanExp (!(n.ip.isEmpty && n.frac.isEmpty)) E =
      (n.ex.map fun x => (x.2.1 == some true, x.2.2), rest) := by
    rcases hx : n.ex with _ | ⟨c', s, ds⟩
    · have : E = rest := by rw [hE, hx]; rfl
      rw [this]
      rcases rest with _ | ⟨c, cs⟩
      · rfl
      · have := (hr c (by simp)).2.1 hx
        simp [scanExp, this.1, this.2]
    · obtain ⟨a, b, d⟩ := h4 _ _ _ hx
      have hseen : (!(n.ip.isEmpty && n.frac.isEmpty)) = true := by
        rcases hi : n.ip with _ | ⟨d, ds⟩
        · rw [hi, List.nil_append] at h3
          simpa using h3
        · simp
      rw [hseen]
      rw [allDig_iff] at d
      have hEe : E = c' :: (Numeral.signText s ++ (ds ++ rest)) := by rw [hE, hx]; simp
      have hsg : scanSign (Numeral.signText s ++ (ds ++ rest)) = (s == some true, ds ++ rest) := by
        apply scanSign_opt
        intro c hc
        rcases ds with _ | ⟨d', ds⟩
        · exact absurd rfl b
        · simp at hc
          subst hc
          have := dig_facts (d d' (by simp))
          exact ⟨this.1, this.2.1⟩
      rw [hEe]
      unfold scanExp
      dsimp only
      rw [if_pos ⟨a, rfl⟩, hsg, span_dig d fun c hc => (hr c hc).1]
      rfl
  unfold scanNum
  rw [hs]
  dsimp only
  rw [span_dig h1 fun c hc => hFh c hc]
  dsimp only
  rw [hf]
  dsimp only
  rw [he]
  rfl

theorem text_head {n : Numeral} (h : n.Ok) (rest : List Char) :
    ∃ c cs, n.text ++ rest = c :: cs ∧ isWs c = false := by
  obtain ⟨h1, h2, h3, -⟩ := h
  rw [allDig_iff] at h1 h2
  unfold Numeral.text
  rcases n.sign with _ | _ | _
  · rcases hi : n.ip with _ | ⟨d, ds⟩
    · unfold Numeral.frac at h3
      rcases hf : n.fp with _ | f
      · rw [hi, hf] at h3; exact absurd rfl h3
      · exact ⟨'.', _, rfl, by decide⟩
    · rw [hi] at h1
      exact ⟨d, _, rfl, (dig_facts (h1 d (by simp))).2.2.2.2.2⟩
  · exact ⟨'+', _, rfl, by decide⟩
  · exact ⟨'-', _, rfl, by decide⟩

/-- **C100.**  Reading a double from white space, a decimal numeral and any text that does not continue the
numeral consumes exactly the white space and the numeral, with the result of C95. -/
theorem C100_number {n : Numeral} (h : n.Ok) {ws rest : List Char} (hw : ∀ c ∈ ws, Blank c)
    (hr : Closed n rest) (old : F64) :
    ∃ f y, extractDub ⟨ws ++ n.text ++ rest, false, false⟩ old = (⟨rest, rest.isEmpty, f⟩, y) ∧
      (n.value = 0 → f = false ∧ y = .zero n.minus) ∧
      (n.value ≠ 0 → n.value < 2 ^ 1024 - 2 ^ 970 → f = false ∧ Ieee.RoundsTo (n.signed : ℚ) y) ∧
      (2 ^ 1024 - 2 ^ 970 ≤ n.value → f = true ∧ y = maxDub n.minus) := by
  have hw' : AllWs ws := fun c hc => (blank_iff c).1 (hw c hc)
  obtain ⟨c, cs, hcs, hcw⟩ := text_head h rest
  have hdrop : (ws ++ n.text ++ rest).dropWhile isWs = n.text ++ rest := by
    rw [List.append_assoc, hcs, dropWhile_ws hw' hcw]
  have hne : n.text ++ rest ≠ [] := by rw [hcs]; simp
  refine ⟨n.tok.convert.2, n.tok.convert.1, ?_, outcome h⟩
  unfold extractDub
  dsimp only
  rw [if_neg (by simp), hdrop, if_neg hne, scan_closed h hr]

theorem span_head (cs : List Char) : ∀ c ∈ (cs.span isDig).2.head?, isDig c = false := by
  rw [List.span_eq_takeWhile_dropWhile]
  intro c hc
  have := List.head?_dropWhile_not isDig cs
  rw [Option.mem_def] at hc
  simpa [hc] using this

theorem frac_head {cs : List Char} (h : ∀ c ∈ cs.head?, isDig c = false) :
    ∀ c ∈ (scanFrac cs).2.head?, isDig c = false := by
  rcases cs with _ | ⟨d, cs⟩
  · simp [scanFrac]
  · unfold scanFrac
    dsimp only
    split_ifs
    · exact span_head cs
    · exact h

theorem exp_head {b : Bool} {cs : List Char} (h : ∀ c ∈ cs.head?, isDig c = false) :
    ∀ c ∈ (scanExp b cs).2.head?, isDig c = false := by
  rcases cs with _ | ⟨d, cs⟩
  · simp [scanExp]
  · unfold scanExp
    dsimp only
    split_ifs
    · exact span_head _
    · exact h

theorem exp_le (b : Bool) (cs : List Char) : (scanExp b cs).2.length ≤ cs.length := by
  obtain ⟨ex, h, -⟩ := scanExp_spec b cs
  have := congrArg List.length h
  rw [List.length_append] at this
  omega

theorem exp_lt {c : Char} (hc : c = 'e' ∨ c = 'E') (cs : List Char) :
    (scanExp true (c :: cs)).2.length < (c :: cs).length := by
  unfold scanExp
  dsimp only
  rw [if_pos ⟨hc, rfl⟩]
  obtain ⟨s, h1, -⟩ := scanSign_spec cs
  have h2 := (span_spec (scanSign cs).2).2
  have k1 := congrArg List.length h1
  have k2 := congrArg List.length h2
  rw [List.length_append] at k1 k2
  rw [List.length_cons]
  dsimp only
  omega

/-- **C100.**  The condition on what follows is the weakest: a numeral that is continued by the next character is
not what is read. -/
theorem C100_longest {n : Numeral} (h : n.Ok) {ws rest : List Char} (hw : ∀ c ∈ ws, Blank c) (old : F64)
    (hr : ¬Closed n rest) : (extractDub ⟨ws ++ n.text ++ rest, false, false⟩ old).1.rest ≠ rest := by
  have hw' : AllWs ws := fun c hc => (blank_iff c).1 (hw c hc)
  obtain ⟨c, cs, hcs, hcw⟩ := text_head h rest
  have hdrop : (ws ++ n.text ++ rest).dropWhile isWs = n.text ++ rest := by
    rw [List.append_assoc, hcs, dropWhile_ws hw' hcw]
  have hne : n.text ++ rest ≠ [] := by rw [hcs]; simp
  unfold extractDub
  dsimp only
  rw [if_neg (by simp), hdrop, if_neg hne]
  dsimp only
  clear hcs hcw hdrop hne c cs
  obtain ⟨h1, h2, h3, h4⟩ := h
  rw [allDig_iff] at h1 h2
  intro heq
  unfold Closed at hr
  push Not at hr
  obtain ⟨c, hc, hr⟩ := hr
  obtain ⟨cs, rfl⟩ : ∃ cs, rest = c :: cs := by
    rcases rest with _ | ⟨d, cs⟩
    · simp at hc
    · simp at hc; exact ⟨cs, by rw [hc]⟩
  have hdig : isDig c = false :=
    exp_head (frac_head (span_head _)) c (by
      have : (scanNum (n.text ++ c :: cs)).2.head? = some c := by rw [heq]; rfl
      exact this)
  have hdig' : c.isDigit = false := by
    rw [← Bool.not_eq_true] at hdig ⊢
    exact fun hc => hdig ((isDigit_iff c).1 hc)
  have hex : n.ex = none := by
    by_contra hx
    obtain ⟨a, -, -⟩ := hr hdig' (fun h => absurd h hx)
    exact hx a
  -- the part after the point
  set F : List Char := (match n.fp with | none => [] | some f => '.' :: f) ++ c :: cs with hF
  have htext : n.text ++ c :: cs = Numeral.signText n.sign ++ (n.ip ++ F) := by
    rw [hF]; unfold Numeral.text
    rw [hex]
    rcases n.fp with _ | _ <;> simp
  have hFh : ∀ d ∈ F.head?, isDig d = false := by
    intro d hd
    rcases hx : n.fp with _ | f
    · rw [hF, hx] at hd
      simp at hd
      rwa [← hd]
    · rw [hF, hx] at hd
      simp at hd
      subst hd; decide
  have hs : scanSign (n.text ++ c :: cs) = (n.minus, n.ip ++ F) := by
    rw [htext]
    apply scanSign_opt
    intro c hc
    rcases hi : n.ip with _ | ⟨d, ds⟩
    · rw [hi] at hc h3
      rcases hx : n.fp with _ | f
      · unfold Numeral.frac at h3
        rw [hx] at h3
        exact absurd rfl h3
      · rw [hF, hx] at hc
        simp at hc
        subst hc; decide
    · rw [hi] at hc h1
      simp at hc
      subst hc
      have := dig_facts (h1 d (by simp))
      exact ⟨this.1, this.2.1⟩
  unfold scanNum at heq
  rw [hs] at heq
  dsimp only at heq
  rw [span_dig h1 hFh] at heq
  dsimp only at heq
  by_cases he : c = 'e' ∨ c = 'E'
  · have hf : scanFrac F = (n.frac, c :: cs) := by
      unfold Numeral.frac at *
      rcases hx : n.fp with _ | f
      · have : F = c :: cs := by rw [hF, hx]; rfl
        rw [this]
        have : c ≠ '.' := by rcases he with rfl | rfl <;> decide
        simp [scanFrac, this]
      · have : F = '.' :: (f ++ c :: cs) := by rw [hF, hx]; rfl
        rw [this]
        simp only [scanFrac, if_true, Option.getD_some]
        rw [hx] at h2
        exact span_dig h2 fun d hd => by simp at hd; rwa [← hd]
    have hseen : (!(n.ip.isEmpty && n.frac.isEmpty)) = true := by
      rcases hi : n.ip with _ | ⟨d, ds⟩
      · rw [hi, List.nil_append] at h3
        simpa using h3
      · simp
    rw [hf] at heq
    dsimp only at heq
    rw [hseen] at heq
    have := exp_lt he cs
    rw [heq] at this
    exact absurd this (lt_irrefl _)
  · rw [not_or] at he
    obtain ⟨-, hfp, rfl⟩ := hr hdig' (fun _ => he)
    have hF' : F = '.' :: cs := by rw [hF, hfp]; rfl
    rw [hF'] at heq
    simp only [scanFrac, if_true] at heq
    have k := exp_le (!(n.ip.isEmpty && (cs.span isDig).1.isEmpty)) (cs.span isDig).2
    have k2 := congrArg List.length (span_spec cs).2
    rw [List.length_append] at k2
    rw [heq, List.length_cons] at k
    omega

theorem chained_append (a b : List (List Char × Numeral)) (more : List Char) :
    Chained (a ++ b) more ↔ Chained a (spacedText b ++ more) ∧ Chained b more := by
  induction a with
  | nil => simp [Chained]
  | cons f a ih =>
    have e : spacedText (a ++ b) ++ more = spacedText a ++ (spacedText b ++ more) := by
      unfold spacedText; rw [List.flatMap_append, List.append_assoc]
    rw [List.cons_append, Chained, Chained, ih, e]
    tauto

theorem closed_reads {n : Numeral} {v : F64} (h : Denotes n v) {ws rest : List Char} (hw : ∀ c ∈ ws, Blank c)
    (hr : Closed n rest) (old : F64) :
    extractDub ⟨ws ++ n.text ++ rest, false, false⟩ old = (⟨rest, rest.isEmpty, false⟩, v) := by
  obtain ⟨hok, -, hd⟩ := h
  obtain ⟨f, y, e, c1, c2, -⟩ := C100_number hok hw hr old
  rw [e]
  rcases hd with ⟨h0, rfl⟩ | ⟨h0, h1, h2⟩
  · obtain ⟨rfl, rfl⟩ := c1 h0; rfl
  · obtain ⟨rfl, k⟩ := c2 h0 h1
    have hs : ((n.signed : ℚ) : ℝ) ≠ 0 := by
      rw [Numeral.signed]; split <;> simpa using h0
    rw [C94_rounding_unique hs k, C94_rounding_unique hs h2]

theorem spaced_ne {f : List Char × Numeral} (h : f.2.Ok) (fs : List (List Char × Numeral)) (more : List Char) :
    (spacedText (f :: fs) ++ more).isEmpty = false := by
  obtain ⟨c, cs, e, -⟩ := text_head h []
  rw [List.append_nil] at e
  rw [List.isEmpty_eq_false_iff, spacedText, List.flatMap_cons, e]
  simp

theorem readAll_chained (fs : List (List Char × Numeral)) (vals : List F64) (more : List Char) (hne : fs ≠ [])
    (hc : Chained fs more) (hd : List.Forall₂ (fun f v => Denotes f.2 v) fs vals) :
    readAll fs.length ⟨spacedText fs ++ more, false, false⟩ = (⟨more, more.isEmpty, false⟩, some vals) := by
  induction fs generalizing vals with
  | nil => exact absurd rfl hne
  | cons f fs ih =>
    rcases hd with _ | ⟨hv, hd⟩
    rename_i v vals
    obtain ⟨c1, c2, c3⟩ := hc
    have h1 := closed_reads hv c1 c2 nan
    have e : spacedText (f :: fs) ++ more = f.1 ++ f.2.text ++ (spacedText fs ++ more) := by
      rw [spacedText, List.flatMap_cons, List.append_assoc]; rfl
    rw [List.length_cons, readAll, e, h1]
    dsimp only
    rw [if_pos ⟨rfl, (denotes_reads hv).2⟩]
    rcases fs with _ | ⟨g, fs⟩
    · rcases hd
      simp [readAll, spacedText]
    · have hg : g.2.Ok := by
        rcases hd with _ | ⟨h, -⟩
        exact h.1
      rw [spaced_ne hg, ih vals (by simp) c3 hd]
      rfl

theorem readGroups_chained (ns : List Nat) (hz : 0 ∉ ns) (hne : ns ≠ []) (fs : List (List Char × Numeral))
    (vals : List F64) {more : List Char} (hc : Chained fs more)
    (hd : List.Forall₂ (fun f v => Denotes f.2 v) fs vals) (hn : fs.length = ns.sum) :
    (readGroups ns ⟨spacedText fs ++ more, false, false⟩).1 = ⟨more, more.isEmpty, false⟩ ∧
      (readGroups ns ⟨spacedText fs ++ more, false, false⟩).2.flatten = vals := by
  induction ns generalizing fs vals with
  | nil => exact absurd rfl hne
  | cons n ns ih =>
    have hn0 : n ≠ 0 := by rintro rfl; simp at hz
    have hz' : 0 ∉ ns := fun h => hz (List.mem_cons_of_mem _ h)
    rw [List.sum_cons] at hn
    have hle : n ≤ fs.length := by omega
    have hne0 : fs ≠ [] := by rintro rfl; simp at hle; exact hn0 hle
    obtain ⟨k1, k2⟩ := (chained_append (fs.take n) (fs.drop n) more).1 (by rwa [List.take_append_drop])
    have h1 := readAll_chained (fs.take n) (vals.take n) _
      (by simpa [List.take_eq_nil_iff] using ⟨hn0, hne0⟩) k1 (List.forall₂_take _ hd)
    have e : spacedText (fs.take n) ++ (spacedText (fs.drop n) ++ more) = spacedText fs ++ more := by
      rw [← List.append_assoc]; unfold spacedText
      rw [← List.flatMap_append, List.take_append_drop]
    rw [List.length_take, min_eq_left hle, e] at h1
    rw [readGroups, h1]
    dsimp only
    have hlen : fs.length = vals.length := hd.length_eq
    rcases ns with _ | ⟨m, ns⟩
    · have e : fs.drop n = [] := by rw [List.drop_eq_nil_iff]; simp at hn; omega
      have e' : vals.take n = vals := List.take_of_length_le (by simp at hn; omega)
      rw [e, e']
      simp [readGroups, spacedText]
    · have hm0 : m ≠ 0 := by rintro rfl; simp at hz'
      have hemp : (spacedText (fs.drop n) ++ more).isEmpty = false := by
        have hd2 := List.forall₂_drop n hd
        rcases hdr : fs.drop n with _ | ⟨f, gs⟩
        · rw [List.drop_eq_nil_iff] at hdr
          rw [List.sum_cons] at hn
          omega
        · rw [hdr] at hd2
          generalize vals.drop n = vs at hd2
          rcases hd2 with _ | ⟨h, -⟩
          exact spaced_ne h.1 _ _
      obtain ⟨i1, i2⟩ := ih hz' (by simp) (fs.drop n) (vals.drop n) k2 (List.forall₂_drop n hd)
        (by rw [List.length_drop]; omega)
      rw [hemp]
      refine ⟨i1, ?_⟩
      rw [List.flatten_cons, i2]
      exact List.take_append_drop n vals

/-! ## Objects -/

/-- **C100.**  For every type: numerals in any notation, as many as the type has components, with or without white
space before each, none continued by what is after it, are read as the object with the numbers they denote as
components in this order; what follows is left in the stream. -/
theorem C100_numerals (t : Ty) (ht : t ≠ .dub) (old : t.D F64) {fs : List (List Char × Numeral)} {vals : List F64}
    {more : List Char} (hs : Chained fs more) (hd : List.Forall₂ (fun f v => Denotes f.2 v) fs vals)
    (hn : fs.length = (bladeSizes t).sum) :
    ∃ y, extractTy t ⟨spacedText fs ++ more, false, false⟩ old = .ok (⟨more, more.isEmpty, false⟩, y) ∧
      comps t y = vals := by
  obtain ⟨s', y, h1, h2⟩ := C29_blades t ht ⟨spacedText fs ++ more, false, false⟩ old
  obtain ⟨k1, k2⟩ := readGroups_chained (bladeSizes t) (sizes_pos t) (sizes_ne t) _ vals hs hd hn
  rw [← h2] at k1 k2
  dsimp only at k1 k2
  refine ⟨y, by rw [h1, k1], ?_⟩
  rw [← blades_join, k2]

theorem readAll_stop (fs : List (List Char × Numeral)) (vals : List F64) {w : List Char} (hw : Word w)
    (hc : Chained fs w) (hd : List.Forall₂ (fun f v => Denotes f.2 v) fs vals) (n : Nat) (hn : fs.length < n) :
    (readAll n ⟨spacedText fs ++ w, false, false⟩).1.fail = true ∧
      (readAll n ⟨spacedText fs ++ w, false, false⟩).2 = none := by
  induction fs generalizing vals n with
  | nil =>
    obtain ⟨n, rfl⟩ : ∃ k, n = k + 1 := ⟨n - 1, by simp at hn; omega⟩
    have h := word_fails hw nan
    rw [readAll, show spacedText [] ++ w = w from rfl, if_neg (by rw [h]; simp)]
    exact ⟨h, rfl⟩
  | cons f fs ih =>
    obtain ⟨n, rfl⟩ : ∃ k, n = k + 1 := ⟨n - 1, by simp at hn; omega⟩
    rcases hd with _ | ⟨hv, hd⟩
    rename_i v vals
    obtain ⟨c1, c2, c3⟩ := hc
    have h1 := closed_reads hv c1 c2 nan
    have e : spacedText (f :: fs) ++ w = f.1 ++ f.2.text ++ (spacedText fs ++ w) := by
      rw [spacedText, List.flatMap_cons, List.append_assoc]; rfl
    have hne : (spacedText fs ++ w).isEmpty = false := by
      obtain ⟨ws, sg, c, cs, rfl, -⟩ := hw
      simp
    obtain ⟨i1, i2⟩ := ih vals c3 hd n (by simpa using hn)
    rw [readAll, e, h1]
    dsimp only
    rw [if_pos ⟨rfl, (denotes_reads hv).2⟩, hne]
    exact ⟨i1, by rw [i2]; rfl⟩

theorem readGroups_stop (ns : List Nat) (hz : 0 ∉ ns) (fs : List (List Char × Numeral)) (vals : List F64)
    {w : List Char} (hw : Word w) (hc : Chained fs w) (hd : List.Forall₂ (fun f v => Denotes f.2 v) fs vals)
    (hn : fs.length < ns.sum) :
    (readGroups ns ⟨spacedText fs ++ w, false, false⟩).1.fail = true ∧
      (readGroups ns ⟨spacedText fs ++ w, false, false⟩).2 = recovered ns vals := by
  induction ns generalizing fs vals with
  | nil => simp at hn
  | cons n ns ih =>
    have hn0 : n ≠ 0 := by rintro rfl; simp at hz
    have hz' : 0 ∉ ns := fun h => hz (List.mem_cons_of_mem _ h)
    have hlen : fs.length = vals.length := hd.length_eq
    rw [recovered]
    by_cases hle : n ≤ fs.length
    · rw [if_pos (hlen ▸ hle)]
      have hne0 : fs ≠ [] := by rintro rfl; simp at hle; exact hn0 hle
      obtain ⟨k1, k2⟩ := (chained_append (fs.take n) (fs.drop n) w).1 (by rwa [List.take_append_drop])
      have h1 := readAll_chained (fs.take n) (vals.take n) _
        (by simpa [List.take_eq_nil_iff] using ⟨hn0, hne0⟩) k1 (List.forall₂_take _ hd)
      have e : spacedText (fs.take n) ++ (spacedText (fs.drop n) ++ w) = spacedText fs ++ w := by
        rw [← List.append_assoc]; unfold spacedText
        rw [← List.flatMap_append, List.take_append_drop]
      rw [List.length_take, min_eq_left hle, e] at h1
      have hne : (spacedText (fs.drop n) ++ w).isEmpty = false := by
        obtain ⟨ws, sg, c, cs, rfl, -⟩ := hw
        simp
      obtain ⟨i1, i2⟩ := ih hz' (fs.drop n) (vals.drop n) k2 (List.forall₂_drop n hd)
        (by rw [List.sum_cons] at hn; rw [List.length_drop]; omega)
      rw [readGroups, h1]
      dsimp only
      rw [hne]
      exact ⟨i1, by rw [i2]; rfl⟩
    · rw [if_neg (hlen ▸ hle)]
      obtain ⟨r1, r2⟩ := readAll_stop fs vals hw hc hd n (by omega)
      obtain ⟨i1, i2⟩ := readGroups_null ns hz' _ r1
      rw [readGroups]
      dsimp only
      exact ⟨i1, by rw [i2, r2]; rfl⟩

/-- **C100.**  For every type: a character that cannot begin a number, after fewer numerals than the type has
components and with or without white space before it, stops the reading: the stream fails, the blades that were
complete are read, and all others are null.  So `1,2,3` is not a vector. -/
theorem C100_stop (t : Ty) (ht : t ≠ .dub) (old : t.D F64) {fs : List (List Char × Numeral)} {vals : List F64}
    {w : List Char} (hw : Word w) (hs : Chained fs w) (hd : List.Forall₂ (fun f v => Denotes f.2 v) fs vals)
    (hn : fs.length < (bladeSizes t).sum) :
    ∃ s' y, extractTy t ⟨spacedText fs ++ w, false, false⟩ old = .ok (s', y) ∧ s'.fail = true ∧
      blades t y = recovered (bladeSizes t) vals := by
  obtain ⟨s', y, h1, h2⟩ := C29_blades t ht ⟨spacedText fs ++ w, false, false⟩ old
  obtain ⟨k1, k2⟩ := readGroups_stop (bladeSizes t) (sizes_pos t) _ vals hw hs hd hn
  rw [← h2] at k1 k2
  exact ⟨s', y, h1, k1, k2⟩

theorem signed_chained (ns : List Numeral) (h : ∀ n ∈ ns.tail, n.sign ≠ none) {more : List Char}
    (hm : ∀ c ∈ more.head?, Blank c ∨ c = '+' ∨ c = '-') : Chained (ns.map fun n => ([], n)) more := by
  have key : ∀ (n : Numeral) (rest : List Char), (∀ c ∈ rest.head?, Blank c ∨ c = '+' ∨ c = '-') → Closed n rest := by
    intro n rest hr c hc
    rcases hr c hc with hb | rfl | rfl
    · have hw := ws_facts ((blank_iff c).1 hb)
      refine ⟨?_, fun _ => ⟨hw.2.2.1, hw.2.2.2.1⟩, fun _ _ => hw.2.1⟩
      rw [← Bool.not_eq_true]
      intro hd
      have := (isDigit_iff c).1 hd
      rw [hw.1] at this
      exact absurd this (by simp)
    · exact ⟨by decide, fun _ => by decide, fun _ _ => by decide⟩
    · exact ⟨by decide, fun _ => by decide, fun _ _ => by decide⟩
  induction ns with
  | nil => trivial
  | cons n ns ih =>
    refine ⟨by simp, key _ _ ?_, ih fun m hm => h m (List.mem_of_mem_tail hm)⟩
    rcases ns with _ | ⟨m, ns⟩
    · simpa [spacedText] using hm
    · have := h m (by simp)
      intro c hc
      rcases hx : m.sign with _ | _ | _
      · exact absurd hx this
      · simp [spacedText, Numeral.text, hx, Numeral.signText] at hc
        exact .inr (.inl hc.symm)
      · simp [spacedText, Numeral.text, hx, Numeral.signText] at hc
        exact .inr (.inr hc.symm)

/-- **C100.**  For every type: numerals with a sign (the first with or without) can be written one after the other
with nothing between them, as in `1-2+3`. -/
theorem C100_signs (t : Ty) (ht : t ≠ .dub) (old : t.D F64) {ns : List Numeral} {vals : List F64}
    (hs : ∀ n ∈ ns.tail, n.sign ≠ none) (hd : List.Forall₂ Denotes ns vals)
    (hn : ns.length = (bladeSizes t).sum) {more : List Char}
    (hm : ∀ c ∈ more.head?, Blank c ∨ c = '+' ∨ c = '-') :
    ∃ y, extractTy t ⟨ns.flatMap Numeral.text ++ more, false, false⟩ old =
        .ok (⟨more, more.isEmpty, false⟩, y) ∧ comps t y = vals := by
  have h := C100_numerals t ht old (signed_chained ns hs hm) (vals := vals)
    (by rw [List.forall₂_map_left_iff]; exact hd) (by rw [List.length_map, hn])
  rwa [spacedText, List.flatMap_map] at h

theorem text_noblank {n : Numeral} (h : n.Ok) : ∀ c ∈ n.text, ¬Blank c := by
  obtain ⟨h1, h2, -, h4⟩ := h
  rw [allDig_iff] at h1 h2
  have sg : ∀ (s : Option Bool), ∀ c ∈ Numeral.signText s, isWs c = false := by
    rintro (_ | _ | _) c hc <;> simp [Numeral.signText] at hc <;> subst hc <;> decide
  intro c hc
  rw [blank_iff, Bool.not_eq_true]
  unfold Numeral.text at hc
  simp only [List.mem_append] at hc
  rcases hc with ((hc | hc) | hc) | hc
  · exact sg _ c hc
  · exact (dig_facts (h1 c hc)).2.2.2.2.2
  · unfold Numeral.frac at h2
    rcases hx : n.fp with _ | f
    · rw [hx] at hc; simp at hc
    · rw [hx] at hc h2
      rcases List.mem_cons.1 hc with rfl | hc
      · decide
      · exact (dig_facts (h2 c hc)).2.2.2.2.2
  · rcases hx : n.ex with _ | ⟨e, s, ds⟩
    · rw [hx] at hc; simp at hc
    · rw [hx] at hc
      obtain ⟨a, -, d⟩ := h4 _ _ _ hx
      rw [allDig_iff] at d
      rcases List.mem_cons.1 hc with rfl | hc
      · rcases a with rfl | rfl <;> decide
      · rcases List.mem_append.1 hc with hc | hc
        · exact sg _ c hc
        · exact (dig_facts (d c hc)).2.2.2.2.2

/-- **C100.**  Such numerals are read in the same way by a stream with `std::noskipws`, if there is no white space
at all in the text. -/
theorem C100_no_skip (t : Ty) (ht : t ≠ .dub) (old : t.D F64) {fs : List (List Char × Numeral)} {vals : List F64}
    {more : List Char} (hs : Chained fs more) (hd : List.Forall₂ (fun f v => Denotes f.2 v) fs vals)
    (hn : fs.length = (bladeSizes t).sum) (hg : ∀ f ∈ fs, f.1 = []) (hm : ∀ c ∈ more, ¬Blank c) :
    ∃ y, extractTyN t ⟨spacedText fs ++ more, false, false⟩ old = .ok (⟨more, more.isEmpty, false⟩, y) ∧
      comps t y = vals := by
  rw [C99_same t ht _ ?_ old]
  · exact C100_numerals t ht old hs hd hn
  · intro c hc
    rcases List.mem_append.1 hc with hc | hc
    · obtain ⟨f, hf, hc⟩ := List.mem_flatMap.1 hc
      rw [hg f hf, List.nil_append] at hc
      refine text_noblank ?_ c hc
      obtain ⟨i, hi, rfl⟩ := List.getElem_of_mem hf
      exact ((List.forall₂_iff_get.1 hd).2 i hi (hd.length_eq ▸ hi)).1
    · exact hm c hc

/-! ## Instances -/

/-- A vector from `+25.e-1-.0-.0;`. -/
example (old : Vector F64) : ∃ y : Vector F64,
    extractTy .vec ⟨"+25.e-1-.0-.0;".toList, false, false⟩ old = .ok (⟨";".toList, false, false⟩, y) ∧
    comps .vec y = [F64.roundTo (5 / 2 : ℚ), .zero true, .zero true] :=
  C100_numerals .vec (by decide) old (fs := [([], numA), ([], numB), ([], numB)]) (more := ";".toList)
    ⟨by simp, by simp [Closed, spacedText, numB, Numeral.text, Numeral.signText], by simp,
      by simp [Closed, spacedText, numB, Numeral.text, Numeral.signText], by simp, by simp [Closed, spacedText], trivial⟩
    (.cons numA_denotes (.cons numB_denotes (.cons numB_denotes .nil))) rfl

/-- The same text with `std::noskipws`. -/
example (old : Vector F64) : ∃ y : Vector F64,
    extractTyN .vec ⟨"+25.e-1-.0-.0;".toList, false, false⟩ old = .ok (⟨";".toList, false, false⟩, y) ∧
    comps .vec y = [F64.roundTo (5 / 2 : ℚ), .zero true, .zero true] :=
  C100_no_skip .vec (by decide) old (fs := [([], numA), ([], numB), ([], numB)]) (more := ";".toList)
    ⟨by simp, by simp [Closed, spacedText, numB, Numeral.text, Numeral.signText], by simp,
      by simp [Closed, spacedText, numB, Numeral.text, Numeral.signText], by simp, by simp [Closed, spacedText], trivial⟩
    (.cons numA_denotes (.cons numB_denotes (.cons numB_denotes .nil))) rfl (by simp) (by simp [Blank])

/-- With signs: a bivector from `-.0+25.e-1-.0` and another sign. -/
example (old : BiVector F64) : ∃ y : BiVector F64,
    extractTy .biv ⟨"-.0+25.e-1-.0-".toList, false, false⟩ old = .ok (⟨"-".toList, false, false⟩, y) ∧
    comps .biv y = [.zero true, F64.roundTo (5 / 2 : ℚ), .zero true] :=
  C100_signs .biv (by decide) old (ns := [numB, numA, numB]) (by simp [numA, numB])
    (.cons numB_denotes (.cons numA_denotes (.cons numB_denotes .nil))) rfl (more := "-".toList) (by simp)

/-- A spinor from `-.0,+25.e-1,3,4`: the scalar is read, the bivector is null. -/
example (old : Spinor F64) : ∃ s' y,
    extractTy .spin ⟨"-.0,+25.e-1,3,4".toList, false, false⟩ old = .ok (s', y) ∧ s'.fail = true ∧
    blades .spin y = [[.zero true], [nan, nan, nan]] :=
  C100_stop .spin (by decide) old (fs := [([], numB)]) (w := ",+25.e-1,3,4".toList)
    ⟨[], none, ',', "+25.e-1,3,4".toList, rfl, by simp, by decide, by unfold Blank; decide, by decide⟩
    ⟨by simp, by simp [Closed, spacedText], trivial⟩ (.cons numB_denotes .nil) (by decide)

/-- `-.0` is not read as such from `-.05`. -/
example (old : F64) : (extractDub ⟨"-.05".toList, false, false⟩ old).1.rest ≠ ['5'] :=
  C100_longest (n := numB) numB_denotes.1 (ws := []) (rest := ['5']) (by simp) old
    (fun h => absurd (h '5' rfl).1 (by decide))

end Engabra
