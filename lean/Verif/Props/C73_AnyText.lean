import Verif.Props.C70_Cut

/-! # C73: reading loops on any text

C41 and C70 are about texts written by the library.  Here the text is arbitrary: written by another
program, edited by hand, damaged. -/

namespace Engabra

open F64 (nan inf zero fin IsFin Finite)

/-! ## Specification -/

/-- The stream with more text behind it. -/
def IStream.more (s : IStream) (q : List Char) : IStream := ⟨s.rest ++ q, s.eof, s.fail⟩

/-- The text ends with white space (as text files end with a new-line). -/
def EndsWs (p : List Char) : Prop := ∃ p' w, p = p' ++ [w] ∧ isWs w = true

/-- The text is a sequence of objects of type `t`, and nothing but white space after the last. -/
inductive Whole (t : Ty) : List Char → List (t.D F64) → Prop
  | nil {p : List Char} : AllWs p → Whole t p []
  | cons {p r : List Char} {old y : t.D F64} {ys : List (t.D F64)} :
      extractTy t ⟨p, false, false⟩ old = .ok (⟨r, false, false⟩, y) → Whole t r ys →
      Whole t p (y :: ys)

/-! ## Lemmas: a number does not depend on what follows the character after it -/

theorem span_more (f : Char → Bool) (cs q : List Char) (h : (cs.span f).2 ≠ []) :
    (cs ++ q).span f = ((cs.span f).1, (cs.span f).2 ++ q) := by
  rw [List.span_eq_takeWhile_dropWhile] at h ⊢
  rw [List.span_eq_takeWhile_dropWhile]
  induction cs with
  | nil => exact absurd rfl h
  | cons c cs ih =>
    by_cases hc : f c = true
    · simp only [List.dropWhile_cons, List.takeWhile_cons, hc, if_true, List.cons_append] at h ⊢
      have := ih h
      simp only [Prod.mk.injEq] at this ⊢
      exact ⟨by rw [this.1], this.2⟩
    · simp only [List.dropWhile_cons, List.takeWhile_cons, hc, Bool.false_eq_true, if_false,
        List.cons_append]

theorem scanSign_more (cs q : List Char) (h : cs ≠ []) :
    scanSign (cs ++ q) = ((scanSign cs).1, (scanSign cs).2 ++ q) := by
  rcases cs with _ | ⟨c, cs⟩
  · exact absurd rfl h
  · simp only [scanSign, List.cons_append]
    split
    · rfl
    · split <;> rfl

theorem scanFrac_more (cs q : List Char) (h : (scanFrac cs).2 ≠ []) :
    scanFrac (cs ++ q) = ((scanFrac cs).1, (scanFrac cs).2 ++ q) := by
  rcases cs with _ | ⟨c, cs⟩
  · exact absurd rfl h
  · simp only [scanFrac, List.cons_append] at h ⊢
    split
    · rename_i hc
      rw [if_pos hc] at h
      exact span_more _ _ _ h
    · rfl

theorem scanExp_more (b : Bool) (cs q : List Char) (h : (scanExp b cs).2 ≠ []) :
    scanExp b (cs ++ q) = ((scanExp b cs).1, (scanExp b cs).2 ++ q) := by
  rcases cs with _ | ⟨c, cs⟩
  · exact absurd rfl h
  · simp only [scanExp, List.cons_append] at h ⊢
    split
    · rename_i hc
      rw [if_pos hc] at h
      try dsimp only at h
      have hne : cs ≠ [] := by
        rintro rfl
        exact h rfl
      rw [scanSign_more _ _ hne]
      try dsimp only
      rw [span_more _ _ _ h]
    · rfl

theorem ne_nil_of_suffix {a b : List Char} (h : a <:+ b) (ha : a ≠ []) : b ≠ [] := by
  rintro rfl
  exact ha (List.suffix_nil.1 h)

theorem scanNum_more (cs q : List Char) (h : (scanNum cs).2 ≠ []) :
    scanNum (cs ++ q) = ((scanNum cs).1, (scanNum cs).2 ++ q) := by
  unfold scanNum at h ⊢
  try dsimp only at h ⊢
  have h1 := ne_nil_of_suffix (scanExp_suffix _ _) h
  have h2 := ne_nil_of_suffix (scanFrac_suffix _) h1
  have h3 := ne_nil_of_suffix (span_suffix _ _) h2
  have h4 := ne_nil_of_suffix (scanSign_suffix _) h3
  rw [scanSign_more _ _ h4]
  try dsimp only
  rw [span_more _ _ _ h2]
  try dsimp only
  rw [scanFrac_more _ _ h1]
  try dsimp only
  rw [scanExp_more _ _ _ h]

theorem dropWhile_more (f : Char → Bool) (cs q : List Char) (h : cs.dropWhile f ≠ []) :
    (cs ++ q).dropWhile f = cs.dropWhile f ++ q := by
  induction cs with
  | nil => exact absurd rfl h
  | cons c cs ih =>
    by_cases hc : f c = true
    · simp only [List.dropWhile_cons, hc, if_true, List.cons_append] at h ⊢
      exact ih h
    · simp only [List.dropWhile_cons, hc, Bool.false_eq_true, if_false, List.cons_append]

theorem extractDub_more (s : IStream) (old : F64) (q : List Char)
    (h : (extractDub s old).1.eof = false) :
    extractDub (s.more q) old = ((extractDub s old).1.more q, (extractDub s old).2) := by
  obtain ⟨p, e, f⟩ := s
  unfold extractDub IStream.more at *
  try dsimp only at *
  split
  · rfl
  · rename_i hc
    rw [if_neg hc] at h
    by_cases h0 : p.dropWhile isWs = []
    · rw [if_pos h0] at h; cases h
    · rw [if_neg h0] at h ⊢
      rw [dropWhile_more _ _ _ h0, if_neg (by simp [h0])]
      try dsimp only at h ⊢
      have h1 : (scanNum (p.dropWhile isWs)).2 ≠ [] := by
        intro he; rw [he] at h; cases h
      rw [scanNum_more _ _ h1]
      try dsimp only
      congr 2
      generalize (scanNum (p.dropWhile isWs)).2 = l at h1 ⊢
      rcases l with _ | ⟨a, l⟩
      · exact absurd rfl h1
      · rfl

theorem extractDub_eof_mono (s : IStream) (old : F64) (h : s.eof = true) :
    (extractDub s old).1.eof = true := by
  unfold extractDub
  rw [if_pos (by simp [h])]
  exact h

theorem readAll_eof_mono (n : Nat) (s : IStream) (h : s.eof = true) : (readAll n s).1.eof = true := by
  rcases n with _ | n
  · exact h
  · rw [readAll_bad _ _ (Or.inr h) (by omega)]; exact h

theorem readGroups_eof_mono (ns : List Nat) (s : IStream) (h : s.eof = true) :
    (readGroups ns s).1.eof = true := by
  induction ns generalizing s with
  | nil => exact h
  | cons n ns ih => rw [readGroups]; exact ih _ (readAll_eof_mono n s h)

theorem readAll_more (n : Nat) (s : IStream) (q : List Char) (h : (readAll n s).1.eof = false) :
    readAll n (s.more q) = ((readAll n s).1.more q, (readAll n s).2) := by
  induction n generalizing s with
  | zero => rfl
  | succ n ih =>
    have h0 : (extractDub s nan).1.eof = false := by
      by_contra hc
      rw [readAll] at h
      try dsimp only at h
      split at h
      · rw [readAll_eof_mono n _ (by simpa using hc)] at h; cases h
      · exact hc h
    rw [readAll, readAll, extractDub_more _ _ _ h0]
    try dsimp only
    rw [readAll] at h
    try dsimp only at h
    by_cases hc : (extractDub s nan).1.fail = false ∧ isValidDub (extractDub s nan).2 = true
    · rw [if_pos hc] at h
      rw [if_pos hc, if_pos (show ((extractDub s nan).1.more q).fail = false ∧ _ from hc), ih _ h]
    · rw [if_neg hc, if_neg (show ¬(((extractDub s nan).1.more q).fail = false ∧ _) from hc)]

theorem readGroups_more (ns : List Nat) (s : IStream) (q : List Char)
    (h : (readGroups ns s).1.eof = false) :
    readGroups ns (s.more q) = ((readGroups ns s).1.more q, (readGroups ns s).2) := by
  induction ns generalizing s with
  | nil => rfl
  | cons n ns ih =>
    have h0 : (readAll n s).1.eof = false := by
      by_contra hc
      rw [readGroups] at h
      try dsimp only at h
      rw [readGroups_eof_mono ns _ (by simpa using hc)] at h; cases h
    rw [readGroups, readGroups, readAll_more _ _ _ h0]
    try dsimp only
    rw [ih _ h]

/-- **C73.** If an extraction does not reach the end of the text, then what it reads, whether it
fails, and what it leaves do not depend on how the text goes on. -/
theorem C73_local (t : Ty) (s s' : IStream) (old y : t.D F64) (q : List Char)
    (h : extractTy t s old = .ok (s', y)) (he : s'.eof = false) :
    extractTy t (s.more q) old = .ok (s'.more q, y) := by
  by_cases ht : t = .dub
  · subst ht
    rw [extractTy] at h ⊢
    injection h with h
    have h1 : (extractDub s old).1 = s' := congrArg Prod.fst h
    rw [extractDub_more _ _ _ (by rw [h1]; exact he), h]
  obtain ⟨s1, y1, h1, h2⟩ := C29_blades t ht s old
  obtain ⟨s2, y2, k1, k2⟩ := C29_blades t ht (s.more q) old
  rw [h] at h1
  injection h1 with h1
  injection h1 with ha hb
  subst ha; subst hb
  rw [readGroups_more _ _ _ (by rw [← h2]; exact he), ← h2] at k2
  injection k2 with ka kb
  rw [k1, ka, blades_inj t _ _ kb]

/-! ## Every loop ends -/

theorem scanNum_progress (cs : List Char) (h : (scanNum cs).1.convert.2 = false) :
    (scanNum cs).2.length < cs.length := by
  have hs := (scanSign_suffix cs).length_le
  unfold scanNum at h ⊢
  try dsimp only at h ⊢
  have he := (scanExp_suffix (!(((scanSign cs).2.span isDig).1.isEmpty &&
    (scanFrac ((scanSign cs).2.span isDig).2).1.isEmpty)) (scanFrac ((scanSign cs).2.span isDig).2).2).length_le
  have hf := (scanFrac_suffix ((scanSign cs).2.span isDig).2).length_le
  have hi := (span_suffix isDig (scanSign cs).2).length_le
  by_cases h1 : ((scanSign cs).2.span isDig).1 = []
  · by_cases h2 : (scanFrac ((scanSign cs).2.span isDig).2).1 = []
    · rw [h1, h2] at h
      simp [NumTok.convert] at h
    · have : (scanFrac ((scanSign cs).2.span isDig).2).2.length < ((scanSign cs).2.span isDig).2.length := by
        generalize ((scanSign cs).2.span isDig).2 = l at h2 ⊢
        rcases l with _ | ⟨c, l⟩
        · exact absurd rfl h2
        · unfold scanFrac at h2 ⊢
          try dsimp only at h2 ⊢
          split
          · have := (span_suffix isDig l).length_le
            simp only [List.length_cons]; omega
          · rename_i hc; rw [if_neg hc] at h2; exact absurd rfl h2
      omega
  · have : ((scanSign cs).2.span isDig).2.length < (scanSign cs).2.length := by
      have e := List.takeWhile_append_dropWhile (p := isDig) (l := (scanSign cs).2)
      rw [List.span_eq_takeWhile_dropWhile] at h1 ⊢
      have e' := congrArg List.length e
      rw [List.length_append] at e'
      have := List.length_pos_of_ne_nil h1
      try dsimp only at this ⊢
      omega
    omega

theorem extractDub_progress (s : IStream) (old : F64) (h : (extractDub s old).1.fail = false) :
    (extractDub s old).1.rest.length < s.rest.length := by
  have hd := (List.dropWhile_suffix isWs (l := s.rest)).length_le
  unfold extractDub at h ⊢
  split
  · rename_i hc; rw [if_pos hc] at h; cases h
  · rename_i hc
    rw [if_neg hc] at h
    try dsimp only at h ⊢
    split
    · rename_i h0; rw [if_pos h0] at h; cases h
    · rename_i h0
      rw [if_neg h0] at h
      try dsimp only at h ⊢
      exact lt_of_lt_of_le (scanNum_progress _ h) hd

/-- **C73.** A successful extraction consumes at least one character. -/
theorem C73_progress (t : Ty) (s s' : IStream) (old y : t.D F64)
    (h : extractTy t s old = .ok (s', y)) (hf : s'.fail = false) : s'.rest.length < s.rest.length := by
  by_cases ht : t = .dub
  · subst ht
    rw [extractTy] at h
    injection h with h
    have h1 : (extractDub s old).1 = s' := congrArg Prod.fst h
    rw [← h1] at hf ⊢
    exact extractDub_progress s old hf
  obtain ⟨s1, y1, h1, h2⟩ := C29_blades t ht s old
  rw [h] at h1
  injection h1 with h1
  injection h1 with ha hb
  subst ha
  have hs : s' = (readGroups (bladeSizes t) s).1 := congrArg Prod.fst h2
  have key : ∀ n ns, (readGroups ((n + 1) :: ns) s).1.fail = false →
      (readGroups ((n + 1) :: ns) s).1.rest.length < s.rest.length := by
    intro n ns hk
    rw [readGroups] at hk ⊢
    try dsimp only at hk ⊢
    have h3 : (readAll (n + 1) s).1.fail = false := by
      by_contra hc
      rw [readGroups_fail_mono ns _ (by simpa using hc)] at hk; cases hk
    refine lt_of_le_of_lt (readGroups_suffix ns _).length_le ?_
    have h4 : (extractDub s nan).1.fail = false := by
      by_contra hc
      rw [readAll] at h3
      try dsimp only at h3
      split at h3
      · rename_i hc'; exact hc hc'.1
      · exact hc h3
    refine lt_of_le_of_lt ?_ (extractDub_progress s nan h4)
    rw [readAll]
    try dsimp only
    split
    · exact (readAll_suffix n _).length_le
    · exact le_rfl
  rw [hs] at hf ⊢
  cases t <;> first | exact absurd rfl ht | exact key _ _ hf

theorem extractTy_total (t : Ty) (s : IStream) (old : t.D F64) :
    ∃ s' y, extractTy t s old = .ok (s', y) := by
  by_cases ht : t = .dub
  · subst ht; exact ⟨_, _, rfl⟩
  · obtain ⟨s', y, h, -⟩ := C29_blades t ht s old
    exact ⟨s', y, h⟩

/-- **C73.** Both loops end, on every stream and whatever the text. -/
theorem C73_ends (t : Ty) (s : IStream) (old : t.D F64) :
    (∃ xs, ReadLoop t s old xs ∧ xs.length ≤ s.rest.length) ∧
      ∃ xs, GuardedLoop t s old xs ∧ xs.length ≤ s.rest.length := by
  constructor
  · suffices ∀ n, ∀ (s : IStream) (old : t.D F64), s.rest.length ≤ n →
      ∃ xs, ReadLoop t s old xs ∧ xs.length ≤ s.rest.length from this _ s old le_rfl
    intro n
    induction n with
    | zero =>
      intro s old hn
      obtain ⟨s', y, h⟩ := extractTy_total t s old
      by_cases hf : s'.fail = true
      · exact ⟨[], ReadLoop.stop h hf, Nat.zero_le _⟩
      · have := C73_progress t s s' old y h (by simpa using hf)
        omega
    | succ n ih =>
      intro s old hn
      obtain ⟨s', y, h⟩ := extractTy_total t s old
      by_cases hf : s'.fail = true
      · exact ⟨[], ReadLoop.stop h hf, Nat.zero_le _⟩
      · have hf' : s'.fail = false := by simpa using hf
        have := C73_progress t s s' old y h hf'
        obtain ⟨xs, k1, k2⟩ := ih s' y (by omega)
        exact ⟨y :: xs, ReadLoop.step h hf' k1, by simp only [List.length_cons]; omega⟩
  · suffices ∀ n, ∀ (s : IStream) (old : t.D F64), s.rest.length ≤ n →
      ∃ xs, GuardedLoop t s old xs ∧ xs.length ≤ s.rest.length from this _ s old le_rfl
    intro n
    induction n with
    | zero =>
      intro s old hn
      obtain ⟨s', y, h⟩ := extractTy_total t s old
      by_cases hf : s'.fail = true
      · exact ⟨[], GuardedLoop.stop h (Or.inl hf), Nat.zero_le _⟩
      · have := C73_progress t s s' old y h (by simpa using hf)
        omega
    | succ n ih =>
      intro s old hn
      obtain ⟨s', y, h⟩ := extractTy_total t s old
      by_cases hf : s'.fail = true ∨ s'.eof = true
      · exact ⟨[], GuardedLoop.stop h hf, Nat.zero_le _⟩
      · push Not at hf
        have hf' : s'.fail = false := by simpa using hf.1
        have := C73_progress t s s' old y h hf'
        obtain ⟨xs, k1, k2⟩ := ih s' y (by omega)
        exact ⟨y :: xs, GuardedLoop.step h hf' (by simpa using hf.2) k1,
          by simp only [List.length_cons]; omega⟩

/-! ## A shorter text -/

/-- **C73.** The guarded loop on the beginning of a text returns an initial part of what it returns
on the whole text. -/
theorem C73_guarded_prefix (t : Ty) (s : IStream) (old : t.D F64) (q : List Char)
    (xs ys : List (t.D F64)) (h : GuardedLoop t s old xs) (k : GuardedLoop t (s.more q) old ys) :
    xs <+: ys := by
  induction h generalizing ys with
  | stop => exact List.nil_prefix
  | step h1 h2 h3 _ ih =>
    have h4 := C73_local t _ _ _ _ q h1 h3
    cases k with
    | stop k1 k2 =>
      rw [h4] at k1
      injection k1 with k1; injection k1 with ka kb
      subst ka
      rcases k2 with k2 | k2
      · rw [show (IStream.more _ q).fail = _ from h2] at k2; cases k2
      · rw [show (IStream.more _ q).eof = _ from h3] at k2; cases k2
    | step k1 k2 k3 k4 =>
      rw [h4] at k1
      injection k1 with k1; injection k1 with ka kb
      subst ka; subst kb
      exact List.cons_prefix_cons.2 ⟨rfl, ih _ k4⟩

/-- **C73.** The plain loop on the beginning of a text: the same, except for the last object. -/
theorem C73_plain_prefix (t : Ty) (s : IStream) (old : t.D F64) (q : List Char)
    (xs ys : List (t.D F64)) (h : ReadLoop t s old xs) (k : ReadLoop t (s.more q) old ys) :
    xs.dropLast <+: ys := by
  induction h generalizing ys with
  | stop => exact List.nil_prefix
  | @step s s' old y zs h1 h2 h5 ih =>
    by_cases h3 : s'.eof = false
    · have h4 := C73_local t _ _ _ _ q h1 h3
      cases k with
      | stop k1 k2 =>
        rw [h4] at k1
        injection k1 with k1; injection k1 with ka kb
        subst ka
        rw [show (IStream.more _ q).fail = _ from h2] at k2; cases k2
      | step k1 k2 k4 =>
        rw [h4] at k1
        injection k1 with k1; injection k1 with ka kb
        subst ka; subst kb
        have := ih _ k4
        rcases zs with _ | ⟨z, zs⟩
        · exact List.nil_prefix
        · exact List.cons_prefix_cons.2 ⟨rfl, this⟩
    · have hz : zs = [] := by
        refine C41_loop_unique t _ _ _ _ h5 ?_
        by_cases ht : t = .dub
        · subst ht
          refine ReadLoop.stop (s' := ⟨s'.rest, s'.eof, true⟩) (y := y) ?_ rfl
          rw [extractTy]
          unfold extractDub
          rw [if_pos (by simp at h3; simp [h3])]
        · obtain ⟨y', e, -⟩ := C29_failed_stream t ht s' (Or.inr (by simpa using h3)) y
          exact ReadLoop.stop e rfl
      subst hz
      exact List.nil_prefix

/-! ## Texts that end with white space -/

/-- Characters of a number are not white space. -/
def Solid (l : List Char) : Prop := ∀ c ∈ l, isWs c = false

theorem isDig_solid {c : Char} (h : isDig c = true) : isWs c = false := by
  unfold isDig at h
  unfold isWs
  simp only [Bool.and_eq_true, decide_eq_true_eq] at h
  simp only [Bool.or_eq_false_iff, beq_eq_false_iff_ne, Bool.and_eq_false_iff, decide_eq_false_iff_not]
  refine ⟨?_, Or.inr (by omega)⟩
  rintro rfl
  exact absurd h.1 (by decide)

theorem solid_span (l : List Char) : ∃ pre, l = pre ++ (l.span isDig).2 ∧ Solid pre := by
  refine ⟨l.takeWhile isDig, ?_, ?_⟩
  · rw [List.span_eq_takeWhile_dropWhile]; exact List.takeWhile_append_dropWhile.symm
  · intro c hc
    exact isDig_solid (List.all_eq_true.1 (List.all_takeWhile (p := isDig) (l := l)) c hc)

theorem solid_append {a b : List Char} (ha : Solid a) (hb : Solid b) : Solid (a ++ b) := by
  intro c hc
  rcases List.mem_append.1 hc with h | h
  exacts [ha c h, hb c h]

theorem solid_sign (l : List Char) : ∃ pre, l = pre ++ (scanSign l).2 ∧ Solid pre := by
  have h0 : Solid [] := by intro c hc; cases hc
  rcases l with _ | ⟨c, l⟩
  · exact ⟨[], rfl, h0⟩
  · unfold scanSign
    try dsimp only
    split
    · rename_i hc; subst hc
      exact ⟨['-'], rfl, by intro c hc; simp at hc; subst hc; decide⟩
    · split
      · rename_i hc; subst hc
        exact ⟨['+'], rfl, by intro c hc; simp at hc; subst hc; decide⟩
      · exact ⟨[], rfl, h0⟩

theorem solid_frac (l : List Char) : ∃ pre, l = pre ++ (scanFrac l).2 ∧ Solid pre := by
  have h0 : Solid [] := by intro c hc; cases hc
  rcases l with _ | ⟨c, l⟩
  · exact ⟨[], rfl, h0⟩
  · unfold scanFrac
    try dsimp only
    split
    · rename_i hc; subst hc
      obtain ⟨pre, h1, h2⟩ := solid_span l
      refine ⟨'.' :: pre, by rw [List.cons_append, ← h1], ?_⟩
      exact solid_append (a := ['.']) (by intro c hc; simp at hc; subst hc; decide) h2
    · exact ⟨[], rfl, h0⟩

theorem solid_exp (b : Bool) (l : List Char) : ∃ pre, l = pre ++ (scanExp b l).2 ∧ Solid pre := by
  have h0 : Solid [] := by intro c hc; cases hc
  rcases l with _ | ⟨c, l⟩
  · exact ⟨[], rfl, h0⟩
  · unfold scanExp
    try dsimp only
    split
    · rename_i hc
      obtain ⟨p1, h1, h2⟩ := solid_sign l
      obtain ⟨p2, h3, h4⟩ := solid_span (scanSign l).2
      refine ⟨c :: (p1 ++ p2), ?_, ?_⟩
      · rw [List.cons_append, List.append_assoc, ← h3, ← h1]
      · refine solid_append (a := [c]) ?_ (solid_append h2 h4)
        intro c' hc'; simp at hc'; subst hc'
        rcases hc.1 with rfl | rfl <;> decide
    · exact ⟨[], rfl, h0⟩

theorem solid_num (l : List Char) : ∃ pre, l = pre ++ (scanNum l).2 ∧ Solid pre := by
  unfold scanNum
  try dsimp only
  obtain ⟨p1, h1, k1⟩ := solid_sign l
  obtain ⟨p2, h2, k2⟩ := solid_span (scanSign l).2
  obtain ⟨p3, h3, k3⟩ := solid_frac ((scanSign l).2.span isDig).2
  obtain ⟨p4, h4, k4⟩ := solid_exp (!(((scanSign l).2.span isDig).1.isEmpty &&
    (scanFrac ((scanSign l).2.span isDig).2).1.isEmpty)) (scanFrac ((scanSign l).2.span isDig).2).2
  refine ⟨p1 ++ (p2 ++ (p3 ++ p4)), ?_, solid_append k1 (solid_append k2 (solid_append k3 k4))⟩
  rw [List.append_assoc, List.append_assoc, List.append_assoc, ← h4, ← h3, ← h2, ← h1]

theorem EndsWs.suffix {p r : List Char} (h : EndsWs p) (hs : r <:+ p) (hr : r ≠ []) : EndsWs r := by
  obtain ⟨p', w, rfl, hw⟩ := h
  obtain ⟨a, e⟩ := hs
  rcases List.eq_nil_or_concat r with rfl | ⟨r', v, rfl⟩
  · exact absurd rfl hr
  · rw [List.concat_eq_append] at e ⊢
    rw [← List.append_assoc] at e
    obtain ⟨-, e2⟩ := List.append_inj' e rfl
    injection e2 with e2
    subst e2
    exact ⟨r', v, rfl, hw⟩

theorem extractDub_endsWs (s : IStream) (old : F64) (h : EndsWs s.rest)
    (hf : (extractDub s old).1.fail = false) :
    (extractDub s old).1.eof = false ∧ EndsWs (extractDub s old).1.rest := by
  have hs := extractDub_suffix s old
  suffices (extractDub s old).1.rest ≠ [] ∧ (extractDub s old).1.eof = false from
    ⟨this.2, h.suffix hs this.1⟩
  unfold extractDub at hf ⊢
  split
  · rename_i hc; rw [if_pos hc] at hf; cases hf
  · rename_i hc
    rw [if_neg hc] at hf
    try dsimp only at hf ⊢
    split
    · rename_i h0; rw [if_pos h0] at hf; cases hf
    · rename_i h0
      try dsimp only
      have h1 : EndsWs (s.rest.dropWhile isWs) := h.suffix (List.dropWhile_suffix _) h0
      have h2 : (scanNum (s.rest.dropWhile isWs)).2 ≠ [] := by
        intro e
        obtain ⟨pre, e1, e2⟩ := solid_num (s.rest.dropWhile isWs)
        rw [e, List.append_nil] at e1
        obtain ⟨p', w, e3, e4⟩ := h1
        have := e2 w (by rw [← e1, e3]; simp)
        rw [e4] at this; cases this
      refine ⟨h2, ?_⟩
      clear h1
      generalize (scanNum (s.rest.dropWhile isWs)).2 = l at h2 ⊢
      rcases l with _ | ⟨a, l⟩
      · exact absurd rfl h2
      · rfl

theorem readAll_endsWs (n : Nat) (s : IStream) (he : s.eof = false) (h : EndsWs s.rest)
    (hf : (readAll n s).1.fail = false) :
    (readAll n s).1.eof = false ∧ EndsWs (readAll n s).1.rest := by
  induction n generalizing s with
  | zero => exact ⟨he, h⟩
  | succ n ih =>
    rw [readAll] at hf ⊢
    try dsimp only at hf ⊢
    split
    · rename_i hc
      rw [if_pos hc] at hf
      obtain ⟨h1, h2⟩ := extractDub_endsWs s nan h hc.1
      exact ih _ h1 h2 hf
    · rename_i hc
      rw [if_neg hc] at hf
      exact extractDub_endsWs s nan h hf

theorem readGroups_endsWs (ns : List Nat) (s : IStream) (he : s.eof = false) (h : EndsWs s.rest)
    (hf : (readGroups ns s).1.fail = false) :
    (readGroups ns s).1.eof = false ∧ EndsWs (readGroups ns s).1.rest := by
  induction ns generalizing s with
  | nil => exact ⟨he, h⟩
  | cons n ns ih =>
    rw [readGroups] at hf ⊢
    try dsimp only at hf ⊢
    have h0 : (readAll n s).1.fail = false := by
      by_contra hc
      rw [readGroups_fail_mono ns _ (by simpa using hc)] at hf; cases hf
    obtain ⟨h1, h2⟩ := readAll_endsWs n s he h h0
    exact ih _ h1 h2 hf

theorem extractTy_endsWs (t : Ty) (s s' : IStream) (old y : t.D F64) (he : s.eof = false)
    (hw : EndsWs s.rest) (h : extractTy t s old = .ok (s', y)) (hf : s'.fail = false) :
    s'.eof = false ∧ EndsWs s'.rest := by
  by_cases ht : t = .dub
  · subst ht
    rw [extractTy] at h
    injection h with h
    have h1 : (extractDub s old).1 = s' := congrArg Prod.fst h
    rw [← h1] at hf ⊢
    exact extractDub_endsWs s old hw hf
  obtain ⟨s1, y1, h1, h2⟩ := C29_blades t ht s old
  rw [h] at h1
  injection h1 with h1
  injection h1 with ha hb
  subst ha
  have hs : s' = (readGroups (bladeSizes t) s).1 := congrArg Prod.fst h2
  rw [hs] at hf ⊢
  exact readGroups_endsWs _ s he hw hf

/-- **C73.** On a text that ends with white space the plain and the guarded loop do the same. -/
theorem C73_newline (t : Ty) (s : IStream) (old : t.D F64) (he : s.eof = false)
    (hw : EndsWs s.rest) (xs : List (t.D F64)) : ReadLoop t s old xs ↔ GuardedLoop t s old xs := by
  constructor
  · intro h
    induction h with
    | stop h1 h2 => exact GuardedLoop.stop h1 (Or.inl h2)
    | step h1 h2 _ ih =>
      obtain ⟨e1, e2⟩ := extractTy_endsWs t _ _ _ _ he hw h1 h2
      exact GuardedLoop.step h1 h2 e1 (ih e1 e2)
  · intro h
    induction h with
    | @stop s s' _ _ h1 h2 =>
      refine ReadLoop.stop h1 ?_
      by_contra hc
      rcases h2 with h2 | h2
      · exact hc h2
      · rw [(extractTy_endsWs t _ _ _ _ he hw h1 (by simpa using hc)).1] at h2; cases h2
    | step h1 h2 _ _ ih =>
      obtain ⟨e1, e2⟩ := extractTy_endsWs t _ _ _ _ he hw h1 h2
      exact ReadLoop.step h1 h2 (ih e1 e2)

/-! ## Whole texts and their concatenation -/

theorem extractTy_old (t : Ty) (s s' : IStream) (old old' y : t.D F64)
    (h : extractTy t s old = .ok (s', y)) (hf : s'.fail = false) :
    extractTy t s old' = .ok (s', y) := by
  by_cases ht : t = .dub
  · subst ht
    rw [extractTy] at h ⊢
    injection h with h
    obtain ⟨h1, h2⟩ := extractDub_old s old old'
    have h3 : (extractDub s old).1 = s' := congrArg Prod.fst h
    have h4 : (extractDub s old).2 = y := congrArg Prod.snd h
    rw [show extractDub s old' = (s', y) from Prod.ext (by rw [← h1, h3])
      (by rw [← h2 (by rw [h3]; exact hf), h4])]
  · rw [← h]; exact C29_ignores_old t ht s old' old

theorem extractTy_ws (t : Ty) {ws : List Char} (hw : AllWs ws) (p : List Char) (old : t.D F64) :
    extractTy t ⟨ws ++ p, false, false⟩ old = extractTy t ⟨p, false, false⟩ old := by
  by_cases ht : t = .dub
  · subst ht
    rw [extractTy, extractTy, extractDub_ws hw]
  obtain ⟨s1, y1, h1, h2⟩ := C29_blades t ht ⟨ws ++ p, false, false⟩ old
  obtain ⟨s2, y2, k1, k2⟩ := C29_blades t ht ⟨p, false, false⟩ old
  have key : ∀ n ns, readGroups ((n + 1) :: ns) ⟨ws ++ p, false, false⟩ =
      readGroups ((n + 1) :: ns) ⟨p, false, false⟩ := by
    intro n ns
    rw [readGroups, readGroups, readAll, readAll, extractDub_ws hw]
  have e : readGroups (bladeSizes t) ⟨ws ++ p, false, false⟩ =
      readGroups (bladeSizes t) ⟨p, false, false⟩ := by
    cases t <;> exact key _ _
  rw [e, ← k2] at h2
  injection h2 with ha hb
  rw [h1, k1, ha, blades_inj t _ _ hb]

theorem allWs_append {a b : List Char} (ha : AllWs a) (hb : AllWs b) : AllWs (a ++ b) := by
  intro c hc
  rcases List.mem_append.1 hc with h | h
  exacts [ha c h, hb c h]

theorem Whole.ws {t : Ty} {p ws : List Char} {xs : List (t.D F64)} (hw : AllWs ws)
    (h : Whole t p xs) : Whole t (ws ++ p) xs := by
  cases h with
  | nil h => exact Whole.nil (allWs_append hw h)
  | cons h1 h2 => exact Whole.cons (by rw [extractTy_ws t hw]; exact h1) h2

/-- **C73.** A text made of objects only is read as these objects by both loops, whatever the
variable holds before. -/
theorem C73_whole (t : Ty) (p : List Char) (xs : List (t.D F64)) (h : Whole t p xs) (old : t.D F64) :
    ReadLoop t ⟨p, false, false⟩ old xs ∧ GuardedLoop t ⟨p, false, false⟩ old xs := by
  induction h generalizing old with
  | nil h =>
    obtain ⟨s', y, k1, k2⟩ := extractTy_end t h old
    exact ⟨ReadLoop.stop k1 k2, GuardedLoop.stop k1 (Or.inl k2)⟩
  | cons h1 _ ih =>
    have h3 := extractTy_old t _ _ _ old _ h1 rfl
    exact ⟨ReadLoop.step h3 rfl (ih _).1, GuardedLoop.step h3 rfl rfl (ih _).2⟩

/-- **C73.** Texts made of objects only can be joined: the objects of the first, then those of the
second. -/
theorem C73_concat (t : Ty) (p q : List Char) (xs ys : List (t.D F64)) (h : Whole t p xs)
    (k : Whole t q ys) : Whole t (p ++ q) (xs ++ ys) := by
  induction h with
  | nil h => exact k.ws h
  | cons h1 _ ih => exact Whole.cons (C73_local t _ _ _ _ q h1 rfl) ih

/-- **C73.** A text made of objects only has one reading. -/
theorem C73_whole_unique (t : Ty) (p : List Char) (xs ys : List (t.D F64)) (h : Whole t p xs)
    (k : Whole t p ys) : xs = ys :=
  C41_loop_unique t _ (gnullTy nan t) _ _ (C73_whole t p xs h _).1 (C73_whole t p ys k _).1

/-- **C73.** The records of `io::enote` make such a text, as a whole file and in each of its parts,
behind any white space. -/
theorem C73_records (t : Ty) (ht : t ≠ .cplx) (ht' : t ≠ .dplx) (d : Nat) (hd : 16 ≤ d)
    (sep : List Char) (hw : AllWs sep) (hs : sep ≠ []) (xs : List (t.D F64))
    (hxs : ∀ x ∈ xs, ∀ c ∈ comps t x, isValidDub c = true) (ws : List Char) (hws : AllWs ws) :
    Whole t (ws ++ enoteLines d sep (xs.map fun x => ⟨t, x⟩)) xs := by
  refine Whole.ws hws ?_
  clear hws ws
  induction xs with
  | nil => exact Whole.nil allWs_nil
  | cons x xs ih =>
    have i1 := (ih (fun y hy => hxs y (List.mem_cons_of_mem _ hy))).ws hw
    have h1 := enote_more t x (gnullTy nan t) (hxs x List.mem_cons_self) d hd _
      (enoteText_some d t x ht ht') [] (sep ++ enoteLines d sep (xs.map fun x => ⟨t, x⟩)) allWs_nil
      (ends_append hw hs)
    rw [isEmpty_append_sep hs, List.nil_append] at h1
    refine Whole.cons (r := sep ++ enoteLines d sep (xs.map fun x => ⟨t, x⟩)) (old := gnullTy nan t) ?_ i1
    rw [← h1]
    simp only [enoteLines, List.map_cons, List.flatMap_cons, enoteText, List.append_assoc]

/-! ## Concrete cases -/

theorem e1_valid : ∀ c ∈ comps .vec (e1 : Vector F64), isValidDub c = true := by
  intro c hc
  simp [comps, e1, engabra] at hc
  rcases hc with rfl | rfl
  exacts [isValidDub_one, (C11_double _).2 (Or.inl ⟨false, rfl⟩)]

/-- Two logs of vectors, one after the other, are read as one log. -/
example : ∃ p q : List Char, p ≠ [] ∧ q ≠ [] ∧ Whole .vec p [(e1 : Vector F64), e1] ∧
    Whole .vec (p ++ q) [(e1 : Vector F64), e1, e1] ∧
    GuardedLoop .vec ⟨p ++ q, false, false⟩ (gnullTy nan .vec) [(e1 : Vector F64), e1, e1] := by
  have hn : AllWs ['\n'] := by intro c hc; simp at hc; subst hc; decide
  have h1 := C73_records .vec (by simp) (by simp) 16 le_rfl ['\n'] hn (by simp)
    [(e1 : Vector F64), e1] (by intro x hx; simp at hx; subst hx; exact e1_valid) ['\n'] hn
  have h2 := C73_records .vec (by simp) (by simp) 17 (by norm_num) ['\n'] hn (by simp)
    [(e1 : Vector F64)] (by intro x hx; simp at hx; subst hx; exact e1_valid) ['\n'] hn
  have h3 := C73_concat .vec _ _ _ _ h1 h2
  exact ⟨_, _, by simp, by simp, h1, h3, (C73_whole .vec _ _ h3 _).2⟩

/-- `4 x` followed by anything: the vector is null and the stream failed at `x`, whatever follows. -/
example (q : List Char) : ∃ y : Vector F64,
    extractTy .vec ⟨"4 x".toList ++ q, false, false⟩ (gnullTy nan .vec) = .ok (⟨'x' :: q, false, true⟩, y) := by
  obtain ⟨h4, e4⟩ := extract_int (ws := []) (rest := " x".toList) allWs_nil (ends_space _) 4
    (by norm_num) (by norm_num) nan
  rw [natDigits_small (by norm_num),
    show [] ++ [digitChar 4] ++ " x".toList = "4 x".toList from by decide,
    show " x".toList.isEmpty = false from by decide] at e4
  have hd : isDig 'x' = false := by decide
  have ex : extractDub ⟨" x".toList, false, false⟩ nan = (⟨['x'], false, true⟩, zero false) := by
    simp [extractDub, hd, isWs, scanNum, scanSign, scanFrac, scanExp, NumTok.convert, List.span,
      List.span.loop]
  have hv : isValidDub (fin ((4 : ℕ) : ℚ) h4) = true := by
    refine (C11_double _).2 (Or.inr ⟨_, h4, rfl, ?_⟩)
    rw [abs_of_nonneg (by positivity)]
    refine le_trans ?_ (show (1 : ℚ) ≤ ((4 : ℕ) : ℚ) by norm_num)
    rw [div_le_one (by positivity)]
    exact one_le_pow₀ (by norm_num)
  have hr : readGroups (bladeSizes .vec) ⟨"4 x".toList, false, false⟩ =
      (⟨['x'], false, true⟩, [[nan, nan, nan]]) := by
    simp only [bladeSizes, readGroups, readAll, e4, ex, hv, and_self, if_true, Bool.true_eq_false,
      false_and, if_false, Option.map_none, Option.getD_none, List.replicate]
  obtain ⟨s', y, k1, k2⟩ := C29_blades .vec (by simp) ⟨"4 x".toList, false, false⟩ (gnullTy nan .vec)
  rw [hr] at k2
  injection k2 with ka kb
  subst ka
  have h := C73_local .vec _ _ _ _ q k1 rfl
  simp only [IStream.more, List.cons_append, List.nil_append] at h
  exact ⟨y, h⟩

end Engabra
