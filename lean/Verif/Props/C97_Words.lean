import Verif.Props.C95_Numerals

/-! # C97 — text of other programs

Objects read from numerals in any notation, and from text with a word such as `nan`, `-nan` or `inf` in the
place of a number. -/

namespace Engabra

open F64 (nan inf zero fin IsFin)

/-! ## Specification -/

/-- The numeral denotes zero, and `v` is the zero with its sign, or it denotes a number that does not
overflow, and `v` is that number rounded to nearest, ties to even; `v` is not subnormal. -/
def Denotes (n : Numeral) (v : F64) : Prop :=
  n.Ok ∧ (v.value = 0 ∨ 1 / 2 ^ 1022 ≤ |v.value|) ∧
    ((n.value = 0 ∧ v = .zero n.minus) ∨
      (n.value ≠ 0 ∧ n.value < 2 ^ 1024 - 2 ^ 970 ∧ Ieee.RoundsTo (n.signed : ℚ) v))

/-- Numerals with white space before each. -/
def Spaced (fs : List (List Char × Numeral)) : Prop :=
  (∀ f ∈ fs, ∀ c ∈ f.1, Blank c) ∧ ∀ f ∈ fs.tail, f.1 ≠ []

/-- Their text. -/
def spacedText (fs : List (List Char × Numeral)) : List Char := fs.flatMap fun f => f.1 ++ f.2.text

/-- The text of a word: white space, an optional sign, and a character that cannot begin a number. -/
def Word (w : List Char) : Prop :=
  ∃ ws sg c cs, w = ws ++ Numeral.signText sg ++ c :: cs ∧ (∀ b ∈ ws, Blank b) ∧
    c.isDigit = false ∧ ¬Blank c ∧ c ∉ ['.', '+', '-']

/-- Groups of the given sizes filled from `vs`: a group is filled as a whole, and from the first that
cannot be, all are NaN. -/
def recovered : List ℕ → List F64 → List (List F64)
  | [], _ => []
  | n :: ns, vs =>
    if n ≤ vs.length then vs.take n :: recovered ns (vs.drop n)
    else (n :: ns).map fun k => List.replicate k nan

/-! ## Fields -/

theorem word_fails {w : List Char} (h : Word w) (old : F64) :
    (extractDub ⟨w, false, false⟩ old).1.fail = true := by
  obtain ⟨ws, sg, c, cs, rfl, hw, h1, h5, h2⟩ := h
  have h1' : isDig c = false := by
    rw [← Bool.not_eq_true] at h1 ⊢
    exact fun hc => h1 ((isDigit_iff c).2 hc)
  have h5' : isWs c = false := by rw [← Bool.not_eq_true, ← blank_iff]; exact h5
  simp only [List.mem_cons, List.not_mem_nil, or_false, not_or] at h2
  obtain ⟨hdot, hplus, hminus⟩ := h2
  have hw' : AllWs ws := fun c hc => (blank_iff c).1 (hw c hc)
  have hdrop : (ws ++ Numeral.signText sg ++ c :: cs).dropWhile isWs = Numeral.signText sg ++ c :: cs := by
    rw [List.append_assoc]
    rcases sg with _ | _ | _
    · exact dropWhile_ws hw' h5'
    · exact dropWhile_ws hw' (by decide)
    · exact dropWhile_ws hw' (by decide)
  have hne : Numeral.signText sg ++ c :: cs ≠ [] := by simp
  have hsign : (scanSign (Numeral.signText sg ++ c :: cs)).2 = c :: cs := by
    rcases sg with _ | _ | _
    · simp [Numeral.signText, scanSign, hplus, hminus]
    · simp [Numeral.signText, scanSign]
    · simp [Numeral.signText, scanSign]
  have hspan : (c :: cs).span isDig = ([], c :: cs) := by
    rw [List.span_eq_takeWhile_dropWhile]; simp [h1']
  have hscan : (scanNum (Numeral.signText sg ++ c :: cs)).1.convert = (zero false, true) := by
    unfold scanNum
    dsimp only
    rw [hsign, hspan]
    dsimp only
    have : scanFrac (c :: cs) = ([], c :: cs) := by simp [scanFrac, hdot]
    rw [this]
    rfl
  unfold extractDub
  dsimp only
  rw [if_neg (by simp), hdrop, if_neg hne, hscan]

/-- A field, with what it reads as. -/
def GoodFields (fs : List (List Char × List Char)) (vals : List F64) : Prop :=
  (∀ f ∈ fs, AllWs f.1) ∧ (∀ f ∈ fs.tail, f.1 ≠ []) ∧
    List.Forall₂ (fun f v => ReadsAs f.2 v ∧ isValidDub v = true) fs vals

theorem readAll_word (fs : List (List Char × List Char)) (vals : List F64) (hg : GoodFields fs vals)
    {w : List Char} (hw : Word w) (he : fs ≠ [] → Ends w) (n : Nat) (hn : fs.length < n) :
    (readAll n ⟨joinF fs ++ w, false, false⟩).1.fail = true ∧
      (readAll n ⟨joinF fs ++ w, false, false⟩).2 = none := by
  induction fs generalizing vals n with
  | nil =>
    obtain ⟨n, rfl⟩ : ∃ k, n = k + 1 := ⟨n - 1, by simp at hn; omega⟩
    have h := word_fails hw nan
    rw [readAll, show joinF [] ++ w = w from rfl, if_neg (by rw [h]; simp)]
    exact ⟨h, rfl⟩
  | cons f fs ih =>
    obtain ⟨n, rfl⟩ : ∃ k, n = k + 1 := ⟨n - 1, by simp at hn; omega⟩
    obtain ⟨g1, g2, g3⟩ := hg
    rcases g3 with _ | ⟨⟨hread, hval⟩, hr⟩
    rename_i v vals
    have hE : Ends (joinF fs ++ w) := ends_joinF fs w (he (by simp))
      (fun g hg => g1 g (List.mem_cons_of_mem _ hg)) (fun g hg => g2 g hg)
    have hne : (joinF fs ++ w).isEmpty = false := by
      obtain ⟨ws, sg, c, cs, rfl, -⟩ := hw
      simp
    have h1 := hread f.1 (joinF fs ++ w) nan (g1 f List.mem_cons_self) hE
    obtain ⟨i1, i2⟩ := ih vals ⟨fun g hg => g1 g (List.mem_cons_of_mem _ hg),
      fun g hg => g2 g (List.mem_of_mem_tail hg), hr⟩ (fun _ => he (by simp)) n (by simpa using hn)
    rw [readAll, joinF_cons, List.append_assoc (f.1 ++ f.2), h1]
    dsimp only
    rw [if_pos ⟨rfl, hval⟩, hne]
    exact ⟨i1, by rw [i2]; rfl⟩

theorem readGroups_null (ns : List Nat) (hz : 0 ∉ ns) (s : IStream) (hs : s.fail = true) :
    (readGroups ns s).1.fail = true ∧ (readGroups ns s).2 = ns.map fun k => List.replicate k nan := by
  induction ns generalizing s with
  | nil => exact ⟨hs, rfl⟩
  | cons n ns ih =>
    have hn : n ≠ 0 := by rintro rfl; simp at hz
    obtain ⟨i1, i2⟩ := ih (fun h => hz (List.mem_cons_of_mem _ h)) ⟨s.rest, s.eof, true⟩ rfl
    rw [readGroups, readAll_bad n s (.inl hs) hn]
    dsimp only
    exact ⟨i1, by rw [i2]; rfl⟩

theorem goodFields_split {fs : List (List Char × List Char)} {vals : List F64} (h : GoodFields fs vals) (n : Nat)
    (hn : n ≠ 0) (hle : n ≤ fs.length) :
    GoodFields (fs.take n) (vals.take n) ∧ GoodFields (fs.drop n) (vals.drop n) ∧
      ∀ f ∈ fs.drop n, f.1 ≠ [] := by
  obtain ⟨g1, g2, g3⟩ := h
  obtain ⟨n, rfl⟩ := Nat.exists_eq_succ_of_ne_zero hn
  have hd : ∀ f ∈ fs.drop (n + 1), f.1 ≠ [] := by
    intro f hf
    refine g2 f ?_
    rcases fs with _ | ⟨a, fs⟩
    · simp at hf
    · exact List.mem_of_mem_drop (by simpa using hf)
  refine ⟨⟨fun f hf => g1 f (List.mem_of_mem_take hf), ?_, List.forall₂_take _ g3⟩,
    ⟨fun f hf => g1 f (List.mem_of_mem_drop hf), fun f hf => hd f (List.mem_of_mem_tail hf),
      List.forall₂_drop _ g3⟩, hd⟩
  intro f hf
  refine g2 f ?_
  rcases fs with _ | ⟨a, fs⟩
  · simp at hf
  · exact List.mem_of_mem_take (by simpa using hf)

theorem readGroups_word (ns : List Nat) (hz : 0 ∉ ns) (fs : List (List Char × List Char)) (vals : List F64)
    (hg : GoodFields fs vals) {w : List Char} (hw : Word w) (he : fs ≠ [] → Ends w) (hn : fs.length < ns.sum) :
    (readGroups ns ⟨joinF fs ++ w, false, false⟩).1.fail = true ∧
      (readGroups ns ⟨joinF fs ++ w, false, false⟩).2 = recovered ns vals := by
  induction ns generalizing fs vals with
  | nil => simp at hn
  | cons n ns ih =>
    have hn0 : n ≠ 0 := by rintro rfl; simp at hz
    have hz' : 0 ∉ ns := fun h => hz (List.mem_cons_of_mem _ h)
    have hlen : fs.length = vals.length := hg.2.2.length_eq
    rw [recovered]
    by_cases hle : n ≤ fs.length
    · rw [if_pos (hlen ▸ hle)]
      obtain ⟨k1, k2, k3⟩ := goodFields_split hg n hn0 hle
      have hne0 : fs ≠ [] := by rintro rfl; simp at hle; exact hn0 hle
      have hE : Ends (joinF (fs.drop n) ++ w) := ends_joinF _ w (he hne0) k2.1 k3
      have hne : (joinF (fs.drop n) ++ w).isEmpty = false := by
        obtain ⟨ws, sg, c, cs, rfl, -⟩ := hw
        simp
      have h1 := readAll_fields (fs.take n) (vals.take n) _ hE
        (by simpa [List.take_eq_nil_iff] using ⟨hn0, hne0⟩) k1.1 k1.2.1 k1.2.2
      rw [List.length_take, min_eq_left hle, ← List.append_assoc, ← joinF_append, List.take_append_drop] at h1
      obtain ⟨i1, i2⟩ := ih hz' (fs.drop n) (vals.drop n) k2 (fun _ => he hne0)
        (by rw [List.sum_cons] at hn; rw [List.length_drop]; omega)
      rw [readGroups, h1]
      dsimp only
      rw [hne]
      exact ⟨i1, by rw [i2]; rfl⟩
    · rw [if_neg (hlen ▸ hle)]
      obtain ⟨r1, r2⟩ := readAll_word fs vals hg hw he n (by omega)
      obtain ⟨i1, i2⟩ := readGroups_null ns hz' _ r1
      rw [readGroups]
      dsimp only
      exact ⟨i1, by rw [i2, r2]; rfl⟩

theorem readGroups_all (ns : List Nat) (hz : 0 ∉ ns) (hne : ns ≠ []) (fs : List (List Char × List Char))
    (vals : List F64) (hg : GoodFields fs vals) {more : List Char} (hm : Ends more) (hn : fs.length = ns.sum) :
    (readGroups ns ⟨joinF fs ++ more, false, false⟩).1 = ⟨more, more.isEmpty, false⟩ ∧
      (readGroups ns ⟨joinF fs ++ more, false, false⟩).2.flatten = vals := by
  induction ns generalizing fs vals with
  | nil => exact absurd rfl hne
  | cons n ns ih =>
    have hn0 : n ≠ 0 := by rintro rfl; simp at hz
    have hz' : 0 ∉ ns := fun h => hz (List.mem_cons_of_mem _ h)
    rw [List.sum_cons] at hn
    have hle : n ≤ fs.length := by omega
    obtain ⟨k1, k2, k3⟩ := goodFields_split hg n hn0 hle
    have hne0 : fs ≠ [] := by rintro rfl; simp at hle; exact hn0 hle
    have hE : Ends (joinF (fs.drop n) ++ more) := ends_joinF _ more hm k2.1 k3
    have h1 := readAll_fields (fs.take n) (vals.take n) _ hE
      (by simpa [List.take_eq_nil_iff] using ⟨hn0, hne0⟩) k1.1 k1.2.1 k1.2.2
    rw [List.length_take, min_eq_left hle, ← List.append_assoc, ← joinF_append, List.take_append_drop] at h1
    rw [readGroups, h1]
    dsimp only
    have hlen : fs.length = vals.length := hg.2.2.length_eq
    rcases ns with _ | ⟨m, ns⟩
    · have e : fs.drop n = [] := by rw [List.drop_eq_nil_iff]; simp at hn; omega
      have e' : vals.take n = vals := List.take_of_length_le (by simp at hn; omega)
      rw [e, e']
      simp [readGroups, joinF]
    · have hm0 : m ≠ 0 := by rintro rfl; simp at hz'
      have hemp : (joinF (fs.drop n) ++ more).isEmpty = false := by
        rcases hd : fs.drop n with _ | ⟨f, gs⟩
        · rw [List.drop_eq_nil_iff] at hd
          rw [List.sum_cons] at hn
          omega
        · have := k3 f (by rw [hd]; simp)
          rw [List.isEmpty_eq_false_iff, joinF_cons]
          simp [this]
      obtain ⟨i1, i2⟩ := ih hz' (by simp) (fs.drop n) (vals.drop n) k2 (by rw [List.length_drop]; omega)
      rw [hemp]
      refine ⟨i1, ?_⟩
      simp only [Option.getD_some, List.flatten_cons]
      rw [i2, List.take_append_drop]

/-! ## Numerals -/

theorem denotes_reads {n : Numeral} {v : F64} (h : Denotes n v) : ReadsAs n.text v ∧ isValidDub v = true := by
  obtain ⟨hok, hv, hd⟩ := h
  have hfin : v.Finite := by
    rcases hd with ⟨-, rfl⟩ | ⟨-, h1, ⟨h, -⟩ | ⟨-, h, -⟩⟩
    · trivial
    · have e : |((n.signed : ℚ) : ℝ)| = (n.value : ℝ) := by
        have : |n.signed| = n.value := by
          have h0 : 0 ≤ n.value := by unfold Numeral.value; positivity
          rw [Numeral.signed]; split
          · rw [abs_neg, abs_of_nonneg h0]
          · exact abs_of_nonneg h0
        rw [← this, Rat.cast_abs]
      rw [e] at h
      have h1' : (n.value : ℝ) < 2 ^ 1024 - 2 ^ 970 := by
        have := (Rat.cast_lt (K := ℝ)).2 h1
        push_cast at this
        exact this
      exact absurd h (not_le.2 h1')
    · exact h
  refine ⟨fun ws rest old hw hr => ?_, ?_⟩
  · obtain ⟨f, y, e, c1, c2, -⟩ := C95_read hok (ws := ws) (rest := rest) (fun c hc => (blank_iff c).2 (hw c hc))
      (fun c hc => (blank_iff c).2 (hr c hc)) old
    rw [e]
    rcases hd with ⟨h0, rfl⟩ | ⟨h0, h1, h2⟩
    · obtain ⟨rfl, rfl⟩ := c1 h0; rfl
    · obtain ⟨rfl, k⟩ := c2 h0 h1
      have hs : ((n.signed : ℚ) : ℝ) ≠ 0 := by
        rw [Numeral.signed]; split <;> simpa using h0
      rw [C94_rounding_unique hs k, C94_rounding_unique hs h2]
  · rw [C11_double]
    cases v with
    | nan => exact absurd hfin (by simp [F64.Finite])
    | inf s => exact absurd hfin (by simp [F64.Finite])
    | zero s => exact .inl ⟨s, rfl⟩
    | fin v h => exact .inr ⟨v, h, rfl, hv.resolve_left h.1⟩

theorem sizes_pos (t : Ty) : 0 ∉ bladeSizes t := by cases t <;> simp [bladeSizes]

theorem sizes_ne (t : Ty) : bladeSizes t ≠ [] := by cases t <;> simp [bladeSizes]

theorem spaced_good {fs : List (List Char × Numeral)} {vals : List F64} (hs : Spaced fs)
    (hd : List.Forall₂ (fun f v => Denotes f.2 v) fs vals) :
    GoodFields (fs.map fun f => (f.1, f.2.text)) vals := by
  refine ⟨?_, ?_, ?_⟩
  · intro f hf
    obtain ⟨g, hg, rfl⟩ := List.mem_map.1 hf
    exact fun c hc => (blank_iff c).1 (hs.1 g hg c hc)
  · intro f hf
    rw [← List.map_tail] at hf
    obtain ⟨g, hg, rfl⟩ := List.mem_map.1 hf
    exact hs.2 g hg
  · rw [List.forall₂_map_left_iff]
    exact hd.imp fun f v h => denotes_reads h

theorem spacedText_eq (fs : List (List Char × Numeral)) :
    spacedText fs = joinF (fs.map fun f => (f.1, f.2.text)) := by
  rw [joinF, List.flatMap_map]; rfl

/-- **C97.** For every type: numerals in any notation, as many as the type has components, with white space
between them and before the first if wished, are read as the object with the numbers they denote as components
in this order; what follows is left in the stream. -/
theorem C97_numerals (t : Ty) (ht : t ≠ .dub) (old : t.D F64) {fs : List (List Char × Numeral)} {vals : List F64}
    (hs : Spaced fs) (hd : List.Forall₂ (fun f v => Denotes f.2 v) fs vals)
    (hn : fs.length = (bladeSizes t).sum) {more : List Char} (hm : ∀ c ∈ more.head?, Blank c) :
    ∃ y, extractTy t ⟨spacedText fs ++ more, false, false⟩ old = .ok (⟨more, more.isEmpty, false⟩, y) ∧
      comps t y = vals := by
  obtain ⟨s', y, h1, h2⟩ := C29_blades t ht ⟨spacedText fs ++ more, false, false⟩ old
  obtain ⟨k1, k2⟩ := readGroups_all (bladeSizes t) (sizes_pos t) (sizes_ne t) _ vals (spaced_good hs hd)
    (more := more) (fun c hc => (blank_iff c).1 (hm c hc)) (by rw [List.length_map, hn])
  rw [← spacedText_eq, ← h2] at k1 k2
  dsimp only at k1 k2
  refine ⟨y, by rw [h1, k1], ?_⟩
  rw [← blades_join, k2]

/-- **C97.** For every type: if after some numerals, fewer than the type has components, comes a word (`nan`,
`-nan`, `inf`, `null`, …), then the stream fails, the blades that were complete before it are read, and the
blade with the word and all after it are null, whatever follows. -/
theorem C97_word (t : Ty) (ht : t ≠ .dub) (old : t.D F64) {fs : List (List Char × Numeral)} {vals : List F64}
    (hs : Spaced fs) (hd : List.Forall₂ (fun f v => Denotes f.2 v) fs vals)
    (hn : fs.length < (bladeSizes t).sum) {w : List Char} (hw : Word w)
    (he : fs ≠ [] → ∀ c ∈ w.head?, Blank c) :
    ∃ s' y, extractTy t ⟨spacedText fs ++ w, false, false⟩ old = .ok (s', y) ∧ s'.fail = true ∧
      blades t y = recovered (bladeSizes t) vals := by
  obtain ⟨s', y, h1, h2⟩ := C29_blades t ht ⟨spacedText fs ++ w, false, false⟩ old
  obtain ⟨k1, k2⟩ := readGroups_word (bladeSizes t) (sizes_pos t) _ vals (spaced_good hs hd) hw
    (fun h c hc => (blank_iff c).1 (he (by simpa using h) c hc)) (by rwa [List.length_map])
  rw [← spacedText_eq, ← h2] at k1 k2
  exact ⟨s', y, h1, k1, k2⟩

/-! ## Objects -/

theorem fieldsOf_nums (g e : List Char) (pad num : F64 → List Char) (bs : List (List F64)) :
    (fieldsOf g e pad num bs).flatten.map Prod.snd = bs.flatten.map num := by
  have one : ∀ k b, (bladeFields k e pad num b).map Prod.snd = b.map num := by
    intro k b
    rcases b with _ | ⟨x, xs⟩
    · rfl
    · simp [bladeFields, Function.comp_def]
  rcases bs with _ | ⟨b, bs⟩
  · rfl
  · rw [fieldsOf, List.flatten_cons, List.map_append, one, List.flatten_cons, List.map_append]
    congr 1
    induction bs with
    | nil => rfl
    | cons c cs ih => rw [List.map_cons, List.flatten_cons, List.map_append, one, ih, List.flatten_cons, List.map_append]

theorem nonfinite_word {c : F64} (hc : ¬c.Finite) (d : Nat) {ws : List Char} (hw : AllWs ws) (more : List Char) :
    Word (ws ++ numText .scientific d c ++ more) := by
  have hw' : ∀ b ∈ ws, Blank b := fun b hb => (blank_iff b).2 (hw b hb)
  cases c with
  | nan =>
    exact ⟨ws, none, 'n', 'a' :: 'n' :: more, by
      simp [numText, signText, bodyText, F64.signbit, Numeral.signText], hw', by decide, by unfold Blank; decide, by decide⟩
  | inf s =>
    refine ⟨ws, if s then some true else none, 'i', 'n' :: 'f' :: more, ?_, hw', by decide, by unfold Blank; decide, by decide⟩
    cases s <;> simp [numText, signText, bodyText, F64.signbit, Numeral.signText]
  | zero s => exact absurd trivial hc
  | fin v h => exact absurd trivial hc

/-- **C97.** An object with a NaN or infinite component written with `io::enote` (17 digits or more) and read
back: if the components before the first such are valid, the blades before it come back unchanged, its blade and
those after it are null, and the stream fails, whatever follows in the text. -/
theorem C97_object (t : Ty) (ht : t ≠ .dub) (x old : t.D F64) {d : Nat} (hd : 16 ≤ d) {txt : List Char}
    (h : enoteTy d t x = some txt) {vs post : List F64} {c : F64} (hx : comps t x = vs ++ c :: post)
    (hv : ∀ v ∈ vs, v.value = 0 ∧ v.Finite ∨ v.Finite ∧ 1 / 2 ^ 1022 ≤ |v.value|) (hc : ¬c.Finite)
    (more : List Char) :
    ∃ s' y, extractTy t ⟨txt ++ more, false, false⟩ old = .ok (s', y) ∧ s'.fail = true ∧
      blades t y = recovered (bladeSizes t) vs := by
  rw [C30_enote_object] at h
  split at h
  · simp at h
  injection h with h
  simp only [show enoteBlade d = _ from funext (enoteBlade_eq d)] at h
  set pad : F64 → List Char := fun x => blanks (7 + d - (numText .scientific d x).length) with hpad
  set num := numText .scientific d with hnum
  have hall := fieldsOf_forall [' ', ' '] [' '] pad num (blades t x) (allWs_blanks 2) (allWs_blanks 1) (fun _ => True)
    (fun _ _ c _ => ⟨allWs_blanks _, trivial⟩)
  have hsep := fieldsOf_sep [' ', ' '] [' '] pad num _ (blades_ne_nil t x) (fun _ => by simp) (fun _ => by simp)
  have htext := fieldsOf_text [' ', ' '] [' '] pad num _ (blades_ne_nil t x)
  have hnums := fieldsOf_nums [' ', ' '] [' '] pad num (blades t x)
  rw [h] at htext
  rw [blades_join, hx] at hnums
  have hlen : (bladeSizes t).sum = (comps t x).length := by
    rw [← blades_join, List.length_flatten, blades_sizes]
  generalize (fieldsOf [' ', ' '] [' '] pad num (blades t x)).flatten = L at *
  rw [List.map_append, List.map_cons] at hnums
  obtain ⟨A, B, rfl, hA, hB⟩ := List.map_eq_append_iff.1 hnums
  obtain ⟨f, B, rfl, hf, hB⟩ := List.map_eq_cons_iff.1 hB
  have hvalid : ∀ v ∈ vs, isValidDub v = true := by
    intro v hv'
    rw [C11_double]
    have := hv v hv'
    cases v with
    | nan => simp [F64.Finite] at this
    | inf s => simp [F64.Finite] at this
    | zero s => exact .inl ⟨s, rfl⟩
    | fin v h =>
      refine .inr ⟨v, h, rfl, ?_⟩
      rcases this with h' | h'
      · exact absurd h'.1 h.1
      · exact h'.2
  have good : GoodFields A vs := by
    refine ⟨fun g hg => (hall g (by simp [hg])).1, fun g hg => hsep g ?_, ?_⟩
    · rcases A with _ | ⟨a, A⟩
      · simp at hg
      · simp only [List.tail_cons, List.cons_append] at hg ⊢; exact List.mem_append_left _ hg
    · have hA2 : List.Forall₂ (fun (f : List Char × List Char) v => f.2 = num v) A vs := by
        have : List.Forall₂ Eq (A.map Prod.snd) (vs.map num) := by rw [hA, List.forall₂_eq_eq_eq]
        rw [List.forall₂_map_left_iff, List.forall₂_map_right_iff] at this
        exact this
      refine (List.forall₂_iff_zip.2 ⟨hA2.length_eq, fun {a b} hab => ?_⟩)
      have e := (List.forall₂_iff_zip.1 hA2).2 hab
      have hb : isValidDub b = true := hvalid b (List.of_mem_zip hab).2
      have hfb := valid_finite hb
      have hval := sciVal_recover b hfb d hd
      refine ⟨?_, hb⟩
      rw [e]
      have := enote_reads b hfb d (by rw [hval]; rintro s rfl; simp [F64.Finite] at hfb)
      rw [hval] at this
      exact this
  have hw : Word (f.1 ++ f.2 ++ (joinF B ++ more)) := by
    rw [hf]; exact nonfinite_word hc d (hall f (by simp)).1 _
  have he : A ≠ [] → Ends (f.1 ++ f.2 ++ (joinF B ++ more)) := by
    intro hne
    have h1 := (hall f (by simp)).1
    have h2 := hsep f (by
      rcases A with _ | ⟨a, A⟩
      · exact absurd rfl hne
      · simp)
    rcases hf1 : f.1 with _ | ⟨b, bs⟩
    · exact absurd hf1 h2
    · intro e he
      simp at he
      subst he
      exact h1 b (by rw [hf1]; simp)
  have hAl : A.length = vs.length := by simpa using congrArg List.length hA
  obtain ⟨k1, k2⟩ := readGroups_word (bladeSizes t) (sizes_pos t) A vs good hw he
    (by rw [hlen, hx, hAl]; simp)
  have etext : txt ++ more = joinF A ++ (f.1 ++ f.2 ++ (joinF B ++ more)) := by
    rw [← htext]
    show joinF (A ++ f :: B) ++ more = _
    rw [joinF_append, joinF_cons]; simp only [List.append_assoc]
  obtain ⟨s', y, h1, h2⟩ := C29_blades t ht ⟨txt ++ more, false, false⟩ old
  rw [← etext, ← h2] at k1 k2
  exact ⟨s', y, h1, k1, k2⟩

/-! ## Hypotheses met -/

/-- The numeral `+25.e-1`. -/
def numA : Numeral := ⟨some false, ['2', '5'], some [], some ('e', some true, ['1'])⟩

/-- The numeral `-.0`. -/
def numB : Numeral := ⟨some true, [], some ['0'], none⟩

theorem numA_denotes : Denotes numA (F64.roundTo (5 / 2 : ℚ)) := by
  have hv : numA.value = 5 / 2 := by
    simp [numA, Numeral.value, Numeral.mant, Numeral.expo, Numeral.frac, Numeral.natVal, Nat.ofDigits]
    norm_num
  have hs : numA.signed = 5 / 2 := by rw [Numeral.signed, if_neg (by decide), hv]
  have hrep : F64.Rep (5 / 2 : ℚ) := ⟨5, -1, by norm_num, by norm_num, by norm_num⟩
  have hval : (F64.roundTo (5 / 2 : ℚ)).value = 5 / 2 := by
    have h1 := F64.rnVal_exact hrep
    have := (F64.roundTo_value (x := (5 / 2 : ℚ)) (by
      rw [h1, abs_of_pos (by norm_num)]
      exact (by norm_num : (5 / 2 : ℚ) < 2 ^ 2).trans (pow_lt_pow_right₀ (by norm_num) (by norm_num)))).2
    rw [this, h1]
  refine ⟨⟨by decide, by decide, by decide, ?_⟩, .inr ?_, .inr ⟨by rw [hv]; norm_num, ?_, ?_⟩⟩
  · intro c s ds h
    simp only [numA, Option.some.injEq, Prod.mk.injEq] at h
    obtain ⟨rfl, -, rfl⟩ := h
    exact ⟨.inl rfl, by decide, by decide⟩
  · rw [hval, abs_of_pos (by norm_num)]
    exact (div_le_one₀ (by positivity)).2 (one_le_pow₀ (by norm_num)) |>.trans (by norm_num)
  · rw [hv]
    have h1 : (2 : ℚ) ^ 1024 - 2 ^ 970 = (2 ^ 54 - 1) * 2 ^ 970 := by
      rw [sub_mul, one_mul, ← pow_add]
    have h2 : (1 : ℚ) ≤ 2 ^ 970 := one_le_pow₀ (by norm_num)
    rw [h1]
    clear h1
    generalize (2 : ℚ) ^ 970 = P at *
    norm_num
    linarith
  · rw [hs]; exact rat_rounding (by norm_num)

theorem numB_denotes : Denotes numB (.zero true) := by
  refine ⟨⟨by decide, by decide, by decide, ?_⟩, .inl rfl, .inl ⟨?_, rfl⟩⟩
  · intro c s ds h; simp [numB] at h
  · simp [numB, Numeral.value, Numeral.mant, Numeral.expo, Numeral.frac, Numeral.natVal]

/-- A vector from `+25.e-1 -.0 -.0;`, the semicolon on a line of its own. -/
example (old : Vector F64) : ∃ y : Vector F64,
    extractTy .vec ⟨"+25.e-1 -.0 -.0\n;".toList, false, false⟩ old =
      .ok (⟨"\n;".toList, false, false⟩, y) ∧
    comps .vec y = [F64.roundTo (5 / 2 : ℚ), .zero true, .zero true] :=
  C97_numerals .vec (by decide) old (fs := [([], numA), ([' '], numB), ([' '], numB)])
    ⟨by simp [Blank], by simp⟩ (.cons numA_denotes (.cons numB_denotes (.cons numB_denotes .nil))) rfl
    (more := "\n;".toList) (by simp [Blank])

/-- A spinor from `-.0 +25.e-1 -nan 4`: the scalar is read, the bivector is null. -/
example (old : Spinor F64) : ∃ s' y,
    extractTy .spin ⟨"-.0 +25.e-1 -nan 4".toList, false, false⟩ old = .ok (s', y) ∧ s'.fail = true ∧
    blades .spin y = [[.zero true], [nan, nan, nan]] :=
  C97_word .spin (by decide) old (fs := [([], numB), ([' '], numA)])
    ⟨by simp [Blank], by simp⟩ (.cons numB_denotes (.cons numA_denotes .nil)) (by decide)
    (w := " -nan 4".toList)
    ⟨[' '], some true, 'n', "an 4".toList, rfl, by simp [Blank], by decide, by unfold Blank; decide, by decide⟩
    (fun _ => by simp [Blank])

/-- An `ImSpin` with an infinite trivector keeps its vector. -/
example (old : ImSpin F64) : ∃ txt, enoteTy 16 .imsp ⟨⟨⟨zero false, zero true, zero false⟩⟩, ⟨⟨inf true⟩⟩⟩ = some txt ∧
    ∃ s' y, extractTy .imsp ⟨txt ++ "1 2".toList, false, false⟩ old = .ok (s', y) ∧ s'.fail = true ∧
      blades .imsp y = [[zero false, zero true, zero false], [nan]] := by
  refine ⟨_, rfl, ?_⟩
  exact C97_object .imsp (by decide) _ old (d := 16) le_rfl rfl (vs := [zero false, zero true, zero false])
    (c := inf true) (post := []) rfl (by simp [F64.value, F64.Finite]) (by simp [F64.Finite]) _

end Engabra
