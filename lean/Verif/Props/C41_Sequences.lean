import Verif.Props.C31_RoundTrip

/-! # C41: many objects in one stream

A program writes any number of objects, of any types, one after another, and reads them back one
after another.  `ReadSeq` and `ReadLoop` specify the reading program. -/

namespace Engabra

open F64 (nan inf zero fin IsFin Finite HasVal)

/-- An object of any of the ten types. -/
abbrev Obj := Sigma fun t : Ty => t.D F64

/-- `istrm >> a >> b >> ...`: `ReadSeq s olds s' xs` when the variables with contents `olds` are
read in order from a stream in state `s`, then hold `xs`, and the stream is left in state `s'`. -/
inductive ReadSeq : IStream → List Obj → IStream → List Obj → Prop
  | nil (s : IStream) : ReadSeq s [] s []
  | cons {s s' s'' : IStream} {t : Ty} {old y : t.D F64} {olds ys : List Obj} :
      extractTy t s old = .ok (s', y) → ReadSeq s' olds s'' ys →
      ReadSeq s (⟨t, old⟩ :: olds) s'' (⟨t, y⟩ :: ys)

/-- `while (istrm >> x) { xs.push_back(x); }`: `ReadLoop t s old xs` when the loop, started on a
stream in state `s` with `old` in the variable, ends and has collected `xs`. -/
inductive ReadLoop (t : Ty) : IStream → t.D F64 → List (t.D F64) → Prop
  | stop {s s' : IStream} {old y : t.D F64} :
      extractTy t s old = .ok (s', y) → s'.fail = true → ReadLoop t s old []
  | step {s s' : IStream} {old y : t.D F64} {ys : List (t.D F64)} :
      extractTy t s old = .ok (s', y) → s'.fail = false → ReadLoop t s' y ys →
      ReadLoop t s old (y :: ys)

/-- The loop collects at most one list: the specification is deterministic. -/
theorem C41_loop_unique (t : Ty) (s : IStream) (old : t.D F64) (xs ys : List (t.D F64))
    (h : ReadLoop t s old xs) (k : ReadLoop t s old ys) : xs = ys := by
  induction h generalizing ys with
  | stop h1 h2 =>
    cases k with
    | stop => rfl
    | step k1 k2 _ =>
      rw [h1] at k1; injection k1 with k1; injection k1 with k1 k3
      rw [← k1, h2] at k2; cases k2
  | step h1 h2 _ ih =>
    cases k with
    | stop k1 k2 =>
      rw [h1] at k1; injection k1 with k1; injection k1 with k1 k3
      rw [← k1, h2] at k2; cases k2
    | step k1 k2 k3 =>
      rw [h1] at k1; injection k1 with k1; injection k1 with k1 k4
      subst k1; subst k4
      rw [ih _ k3]

/-! ## One object in the middle of a text -/

/-- `C31_object` for a text preceded by white space and followed by white space and anything. -/
theorem enote_more (t : Ty) (x old : t.D F64) (hx : ∀ c ∈ comps t x, isValidDub c = true)
    (d : Nat) (hd : 16 ≤ d) (txt : List Char) (h : enoteTy d t x = some txt)
    (ws more : List Char) (hws : AllWs ws) (hm : Ends more) :
    extractTy t ⟨ws ++ (txt ++ more), false, false⟩ old = .ok (⟨more, more.isEmpty, false⟩, x) := by
  by_cases ht : t = .dub
  · subst ht
    injection h with h
    have hf := valid_finite (hx x (by simp [comps]))
    have hv := sciVal_recover x hf d hd
    have := enote_reads x hf d (by rw [hv]; rintro s rfl; simp [F64.Finite] at hf)
      (ws ++ blanks (7 + d - (numText .scientific d x).length)) more old
      (by
        intro c hc
        rcases List.mem_append.1 hc with hc | hc
        · exact hws c hc
        · exact allWs_blanks _ c hc) hm
    rw [hv] at this
    rw [← h, extractTy, C30_enote_number, field, ← this]
    simp only [List.append_assoc]
  rw [C30_enote_object] at h
  split at h
  · simp at h
  injection h with h
  rw [← h]
  simp only [show enoteBlade d = _ from funext (enoteBlade_eq d)]
  have hval : ∀ c ∈ comps t x, sciVal d c = c := fun c hc =>
    sciVal_recover c (valid_finite (hx c hc)) d hd
  have := readback_more [' ', ' '] [' '] (fun x => blanks (7 + d - (numText .scientific d x).length))
    (numText .scientific d) (sciVal d) t ht x old (allWs_blanks 2) (allWs_blanks 1)
    (fun _ => allWs_blanks _) (fun _ => by simp) (fun _ => by simp) (by
      intro c hc
      have hf := valid_finite (hx c hc)
      refine ⟨enote_reads c hf d ?_, by rw [hval c hc]; exact hx c hc⟩
      rw [hval c hc]
      rintro s rfl; simp [F64.Finite] at hf) ws more hws hm
  rw [mapTy_id _ t x hval] at this
  exact this

theorem ends_append {sep more : List Char} (hw : AllWs sep) (hs : sep ≠ []) : Ends (sep ++ more) := by
  rcases sep with _ | ⟨c, cs⟩
  · exact absurd rfl hs
  · intro d hd
    simp only [List.cons_append, List.head?_cons, Option.mem_def, Option.some.injEq] at hd
    exact hd ▸ hw c List.mem_cons_self

/-- Text of a list of objects, each followed by the separator: what
`for (x : xs) ostrm << io::enote(x, d) << sep;` writes to an empty stream. -/
def enoteLines (d : Nat) (sep : List Char) (xs : List Obj) : List Char :=
  xs.flatMap fun o => (enoteTy d o.1 o.2).getD [] ++ sep

theorem isEmpty_append_sep {sep more : List Char} (hs : sep ≠ []) : (sep ++ more).isEmpty = false := by
  rcases sep with _ | ⟨c, cs⟩
  · exact absurd rfl hs
  · rfl

theorem enote_seq (d : Nat) (hd : 16 ≤ d) (sep : List Char) (hw : AllWs sep) (hs : sep ≠ [])
    (xs olds : List Obj) (htys : olds.map Sigma.fst = xs.map Sigma.fst)
    (hx : ∀ o ∈ xs, o.1 ≠ .cplx ∧ o.1 ≠ .dplx ∧ ∀ c ∈ comps o.1 o.2, isValidDub c = true)
    (ws : List Char) (hws : AllWs ws) :
    ∃ ws', AllWs ws' ∧
      ReadSeq ⟨ws ++ enoteLines d sep xs, false, false⟩ olds ⟨ws', false, false⟩ xs := by
  induction xs generalizing olds ws with
  | nil =>
    rcases olds with _ | ⟨o, os⟩
    · refine ⟨ws, hws, ?_⟩
      simp only [enoteLines, List.flatMap_nil, List.append_nil]
      exact ReadSeq.nil _
    · simp at htys
  | cons x xs ih =>
    rcases olds with _ | ⟨⟨t, old⟩, os⟩
    · simp at htys
    obtain ⟨t', v⟩ := x
    simp only [List.map_cons, List.cons.injEq] at htys
    obtain ⟨rfl, htys⟩ := htys
    obtain ⟨hc, hdp, hval⟩ := hx _ List.mem_cons_self
    obtain ⟨ws', hws', hseq⟩ := ih os htys (fun o ho => hx o (List.mem_cons_of_mem _ ho)) sep hw
    refine ⟨ws', hws', ?_⟩
    obtain ⟨txt, htxt⟩ : ∃ txt, enoteTy d t v = some txt := by
      rw [C30_enote_object, if_neg (by simp only [not_or]; exact ⟨hc, hdp⟩)]
      exact ⟨_, rfl⟩
    have h1 := enote_more t v old hval d hd txt htxt ws (sep ++ enoteLines d sep xs) hws
      (ends_append hw hs)
    rw [isEmpty_append_sep hs] at h1
    refine ReadSeq.cons ?_ hseq
    rw [← h1]
    simp only [enoteLines, List.flatMap_cons, htxt, Option.getD_some, List.append_assoc]

/-- **C41.** Any number of objects of any types (with an `io::enote`), all components valid,
written one after another with 16 or more decimals and any white space between them, are read
back by a chain of extractions as exactly the same objects, bit for bit; the stream is still
good, with only white space left. -/
theorem C41_sequence (d : Nat) (hd : 16 ≤ d) (sep : List Char) (hw : AllWs sep) (hs : sep ≠ [])
    (xs olds : List Obj) (htys : olds.map Sigma.fst = xs.map Sigma.fst)
    (hx : ∀ o ∈ xs, o.1 ≠ .cplx ∧ o.1 ≠ .dplx ∧ ∀ c ∈ comps o.1 o.2, isValidDub c = true) :
    ∃ ws, AllWs ws ∧
      ReadSeq ⟨enoteLines d sep xs, false, false⟩ olds ⟨ws, false, false⟩ xs :=
  enote_seq d hd sep hw hs xs olds htys hx [] allWs_nil

/-! ## The reading loop -/

theorem extractDub_fail (s : IStream) (old : F64) (h : s.fail = true) :
    (extractDub s old).1.fail = true := by
  unfold extractDub; rw [h]; simp

theorem readAll_fail (n : Nat) (s : IStream) (h : s.fail = true) : (readAll n s).1.fail = true := by
  induction n generalizing s with
  | zero => exact h
  | succ n ih =>
    have h1 := extractDub_fail s nan h
    rw [readAll]
    split
    · exact ih _ h1
    · exact h1

theorem readGroups_fail (ns : List Nat) (s : IStream) (h : s.fail = true) :
    (readGroups ns s).1.fail = true := by
  induction ns generalizing s with
  | nil => exact h
  | cons n ns ih => exact ih _ (readAll_fail n s h)

theorem extractDub_end {ws : List Char} (hw : AllWs ws) (old : F64) :
    extractDub ⟨ws, false, false⟩ old = (⟨[], true, true⟩, old) := by
  have := extractDub_ws hw [] old
  rw [List.append_nil] at this
  rw [this]; rfl

/-- At the end of the input every extraction fails. -/
theorem extractTy_end (t : Ty) {ws : List Char} (hw : AllWs ws) (old : t.D F64) :
    ∃ s' y, extractTy t ⟨ws, false, false⟩ old = .ok (s', y) ∧ s'.fail = true := by
  by_cases ht : t = .dub
  · subst ht
    exact ⟨⟨[], true, true⟩, old, by rw [extractTy, extractDub_end hw], rfl⟩
  · obtain ⟨s', y, h1, h2⟩ := C29_blades t ht ⟨ws, false, false⟩ old
    refine ⟨s', y, h1, ?_⟩
    have h3 := congrArg Prod.fst h2
    dsimp only at h3
    rw [h3]
    have key : ∀ n ns, (readGroups ((n + 1) :: ns) ⟨ws, false, false⟩).1.fail = true := by
      intro n ns
      refine readGroups_fail ns _ ?_
      rw [readAll, extractDub_end hw]
      rfl
    cases t <;> exact key _ _

/-- **C41.** A text of any number of objects of one type, written with 16 or more decimals and
white space after each, is read by `while (istrm >> x)` as exactly these objects: none is lost,
none is invented, none is changed, and the loop ends. -/
theorem C41_loop (t : Ty) (ht : t ≠ .cplx) (ht' : t ≠ .dplx) (d : Nat) (hd : 16 ≤ d)
    (sep : List Char) (hw : AllWs sep) (hs : sep ≠ []) (xs : List (t.D F64)) (old : t.D F64)
    (hx : ∀ x ∈ xs, ∀ c ∈ comps t x, isValidDub c = true) :
    ReadLoop t ⟨enoteLines d sep (xs.map fun x => ⟨t, x⟩), false, false⟩ old xs := by
  suffices ∀ ws, AllWs ws →
      ReadLoop t ⟨ws ++ enoteLines d sep (xs.map fun x => ⟨t, x⟩), false, false⟩ old xs from
    this [] allWs_nil
  induction xs generalizing old with
  | nil =>
    intro ws hws
    obtain ⟨s', y, h1, h2⟩ := extractTy_end t hws old
    refine ReadLoop.stop (s' := s') (y := y) ?_ h2
    simpa [enoteLines] using h1
  | cons x xs ih =>
    intro ws hws
    obtain ⟨txt, htxt⟩ : ∃ txt, enoteTy d t x = some txt := by
      rw [C30_enote_object, if_neg (by simp only [not_or]; exact ⟨ht, ht'⟩)]
      exact ⟨_, rfl⟩
    have h1 := enote_more t x old (hx x List.mem_cons_self) d hd txt htxt ws
      (sep ++ enoteLines d sep (xs.map fun x => ⟨t, x⟩)) hws (ends_append hw hs)
    rw [isEmpty_append_sep hs] at h1
    refine ReadLoop.step (s' := _) (y := x) ?_ rfl
      (ih x (fun y hy => hx y (List.mem_cons_of_mem _ hy)) sep hw)
    rw [← h1]
    simp only [enoteLines, List.map_cons, List.flatMap_cons, htxt, Option.getD_some,
      List.append_assoc]

/-! ## `operator<<` -/

theorem fixed_readback_more (g : List Char) (hg : AllWs g) (t : Ty) (ht : t ≠ .dub)
    (x old : t.D F64) (hx : ∀ c ∈ comps t x, c.Finite) (b a : Nat) (ha : a ≤ 306)
    (more : List Char) (hm : Ends more) :
    ∃ y, extractTy t ⟨g.intercalate ((blades t x).map (fixedBlade b a)) ++ more, false, false⟩ old =
        .ok (⟨more, more.isEmpty, false⟩, y) ∧
      List.Forall₂ (fun c c' => isValidDub c' = true ∧ |c'.value - c.value| ≤ 1 / 10 ^ a)
        (comps t x) (comps t y) := by
  refine ⟨mapTy (fixedVal a) t x, ?_, ?_⟩
  · simp only [show fixedBlade b a = _ from funext (fixedBlade_eq b a)]
    refine readback_more g [] _ _ (fixedVal a) t ht x old hg allWs_nil
      (fun _ => allWs_cons_blanks _) (fun _ => by simp) (fun _ => by simp) ?_ [] more allWs_nil hm
    intro c hc
    obtain ⟨h1, h2, _⟩ := fixedVal_spec c (hx c hc) a ha
    exact ⟨fixed_reads c (hx c hc) a (by rintro s hs; rw [hs] at h1; simp [F64.Finite] at h1), h2⟩
  · rw [comps_mapTy, List.forall₂_map_right_iff]
    exact List.forall₂_same.2 (fun c hc =>
      ⟨(fixedVal_spec c (hx c hc) a ha).2.1, (fixedVal_spec c (hx c hc) a ha).2.2⟩)

/-- `ostrm << a << b << ...` -/
def insertSeq (os : OStream) (xs : List Obj) : OStream := xs.foldl (fun os o => insertTy o.1 os o.2) os

/-- What `operator<<` writes for one object. -/
def insText (o : Obj) : List Char := [' '].intercalate ((blades o.1 o.2).map (fixedBlade 3 6))

theorem insertSeq_out (xs : List Obj) (hx : ∀ o ∈ xs, o.1 ≠ .dub) (os : OStream) (hw : os.width = 0) :
    (insertSeq os xs).out = os.out ++ xs.flatMap insText := by
  induction xs generalizing os with
  | nil => simp [insertSeq]
  | cons o xs ih =>
    have h1 := C30_insert_text o.1 (hx o List.mem_cons_self) o.2 os hw
    have h2 := (C30_insert_state o.1 o.2 os).2.2.2.2
    have h3 : insertSeq os (o :: xs) = insertSeq (insertTy o.1 os o.2) xs := rfl
    rw [h3, ih (fun o ho => hx o (List.mem_cons_of_mem _ ho)) _ h2, h1, List.flatMap_cons, insText,
      List.append_assoc]

theorem insText_ends (o : Obj) (ho : o.1 ≠ .dub) (more : List Char) :
    Ends (insText o ++ more) ∧ insText o ++ more ≠ [] := by
  have key : ∃ r, insText o = ' ' :: r := by
    obtain ⟨t, x⟩ := o
    unfold insText
    cases t <;>
      simp [blades, intercalate_cons, fixedBlade, C30_fixed_number]
  obtain ⟨r, hr⟩ := key
  rw [hr]
  refine ⟨?_, by simp⟩
  intro c hc
  simp only [List.cons_append, List.head?_cons, Option.mem_def, Option.some.injEq] at hc
  subst hc; rfl

/-- **C41.** Any number of objects with finite components, of any of the nine types, inserted one
after another with `operator<<` and nothing in between, are read back one after another: every
extraction succeeds, the objects do not run into each other, and each component comes back valid
and within `10^-6`. -/
theorem C41_insert (xs olds : List Obj) (htys : olds.map Sigma.fst = xs.map Sigma.fst)
    (hx : ∀ o ∈ xs, o.1 ≠ .dub ∧ ∀ c ∈ comps o.1 o.2, c.Finite) :
    ∃ (ys : List Obj) (e : Bool),
      ReadSeq ⟨(insertSeq OStream.fresh xs).out, false, false⟩ olds ⟨[], e, false⟩ ys ∧
      List.Forall₂ (fun x y : Obj => x.1 = y.1 ∧
        List.Forall₂ (fun c c' => isValidDub c' = true ∧ |c'.value - c.value| ≤ 1 / 10 ^ 6)
          (comps x.1 x.2) (comps y.1 y.2)) xs ys := by
  rw [insertSeq_out xs (fun o ho => (hx o ho).1) OStream.fresh rfl]
  have e0 : OStream.fresh.out = [] := rfl
  rw [e0, List.nil_append]
  suffices ∀ e0, (xs = [] ∨ e0 = false) → ∃ (ys : List Obj) (e : Bool),
      ReadSeq ⟨xs.flatMap insText, e0, false⟩ olds ⟨[], e, false⟩ ys ∧
      List.Forall₂ (fun x y : Obj => x.1 = y.1 ∧
        List.Forall₂ (fun c c' => isValidDub c' = true ∧ |c'.value - c.value| ≤ 1 / 10 ^ 6)
          (comps x.1 x.2) (comps y.1 y.2)) xs ys from this false (Or.inr rfl)
  induction xs generalizing olds with
  | nil =>
    intro e0 _
    rcases olds with _ | ⟨o, os⟩
    · exact ⟨[], e0, ReadSeq.nil _, List.Forall₂.nil⟩
    · simp at htys
  | cons x xs ih =>
    intro e0 he
    have he : e0 = false := by rcases he with h | h; · cases h
                               · exact h
    subst he
    rcases olds with _ | ⟨⟨t, old⟩, os⟩
    · simp at htys
    obtain ⟨t', v⟩ := x
    simp only [List.map_cons, List.cons.injEq] at htys
    obtain ⟨rfl, htys⟩ := htys
    obtain ⟨hd, hf⟩ := hx _ List.mem_cons_self
    have hE : Ends (xs.flatMap insText) := by
      rcases xs with _ | ⟨z, zs⟩
      · exact ends_nil
      · rw [List.flatMap_cons]
        exact (insText_ends z (hx z (by simp)).1 _).1
    obtain ⟨y, h1, h2⟩ := fixed_readback_more [' '] (allWs_blanks 1) t hd v old hf 3 6 (by norm_num)
      (xs.flatMap insText) hE
    obtain ⟨ys, e, h3, h4⟩ := ih os htys (fun o ho => hx o (List.mem_cons_of_mem _ ho))
      (xs.flatMap insText).isEmpty (by
        rcases xs with _ | ⟨z, zs⟩
        · exact Or.inl rfl
        · right
          rw [List.isEmpty_eq_false_iff, List.flatMap_cons]
          exact (insText_ends z (hx z (by simp)).1 _).2)
    refine ⟨⟨t, y⟩ :: ys, e, ReadSeq.cons ?_ h3, List.Forall₂.cons ⟨rfl, h2⟩ h4⟩
    rw [← h1]
    rfl

/-- **C41.** A chain of insertions leaves the formatting state of the stream as it was. -/
theorem C41_insert_state (xs : List Obj) (os : OStream) :
    (insertSeq os xs).ff = os.ff ∧ (insertSeq os xs).prec = os.prec ∧
      (insertSeq os xs).fill = os.fill ∧ (insertSeq os xs).adj = os.adj ∧
      os.out <+: (insertSeq os xs).out := by
  induction xs generalizing os with
  | nil => exact ⟨rfl, rfl, rfl, rfl, List.prefix_rfl⟩
  | cons o xs ih =>
    obtain ⟨a, b, c, d, e⟩ := ih (insertTy o.1 os o.2)
    obtain ⟨a', b', c', d', -⟩ := C30_insert_state o.1 o.2 os
    have e' := C30_insert_appends o.1 o.2 os
    rw [a'] at a; rw [b'] at b; rw [c'] at c; rw [d'] at d
    exact ⟨a, b, c, d, e'.trans e⟩

/-! ## Examples -/

/-- A vector and a spinor on two lines. -/
example : ∃ ws, AllWs ws ∧ ReadSeq
    ⟨enoteLines 16 ['\n'] [⟨.vec, gzeroTy .vec⟩, ⟨.spin, gzeroTy .spin⟩], false, false⟩
    [⟨.vec, gnullTy nan .vec⟩, ⟨.spin, gnullTy nan .spin⟩] ⟨ws, false, false⟩
    [⟨.vec, gzeroTy .vec⟩, ⟨.spin, gzeroTy .spin⟩] := by
  refine C41_sequence 16 le_rfl ['\n'] (by intro c hc; simp at hc; subst hc; rfl) (by simp) _ _ rfl ?_
  intro o ho
  have hz : isValidDub (0 : F64) = true := (C11_double _).2 (Or.inl ⟨false, rfl⟩)
  simp only [List.mem_cons, List.not_mem_nil, or_false] at ho
  rcases ho with rfl | rfl <;> refine ⟨by simp, by simp, ?_⟩ <;> intro c hc <;>
    simp [comps, gzeroTy, engabra] at hc <;> subst hc <;> exact hz

/-- Three vectors read by the loop. -/
example : ReadLoop .vec ⟨enoteLines 17 [' ', '\n']
      ([gzeroTy .vec, (e1 : Vector F64), gzeroTy .vec].map fun x => ⟨.vec, x⟩), false, false⟩
    (gnullTy nan .vec) [gzeroTy .vec, (e1 : Vector F64), gzeroTy .vec] := by
  have hz : isValidDub (0 : F64) = true := (C11_double _).2 (Or.inl ⟨false, rfl⟩)
  have h1 : isValidDub (1 : F64) = true := isValidDub_one
  refine C41_loop .vec (by simp) (by simp) 17 (by norm_num) _
    (by intro c hc; simp at hc; rcases hc with rfl | rfl <;> rfl) (by simp) _ _ ?_
  intro x hx c hc
  simp only [List.mem_cons, List.not_mem_nil, or_false] at hx
  rcases hx with rfl | rfl | rfl <;> simp [comps, gzeroTy, e1, engabra] at hc <;>
    (try rcases hc with rfl | rfl) <;> first | exact hz | exact h1

/-- A bivector and a multivector inserted without a separator. -/
example : ∃ (ys : List Obj) (e : Bool),
    ReadSeq ⟨(insertSeq OStream.fresh [⟨.biv, gzeroTy .biv⟩, ⟨.mv, gzeroTy .mv⟩]).out, false, false⟩
      [⟨.biv, gnullTy nan .biv⟩, ⟨.mv, gnullTy nan .mv⟩] ⟨[], e, false⟩ ys ∧ ys.length = 2 := by
  obtain ⟨ys, e, h1, h2⟩ := C41_insert [⟨.biv, gzeroTy .biv⟩, ⟨.mv, gzeroTy .mv⟩]
    [⟨.biv, gnullTy nan .biv⟩, ⟨.mv, gnullTy nan .mv⟩] rfl (by
      intro o ho
      simp only [List.mem_cons, List.not_mem_nil, or_false] at ho
      rcases ho with rfl | rfl <;> refine ⟨by simp, ?_⟩ <;> intro c hc <;>
        simp [comps, gzeroTy, engabra] at hc <;> subst hc <;> trivial)
  exact ⟨ys, e, h1, h2.length_eq.symm⟩

end Engabra
