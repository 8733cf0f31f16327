import Verif.Model.NoSkip
import Verif.Props.C97_Words

/-! # C99 — input with white space not skipped

`Spec`: `Denotes`, `recovered` and `Blank` are those of C97: a numeral denotes a number; groups of given sizes
filled from a list of numbers, the ones that cannot be filled NaN; white space. -/

namespace Engabra

open F64 (nan inf zero fin IsFin)

/-! ## A stream from which no number can be read -/

/-- The next extraction fails: a flag is set, or white space comes first. -/
def Stuck (s : IStream) : Prop :=
  s.eof = true ∨ s.fail = true ∨ ∃ c cs, s.rest = c :: cs ∧ isWs c = true

theorem scanNum_ws {c : Char} {cs : List Char} (h : isWs c = true) :
    scanNum (c :: cs) = (⟨false, [], [], none⟩, c :: cs) := by
  obtain ⟨h1, h2, h3, h4, h5, h6⟩ := ws_facts h
  simp [scanNum, scanSign, scanFrac, scanExp, h1, h2, h3, h4, h5, h6, List.span_eq_takeWhile_dropWhile]

theorem stuck_dub {s : IStream} (h : Stuck s) (old : F64) :
    (extractDubN s old).1 = ⟨s.rest, s.eof, true⟩ := by
  rcases s with ⟨r, e, f⟩
  unfold extractDubN
  dsimp only
  by_cases hb : (e || f) = true
  · rw [if_pos hb]
  · have he : e = false := by cases e <;> simp_all
    have hf : f = false := by cases f <;> simp_all
    subst he; subst hf
    rcases h with h | h | ⟨c, cs, h, hc⟩
    · cases h
    · cases h
    · dsimp only at h
      subst h
      rw [if_neg (by decide), scanNum_ws hc]
      rfl

theorem loopN_false (s : IStream) (xs : List F64) : extractLoopN s false xs = (s, false, xs) := by
  cases xs <;> rfl

theorem stuck_arr {s : IStream} (h : Stuck s) (x : F64) (xs : List F64) :
    extractArrN s (x :: xs) = .ok (⟨s.rest, s.eof, true⟩, List.replicate (xs.length + 1) nan) := by
  rw [extractArrN]
  have e : isInputOkay (extractDubN s x).1 (extractDubN s x).2 = false := by
    unfold isInputOkay
    rw [stuck_dub h x]; rfl
  rw [e, loopN_false, stuck_dub h x]
  rfl

theorem stuck_a1 {s : IStream} (h : Stuck s) (a : A1 F64) :
    extractA1N s a = .ok (⟨s.rest, s.eof, true⟩, ⟨nan⟩) := by
  unfold extractA1N A1.toList
  rw [stuck_arr h]; rfl

theorem stuck_a3 {s : IStream} (h : Stuck s) (a : A3 F64) :
    extractA3N s a = .ok (⟨s.rest, s.eof, true⟩, ⟨nan, nan, nan⟩) := by
  unfold extractA3N A3.toList
  rw [stuck_arr h]; rfl

theorem stuck_fail (r : List Char) (e : Bool) : Stuck ⟨r, e, true⟩ := .inr (.inl rfl)

theorem stuck_ends {r : List Char} (h : Ends r) : Stuck ⟨r, r.isEmpty, false⟩ := by
  rcases r with _ | ⟨c, cs⟩
  · exact .inl rfl
  · exact .inr (.inr ⟨c, cs, rfl, h c (by simp)⟩)

/-! ## Objects -/

/-- **C99.**  Reading from a stream that is not good, or whose text begins with white space, fails and makes the
object null, for every type; nothing is taken from the text. -/
theorem C99_blank (t : Ty) (ht : t ≠ .dub) (s : IStream) (old : t.D F64)
    (h : s.eof = true ∨ s.fail = true ∨ ∃ c ∈ s.rest.head?, Blank c) :
    ∃ y, extractTyN t s old = .ok (⟨s.rest, s.eof, true⟩, y) ∧ ∀ c ∈ comps t y, c = nan := by
  have hs : Stuck s := by
    rcases h with h | h | ⟨c, hc, hb⟩
    · exact .inl h
    · exact .inr (.inl h)
    · rcases hr : s.rest with _ | ⟨d, ds⟩
      · rw [hr] at hc; simp at hc
      · rw [hr] at hc
        simp at hc
        subst hc
        exact .inr (.inr ⟨_, _, hr, (blank_iff _).1 hb⟩)
  have h1 := fun a => stuck_a1 hs a
  have h3 := fun a => stuck_a3 hs a
  have g1 := fun a => stuck_a1 (stuck_fail s.rest s.eof) a
  have g3 := fun a => stuck_a3 (stuck_fail s.rest s.eof) a
  cases t <;> first | exact absurd rfl ht | skip
  all_goals
    simp only [extractTyN, h1, h3, g1, g3, Run.bind]
    refine ⟨_, rfl, ?_⟩
    simp [comps]

theorem first_dub {num rest : List Char} {v : F64} (hn : ∃ c cs, num ++ rest = c :: cs ∧ isWs c = false)
    (hr : ReadsAs num v) (he : Ends rest) (old : F64) :
    extractDubN ⟨num ++ rest, false, false⟩ old = (⟨rest, rest.isEmpty, false⟩, v) := by
  have h := hr [] rest old allWs_nil he
  rw [List.nil_append] at h
  obtain ⟨c, cs, hc, hw⟩ := hn
  rw [hc] at h ⊢
  unfold extractDub at h
  unfold extractDubN
  dsimp only at h ⊢
  rw [if_neg (by decide), List.dropWhile_cons_of_neg (by rw [hw]; decide), if_neg (by simp)] at h
  rw [if_neg (by decide)]
  exact h

theorem first_a1 {num rest : List Char} {v : F64} (hn : ∃ c cs, num ++ rest = c :: cs ∧ isWs c = false)
    (hr : ReadsAs num v) (hv : isValidDub v = true) (he : Ends rest) (a : A1 F64) :
    extractA1N ⟨num ++ rest, false, false⟩ a = .ok (⟨rest, rest.isEmpty, false⟩, ⟨v⟩) := by
  unfold extractA1N A1.toList extractArrN
  dsimp only
  rw [first_dub hn hr he]
  have e : isInputOkay ⟨rest, rest.isEmpty, false⟩ v = true := by
    unfold isInputOkay; rw [hv]; rfl
  dsimp only
  rw [e]
  rfl

theorem first_a3 {num rest : List Char} {v : F64} (hn : ∃ c cs, num ++ rest = c :: cs ∧ isWs c = false)
    (hr : ReadsAs num v) (hv : isValidDub v = true) (he : Ends rest) (a : A3 F64) :
    extractA3N ⟨num ++ rest, false, false⟩ a = .ok (⟨rest, rest.isEmpty, true⟩, ⟨nan, nan, nan⟩) := by
  unfold extractA3N A3.toList extractArrN
  dsimp only
  rw [first_dub hn hr he]
  have e : isInputOkay ⟨rest, rest.isEmpty, false⟩ v = true := by
    unfold isInputOkay; rw [hv]; rfl
  have hl : extractLoopN ⟨rest, rest.isEmpty, false⟩ true [a.d1, a.d2] =
      (⟨rest, rest.isEmpty, true⟩, false, [(extractDubN ⟨rest, rest.isEmpty, false⟩ a.d1).2, a.d2]) := by
    have e' : ∀ w, isInputOkay ⟨rest, rest.isEmpty, true⟩ w = false := fun w => rfl
    rw [extractLoopN, if_pos rfl]
    dsimp only
    rw [stuck_dub (stuck_ends he), e', loopN_false]
  dsimp only
  rw [e, hl]
  rfl

theorem first_ty {num rest : List Char} {v : F64} (hn : ∃ c cs, num ++ rest = c :: cs ∧ isWs c = false)
    (hr : ReadsAs num v) (hv : isValidDub v = true) (he : Ends rest) (t : Ty) (ht : t ≠ .dub) (old : t.D F64) :
    ∃ y, extractTyN t ⟨num ++ rest, false, false⟩ old =
        .ok (⟨rest, rest.isEmpty, decide (1 < (bladeSizes t).sum)⟩, y) ∧
      blades t y = recovered (bladeSizes t) [v] := by
  have h1 := fun a => first_a1 hn hr hv he a
  have h3 := fun a => first_a3 hn hr hv he a
  have g1 := fun a => stuck_a1 (stuck_ends he) a
  have g3 := fun a => stuck_a3 (stuck_ends he) a
  have k1 := fun a => stuck_a1 (stuck_fail rest rest.isEmpty) a
  have k3 := fun a => stuck_a3 (stuck_fail rest rest.isEmpty) a
  cases t <;> first | exact absurd rfl ht | skip
  all_goals
    simp only [extractTyN, h1, h3, g1, g3, k1, k3, Run.bind]
    refine ⟨_, rfl, ?_⟩
    simp [blades, bladeSizes, recovered]

/-- **C99.**  A numeral at the beginning of the text, and then white space or the end: objects with one component
are read; of all others only that number is, so that a blade with one component in front is read and all else is
null, and the stream fails.  What follows the numeral is left. -/
theorem C99_first (n : Numeral) (v : F64) (hd : Denotes n v) (rest : List Char)
    (he : ∀ c ∈ rest.head?, Blank c) (t : Ty) (ht : t ≠ .dub) (old : t.D F64) :
    ∃ y, extractTyN t ⟨n.text ++ rest, false, false⟩ old =
        .ok (⟨rest, rest.isEmpty, decide (1 < (bladeSizes t).sum)⟩, y) ∧
      blades t y = recovered (bladeSizes t) [v] := by
  obtain ⟨h1, h2⟩ := denotes_reads hd
  refine first_ty ?_ h1 h2 (fun c hc => (blank_iff c).1 (he c hc)) t ht old
  obtain ⟨h1, h2, h3, -⟩ := hd.1
  rw [allDig_iff] at h1 h2
  unfold Numeral.text
  rcases n.sign with _ | _ | _
  · rcases hi : n.ip with _ | ⟨d, ds⟩
    · unfold Numeral.frac at h3
      rcases hf : n.fp with _ | f
      · rw [hi, hf] at h3; exact absurd rfl h3
      · exact ⟨'.', _, rfl, by decide⟩
    · rw [hi] at h1
      exact ⟨d, _, rfl, (dig_facts (h1 d (by simp))).2.2.2.2.2⟩
  · exact ⟨'+', _, rfl, by decide⟩
  · exact ⟨'-', _, rfl, by decide⟩

/-! ## Text of the library -/

theorem head_fixed (g : List Char) (t : Ty) (x : t.D F64) (b a : Nat) :
    ∃ cs, g.intercalate ((blades t x).map (fixedBlade b a)) = ' ' :: cs := by
  obtain ⟨c, l, bs, h⟩ : ∃ c l bs, blades t x = (c :: l) :: bs := by cases t <;> exact ⟨_, _, _, rfl⟩
  rw [h, List.map_cons, intercalate_cons, fixedBlade, List.map_cons, List.flatten_cons, C30_fixed_number]
  exact ⟨_, rfl⟩

/-- **C99.**  Nothing that `operator<<` or `io::fixed` writes can be read back: the object is null and the stream
fails, for every type and all objects. -/
theorem C99_written (t : Ty) (ht : t ≠ .dub) (x old : t.D F64) (txt more : List Char)
    (h : txt = (insertTy t OStream.fresh x).out ∨ ∃ b a, fixedTy b a t x = some txt) :
    ∃ y, extractTyN t ⟨txt ++ more, false, false⟩ old = .ok (⟨txt ++ more, false, true⟩, y) ∧
      ∀ c ∈ comps t y, c = nan := by
  have hh : ∃ cs, txt = ' ' :: cs := by
    rcases h with h | ⟨b, a, h⟩
    · rw [C30_insert_text t ht x OStream.fresh rfl] at h
      rw [h]
      exact head_fixed _ t x 3 6
    · rw [C30_fixed_object] at h
      split at h
      · cases h
      · injection h with h
        rw [← h]
        exact head_fixed _ t x b a
  obtain ⟨cs, rfl⟩ := hh
  exact C99_blank t ht _ old (.inr (.inr ⟨' ', rfl, by simp [Blank]⟩))

theorem ends_flat (g : List Char) (l : List (List Char)) {r : List Char} (hr : Ends r) :
    Ends ((l.map (' ' :: g ++ ·)).flatten ++ r) := by
  rcases l with _ | ⟨a, l⟩
  · simpa using hr
  · rw [List.map_cons, List.flatten_cons]
    exact ends_space _

theorem enote_begins (t : Ty) (x : t.D F64) (d : Nat) :
    ∃ c cs rest, comps t x = c :: cs ∧ Ends rest ∧
      [' ', ' '].intercalate ((blades t x).map (enoteBlade d)) =
        blanks (7 + d - (numText .scientific d c).length) ++ numText .scientific d c ++ rest := by
  obtain ⟨c, l, bs, h⟩ : ∃ c l bs, blades t x = (c :: l) :: bs := by cases t <;> exact ⟨_, _, _, rfl⟩
  have hc : comps t x = c :: (l ++ bs.flatten) := by
    rw [← blades_join, h]; rfl
  refine ⟨c, _, ((l.map (enoteDub · d)).map ([' '] ++ ·)).flatten ++
    ((bs.map (enoteBlade d)).map ([' ', ' '] ++ ·)).flatten, hc, ?_, ?_⟩
  rotate_left
  · rw [h, List.map_cons, intercalate_cons, enoteBlade, List.map_cons, intercalate_cons, C30_enote_number, field,
      List.append_assoc]
  · refine ends_flat [] _ ?_
    rw [← List.append_nil (List.flatten _)]
    exact ends_flat [' '] _ ends_nil

/-- **C99.**  What `io::enote` writes with 16 or more decimals, for valid objects: if it begins with a blank, the
object read is null; if not, the first number is read and nothing else (so only scalars and trivectors are read
back).  In both cases the stream fails, except for these. -/
theorem C99_enote (t : Ty) (ht : t ≠ .dub) (x old : t.D F64) (hx : ∀ c ∈ comps t x, isValidDub c = true) (d : Nat)
    (hd : 16 ≤ d) (txt : List Char) (h : enoteTy d t x = some txt) :
    (txt.head? = some ' ' → ∃ y, extractTyN t ⟨txt, false, false⟩ old = .ok (⟨txt, false, true⟩, y) ∧
      ∀ c ∈ comps t y, c = nan) ∧
    (txt.head? ≠ some ' ' → ∃ s y, extractTyN t ⟨txt, false, false⟩ old = .ok (s, y) ∧
      s.fail = decide (1 < (bladeSizes t).sum) ∧
      blades t y = recovered (bladeSizes t) ((comps t x).take 1)) := by
  refine ⟨fun hh => C99_blank t ht _ old (.inr (.inr ⟨' ', hh, by simp [Blank]⟩)), fun hh => ?_⟩
  rw [C30_enote_object] at h
  split at h
  · cases h
  injection h with h
  obtain ⟨c, cs, rest, hc, he, e⟩ := enote_begins t x d
  rw [h] at e
  have hb : blanks (7 + d - (numText .scientific d c).length) = [] := by
    rcases hk : 7 + d - (numText .scientific d c).length with _ | k
    · rfl
    · rw [hk, blanks, List.replicate_succ] at e
      rw [e] at hh
      exact absurd rfl hh
  rw [hb, List.nil_append] at e
  have hv : isValidDub c = true := hx c (by rw [hc]; exact List.mem_cons_self)
  have hf := valid_finite hv
  have hval := sciVal_recover c hf d hd
  have hr := enote_reads c hf d (by rw [hval]; rintro s rfl; simp [F64.Finite] at hf)
  rw [hval] at hr
  have hn : ∃ u us, numText .scientific d c ++ rest = u :: us ∧ isWs u = false := by
    have h1 := noWs_num .scientific (by decide) d c
    have h2 := num_ne_nil .scientific (by decide) d c
    rcases hN : numText .scientific d c with _ | ⟨u, us⟩
    · exact absurd hN h2
    · exact ⟨u, _, rfl, h1 u (by rw [hN]; exact List.mem_cons_self)⟩
  obtain ⟨y, y1, y2⟩ := first_ty hn hr hv he t ht old
  rw [← e] at y1
  exact ⟨_, y, y1, rfl, by rw [y2, hc]; rfl⟩

/-! ## Text without white space -/

theorem dub_same {s : IStream} (h : NoWs s.rest) (h' : s.rest = [] → s.eof = true ∨ s.fail = true) (x : F64) :
    extractDubN s x = extractDub s x := by
  unfold extractDubN extractDub
  split
  · rfl
  · rename_i hb
    have e : s.rest.dropWhile isWs = s.rest := by
      rcases hr : s.rest with _ | ⟨c, cs⟩
      · rfl
      · rw [List.dropWhile_cons_of_neg (by rw [h c (by rw [hr]; exact List.mem_cons_self)]; decide)]
    dsimp only
    rw [e, if_neg]
    intro hn
    rcases h' hn with k | k <;> simp [k] at hb

theorem dub_keeps {s : IStream} (h : NoWs s.rest) (x : F64) :
    NoWs (extractDub s x).1.rest ∧
      ((extractDub s x).1.rest = [] → (extractDub s x).1.eof = true ∨ (extractDub s x).1.fail = true) := by
  refine ⟨fun c hc => h c ((extractDub_suffix s x).subset hc), ?_⟩
  unfold extractDub
  split
  · exact fun _ => .inr rfl
  · dsimp only
    split
    · exact fun _ => .inr rfl
    · exact fun h => .inl (by dsimp only at h ⊢; rw [h]; rfl)

theorem loop_same (xs : List F64) (ok : Bool) (s : IStream) (h : NoWs s.rest)
    (h' : s.rest = [] → s.eof = true ∨ s.fail = true) : extractLoopN s ok xs = extractLoop s ok xs := by
  induction xs generalizing s ok with
  | nil => rfl
  | cons x xs ih =>
    rw [extractLoopN, extractLoop, dub_same h h']
    split
    · have := dub_keeps h x
      dsimp only
      rw [ih _ _ this.1 this.2]
    · rfl

theorem arr_same (s : IStream) (h : NoWs s.rest) (xs : List F64) : extractArrN s xs = extractArr s xs := by
  rcases xs with _ | ⟨x, xs⟩
  · rfl
  by_cases h' : s.rest = [] → s.eof = true ∨ s.fail = true
  · have := dub_keeps h x
    rw [extractArrN, extractArr, dub_same h h', loop_same _ _ _ this.1 this.2]
  · rcases s with ⟨r, e, f⟩
    have hr : r = [] := by by_contra hr; exact h' fun k => absurd k hr
    subst hr
    have he : e = false := by
      cases e
      · rfl
      · exact absurd (fun _ => .inl rfl) h'
    have hf : f = false := by
      cases f
      · rfl
      · exact absurd (fun _ => .inr rfl) h'
    subst he; subst hf
    have e1 : extractDubN ⟨[], false, false⟩ x = (⟨[], true, true⟩, zero false) := rfl
    have e2 : extractDub ⟨[], false, false⟩ x = (⟨[], true, true⟩, x) := rfl
    have e3 : ∀ v, isInputOkay ⟨[], true, true⟩ v = false := fun _ => rfl
    have e4 : extractLoop ⟨[], true, true⟩ false xs = (⟨[], true, true⟩, false, xs) := by cases xs <;> rfl
    rw [extractArrN, extractArr, e1, e2]
    dsimp only
    rw [e3, e3, loopN_false, e4]
    rfl

theorem bind_same {β γ : Type} {u v : Run β} {f g : β → Run γ} (h : u = v) (hf : ∀ b, v = .ok b → f b = g b) :
    u.bind f = v.bind g := by
  subst h
  cases u with
  | ub => rfl
  | ok b => exact hf b rfl

theorem a1_same (s : IStream) (h : NoWs s.rest) (a : A1 F64) : extractA1N s a = extractA1 s a :=
  bind_same (arr_same s h _) fun _ _ => rfl

theorem a3_same (s : IStream) (h : NoWs s.rest) (a : A3 F64) : extractA3N s a = extractA3 s a :=
  bind_same (arr_same s h _) fun _ _ => rfl

theorem a1_keeps {s : IStream} (h : NoWs s.rest) {a : A1 F64} {b : IStream × A1 F64} (e : extractA1 s a = .ok b) :
    NoWs b.1.rest := fun c hc => h c ((C29_suffix .sca s b.1 ⟨a⟩ ⟨b.2⟩ (by rw [extractTy, e]; rfl)).subset hc)

theorem a3_keeps {s : IStream} (h : NoWs s.rest) {a : A3 F64} {b : IStream × A3 F64} (e : extractA3 s a = .ok b) :
    NoWs b.1.rest := fun c hc => h c ((C29_suffix .vec s b.1 ⟨a⟩ ⟨b.2⟩ (by rw [extractTy, e]; rfl)).subset hc)

/-- **C99.**  A text without white space is read as by a stream that skips white space, in every state of the
stream and for every type of the library. -/
theorem C99_same (t : Ty) (ht : t ≠ .dub) (s : IStream) (h : ∀ c ∈ s.rest, ¬Blank c) (old : t.D F64) :
    extractTyN t s old = extractTy t s old := by
  have h : NoWs s.rest := fun c hc => by rw [← Bool.not_eq_true, ← blank_iff]; exact h c hc
  cases t
  case dub => exact absurd rfl ht
  case sca => exact bind_same (a1_same s h _) fun _ _ => rfl
  case vec => exact bind_same (a3_same s h _) fun _ _ => rfl
  case biv => exact bind_same (a3_same s h _) fun _ _ => rfl
  case tri => exact bind_same (a1_same s h _) fun _ _ => rfl
  case spin =>
    exact bind_same (a1_same s h _) fun _ e => bind_same (a3_same _ (a1_keeps h e) _) fun _ _ => rfl
  case imsp =>
    exact bind_same (a3_same s h _) fun _ e => bind_same (a1_same _ (a3_keeps h e) _) fun _ _ => rfl
  case cplx =>
    exact bind_same (a1_same s h _) fun _ e => bind_same (a1_same _ (a1_keeps h e) _) fun _ _ => rfl
  case dplx =>
    exact bind_same (a3_same s h _) fun _ e => bind_same (a3_same _ (a3_keeps h e) _) fun _ _ => rfl
  case mv =>
    exact bind_same (a1_same s h _) fun _ e => bind_same (a3_same _ (a1_keeps h e) _) fun _ e' =>
      bind_same (a3_same _ (a3_keeps (a1_keeps h e) e') _) fun _ e'' =>
        bind_same (a1_same _ (a3_keeps (a3_keeps (a1_keeps h e) e') e'') _) fun _ _ => rfl

/-! ## Examples -/

/-- A spinor from `+25.e-1 2 3 4`: the scalar is read, the bivector is null. -/
example (old : Spinor F64) : ∃ y, extractTyN .spin ⟨"+25.e-1 2 3 4".toList, false, false⟩ old =
      .ok (⟨" 2 3 4".toList, false, true⟩, y) ∧
    blades .spin y = [[F64.roundTo (5 / 2 : ℚ)], [nan, nan, nan]] :=
  C99_first numA _ numA_denotes " 2 3 4".toList (by simp [Blank]) .spin (by decide) old

theorem enote_zero (k : Bool) : enoteTy 16 .sca (⟨⟨zero k⟩⟩ : Scalar F64) =
    some ((if k then '-' else ' ') :: "0.0000000000000000e+00".toList) := by
  rw [C30_enote_object, if_neg (by decide)]
  have h : numText .scientific 16 (zero k) = (if k then ['-'] else []) ++ "0.0000000000000000e+00".toList := by
    cases k <;>
      simp [numText, signText, bodyText, magText, sciText, mantText, natDigits_small, fracText, fixedDigits, expText,
        F64.signbit] <;> decide
  have e : ∀ l : List Char, [' ', ' '].intercalate [[' '].intercalate [l]] = l := fun l => by
    simp [List.intercalate]
  show some ([' ', ' '].intercalate [[' '].intercalate [enoteDub (zero k) 16]]) = _
  rw [e, C30_enote_number, h]
  cases k <;> rfl

/-- `C99_enote`: the text of the scalar zero begins with a blank (the place of the sign), so it is not read. -/
example (old : Scalar F64) : ∃ txt y, enoteTy 16 .sca ⟨⟨zero false⟩⟩ = some txt ∧
    extractTyN .sca ⟨txt, false, false⟩ old = .ok (⟨txt, false, true⟩, y) ∧ ∀ c ∈ comps .sca y, c = nan := by
  obtain ⟨y, h3, h4⟩ := (C99_enote .sca (by decide) _ old (by simp [comps, isValidDub_zero]) 16 le_rfl _
    (enote_zero false)).1 rfl
  exact ⟨_, y, enote_zero false, h3, h4⟩

/-- The scalar `-0` is read back. -/
example (old : Scalar F64) : ∃ txt s y, enoteTy 16 .sca ⟨⟨zero true⟩⟩ = some txt ∧
    extractTyN .sca ⟨txt, false, false⟩ old = .ok (s, y) ∧ s.fail = false ∧ blades .sca y = [[zero true]] := by
  obtain ⟨s, y, h3, h4, h5⟩ := (C99_enote .sca (by decide) _ old (by simp [comps, isValidDub_zero]) 16
    le_rfl _ (enote_zero true)).2 (by decide)
  exact ⟨_, s, y, enote_zero true, h3, h4, h5⟩

/-- A vector written without white space. -/
example : ∀ c ∈ "1+2-3".toList, ¬Blank c := by unfold Blank; decide

end Engabra
