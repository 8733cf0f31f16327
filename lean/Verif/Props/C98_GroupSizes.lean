import Verif.Lemmas.GroupSizes

/-! # C98 — locales with digit groups of any sizes

`Spec` (`Lemmas/GroupSizes.lean`): `Sizes.IsGrouped z s ds txt` — `txt` is the digits `ds` in groups of the sizes
`z` from the right, separated by `s`; `Sizes.Fit` — groups have these sizes.  `PunctOk` is that of C83. -/

namespace Engabra

open F64 (nan inf zero fin IsFin)

/-! ## Groups of three -/

theorem sz_sizeAt_three (i : Nat) : Sizes.sizeAt [3] i = 3 := by
  cases i <;> rfl

theorem sz_limited_three (i : Nat) : Sizes.Limited [3] i := by
  rw [Sizes.Limited, sz_sizeAt_three]; decide

theorem sz_groupRev_snoc (s c : Char) (cs : List Char) (i k : Nat) (hk : k ≤ 3) :
    Sizes.groupRev [3] s i k (cs ++ [c]) = Sizes.groupRev [3] s i k cs ++
      (if 0 < k + cs.length ∧ (k + cs.length) % 3 = 0 then [s, c] else [c]) := by
  induction cs generalizing i k with
  | nil =>
    rw [List.nil_append, Sizes.groupRev.eq_2, sz_sizeAt_three]
    by_cases h : k = 3
    · subst h
      rw [if_pos ⟨rfl, sz_limited_three i⟩]; rfl
    · rw [if_neg (fun e => h e.1), if_neg (by rw [List.length_nil]; omega)]; rfl
  | cons d cs ih =>
    rw [List.cons_append, Sizes.groupRev, Sizes.groupRev, sz_sizeAt_three]
    by_cases h : k = 3
    · subst h
      have e : (0 < 1 + cs.length ∧ (1 + cs.length) % 3 = 0) ↔
          (0 < 3 + (d :: cs).length ∧ (3 + (d :: cs).length) % 3 = 0) := by rw [List.length_cons]; omega
      rw [if_pos ⟨rfl, sz_limited_three i⟩, if_pos ⟨rfl, sz_limited_three i⟩, ih _ _ (by omega)]
      simp only [e, List.cons_append]
    · have e : k + 1 + cs.length = k + (d :: cs).length := by rw [List.length_cons]; omega
      rw [if_neg (fun e => h e.1), if_neg (fun e => h e.1), ih _ _ (by omega), e, List.cons_append]

theorem sz_groupDigits_three (s : Char) (ds : List Char) : Sizes.groupDigits [3] s ds = groupDigits s ds := by
  induction ds with
  | nil => rfl
  | cons c cs ih =>
    rw [groupDigits, ← ih, Sizes.groupDigits, Sizes.groupDigits, List.reverse_cons,
      sz_groupRev_snoc _ _ _ _ _ (by omega), List.reverse_append]
    have e : (0 < 0 + cs.reverse.length ∧ (0 + cs.reverse.length) % 3 = 0) ↔ (cs.length % 3 = 0 ∧ cs ≠ []) := by
      rw [List.length_reverse, ← List.length_pos_iff_ne_nil]; omega
    simp only [e]
    split <;> rfl

theorem sz_sizesOk_three (l : List Nat) (g i : Nat) :
    Sizes.sizesOk [3] i (l ++ [g]) = true ↔ asChar g ≤ 3 ∧ ∀ n ∈ l, asChar n = 3 := by
  induction l generalizing i with
  | nil =>
    rw [List.nil_append, Sizes.sizesOk_one, sz_sizeAt_three]
    simp [sz_limited_three]
  | cons a l ih =>
    obtain ⟨b, m, e⟩ : ∃ b m, l ++ [g] = b :: m := by
      rcases l with _ | ⟨b, m⟩
      · exact ⟨g, [], rfl⟩
      · exact ⟨b, m ++ [g], rfl⟩
    rw [List.cons_append, e, Sizes.sizesOk_two, ← e, ih, sz_sizeAt_three, List.forall_mem_cons]
    exact ⟨fun h => ⟨h.2.1, h.1, h.2.2⟩, fun h => ⟨h.2.1, h.1, h.2.2⟩⟩

theorem sz_groupsOk_three (gs : List Nat) : Sizes.groupsOk [3] gs = groupsOk gs := by
  rcases gs with _ | ⟨g, _ | ⟨k, gs⟩⟩
  · rfl
  · rfl
  · rw [Bool.eq_iff_iff, groupsOk_two]
    show Sizes.sizesOk [3] 0 (g :: k :: gs).reverse = true ↔ _
    rw [List.reverse_cons, sz_sizesOk_three]
    simp only [List.mem_reverse]

theorem sz_extractDubG_three (p s : Char) : Sizes.extractDubG [3] p s = extractDubG p s := by
  funext st old
  have h : ∀ cs, Sizes.scanNumG [3] p s cs = scanNumG p s cs := fun cs => by
    unfold Sizes.scanNumG scanNumG
    simp only [sz_groupsOk_three]
  unfold Sizes.extractDubG extractDubG
  simp only [h]

theorem sz_extractArrG_three (p s : Char) : Sizes.extractArrG [3] p s = extractArrG p s := by
  have hl : ∀ xs st ok, Sizes.extractLoopG [3] p s st ok xs = extractLoopG p s st ok xs := by
    intro xs
    induction xs with
    | nil => intro st ok; rfl
    | cons x xs ih =>
      intro st ok
      rw [Sizes.extractLoopG, extractLoopG, sz_extractDubG_three]
      simp only [ih]
  funext st xs
  rcases xs with _ | ⟨x, xs⟩
  · rfl
  · rw [Sizes.extractArrG, extractArrG, sz_extractDubG_three, hl]

theorem sz_putDub_three (p s : Char) (os : OStream) (x : F64) :
    OStream.putDubZ [3] p s os x = os.putDubG p s x := by
  unfold OStream.putDubZ OStream.putDubG Sizes.bodyTextG bodyTextG
  simp only [sz_groupDigits_three]
  rfl

/-- **C98.**  With the one size three, all functions do what they do in `Model/Grouping.lean` (C87). -/
theorem C98_three (p s : Char) (t : Ty) (x : t.D F64) (b a : Nat) (os : OStream) (st : IStream) :
    Sizes.fixedTyG [3] p s b a t x = fixedTyG p s b a t x ∧ Sizes.enoteTyG [3] p s a t x = enoteTyG p s a t x ∧
      Sizes.insertTyG [3] p s t os x = insertTyG p s t os x ∧
      Sizes.extractTyG [3] p s t st x = extractTyG p s t st x := by
  have hd : ∀ y b a, Sizes.fixedDubG [3] p s y b a = fixedDubG p s y b a := fun y b a => by
    unfold Sizes.fixedDubG fixedDubG
    simp only [sz_putDub_three]
  have ha : ∀ l b a, Sizes.fixedArrG [3] p s l b a = fixedArrG p s l b a := fun l b a => by
    unfold Sizes.fixedArrG fixedArrG
    simp only [hd]
  have hp : ∀ o l, Sizes.putArrG [3] p s o l = putArrG p s o l := fun o l => by
    unfold Sizes.putArrG putArrG
    simp only [sz_putDub_three]
  have h1 : ∀ st x, Sizes.extractA1G [3] p s st x = extractA1G p s st x := fun st x => by
    unfold Sizes.extractA1G extractA1G
    rw [sz_extractArrG_three]
    rfl
  have h3 : ∀ st x, Sizes.extractA3G [3] p s st x = extractA3G p s st x := fun st x => by
    unfold Sizes.extractA3G extractA3G
    rw [sz_extractArrG_three]
    rfl
  refine ⟨?_, ?_, ?_, ?_⟩
  · cases t <;> simp only [Sizes.fixedTyG, fixedTyG, hd, ha]
  · rw [Sizes.obj_enote_text, C87_enote_text]
  · cases t <;> simp only [Sizes.insertTyG, insertTyG, sz_putDub_three, hp]
  · cases t <;> simp only [Sizes.extractTyG, extractTyG, sz_extractDubG_three, h1, h3]

/-! ## Sizes -/

/-- **C98.**  The sizes are those of the list, and after them the last one again and again; the sizes with a limit
are those from 1 to 126. -/
theorem C98_sizes (z : List Nat) (hz : z ≠ []) (i : Nat) :
    (∀ n, z[i]? = some n → Sizes.sizeAt z i = n) ∧
      (z.length ≤ i → z.getLast? = some (Sizes.sizeAt z i)) ∧
      (Sizes.Limited z i ↔ Sizes.sizeAt z i ∈ Set.Icc 1 126) := by
  refine ⟨fun n h => ?_, fun h => ?_, ?_⟩
  · rw [Sizes.sizeAt, List.getD_eq_getElem?_getD, h, Option.getD_some]
  · rw [Sizes.sizeAt, List.getD_eq_getElem?_getD, List.getElem?_eq_none h, Option.getD_none,
      List.getLast?_eq_some_getLast hz, List.getLastD_eq_getLast?, List.getLast?_eq_some_getLast hz]
    rfl
  · rw [Sizes.Limited, Set.mem_Icc]; omega

/-! ## Output and input -/

/-- **C98.**  `io::fixed(double)` writes the text of the "C" locale with the digits before the point in groups of the
sizes of the locale, and the decimal point of the locale. -/
theorem C98_fixed_number (z : List Nat) (p s : Char) (x : F64) (hx : x.Finite) (b a : Nat) :
    ∃ ip fr G, numText .fixed a x = signText x ++ (ip ++ fr) ∧ AllDig ip ∧ ip ≠ [] ∧
      (∀ c ∈ fr.head?, c = '.') ∧ Sizes.IsGrouped z s ip G ∧
      Sizes.fixedDubG z p s x b a =
        ' ' :: field (1 + b + 1 + a) (signText x ++ (G ++ fr.map (point p))) :=
  Sizes.obj_fixed_number z p s x hx b a

/-- **C98.**  `io::fixed` and `operator<<` of an object: the texts of the numbers put together as in the "C" locale. -/
theorem C98_fixed_object (z : List Nat) (p s : Char) (t : Ty) (x : t.D F64) (b a : Nat) :
    (Sizes.fixedTyG z p s b a t x = if t = .cplx ∨ t = .dplx then none
      else some ([' ', ' '].intercalate ((blades t x).map fun l =>
        (l.map fun c => Sizes.fixedDubG z p s c b a).flatten))) ∧
    (t ≠ .dub → ∀ os : OStream, os.width = 0 → (Sizes.insertTyG z p s t os x).out = os.out ++
      [' '].intercalate ((blades t x).map fun l => (l.map fun c => Sizes.fixedDubG z p s c 3 6).flatten)) :=
  Sizes.obj_fixed_object z p s t x b a

/-- **C98.**  `io::enote` writes the same text whatever the sizes of the groups. -/
theorem C98_enote_text (z : List Nat) (p s : Char) (d : Nat) (t : Ty) (x : t.D F64) :
    Sizes.enoteTyG z p s d t x = enoteTyL p d t x :=
  Sizes.obj_enote_text z p s d t x

/-- **C98.**  A text in which the separator does not occur is read as in the locale without grouping. -/
theorem C98_no_separator (z : List Nat) (p s : Char) (hp : PunctOk p) (t : Ty) (txt : List Char) (hs : s ∉ txt)
    (eof fail : Bool) (old : t.D F64) :
    Sizes.extractTyG z p s t ⟨txt, eof, fail⟩ old = extractTyL p t ⟨txt, eof, fail⟩ old :=
  Sizes.obj_no_separator z p s hp t txt hs eof fail old

/-- **C98.**  Writing with `io::enote` and 16 or more decimals and reading back in the same locale gives the same
object. -/
theorem C98_round_trip (z : List Nat) (p s : Char) (hp : PunctOk p) (hs : PunctOk s) (hne : s ≠ p) (t : Ty)
    (x old : t.D F64) (hx : ∀ c ∈ comps t x, isValidDub c = true) (d : Nat) (hd : 16 ≤ d)
    (txt : List Char) (h : Sizes.enoteTyG z p s d t x = some txt) :
    Sizes.extractTyG z p s t ⟨txt, false, false⟩ old = .ok (⟨[], true, false⟩, x) :=
  Sizes.obj_round_trip z p s hp hs hne t x old hx d hd txt h

/-- **C98.**  What `operator<<` writes reads back in the same locale to within `10^-6`, whatever the sizes of the
groups. -/
theorem C98_insert (z : List Nat) (p s : Char) (hp : PunctOk p) (hs : PunctOk s) (hne : s ≠ p) (t : Ty) (ht : t ≠ .dub)
    (x old : t.D F64) (hx : ∀ c ∈ comps t x, c.Finite) :
    ∃ y, Sizes.extractTyG z p s t ⟨(Sizes.insertTyG z p s t OStream.fresh x).out, false, false⟩ old =
        .ok (⟨[], true, false⟩, y) ∧
      List.Forall₂ (fun c c' => isValidDub c' = true ∧ |c'.value - c.value| ≤ 1 / 10 ^ 6)
        (comps t x) (comps t y) :=
  Sizes.obj_insert z p s hp hs hne t ht x old hx

/-- **C98.**  The same for `io::fixed` with `a` decimals. -/
theorem C98_fixed (z : List Nat) (p s : Char) (hp : PunctOk p) (hs : PunctOk s) (hne : s ≠ p) (t : Ty) (ht : t ≠ .dub)
    (x old : t.D F64) (hx : ∀ c ∈ comps t x, c.Finite) (b a : Nat) (ha : a ≤ 306) (txt : List Char)
    (h : Sizes.fixedTyG z p s b a t x = some txt) :
    ∃ y, Sizes.extractTyG z p s t ⟨txt, false, false⟩ old = .ok (⟨[], true, false⟩, y) ∧
      List.Forall₂ (fun c c' => isValidDub c' = true ∧ |c'.value - c.value| ≤ 1 / 10 ^ a)
        (comps t x) (comps t y) :=
  Sizes.obj_fixed z p s hp hs hne t ht x old hx b a ha txt h

/-- **C98.**  The text is determined by the digits and the sizes. -/
theorem C98_unique (z : List Nat) (s : Char) (ds t u : List Char) (ht : Sizes.IsGrouped z s ds t)
    (hu : Sizes.IsGrouped z s ds u) : t = u := by
  have key : ∀ (g h : List (List Char)) (i : Nat), Sizes.Fit z i g → Sizes.Fit z i h →
      (g.map List.reverse).flatten = (h.map List.reverse).flatten → g = h := by
    intro g
    induction g with
    | nil => intro h i hg; exact hg.elim
    | cons a g ih =>
      intro h i hg hh e
      rcases h with _ | ⟨b, h⟩
      · exact hh.elim
      rcases g with _ | ⟨a', g⟩ <;> rcases h with _ | ⟨b', h⟩
      · simp at e; rw [e]
      · exfalso
        have e := congrArg List.length e
        simp at e
        have h1 := hg.2 hh.1
        have h2 := hh.2.1
        have h3 := Sizes.fit_pos _ _ hh.2.2 b' List.mem_cons_self
        omega
      · exfalso
        have e := congrArg List.length e
        simp at e
        have h1 := hh.2 hg.1
        have h2 := hg.2.1
        have h3 := Sizes.fit_pos _ _ hg.2.2 a' List.mem_cons_self
        omega
      · rw [List.map_cons, List.map_cons (l := b' :: h), List.flatten_cons, List.flatten_cons] at e
        obtain ⟨e1, e2⟩ := List.append_inj e (by
          rw [List.length_reverse, List.length_reverse, hg.2.1, hh.2.1])
        rw [List.reverse_injective e1, ih _ _ hg.2.2 hh.2.2 e2]
  obtain ⟨g, g1, g2, g3⟩ := ht
  obtain ⟨h, h1, h2, h3⟩ := hu
  have e : g.reverse = h.reverse := by
    refine key _ _ 0 g2 h2 ?_
    rw [List.map_reverse, List.map_reverse, ← List.reverse_flatten, ← List.reverse_flatten, ← g1, ← h1]
  rw [g3, h3, List.reverse_injective e]

/-- **C98.**  Which groups are accepted: a whole number of digits in two or more groups of at most 126 digits is
stored whatever the sizes, but the stream stays good exactly if the groups have the sizes of the locale. -/
theorem C98_groups (z : List Nat) (p s : Char) (hp : PunctOk p) (hs : PunctOk s) (ws first : List Char)
    (rest : List (List Char)) (r : List Char) (hw : AllWs ws) (hr : Ends r) (hne : rest ≠ [])
    (hd : ∀ b ∈ first :: rest, AllDig b ∧ 1 ≤ b.length ∧ b.length ≤ 126)
    (hv : ∀ k, decToF64 false (digitsVal (first ++ rest.flatten)) 0 ≠ inf k) (old : F64) :
    ∃ st, Sizes.extractDubG z p s ⟨ws ++ ([s].intercalate (first :: rest) ++ r), false, false⟩ old =
        (st, decToF64 false (digitsVal (first ++ rest.flatten)) 0) ∧ st.rest = r ∧
      (st.fail = false ↔ Sizes.Fit z 0 (first :: rest).reverse) := by
  have hf := hd first List.mem_cons_self
  obtain ⟨st, h1, h2, h3⟩ := Sizes.obj_groups z p s hp hs ws first rest r hw hr hf.1 hf.2.1 hne
    (fun b hb => ⟨(hd b (List.mem_cons_of_mem _ hb)).1, (hd b (List.mem_cons_of_mem _ hb)).2.1⟩) hv old
  refine ⟨st, h1, h2, h3.trans ⟨fun h => ?_, Sizes.sizesOk_of_fit _ _⟩⟩
  exact Sizes.fit_of_sizesOk _ _ (by simp) (fun b hb => (hd b (List.mem_reverse.1 hb)).2) h

/-- **C98.**  A whole number of six or more digits with the groups of India (three digits, then two and two) read
where all groups have three digits: the number is stored, but the stream fails. -/
theorem C98_india (p s : Char) (hp : PunctOk p) (hs : PunctOk s) (ds txt r : List Char) (hr : Ends r)
    (hds : AllDig ds) (h6 : 6 ≤ ds.length) (ht : Sizes.IsGrouped [3, 2] s ds txt)
    (hv : ∀ k, decToF64 false (digitsVal ds) 0 ≠ inf k) (old : F64) :
    ∃ st, Sizes.extractDubG [3] p s ⟨txt ++ r, false, false⟩ old = (st, decToF64 false (digitsVal ds) 0) ∧
      st.rest = r ∧ st.fail = true := by
  obtain ⟨first, rest, h1, h2, h3, h4⟩ := Sizes.group_spec [3, 2] s ds (by rintro rfl; simp at h6)
  have hsz : ∀ i, Sizes.Limited [3, 2] i ∧ Sizes.sizeAt [3, 2] i ≤ 3 := by
    have h2 : ∀ i, Sizes.sizeAt [3, 2] (i + 1) = 2 := by rintro (_ | i) <;> rfl
    rintro (_ | i)
    · exact ⟨by decide, by decide⟩
    · rw [Sizes.Limited, h2]; decide
  have hle : ∀ (l : List (List Char)) i, Sizes.Fit [3, 2] i l → ∀ b ∈ l, b.length ≤ 3 := by
    intro l
    induction l with
    | nil => intro i h; exact h.elim
    | cons a l ih =>
      intro i h b hb
      rcases l with _ | ⟨c, l⟩
      · rw [List.mem_singleton] at hb
        subst hb
        exact (h.2 (hsz i).1).trans (hsz i).2
      · rcases List.mem_cons.1 hb with rfl | hb
        · rw [h.2.1]; exact (hsz i).2
        · exact ih _ h.2.2 b hb
  have htx := C98_unique _ _ _ _ _ ht ⟨first :: rest, h1, h3, rfl⟩
  have hdig : ∀ b ∈ first :: rest, AllDig b ∧ 1 ≤ b.length ∧ b.length ≤ 126 := fun b hb => by
    refine ⟨fun c hc => hds c ?_, h2 b hb, (hle _ _ h3 b (List.mem_reverse.2 hb)).trans (by norm_num)⟩
    rw [h1, ← List.flatten_cons]
    exact List.mem_flatten.2 ⟨b, hb, hc⟩
  have hlen : 6 ≤ ((first :: rest).reverse.map List.length).sum := by
    rw [List.map_reverse, List.sum_reverse, ← List.length_flatten, List.flatten_cons, ← h1]; exact h6
  have hne : rest ≠ [] := by
    rintro rfl
    have := hle _ _ h3 first (by simp)
    simp at hlen
    omega
  have hnot : ¬ Sizes.Fit [3] 0 (first :: rest).reverse := by
    intro hfit
    generalize (first :: rest).reverse = l at h3 hlen hfit
    rcases l with _ | ⟨a, _ | ⟨b, _ | ⟨c, l⟩⟩⟩
    · exact h3
    · have := h3.2 (hsz 0).1
      simp [Sizes.sizeAt] at hlen this
      omega
    · have h5 := h3.2.1
      have h6 := h3.2.2.2 (hsz 1).1
      simp [Sizes.sizeAt] at hlen h5 h6
      omega
    · have h5 := h3.2.2.2.1
      have h6 := hfit.2.2.2.1
      simp [Sizes.sizeAt] at h5 h6
      omega
  rw [h1] at hv
  obtain ⟨st, e1, e2, e3⟩ := C98_groups [3] p s hp hs [] first rest r allWs_nil hr hne hdig hv old
  refine ⟨st, ?_, e2, ?_⟩
  · rw [htx, h1]; exact e1
  · rw [← Bool.not_eq_false]; exact fun h => hnot (e3.1 h)

/-! ## Examples -/

/-- The groups of India, of four digits, and of three digits only once. -/
example : Sizes.groupDigits [3, 2] ',' "12345678".toList = "1,23,45,678".toList ∧
    Sizes.groupDigits [4] ',' "12345678".toList = "1234,5678".toList ∧
    Sizes.groupDigits [3, 0] ',' "12345678".toList = "12345,678".toList ∧
    Sizes.IsGrouped [3, 2] ',' "12345678".toList "1,23,45,678".toList :=
  ⟨rfl, rfl, rfl, Sizes.isGrouped_spec [3, 2] ',' "12345678".toList (by decide)⟩

/-- The hypotheses of `C98_groups` and `C98_india`: `1,23,456`. -/
example : AllDig "123456".toList ∧ Sizes.IsGrouped [3, 2] ',' "123456".toList "1,23,456".toList ∧
    (∀ b ∈ [['1'], ['2', '3'], ['4', '5', '6']], AllDig b ∧ 1 ≤ b.length ∧ b.length ≤ 126) ∧
    ∀ k, decToF64 false (digitsVal "123456".toList) 0 ≠ inf k := by
  refine ⟨by unfold AllDig; decide, Sizes.isGrouped_spec [3, 2] ',' "123456".toList (by decide),
    by unfold AllDig; decide, dec_small ?_⟩
  have h : digitsVal "123456".toList = 123456 := by decide
  rw [h]
  calc ((123456 : ℕ) : ℚ) ≤ (2 : ℚ) ^ (17 : ℤ) := by norm_num
    _ ≤ (2 : ℚ) ^ (1000 : ℤ) := zpow_le_zpow_right₀ (by norm_num) (by norm_num)

/-- `1,23,456` is read in India and not elsewhere. -/
example : (Sizes.extractDubG [3, 2] '.' ',' ⟨"1,23,456".toList, false, false⟩ nan).1.fail = false ∧
    (Sizes.extractDubG [3] '.' ',' ⟨"1,23,456".toList, false, false⟩ nan).1.fail = true := by
  have hc : PunctOk ',' := ⟨rfl, rfl, by decide, by decide, by decide, by decide⟩
  have hp : PunctOk '.' := ⟨rfl, rfl, by decide, by decide, by decide, by decide⟩
  have hv : ∀ k, decToF64 false (digitsVal (['1'] ++ [['2', '3'], ['4', '5', '6']].flatten)) 0 ≠ inf k := by
    refine dec_small ?_
    have h : digitsVal (['1'] ++ [['2', '3'], ['4', '5', '6']].flatten) = 123456 := by decide
    rw [h]
    calc ((123456 : ℕ) : ℚ) ≤ (2 : ℚ) ^ (17 : ℤ) := by norm_num
      _ ≤ (2 : ℚ) ^ (1000 : ℤ) := zpow_le_zpow_right₀ (by norm_num) (by norm_num)
  have hd : ∀ b ∈ [['1'], ['2', '3'], ['4', '5', '6']], AllDig b ∧ 1 ≤ b.length ∧ b.length ≤ 126 := by
    unfold AllDig; decide
  obtain ⟨s1, a1, -, a3⟩ := C98_groups [3, 2] '.' ',' hp hc [] _ _ [] allWs_nil ends_nil (by simp) hd hv nan
  obtain ⟨s2, b1, -, b3⟩ := C98_groups [3] '.' ',' hp hc [] _ _ [] allWs_nil ends_nil (by simp) hd hv nan
  have ea : Sizes.extractDubG [3, 2] '.' ',' ⟨"1,23,456".toList, false, false⟩ nan = (s1, _) := a1
  have eb : Sizes.extractDubG [3] '.' ',' ⟨"1,23,456".toList, false, false⟩ nan = (s2, _) := b1
  rw [ea, eb]
  refine ⟨a3.2 ?_, ?_⟩
  · simp [Sizes.Fit, Sizes.Limited, Sizes.sizeAt]
  · rw [← Bool.not_eq_false]
    intro h
    have := b3.1 h
    simp [Sizes.Fit, Sizes.Limited, Sizes.sizeAt] at this

end Engabra
