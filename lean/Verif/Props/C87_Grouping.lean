import Verif.Lemmas.Grouping

/-! # C87 — locales with digit grouping

`Spec`: `IsGrouped s ds txt` — `txt` is the digits `ds` in groups of three from the right,
separated by `s`.  `PunctOk` is that of C83. -/

namespace Engabra

open F64 (nan inf zero fin IsFin rhe)

/-! ## Specification -/

/-- The digits in groups of three from the right; the first group has one to three digits. -/
def IsGrouped (s : Char) (ds txt : List Char) : Prop :=
  ∃ first rest, ds = first ++ rest.flatten ∧ 1 ≤ first.length ∧ first.length ≤ 3 ∧
    (∀ b ∈ rest, b.length = 3) ∧ txt = [s].intercalate (first :: rest)

/-! ## Output -/

/-- Text of a number in fixed notation. -/
def numTextG (p s : Char) (a : Nat) (x : F64) : List Char := signText x ++ bodyTextG p s .fixed a x

theorem putFixedG_spec (p s : Char) (fmt : DoubleFormat) {os : OStream} (h : Plain os) (x : F64) :
    Plain ((fmt.prepareFixed os).putDubG p s x) ∧ ((fmt.prepareFixed os).putDubG p s x).out =
      os.out ++ ' ' :: field fmt.fieldWide (numTextG p s fmt.theNumDigFrac x) := by
  unfold DoubleFormat.prepareFixed
  rw [putStr_zero h.width]
  obtain ⟨h1, h2, h3⟩ := h
  unfold OStream.putDubG OStream.setFixed OStream.setPrec OStream.setW
  dsimp only
  rw [h2, h3]
  exact ⟨⟨rfl, rfl, rfl⟩, by simp [field, blanks, numTextG]⟩

theorem foldl_fixedG (p s : Char) (fmt : DoubleFormat) (xs : List F64) (os : OStream) (h : Plain os) :
    (xs.foldl (fun oss elem => (fmt.prepareFixed oss).putDubG p s elem) os).out = os.out ++
      (xs.map fun x => ' ' :: field fmt.fieldWide (numTextG p s fmt.theNumDigFrac x)).flatten := by
  induction xs generalizing os with
  | nil => simp
  | cons x xs ih =>
    obtain ⟨i1, i2⟩ := putFixedG_spec p s fmt h x
    rw [List.foldl_cons, ih _ i1, i2]; simp

theorem fixedDubG_eq (p s : Char) (x : F64) (b a : Nat) :
    fixedDubG p s x b a = ' ' :: field (1 + b + 1 + a) (numTextG p s a x) := by
  unfold fixedDubG
  dsimp only
  rw [(putFixedG_spec p s ⟨b, a⟩ plain_fresh x).2]
  rfl

/-- Text of the components of a blade with `fixed`. -/
def fixedBladeG (p s : Char) (b a : Nat) (xs : List F64) : List Char :=
  (xs.map (fixedDubG p s · b a)).flatten

theorem fixedArrG_eq (p s : Char) (xs : List F64) (b a : Nat) :
    fixedArrG p s xs b a = fixedBladeG p s b a xs := by
  unfold fixedArrG fixedBladeG
  have := (foldl_putStr (xs.map (fixedDubG p s · b a)) _ plain_fresh).2
  rw [List.foldl_map] at this
  rw [this]; rfl

theorem putArrG_eq (p s : Char) (os : OStream) (xs : List F64) :
    putArrG p s os xs = os.putStr (fixedBladeG p s 3 6 xs) := by
  unfold putArrG
  dsimp only
  rw [foldl_fixedG p s {} xs _ plain_fresh]
  unfold fixedBladeG
  simp only [fixedDubG_eq]
  rfl

theorem fixedBladeG_eq (p s : Char) (b a : Nat) (xs : List F64) : fixedBladeG p s b a xs =
    ([] : List Char).intercalate (xs.map fun x =>
      (' ' :: blanks (1 + b + 1 + a - (numTextG p s a x).length)) ++ numTextG p s a x) := by
  rw [intercalate_nil, fixedBladeG]
  simp only [fixedDubG_eq, field, List.cons_append]

theorem takeWhile_dig {ds r : List Char} (hd : AllDig ds) (hr : ∀ c ∈ r.head?, isDig c = false) :
    (ds ++ r).takeWhile isDig = ds ∧ (ds ++ r).dropWhile isDig = r := by
  have := span_dig hd hr
  rw [List.span_eq_takeWhile_dropWhile] at this
  exact ⟨congrArg Prod.fst this, congrArg Prod.snd this⟩

theorem bodyText_fixed (a : Nat) (x : F64) (hx : x.Finite) :
    bodyText .fixed a x = mantText a (rhe (|x.value| * 10 ^ a)).toNat := by
  cases x with
  | nan => exact absurd hx (by simp [F64.Finite])
  | inf s => exact absurd hx (by simp [F64.Finite])
  | zero s => simp only [bodyText, magText, fixedText, F64.value, mantText, abs_zero]
  | fin v h => rfl

theorem frac_not_dig (a n : Nat) : ∀ c ∈ (fracText a n).head?, isDig c = false := by
  have := fracText_head (p := a) (n := n) (rest := []) (by simp)
  rwa [List.append_nil] at this

theorem bodyTextG_fixed (p s : Char) (a : Nat) (x : F64) (hx : x.Finite) :
    bodyTextG p s .fixed a x =
      groupDigits s (natDigits ((rhe (|x.value| * 10 ^ a)).toNat / 10 ^ a)) ++
        (fracText a ((rhe (|x.value| * 10 ^ a)).toNat % 10 ^ a)).map (point p) := by
  unfold bodyTextG
  dsimp only
  rw [bodyText_fixed a x hx, mantText,
    (takeWhile_dig (natDigits_dig _) (frac_not_dig _ _)).1,
    (takeWhile_dig (natDigits_dig _) (frac_not_dig _ _)).2]

/-- **C87.**  `io::fixed` of a finite number: as in a locale without grouping, with the digits
before the decimal point in groups of three; the field is not made wider for the separators. -/
theorem C87_fixed_number (p s : Char) (x : F64) (hx : x.Finite) (b a : Nat) :
    ∃ ip fr G, numText .fixed a x = signText x ++ (ip ++ fr) ∧ AllDig ip ∧ ip ≠ [] ∧
      (∀ c ∈ fr.head?, c = '.') ∧ IsGrouped s ip G ∧
      fixedDubG p s x b a =
        ' ' :: field (1 + b + 1 + a) (signText x ++ (G ++ fr.map (point p))) := by
  refine ⟨_, fracText a ((rhe (|x.value| * 10 ^ a)).toNat % 10 ^ a), _, ?_, natDigits_dig _,
    natDigits_ne_nil _, ?_,
    group_spec s _ (natDigits_ne_nil ((rhe (|x.value| * 10 ^ a)).toNat / 10 ^ a)), ?_⟩
  · rw [numText, bodyText_fixed a x hx, mantText]
  · intro c hc
    unfold fracText at hc
    split at hc <;> simp at hc
    exact hc.symm
  · rw [fixedDubG_eq, numTextG, bodyTextG_fixed p s a x hx]

/-- **C87.**  `io::fixed` and `operator<<` of an object: the texts of the numbers put together as
in the "C" locale. -/
theorem C87_fixed_object (p s : Char) (t : Ty) (x : t.D F64) (b a : Nat) :
    (fixedTyG p s b a t x = if t = .cplx ∨ t = .dplx then none
      else some ([' ', ' '].intercalate ((blades t x).map fun l =>
        (l.map fun c => fixedDubG p s c b a).flatten))) ∧
    (t ≠ .dub → ∀ os : OStream, os.width = 0 → (insertTyG p s t os x).out = os.out ++
      [' '].intercalate ((blades t x).map fun l => (l.map fun c => fixedDubG p s c 3 6).flatten)) := by
  constructor
  · cases t <;>
      simp [fixedTyG, fixedArrG_eq, catStr_eq, blades, A1.toList, A3.toList, intercalate_cons, fixedBladeG]
  · intro ht os hw
    have hw' : ∀ (o : OStream) (w : List Char), (o.putStr w).width = 0 := fun _ _ => rfl
    have hp : ∀ (o : OStream) (w : List Char), o.width = 0 → (o.putStr w).out = o.out ++ w := by
      intro o w h; rw [putStr_zero h]
    cases t <;> first | exact absurd rfl ht | skip
    all_goals
      simp [insertTyG, putArrG_eq, hp, hw, hw', blades, A1.toList, A3.toList, intercalate_cons, fixedBladeG]

theorem map_point_dig (p : Char) {ds : List Char} (h : AllDig ds) : ds.map (point p) = ds := by
  conv_rhs => rw [← List.map_id ds]
  apply List.map_congr_left
  intro c hc
  obtain ⟨-, -, h3, -⟩ := dig_facts (h c hc)
  exact if_neg h3

/-- At most one digit in front: nothing is grouped. -/
theorem bodyTextG_short (p s : Char) (ff : FloatField) (n : Nat) (x : F64)
    (h : ((bodyText ff n x).takeWhile isDig).length ≤ 1) :
    bodyTextG p s ff n x = (bodyText ff n x).map (point p) := by
  have hd : AllDig ((bodyText ff n x).takeWhile isDig) := 
    List.all_eq_true.1 List.all_takeWhile
  have hg : groupDigits s ((bodyText ff n x).takeWhile isDig) = (bodyText ff n x).takeWhile isDig := by
    generalize (bodyText ff n x).takeWhile isDig = l at h
    rcases l with _ | ⟨c, _ | ⟨d, l⟩⟩
    · rfl
    · simp [groupDigits]
    · simp at h
  unfold bodyTextG
  dsimp only
  rw [hg]
  conv_rhs => rw [← List.takeWhile_append_dropWhile (p := isDig) (l := bodyText ff n x), List.map_append,
    map_point_dig p hd]

theorem sci_one_digit (d : Nat) (x : F64) : ((bodyText .scientific d x).takeWhile isDig).length ≤ 1 := by
  have key : ∀ n < 10 ^ (d + 1), ∀ e : ℤ,
      ((mantText d n ++ 'e' :: expText e).takeWhile isDig).length ≤ 1 := by
    intro n hn e
    have h1 := natDigits_one_digit hn
    rw [mantText, List.append_assoc, (takeWhile_dig (natDigits_dig _) (fracText_head (by
      intro c hc; simp at hc; subst hc; decide))).1, h1]
  cases x with
  | nan => simp [bodyText, isDig]
  | inf s => simp [bodyText, isDig]
  | zero s =>
    rw [bodyText, magText, sciText, if_pos rfl]
    exact key 0 (by positivity) 0
  | fin v h =>
    rw [bodyText, magText, sciText, if_neg (abs_ne_zero.2 h.1)]
    exact key _ (sciParts_spec d (abs_pos.2 h.1)).2.1 _

theorem putDubG_sci (p s : Char) (os : OStream) (x : F64) (h : os.ff = .scientific) :
    os.putDubG p s x = os.putDubL p x := by
  unfold OStream.putDubG OStream.putDubL
  rw [h, bodyTextG_short p s _ _ _ (sci_one_digit _ _)]
  rfl

theorem enoteLoopG_eq (p s : Char) (d : Nat) (xs : List F64) (n : Nat) (os : OStream) :
    enoteLoopG p s d n xs os = enoteLoopL p d n xs os := by
  induction xs generalizing n os with
  | nil => rfl
  | cons x xs ih =>
    rw [enoteLoopG, enoteLoopL, ih, putDubG_sci p s _ x rfl]

/-- **C87.**  `io::enote` writes the same text in a locale with grouping as in one without, for
every type, every object and every number of decimals. -/
theorem C87_enote_text (p s : Char) (d : Nat) (t : Ty) (x : t.D F64) :
    enoteTyG p s d t x = enoteTyL p d t x := by
  have h1 : ∀ y, enoteDubG p s y d = enoteDubL p y d := fun y => by
    unfold enoteDubG enoteDubL
    rw [putDubG_sci p s _ y rfl]
  have h2 : ∀ l, enoteArrG p s l d = enoteArrL p l d := fun l => by
    unfold enoteArrG enoteArrL
    rw [enoteLoopG_eq]
  cases t <;> simp only [enoteTyG, enoteTyL, h1, h2]

/-! ## Input -/

theorem scanGroups_plain {s : Char} (cs : List Char) (h : s ∉ cs) (cur : Nat) :
    scanGroups s cur cs =
      ((cs.span isDig).1, [cur + (cs.span isDig).1.length], false, (cs.span isDig).2) := by
  rw [List.span_eq_takeWhile_dropWhile]
  induction cs generalizing cur with
  | nil => simp [scanGroups]
  | cons c cs ih =>
    have hc : c ≠ s := by rintro rfl; simp at h
    rw [scanGroups, if_neg hc]
    by_cases hd : isDig c = true
    · rw [if_pos hd, ih (fun hm => h (List.mem_cons_of_mem _ hm)) (cur + 1),
        List.takeWhile_cons_of_pos hd, List.dropWhile_cons_of_pos hd]
      simp only [List.length_cons]
      rw [show cur + 1 + (cs.takeWhile isDig).length = cur + ((cs.takeWhile isDig).length + 1) from by omega]
    · rw [if_neg hd, List.takeWhile_cons_of_neg hd, List.dropWhile_cons_of_neg hd]
      simp

theorem scanNumG_plain (p : Char) {s : Char} (cs : List Char) (h : s ∉ cs) :
    scanNumG p s cs = ((scanNumL p cs).1, true, (scanNumL p cs).2) := by
  have h' : s ∉ (scanSign cs).2 := fun hm => h ((scanSign_suffix cs).subset hm)
  unfold scanNumG scanNumL
  dsimp only
  rw [scanGroups_plain _ h']
  rfl

theorem extractDubG_plain (p : Char) {s : Char} (st : IStream) (h : s ∉ st.rest) (old : F64) :
    extractDubG p s st old = extractDubL p st old := by
  have h' : s ∉ st.rest.dropWhile isWs := fun hm => h ((List.dropWhile_suffix isWs).subset hm)
  unfold extractDubG extractDubL
  dsimp only
  rw [scanNumG_plain p _ h']
  simp

/-- Texts without a separator. -/
theorem plain_step {p : Char} (hp : PunctOk p) (s : Char) :
    InStep (fun T T' => T' = T.map (swp p) ∧ s ∉ T) p s := by
  rintro ⟨T, e, f⟩ ⟨T', e', f'⟩ old ⟨⟨h1, h0⟩, h2, h3⟩
  dsimp only at h1 h2 h3 h0
  subst h1; subst h2; subst h3
  rw [extractDubG_plain p ⟨T, e, f⟩ h0, extractDub_swp hp]
  have hsuf := extractDub_suffix ⟨T.map (swp p), e, f⟩ old
  refine ⟨⟨⟨?_, ?_⟩, rfl, rfl⟩, rfl⟩
  · exact (map_swp_swp p _).symm
  · intro hm
    have hm' : s ∈ (extractDub ⟨T.map (swp p), e, f⟩ old).1.rest.map (swp p) := hm
    obtain ⟨c, hc, rfl⟩ := List.mem_map.1 hm'
    have := hsuf.subset hc
    obtain ⟨d, hd, rfl⟩ := List.mem_map.1 this
    rw [swp_swp] at h0
    exact h0 hd

/-- **C87.**  A text in which the separator does not occur is read as in the locale without
grouping. -/
theorem C87_no_separator (p s : Char) (hp : PunctOk p) (t : Ty) (txt : List Char) (hs : s ∉ txt)
    (eof fail : Bool) (old : t.D F64) :
    extractTyG p s t ⟨txt, eof, fail⟩ old = extractTyL p t ⟨txt, eof, fail⟩ old := by
  have h := ty_rel (plain_step hp s) t old ⟨txt, eof, fail⟩ (IStream.swp p ⟨txt, eof, fail⟩)
    ⟨⟨rfl, hs⟩, rfl, rfl⟩
  rw [ty_swp hp]
  rcases hu : extractTyG p s t ⟨txt, eof, fail⟩ old with _ | ⟨a, y⟩ <;>
    rcases hv : extractTy t (IStream.swp p ⟨txt, eof, fail⟩) old with _ | ⟨b, z⟩
  · rfl
  · rw [hu, hv] at h; exact h.elim
  · rw [hu, hv] at h; exact h.elim
  · rw [hu, hv] at h
    obtain ⟨⟨⟨k1, -⟩, k2, k3⟩, k4⟩ := h
    dsimp only at k1 k2 k3 k4
    subst k4
    have : a = b.swp p := by
      rcases a with ⟨a1, a2, a3⟩
      rcases b with ⟨b1, b2, b3⟩
      dsimp only at k1 k2 k3
      subst k1; subst k2; subst k3
      rw [IStream.swp, map_swp_swp]
    subst this
    rfl

/-- **C87.**  Writing with `io::enote` and 16 or more decimals and reading back under the same
decimal point and separator gives the same object. -/
theorem C87_round_trip (p s : Char) (hp : PunctOk p) (hs : PunctOk s) (hne : s ≠ p) (t : Ty)
    (x old : t.D F64) (hx : ∀ c ∈ comps t x, isValidDub c = true) (d : Nat) (hd : 16 ≤ d)
    (txt : List Char) (h : enoteTyG p s d t x = some txt) :
    extractTyG p s t ⟨txt, false, false⟩ old = .ok (⟨[], true, false⟩, x) := by
  rw [C87_enote_text] at h
  rw [C87_no_separator p s hp t txt ?_, C83_round_trip p hp t x old hx d hd txt h]
  rw [(C83_text p p t x d 0 0).1, Option.map_eq_some_iff] at h
  obtain ⟨T, h1, rfl⟩ := h
  have hc := numCh_enote t x (fun c hc => valid_finite (hx c hc)) d T h1
  intro hm
  obtain ⟨c, hcT, hcs⟩ := List.mem_map.1 hm
  unfold point at hcs
  split at hcs
  · exact hne hcs.symm
  · rename_i hdot
    exact (hc c hcT).ne hs hdot hcs

theorem scanFracL_frac {p : Char} {a n : Nat} {r : List Char}
    (hr : ∀ c ∈ r.head?, isDig c = false ∧ c ≠ p) :
    scanFracL p ((fracText a n).map (point p) ++ r) = (fixedDigits a n, r) := by
  unfold fracText
  split
  · rename_i h
    subst h
    rcases r with _ | ⟨c, cs⟩
    · rfl
    · have := (hr c (by simp)).2
      simp [scanFracL, this, fixedDigits]
  · rw [List.map_cons, map_point_dig p (fixedDigits_dig a n), List.cons_append, scanFracL,
      show point p '.' = p from if_pos rfl, if_pos rfl]
    exact span_dig (fixedDigits_dig a n) (fun c hc => (hr c hc).1)

theorem ends_ok {p : Char} (hp : PunctOk p) {r : List Char} (hr : Ends r) :
    ∀ c ∈ r.head?, isDig c = false ∧ c ≠ p := by
  intro c hc
  refine ⟨(ws_facts (hr c hc)).1, ?_⟩
  rintro rfl
  have := hr c hc
  rw [hp.ws] at this; cases this

theorem scanExp_ends (b : Bool) {r : List Char} (hr : Ends r) : scanExp b r = (none, r) := by
  rcases r with _ | ⟨c, cs⟩
  · rfl
  · obtain ⟨-, -, h3, h4, -⟩ := ws_facts (hr c (by simp))
    rw [scanExp, if_neg (by simp [h3, h4])]

theorem numTextG_reads (p s : Char) (hp : PunctOk p) (hs : PunctOk s) (hne : s ≠ p) (x : F64)
    (hx : x.Finite) (a : Nat) (hi : ∀ k, fixedVal a x ≠ inf k) :
    GReadsAs p s (numTextG p s a x) (fixedVal a x) := by
  rw [numTextG, bodyTextG_fixed p s a x hx, signText_eq]
  refine gReadsAs_of p hs.dig x.signbit (natDigits_dig _) (natDigits_ne_nil _) ?_
    (fixedDigits a ((rhe (|x.value| * 10 ^ a)).toNat % 10 ^ a)) none ?_ ?_
  · intro r hr
    by_cases ha : a = 0
    · subst ha
      simp only [fracText, if_true, List.map_nil, List.nil_append]
      exact ends_ok hs hr
    · rw [fracText, if_neg ha, List.map_cons, show point p '.' = p from if_pos rfl]
      intro c hc
      simp at hc
      subst hc
      exact ⟨hp.dig, hne.symm⟩
  · intro r hr
    rw [scanFracL_frac (ends_ok hp hr)]
    exact ⟨rfl, scanExp_ends true hr⟩
  · exact convert_fixed x.signbit a _ _ rfl hi

/-- The texts of the two locales, field by field. -/
theorem frel_fixed (p s : Char) (hp : PunctOk p) (hs : PunctOk s) (hne : s ≠ p) (g : List Char)
    (hg : AllWs g) (t : Ty) (x : t.D F64) (hx : ∀ c ∈ comps t x, c.Finite) (b a : Nat) (ha : a ≤ 306) :
    FRel p s (g.intercalate ((blades t x).map (fixedBladeG p s b a)))
      (g.intercalate ((blades t x).map (fixedBlade b a))) := by
  simp only [show fixedBlade b a = _ from funext (fixedBlade_eq b a),
    show fixedBladeG p s b a = _ from funext (fixedBladeG_eq p s b a)]
  refine frel_object g [] t x hg allWs_nil (fun _ => allWs_cons_blanks _) (fun _ => allWs_cons_blanks _)
    (fun _ => by simp) (fun _ => by simp) (fun _ => by simp) (fun _ => by simp) fun c hc => ?_
  obtain ⟨h1, h2, _⟩ := fixedVal_spec c (hx c hc) a ha
  have hi : ∀ k, fixedVal a c ≠ inf k := by rintro k hk; rw [hk] at h1; simp [F64.Finite] at h1
  refine ⟨?_, num_ne_nil _ (by decide) _ _, fixedVal a c, numTextG_reads p s hp hs hne c (hx c hc) a hi,
    fixed_reads c (hx c hc) a hi⟩
  rw [numTextG, bodyTextG_fixed p s a c (hx c hc)]
  have := natDigits_ne_nil ((rhe (|c.value| * 10 ^ a)).toNat / 10 ^ a)
  generalize natDigits ((rhe (|c.value| * 10 ^ a)).toNat / 10 ^ a) = l at this
  rcases l with _ | ⟨u, l⟩
  · exact absurd rfl this
  · obtain ⟨tl, e⟩ := groupDigits_cons s u l
    rw [e]; simp

theorem frel_finish {p s : Char} {T T' : List Char} (h : FRel p s T T') {t : Ty} {old y : t.D F64}
    (hy : extractTy t ⟨T', false, false⟩ old = .ok (⟨[], true, false⟩, y)) :
    extractTyG p s t ⟨T, false, false⟩ old = .ok (⟨[], true, false⟩, y) := by
  have h := ty_rel (frel_step p s) t old ⟨T, false, false⟩ ⟨T', false, false⟩ ⟨h, rfl, rfl⟩
  rw [hy] at h
  rcases hu : extractTyG p s t ⟨T, false, false⟩ old with _ | ⟨⟨u1, u2, u3⟩, z⟩
  · rw [hu] at h; exact h.elim
  · rw [hu] at h
    obtain ⟨⟨k1, k2, k3⟩, k4⟩ := h
    dsimp only at k1 k2 k3 k4
    have := k1.empty
    rw [List.isEmpty_nil, List.isEmpty_iff] at this
    subst this; subst k2; subst k3; subst k4
    rfl

theorem fixed_readback_G (p s : Char) (hp : PunctOk p) (hs : PunctOk s) (hne : s ≠ p) (g : List Char)
    (hg : AllWs g) (t : Ty) (ht : t ≠ .dub) (x old : t.D F64) (hx : ∀ c ∈ comps t x, c.Finite)
    (b a : Nat) (ha : a ≤ 306) :
    ∃ y, extractTyG p s t ⟨g.intercalate ((blades t x).map (fixedBladeG p s b a)), false, false⟩ old =
        .ok (⟨[], true, false⟩, y) ∧
      List.Forall₂ (fun c c' => isValidDub c' = true ∧ |c'.value - c.value| ≤ 1 / 10 ^ a)
        (comps t x) (comps t y) := by
  obtain ⟨y, h1, h2⟩ := fixed_readback g hg t ht x old hx b a ha
  refine ⟨y, ?_, h2⟩
  exact frel_finish (frel_fixed p s hp hs hne g hg t x hx b a ha) h1

/-- **C87.**  What `operator<<` writes reads back under the same decimal point and separator to
within `10^-6`, however many separators the text has. -/
theorem C87_insert (p s : Char) (hp : PunctOk p) (hs : PunctOk s) (hne : s ≠ p) (t : Ty) (ht : t ≠ .dub)
    (x old : t.D F64) (hx : ∀ c ∈ comps t x, c.Finite) :
    ∃ y, extractTyG p s t ⟨(insertTyG p s t OStream.fresh x).out, false, false⟩ old =
        .ok (⟨[], true, false⟩, y) ∧
      List.Forall₂ (fun c c' => isValidDub c' = true ∧ |c'.value - c.value| ≤ 1 / 10 ^ 6)
        (comps t x) (comps t y) := by
  rw [(C87_fixed_object p s t x 3 6).2 ht OStream.fresh rfl]
  exact fixed_readback_G p s hp hs hne [' '] (allWs_blanks 1) t ht x old hx 3 6 (by norm_num)

/-- **C87.**  The same for `io::fixed` with `a` decimals. -/
theorem C87_fixed (p s : Char) (hp : PunctOk p) (hs : PunctOk s) (hne : s ≠ p) (t : Ty) (ht : t ≠ .dub)
    (x old : t.D F64) (hx : ∀ c ∈ comps t x, c.Finite) (b a : Nat) (ha : a ≤ 306) (txt : List Char)
    (h : fixedTyG p s b a t x = some txt) :
    ∃ y, extractTyG p s t ⟨txt, false, false⟩ old = .ok (⟨[], true, false⟩, y) ∧
      List.Forall₂ (fun c c' => isValidDub c' = true ∧ |c'.value - c.value| ≤ 1 / 10 ^ a)
        (comps t x) (comps t y) := by
  rw [(C87_fixed_object p s t x b a).1] at h
  split at h
  · cases h
  · injection h with h
    subst h
    exact fixed_readback_G p s hp hs hne [' ', ' '] (allWs_blanks 2) t ht x old hx b a ha

theorem scanFracL_ends {p : Char} (hp : PunctOk p) {r : List Char} (hr : Ends r) :
    scanFracL p r = ([], r) := by
  rcases r with _ | ⟨c, cs⟩
  · rfl
  · rw [scanFracL, if_neg (ends_ok hp hr c (by simp)).2]

/-- **C87.**  Which groups are accepted: a whole number of digits in two or more groups is stored
whatever the sizes, but the stream stays good exactly if all groups but the first have three digits
and the first at most three, as far as a `char` can tell. -/
theorem C87_groups (p s : Char) (hp : PunctOk p) (hs : PunctOk s) (ws first : List Char)
    (rest : List (List Char)) (r : List Char) (hw : AllWs ws) (hr : Ends r) (hf : AllDig first)
    (h1 : 1 ≤ first.length) (hne : rest ≠ []) (hd : ∀ b ∈ rest, AllDig b ∧ 1 ≤ b.length)
    (hv : ∀ k, decToF64 false (digitsVal (first ++ rest.flatten)) 0 ≠ inf k) (old : F64) :
    ∃ st, extractDubG p s ⟨ws ++ ([s].intercalate (first :: rest) ++ r), false, false⟩ old =
        (st, decToF64 false (digitsVal (first ++ rest.flatten)) 0) ∧ st.rest = r ∧
      (st.fail = false ↔ asChar first.length ≤ 3 ∧ ∀ b ∈ rest, asChar b.length = 3) := by
  obtain ⟨c, cs, rfl⟩ : ∃ c cs, first = c :: cs := by
    rcases first with _ | ⟨c, cs⟩
    · simp at h1
    · exact ⟨c, cs, rfl⟩
  have hg := scanGroups_blocks (s := s) hs.dig (ends_ok hs hr) rest (c :: cs) hf h1 hd
  have hc : isDig c = true := hf c (by simp)
  obtain ⟨d1, d2, -, -, -, d6⟩ := dig_facts hc
  have e0 : ∃ tl, [s].intercalate ((c :: cs) :: rest) ++ r = c :: tl := by
    rw [intercalate_cons]; exact ⟨_, rfl⟩
  obtain ⟨tl, e0⟩ := e0
  have hsg : scanSign ([s].intercalate ((c :: cs) :: rest) ++ r) =
      (false, [s].intercalate ((c :: cs) :: rest) ++ r) := by
    rw [e0, scanSign, if_neg d1, if_neg d2]
  have hdrop : (ws ++ ([s].intercalate ((c :: cs) :: rest) ++ r)).dropWhile isWs =
      [s].intercalate ((c :: cs) :: rest) ++ r := by
    rw [e0, dropWhile_ws hw d6]
  have hsn : scanNumG p s ([s].intercalate ((c :: cs) :: rest) ++ r) =
      (⟨false, (c :: cs) ++ rest.flatten, [], none⟩,
        groupsOk ((c :: cs).length :: rest.map List.length), r) := by
    unfold scanNumG
    rw [hsg]
    dsimp only
    rw [hg]
    dsimp only
    rw [if_neg (by decide), scanFracL_ends hp hr]
    dsimp only
    rw [scanExp_ends _ hr]
  have hconv : NumTok.convert ⟨false, (c :: cs) ++ rest.flatten, [], none⟩ =
      (decToF64 false (digitsVal ((c :: cs) ++ rest.flatten)) 0, false) := by
    unfold NumTok.convert
    rw [if_neg (by simp)]
    dsimp only
    rw [List.append_nil, List.length_nil, Nat.cast_zero, sub_zero]
    rcases hx : decToF64 false (digitsVal ((c :: cs) ++ rest.flatten)) 0 with _ | k | k | ⟨v, hv'⟩
    · rfl
    · exact absurd hx (hv k)
    · rfl
    · rfl
  refine ⟨⟨r, r.isEmpty, !groupsOk ((c :: cs).length :: rest.map List.length)⟩, ?_, rfl, ?_⟩
  · unfold extractDubG
    dsimp only
    rw [if_neg (by simp), hdrop, if_neg (by rw [e0]; simp), hsn]
    dsimp only
    rw [hconv, Bool.false_or]
  · rcases rest with _ | ⟨b, bs⟩
    · exact absurd rfl hne
    · dsimp only
      rw [List.map_cons, Bool.not_eq_false', groupsOk_two, ← List.map_cons]
      simp only [List.forall_mem_map]

/-- **C87.**  For groups of at most 127 digits: exactly if all groups but the first have three digits and the
first at most three. -/
theorem C87_groups_short (p s : Char) (hp : PunctOk p) (hs : PunctOk s) (ws first : List Char)
    (rest : List (List Char)) (r : List Char) (hw : AllWs ws) (hr : Ends r) (hf : AllDig first)
    (h1 : 1 ≤ first.length) (hne : rest ≠ []) (hd : ∀ b ∈ rest, AllDig b ∧ 1 ≤ b.length)
    (hv : ∀ k, decToF64 false (digitsVal (first ++ rest.flatten)) 0 ≠ inf k) (old : F64)
    (h127 : ∀ b ∈ first :: rest, b.length ≤ 127) :
    ∃ st, extractDubG p s ⟨ws ++ ([s].intercalate (first :: rest) ++ r), false, false⟩ old =
        (st, decToF64 false (digitsVal (first ++ rest.flatten)) 0) ∧ st.rest = r ∧
      (st.fail = false ↔ first.length ≤ 3 ∧ ∀ b ∈ rest, b.length = 3) := by
  obtain ⟨st, e1, e2, e3⟩ := C87_groups p s hp hs ws first rest r hw hr hf h1 hne hd hv old
  refine ⟨st, e1, e2, e3.trans ?_⟩
  rw [asChar_short (h127 _ List.mem_cons_self)]
  refine and_congr (by omega) (forall₂_congr fun b hb => ?_)
  rw [asChar_short (h127 _ (List.mem_cons_of_mem _ hb))]
  omega

theorem dec_small {n : Nat} (h : (n : ℚ) ≤ (2 : ℚ) ^ (1000 : ℤ)) (k : Bool) : decToF64 false n 0 ≠ inf k := by
  have hfin : (decToF64 false n 0).Finite := by
    unfold decToF64
    by_cases h0 : n = 0
    · rw [if_pos h0]; trivial
    · rw [if_neg h0, if_neg (by decide), zpow_zero, mul_one]
      have h1 : F64.rnVal (n : ℚ) ≤ (2 : ℚ) ^ (1000 : ℤ) :=
        F64.rnVal_le_rep (F64.rep_pow 1000 (by norm_num)) (by exact_mod_cast h)
      have h2 : 0 ≤ F64.rnVal (n : ℚ) := F64.rep_le_rnVal F64.rep_zero (by simp)
      refine (F64.roundTo_value ?_).1
      rw [abs_of_nonneg h2]
      refine lt_of_le_of_lt h1 ?_
      rw [← zpow_natCast]
      exact zpow_lt_zpow_right₀ (by norm_num) (by norm_num)
  intro e
  rw [e] at hfin
  exact hfin

/-- **C87.**  A group of 259 digits passes for one of three. -/
theorem C87_long_group (p s : Char) (hp : PunctOk p) (hs : PunctOk s) (c : Char) (ds : List Char)
    (hc : isDig c = true) (hd : AllDig ds) (hl : ds.length = 259) (old : F64) :
    ∃ st, extractDubG p s ⟨c :: s :: ds, false, false⟩ old = (st, decToF64 false (digitsVal (c :: ds)) 0) ∧
      st.fail = false := by
  have hcd : AllDig (c :: ds) := List.forall_mem_cons.2 ⟨hc, hd⟩
  have ef : [c] ++ [ds].flatten = c :: ds := by rw [List.flatten_singleton]; rfl
  have hv : ∀ k, decToF64 false (digitsVal ([c] ++ [ds].flatten)) 0 ≠ inf k := by
    rw [ef]
    refine dec_small ?_
    have h1 := digitsVal_lt hcd
    rw [List.length_cons, hl] at h1
    have h2 : (digitsVal (c :: ds) : ℚ) < (10 : ℚ) ^ 260 := by exact_mod_cast h1
    have h3 : (10 : ℚ) ^ 260 ≤ (2 : ℚ) ^ (1000 : ℤ) := by
      have : (10 : ℚ) ^ 260 = (10 ^ 13) ^ 20 := by rw [← pow_mul]
      rw [this, show (1000 : ℤ) = ((50 * 20 : ℕ) : ℤ) by norm_num, zpow_natCast, pow_mul]
      exact pow_le_pow_left₀ (by norm_num) (by norm_num) 20
    exact h2.le.trans h3
  obtain ⟨st, e1, -, e3⟩ := C87_groups p s hp hs [] [c] [ds] [] allWs_nil ends_nil
    (fun d h => by rw [List.mem_singleton] at h; rw [h]; exact hc) (by simp) (by simp)
    (fun b hb => by rw [List.mem_singleton] at hb; rw [hb]; exact ⟨hd, by omega⟩) hv old
  rw [ef] at e1
  refine ⟨st, ?_, e3.2 ⟨by rw [asChar_short (by simp)]; simp, fun b hb => ?_⟩⟩
  · rw [← e1, intercalate_cons]
    rw [List.map_singleton, List.flatten_singleton, List.nil_append, List.append_nil]; rfl
  · rw [List.mem_singleton] at hb
    rw [hb, hl]; unfold asChar; rw [Int.bmod_def]; norm_num

/-- **C87.**  A separator with no digit in front of it is not skipped: nothing is read. -/
theorem C87_stray (p s : Char) (hs : PunctOk s) (ws tl : List Char) (hw : AllWs ws) (old : F64) :
    extractDubG p s ⟨ws ++ s :: tl, false, false⟩ old = (⟨s :: tl, false, true⟩, zero false) := by
  have hsn : scanNumG p s (s :: tl) = (⟨false, [], [], none⟩, false, s :: tl) := by
    unfold scanNumG
    rw [scanSign, if_neg hs.minus, if_neg hs.plus]
    dsimp only
    rw [scanGroups, if_pos rfl, if_pos rfl]
    rfl
  unfold extractDubG
  dsimp only
  rw [if_neg (by simp), dropWhile_ws hw hs.ws, if_neg (by simp), hsn]
  rfl

/-! ## Text of another locale -/

/-- The number of scientific notation, digit by digit. -/
theorem enote_form (x : F64) (hx : x.Finite) (d : Nat) (hd : 1 ≤ d) :
    ∃ n < 10 ^ (d + 1), ∃ e : ℤ, numText .scientific d x = sgn x.signbit ++
        digitChar (n / 10 ^ d) :: '.' :: (fixedDigits d (n % 10 ^ d) ++ 'e' :: expText e) ∧
      (x.value = 0 → n = 0) ∧ (x.value ≠ 0 → sciParts d |x.value| = (n, e)) := by
  have key : ∀ n < 10 ^ (d + 1), ∀ e : ℤ, mantText d n ++ 'e' :: expText e =
      digitChar (n / 10 ^ d) :: '.' :: (fixedDigits d (n % 10 ^ d) ++ 'e' :: expText e) := by
    intro n hn e
    have hk : n / 10 ^ d < 10 := by
      rw [Nat.div_lt_iff_lt_mul (by positivity)]
      rw [pow_succ] at hn; linarith
    unfold mantText fracText
    rw [natDigits_small hk, if_neg (by omega)]
    rfl
  cases x with
  | nan => exact absurd hx (by simp [F64.Finite])
  | inf s => exact absurd hx (by simp [F64.Finite])
  | zero s =>
    refine ⟨0, by positivity, 0, ?_, fun _ => rfl, fun h => absurd rfl h⟩
    rw [← key 0 (by positivity) 0, numText, signText_eq, bodyText, magText, sciText, if_pos rfl]
  | fin v h =>
    have hv : |v| ≠ 0 := abs_ne_zero.2 h.1
    obtain ⟨a1, a2, -⟩ := sciParts_spec d (abs_pos.2 h.1)
    refine ⟨_, a2, (sciParts d |v|).2, ?_, fun h0 => absurd h0 h.1, fun _ => rfl⟩
    rw [← key _ a2 _, numText, signText_eq, bodyText, magText, sciText, if_neg hv]

theorem map_point_exp (w : Char) (e : ℤ) : (expText e).map (point w) = expText e := by
  rw [expText_eq, List.map_cons, map_point_dig w (expDigits_dig e)]
  congr 1
  split <;> rfl

theorem enote_form_point (w : Char) (x : F64) (hx : x.Finite) (d : Nat) (hd : 1 ≤ d) :
    ∃ n < 10 ^ (d + 1), ∃ e : ℤ, (numText .scientific d x).map (point w) = sgn x.signbit ++
        ([w].intercalate [[digitChar (n / 10 ^ d)], fixedDigits d (n % 10 ^ d)] ++ 'e' :: expText e) ∧
      (x.value = 0 → n = 0) ∧ (x.value ≠ 0 → sciParts d |x.value| = (n, e)) := by
  obtain ⟨n, hn, e, h1, h2, h3⟩ := enote_form x hx d hd
  refine ⟨n, hn, e, ?_, h2, h3⟩
  have hk : n / 10 ^ d < 10 := by
    rw [Nat.div_lt_iff_lt_mul (by positivity)]
    rw [pow_succ] at hn; linarith
  have hdot : digitChar (n / 10 ^ d) ≠ '.' := by
    intro hcon
    have := (digit_facts _ hk).2.1
    rw [hcon] at this; cases this
  rw [h1, intercalate_cons]
  simp only [List.map_append, List.map_cons, map_point_exp, map_point_dig w (fixedDigits_dig _ _)]
  rw [show (sgn x.signbit).map (point w) = sgn x.signbit from point_sign w x,
    show point w '.' = w from if_pos rfl, show point w 'e' = 'e' from rfl,
    show point w (digitChar (n / 10 ^ d)) = digitChar (n / 10 ^ d) from if_neg hdot]
  simp

/-- Groups out of order: the extraction fails. -/
theorem extractDubG_bad (r : Char) {w : Char} (hw : PunctOk w) (m : Nat) (neg : Bool) {k : Nat}
    (hk : k < 10) {ds : List Char} (hd : AllDig ds) (h1 : 1 ≤ ds.length) (h3 : ds.length % 256 ≠ 3)
    (tl : List Char) (old : F64) :
    (extractDubG r w ⟨blanks m ++ (sgn neg ++ ([w].intercalate [[digitChar k], ds] ++ 'e' :: tl)),
      false, false⟩ old).1.fail = true := by
  have hdk : AllDig [digitChar k] := allDig_single hk
  have hg := scanGroups_blocks (s := w) hw.dig (r := 'e' :: tl)
    (by intro c hc; simp at hc; subst hc; exact ⟨by decide, hw.e.symm⟩) [ds] [digitChar k] hdk (by simp)
    (by simpa using ⟨hd, h1⟩)
  have e0 : [w].intercalate [[digitChar k], ds] ++ 'e' :: tl =
      [digitChar k] ++ (w :: ds ++ 'e' :: tl) := by rw [intercalate_cons]; simp
  have hsg : scanSign (sgn neg ++ ([w].intercalate [[digitChar k], ds] ++ 'e' :: tl)) =
      (neg, [w].intercalate [[digitChar k], ds] ++ 'e' :: tl) := by
    rw [e0]
    exact scanSign_sgn hdk (by simp)
  have hdrop : (blanks m ++ (sgn neg ++ ([w].intercalate [[digitChar k], ds] ++ 'e' :: tl))).dropWhile isWs =
      sgn neg ++ ([w].intercalate [[digitChar k], ds] ++ 'e' :: tl) := by
    rw [e0]
    cases neg
    · exact dropWhile_ws (allWs_blanks m) (isDig_ws (hdk _ (by simp)))
    · exact dropWhile_ws (allWs_blanks m) (by decide)
  have hne : sgn neg ++ ([w].intercalate [[digitChar k], ds] ++ 'e' :: tl) ≠ [] := by
    rw [e0]; simp
  have hok : (scanNumG r w (sgn neg ++ ([w].intercalate [[digitChar k], ds] ++ 'e' :: tl))).2.1 = false := by
    unfold scanNumG
    rw [hsg]
    dsimp only
    rw [hg]
    dsimp only
    rw [if_neg (by decide)]
    have : asChar ds.length ≠ 3 := by
      unfold asChar; rw [Int.bmod_def]; split <;> omega
    refine Bool.eq_false_iff.2 fun hh => ?_
    simp only [List.map_cons, List.map_nil] at hh
    rw [groupsOk_two] at hh
    exact this (hh.2 _ List.mem_cons_self)
  unfold extractDubG
  dsimp only
  rw [if_neg (by simp), hdrop, if_neg hne]
  dsimp only
  rw [hok]
  simp

theorem arrG_bad (p s : Char) (st : IStream) (x : F64) (xs : List F64)
    (h : (extractDubG p s st x).1.fail = true) :
    ∃ st', st'.fail = true ∧
      extractArrG p s st (x :: xs) = .ok (st', List.replicate (xs.length + 1) nan) := by
  have hk : isInputOkay (extractDubG p s st x).1 (extractDubG p s st x).2 = false := by
    unfold isInputOkay; rw [h]; rfl
  refine ⟨(extractDubG p s st x).1, h, ?_⟩
  rw [extractArrG]
  rw [hk]
  have : ∀ st, extractLoopG p s st false xs = (st, false, xs) := by
    intro st
    rcases xs with _ | ⟨y, ys⟩ <;> simp [extractLoopG]
  rw [this]
  rfl

theorem failedG (p s : Char) (st : IStream) (h : st.fail = true) (x : F64) :
    (extractDubG p s st x).1.fail = true := by
  unfold extractDubG
  rw [if_pos (by simp [h])]

theorem a1G_bad (p s : Char) (st : IStream) (a : A1 F64) (h : ∀ x, (extractDubG p s st x).1.fail = true) :
    ∃ st', st'.fail = true ∧ extractA1G p s st a = .ok (st', ⟨nan⟩) := by
  obtain ⟨st', h1, h2⟩ := arrG_bad p s st a.d0 [] (h _)
  exact ⟨st', h1, by rw [extractA1G, A1.toList, h2]; rfl⟩

theorem a3G_bad (p s : Char) (st : IStream) (a : A3 F64) (h : ∀ x, (extractDubG p s st x).1.fail = true) :
    ∃ st', st'.fail = true ∧ extractA3G p s st a = .ok (st', ⟨nan, nan, nan⟩) := by
  obtain ⟨st', h1, h2⟩ := arrG_bad p s st a.d0 [a.d1, a.d2] (h _)
  exact ⟨st', h1, by rw [extractA3G, A3.toList, h2]; rfl⟩

/-- If the first number of an object cannot be read, nothing of it is. -/
theorem tyG_bad (p s : Char) (t : Ty) (st : IStream) (old : t.D F64)
    (h : ∀ x, (extractDubG p s st x).1.fail = true) :
    ∃ st' y, extractTyG p s t st old = .ok (st', y) ∧ st'.fail = true ∧
      (t ≠ .dub → ∀ c ∈ comps t y, c = nan) := by
  have hf := failedG p s
  cases t
  case dub => exact ⟨_, _, rfl, h old, fun h => absurd rfl h⟩
  case sca =>
    obtain ⟨a, a1, a2⟩ := a1G_bad p s st old.theData h
    exact ⟨a, ⟨⟨nan⟩⟩, by rw [extractTyG, a2]; rfl, a1, by simp [comps]⟩
  case vec =>
    obtain ⟨a, a1, a2⟩ := a3G_bad p s st old.theData h
    exact ⟨a, ⟨⟨nan, nan, nan⟩⟩, by rw [extractTyG, a2]; rfl, a1, by simp [comps]⟩
  case biv =>
    obtain ⟨a, a1, a2⟩ := a3G_bad p s st old.theData h
    exact ⟨a, ⟨⟨nan, nan, nan⟩⟩, by rw [extractTyG, a2]; rfl, a1, by simp [comps]⟩
  case tri =>
    obtain ⟨a, a1, a2⟩ := a1G_bad p s st old.theData h
    exact ⟨a, ⟨⟨nan⟩⟩, by rw [extractTyG, a2]; rfl, a1, by simp [comps]⟩
  case spin =>
    obtain ⟨a, a1, a2⟩ := a1G_bad p s st old.theSca.theData h
    obtain ⟨b, b1, b2⟩ := a3G_bad p s a old.theBiv.theData (hf a a1)
    refine ⟨b, ⟨⟨⟨nan⟩⟩, ⟨⟨nan, nan, nan⟩⟩⟩, ?_, b1, by simp [comps]⟩
    rw [extractTyG, a2]; dsimp only [Run.bind]; rw [b2]
  case imsp =>
    obtain ⟨a, a1, a2⟩ := a3G_bad p s st old.theVec.theData h
    obtain ⟨b, b1, b2⟩ := a1G_bad p s a old.theTri.theData (hf a a1)
    refine ⟨b, ⟨⟨⟨nan, nan, nan⟩⟩, ⟨⟨nan⟩⟩⟩, ?_, b1, by simp [comps]⟩
    rw [extractTyG, a2]; dsimp only [Run.bind]; rw [b2]
  case cplx =>
    obtain ⟨a, a1, a2⟩ := a1G_bad p s st old.theSca.theData h
    obtain ⟨b, b1, b2⟩ := a1G_bad p s a old.theTri.theData (hf a a1)
    refine ⟨b, ⟨⟨⟨nan⟩⟩, ⟨⟨nan⟩⟩⟩, ?_, b1, by simp [comps]⟩
    rw [extractTyG, a2]; dsimp only [Run.bind]; rw [b2]
  case dplx =>
    obtain ⟨a, a1, a2⟩ := a3G_bad p s st old.theVec.theData h
    obtain ⟨b, b1, b2⟩ := a3G_bad p s a old.theBiv.theData (hf a a1)
    refine ⟨b, ⟨⟨⟨nan, nan, nan⟩⟩, ⟨⟨nan, nan, nan⟩⟩⟩, ?_, b1, by simp [comps]⟩
    rw [extractTyG, a2]; dsimp only [Run.bind]; rw [b2]
  case mv =>
    obtain ⟨a, a1, a2⟩ := a1G_bad p s st old.theSca.theData h
    obtain ⟨b, b1, b2⟩ := a3G_bad p s a old.theVec.theData (hf a a1)
    obtain ⟨c, c1, c2⟩ := a3G_bad p s b old.theBiv.theData (hf b b1)
    obtain ⟨d, d1, d2⟩ := a1G_bad p s c old.theTri.theData (hf c c1)
    refine ⟨d, ⟨⟨⟨nan⟩⟩, ⟨⟨nan, nan, nan⟩⟩, ⟨⟨nan, nan, nan⟩⟩, ⟨⟨nan⟩⟩⟩, ?_, d1, by simp [comps]⟩
    rw [extractTyG, a2]; dsimp only [Run.bind]; rw [b2]; dsimp only [Run.bind]
    rw [c2]; dsimp only [Run.bind]; rw [d2]

/-- **C87**, text of another locale: written by `io::enote` with the decimal point `w` and read
where `w` is the separator.  Unless there are exactly three decimals (or three more than a multiple of 256), the stream fails and the
object is null, whatever its type. -/
theorem C87_foreign (w r : Char) (hw : PunctOk w) (t : Ty) (x old : t.D F64)
    (hx : ∀ c ∈ comps t x, c.Finite) (d : Nat) (hd : 1 ≤ d) (h3 : d % 256 ≠ 3) (txt : List Char)
    (h : enoteTyL w d t x = some txt) :
    ∃ s' y, extractTyG r w t ⟨txt, false, false⟩ old = .ok (s', y) ∧ s'.fail = true ∧
      (t ≠ .dub → ∀ c ∈ comps t y, c = nan) := by
  rw [(C83_text w w t x d 0 0).1, Option.map_eq_some_iff] at h
  obtain ⟨T, h1, rfl⟩ := h
  obtain ⟨c0, hc0, more, -, hT⟩ := enote_first t x d T h1
  obtain ⟨n, hn, e, k1, -⟩ := enote_form_point w c0 (hx c0 hc0) d hd
  have hk : n / 10 ^ d < 10 := by
    rw [Nat.div_lt_iff_lt_mul (by positivity)]
    rw [pow_succ] at hn; linarith
  refine tyG_bad r w t _ old fun y => ?_
  have := extractDubG_bad r hw (7 + d - (numText .scientific d c0).length) c0.signbit hk
    (fixedDigits_dig d (n % 10 ^ d)) (by rw [fixedDigits_length]; exact hd)
    (by rw [fixedDigits_length]; exact h3) (expText e ++ more.map (point w)) y
  rw [hT, C30_enote_number, field, List.map_append, List.map_append, k1, blanks, point_blank]
  simpa [blanks] using this

/-- The number of the digits of `d`-decimal e-notation without the decimal point. -/
def shiftVal (x : F64) : F64 :=
  if x.value = 0 then zero x.signbit
  else decToF64 x.signbit (sciParts 3 |x.value|).1 (sciParts 3 |x.value|).2

theorem shiftVal_spec (x : F64) (hx : isValidDub x = true) (hb : |x.value| ≤ 2 ^ 1000) :
    (shiftVal x).Finite ∧ isValidDub (shiftVal x) = true ∧ |(shiftVal x).value - 1000 * x.value| ≤ |x.value| := by
  rcases (C11_double x).1 hx with ⟨s, rfl⟩ | ⟨v, h, rfl, hv⟩
  · rw [shiftVal, if_pos (show (zero s).value = 0 from rfl)]
    exact ⟨trivial, (C11_double _).2 (Or.inl ⟨_, rfl⟩), by simp [F64.value]⟩
  have hv0 : v ≠ 0 := h.1
  have hpos : 0 < |v| := abs_pos.2 hv0
  change |v| ≤ 2 ^ 1000 at hb
  obtain ⟨h1, h2⟩ := sciDec_spec 3 hv0
  have hsv : shiftVal (fin v h) = F64.roundTo (1000 * sciDec 3 v) := by
    rw [shiftVal, if_neg (show ¬ (fin v h).value = 0 from hv0), decToF64, if_neg]
    · have : (1000 : ℚ) * (10 : ℚ) ^ ((sciParts 3 |v|).2 - ((3 : ℕ) : ℤ)) = (10 : ℚ) ^ (sciParts 3 |v|).2 := by
        rw [zpow_sub₀ (by norm_num)]
        norm_num
        ring
      show F64.roundTo ((if decide (v < 0) = true then _ else _) * _) = _
      rw [sciDec, mul_left_comm, this]
      rfl
    · have := (sciParts_spec 3 (abs_pos.2 hv0)).1
      show (sciParts 3 |v|).1 ≠ 0
      intro hz
      rw [hz] at this
      norm_num at this
  have hw : |1000 * sciDec 3 v - 1000 * v| ≤ |v| / 2 := by
    rw [← mul_sub, abs_mul, abs_of_pos (show (0 : ℚ) < 1000 by norm_num)]
    have : |v| / 2 = 1000 * (|v| / (2 * 10 ^ 3)) := by ring
    rw [this]
    exact mul_le_mul_of_nonneg_left h1 (by norm_num)
  have hw2 : |1000 * sciDec 3 v| ≤ 1001 * |v| := by
    have := abs_add_le (1000 * sciDec 3 v - 1000 * v) (1000 * v)
    rw [sub_add_cancel, abs_mul 1000 v, abs_of_pos (show (0 : ℚ) < 1000 by norm_num)] at this
    linarith
  have hr : |F64.rnVal (1000 * sciDec 3 v) - 1000 * sciDec 3 v| ≤ |v| / 2 := by
    have := F64.rnVal_err_rel (K := ℚ) (1000 * sciDec 3 v)
    rw [Rat.cast_id] at this
    refine this.trans (max_le ?_ ?_)
    · calc (2 : ℚ) ^ (-53 : ℤ) * |1000 * sciDec 3 v| ≤ (2 : ℚ) ^ (-53 : ℤ) * (1001 * |v|) :=
            mul_le_mul_of_nonneg_left hw2 (by positivity)
        _ ≤ 1 / 2002 * (1001 * |v|) := by
            apply mul_le_mul_of_nonneg_right _ (by positivity)
            norm_num
        _ = |v| / 2 := by ring
    · have h3 := h.ge
      have : (2 : ℚ) ^ (-1074 : ℤ) = 2 * (2 : ℚ) ^ (-1075 : ℤ) := by
        rw [← zpow_one_add₀ (by norm_num)]; congr 1
      rw [this] at h3
      generalize (2 : ℚ) ^ (-1075 : ℤ) = P at h3 ⊢
      linarith
  have hmain : |F64.rnVal (1000 * sciDec 3 v) - 1000 * v| ≤ |v| := by
    have := abs_add_le (F64.rnVal (1000 * sciDec 3 v) - 1000 * sciDec 3 v) (1000 * sciDec 3 v - 1000 * v)
    rw [sub_add_sub_cancel] at this
    linarith
  have hbig : |F64.rnVal (1000 * sciDec 3 v)| ≤ 1001 * |v| := by
    have := abs_add_le (F64.rnVal (1000 * sciDec 3 v) - 1000 * v) (1000 * v)
    rw [sub_add_cancel, abs_mul 1000 v, abs_of_pos (show (0 : ℚ) < 1000 by norm_num)] at this
    linarith
  have hlt : |F64.rnVal (1000 * sciDec 3 v)| < 2 ^ 1024 := by
    have e1 : (2 : ℚ) ^ 1024 = 2 ^ 24 * 2 ^ 1000 := by rw [← pow_add]
    have hp : (0 : ℚ) < 2 ^ 1000 := pow_pos (by norm_num) _
    rw [e1]
    calc |F64.rnVal (1000 * sciDec 3 v)| ≤ 1001 * |v| := hbig
      _ ≤ 1001 * 2 ^ 1000 := mul_le_mul_of_nonneg_left hb (by norm_num)
      _ < 2 ^ 24 * 2 ^ 1000 := mul_lt_mul_of_pos_right (by norm_num) hp
  have hsm : |v| ≤ |F64.rnVal (1000 * sciDec 3 v)| := by
    have := abs_sub_abs_le_abs_sub (1000 * v) (F64.rnVal (1000 * sciDec 3 v))
    rw [abs_sub_comm, abs_mul 1000 v, abs_of_pos (show (0 : ℚ) < 1000 by norm_num)] at this
    linarith
  obtain ⟨f1, f2⟩ := F64.roundTo_value (x := 1000 * sciDec 3 v) hlt
  rw [hsv]
  refine ⟨f1, ?_, by rw [f2]; exact hmain⟩
  have hge : (1 : ℚ) / 2 ^ 1022 ≤ |(F64.roundTo (1000 * sciDec 3 v)).value| := by
    rw [f2]; exact hv.trans hsm
  refine (C11_double _).2 ?_
  rcases hro : F64.roundTo (1000 * sciDec 3 v) with _ | k | k | ⟨u, hu⟩
  · rw [hro] at f1; exact f1.elim
  · rw [hro] at f1; exact f1.elim
  · exact Or.inl ⟨k, rfl⟩
  · rw [hro] at hge
    exact Or.inr ⟨u, hu, rfl, hge⟩

theorem groupDigits_four (w a b c d : Char) : groupDigits w [a, b, c, d] = [w].intercalate [[a], [b, c, d]] := by
  rw [intercalate_cons]
  simp [groupDigits]

theorem convert_exp (neg : Bool) (ip : List Char) (hn : ip ≠ []) (e : ℤ) (x : F64)
    (h : decToF64 neg (digitsVal ip) e = x) (hx : ∀ s, x ≠ .inf s) :
    NumTok.convert ⟨neg, ip, [], some (decide (e < 0), expDigits e)⟩ = (x, false) := by
  unfold NumTok.convert
  rw [if_neg (fun h => hn h.1)]
  have hne := expDigits_ne_nil e
  have hv := digitsVal_expDigits e
  generalize expDigits e = ds at hne hv
  rcases ds with _ | ⟨d, ds⟩
  · exact absurd rfl hne
  dsimp only
  have hexp : (if decide (e < 0) = true then -(digitsVal (d :: ds) : ℤ) else digitsVal (d :: ds)) = e := by
    rw [hv]
    by_cases he : e < 0
    · rw [if_pos (by simpa using he)]; omega
    · rw [if_neg (by simpa using he)]; omega
  rw [List.append_nil, hexp, List.length_nil, Nat.cast_zero, sub_zero, h]
  rcases x with _ | s | s | ⟨v, hv⟩
  · rfl
  · exact absurd rfl (hx s)
  · rfl
  · rfl

/-- Three decimals look like a group. -/
theorem shift_reads (w r : Char) (hw : PunctOk w) (hr : PunctOk r) (x : F64)
    (hx : isValidDub x = true) (hb : |x.value| ≤ 2 ^ 1000) :
    GReadsAs r w ((numText .scientific 3 x).map (point w)) (shiftVal x) := by
  obtain ⟨n, hn, e, k1, k2, k3⟩ := enote_form_point w x (valid_finite hx) 3 (by norm_num)
  have hk : n / 10 ^ 3 < 10 := by
    rw [Nat.div_lt_iff_lt_mul (by positivity)]
    rw [pow_succ] at hn; linarith
  have hfin := (shiftVal_spec x hx hb).1
  have hi : ∀ s, shiftVal x ≠ inf s := by rintro s hs; rw [hs] at hfin; simp [F64.Finite] at hfin
  have hval : decToF64 x.signbit n e = shiftVal x := by
    unfold shiftVal
    by_cases h0 : x.value = 0
    · rw [if_pos h0, k2 h0, decToF64, if_pos rfl]
    · rw [if_neg h0, k3 h0]
  have hdv : digitsVal ([digitChar (n / 10 ^ 3)] ++ fixedDigits 3 (n % 10 ^ 3)) = n := by
    have := mant_val 3 n
    rwa [natDigits_small hk] at this
  have hdig : AllDig ([digitChar (n / 10 ^ 3)] ++ fixedDigits 3 (n % 10 ^ 3)) :=
    (allDig_single hk).append (fixedDigits_dig _ _)
  have hgr : [w].intercalate [[digitChar (n / 10 ^ 3)], fixedDigits 3 (n % 10 ^ 3)] =
      groupDigits w ([digitChar (n / 10 ^ 3)] ++ fixedDigits 3 (n % 10 ^ 3)) := by
    generalize hl : fixedDigits 3 (n % 10 ^ 3) = l
    have hlen : l.length = 3 := by rw [← hl, fixedDigits_length]
    obtain ⟨a, b, c, rfl⟩ := List.length_eq_three.1 hlen
    exact (groupDigits_four w _ a b c).symm
  rw [k1, hgr]
  have hE : ∀ q, scanFracL r (('e' :: expText e) ++ q) = ([], 'e' :: (expText e ++ q)) := by
    intro q
    rw [List.cons_append, scanFracL, if_neg hr.e.symm]
  refine gReadsAs_of r hw.dig x.signbit hdig (by simp) ?_ [] (some (decide (e < 0), expDigits e)) ?_ ?_
  · intro q _ c hc
    simp at hc
    subst hc
    exact ⟨by decide, hw.e.symm⟩
  · intro q hq
    rw [hE]
    exact ⟨rfl, scanExp_expText (ends_not_dig hq)⟩
  · exact convert_exp _ _ (by simp) e _ (by rw [hdv, hval]) hi

/-- A plain text of the same number. -/
def shiftText (x : F64) : List Char :=
  if x.value = 0 then sgn x.signbit ++ mantText 0 0 ++ 'e' :: expText 0
  else sgn x.signbit ++ mantText 0 (sciParts 3 |x.value|).1 ++ 'e' :: expText (sciParts 3 |x.value|).2

theorem shiftText_reads (x : F64) (hx : isValidDub x = true) (hb : |x.value| ≤ 2 ^ 1000) :
    ReadsAs (shiftText x) (shiftVal x) := by
  have hfin := (shiftVal_spec x hx hb).1
  have hi : ∀ s, shiftVal x ≠ inf s := by rintro s hs; rw [hs] at hfin; simp [F64.Finite] at hfin
  intro ws rest old hw hr
  unfold shiftText
  by_cases h0 : x.value = 0
  · rw [if_pos h0]
    refine extract_sci hw hr x.signbit 0 0 0 _ old ?_ hi
    rw [shiftVal, if_pos h0, decToF64, if_pos rfl]
  · rw [if_neg h0]
    refine extract_sci hw hr x.signbit 0 _ _ _ old ?_ hi
    rw [shiftVal, if_neg h0, Nat.cast_zero, sub_zero]

theorem map_intercalate_char (f : Char → Char) (g : List Char) (l : List (List Char)) :
    (g.intercalate l).map f = (g.map f).intercalate (l.map (List.map f)) := by
  rcases l with _ | ⟨a, l⟩
  · simp [List.intercalate]
  · rw [List.map_cons, intercalate_cons, intercalate_cons, List.map_append, List.map_flatten,
      List.map_map, List.map_map]
    congr 2
    apply List.map_congr_left
    intro b _
    simp

/-- **C87**, text of another locale: with exactly three decimals it *is* read, without failure, to
a valid object: every component is a thousand times what was written (to three digits). -/
theorem C87_thousand (w r : Char) (hw : PunctOk w) (hr : PunctOk r) (t : Ty) (x old : t.D F64)
    (hx : ∀ c ∈ comps t x, isValidDub c = true ∧ |c.value| ≤ 2 ^ 1000) (txt : List Char)
    (h : enoteTyL w 3 t x = some txt) :
    ∃ y, extractTyG r w t ⟨txt, false, false⟩ old = .ok (⟨[], true, false⟩, y) ∧
      List.Forall₂ (fun c c' => isValidDub c' = true ∧ |c'.value - 1000 * c.value| ≤ |c.value|)
        (comps t x) (comps t y) := by
  rw [(C83_text w w t x 3 0 0).1, Option.map_eq_some_iff] at h
  obtain ⟨T, h1, rfl⟩ := h
  have hne : ∀ c ∈ comps t x, (numText .scientific 3 c).map (point w) ≠ [] := fun c _ => by
    simp only [ne_eq, List.map_eq_nil_iff]
    exact num_ne_nil _ (by decide) _ _
  by_cases ht : t = .dub
  · subst ht
    have hc : isValidDub x = true ∧ |F64.value x| ≤ 2 ^ 1000 := hx x (by simp [comps])
    obtain ⟨v1, v2, v3⟩ := shiftVal_spec x hc.1 hc.2
    refine ⟨shiftVal x, ?_, List.Forall₂.cons ⟨v2, v3⟩ List.Forall₂.nil⟩
    rw [C30_enote_object, if_neg (by simp)] at h1
    injection h1 with h1
    have h1' : T = enoteDub x 3 := by
      rw [← h1]; simp [blades, enoteBlade, List.intercalate]
    have := shift_reads w r hw hr x hc.1 hc.2 (blanks (7 + 3 - (numText .scientific 3 x).length)) [] old
      (allWs_blanks _) ends_nil
    rw [h1', C30_enote_number, field, List.map_append, blanks, point_blank]
    rw [List.append_nil, blanks] at this
    show Run.ok _ = _
    rw [this]
    rfl
  refine ⟨mapTy shiftVal t x, ?_, ?_⟩
  · rw [C30_enote_object] at h1
    split at h1
    · cases h1
    injection h1 with h1
    have hT : T.map (point w) = [' ', ' '].intercalate ((blades t x).map fun b => [' '].intercalate
        (b.map fun c => blanks (7 + 3 - (numText .scientific 3 c).length) ++
          (numText .scientific 3 c).map (point w))) := by
      rw [← h1, map_intercalate_char, List.map_map]
      congr 1
      apply List.map_congr_left
      intro b _
      rw [Function.comp_apply, enoteBlade_eq, map_intercalate_char, List.map_map]
      congr 1
      apply List.map_congr_left
      intro c _
      rw [Function.comp_apply, List.map_append, blanks, point_blank]
    have hb := readback [' ', ' '] [' '] (fun c => blanks (7 + 3 - (numText .scientific 3 c).length))
      shiftText shiftVal t ht x old (allWs_blanks 2) (allWs_blanks 1) (fun _ => allWs_blanks _)
      (fun _ => by simp) (fun _ => by simp)
      (fun c hc => ⟨shiftText_reads c (hx c hc).1 (hx c hc).2, (shiftVal_spec c (hx c hc).1 (hx c hc).2).2.1⟩)
    have hf := frel_object (p := r) (s := w)
      (pad := fun c => blanks (7 + 3 - (numText .scientific 3 c).length))
      (pad' := fun c => blanks (7 + 3 - (numText .scientific 3 c).length))
      (num := fun c => (numText .scientific 3 c).map (point w)) (num' := shiftText)
      [' ', ' '] [' '] t x (allWs_blanks 2) (allWs_blanks 1) (fun _ => allWs_blanks _)
      (fun _ => allWs_blanks _) (fun _ => by simp) (fun _ => by simp) (fun _ => by simp)
      (fun _ => by simp) (fun c hc => ⟨hne c hc, by unfold shiftText; split <;> simp, shiftVal c,
        shift_reads w r hw hr c (hx c hc).1 (hx c hc).2, shiftText_reads c (hx c hc).1 (hx c hc).2⟩)
    rw [hT]
    exact frel_finish hf hb
  · rw [comps_mapTy, List.forall₂_map_right_iff]
    exact List.forall₂_same.2 fun c hc =>
      ⟨(shiftVal_spec c (hx c hc).1 (hx c hc).2).2.1, (shiftVal_spec c (hx c hc).1 (hx c hc).2).2.2⟩

/-- **C87**: the width `C30_fixed_width` promises for numbers that fit is exceeded: four digits
before the decimal point of a negative number and `digBefore = 4`. -/
theorem C87_fails_width (p s : Char) (x : F64) (hx : x.Finite) (hneg : x.signbit = true) (a : Nat)
    (ha : 1 ≤ a) (h1 : 10 ^ (3 + a) ≤ rhe (|x.value| * 10 ^ a))
    (h2 : rhe (|x.value| * 10 ^ a) < 10 ^ (4 + a)) :
    (fixedDub x 4 a).length = 2 + 4 + 1 + a ∧ (fixedDubG p s x 4 a).length = 2 + 4 + 1 + a + 1 := by
  refine ⟨C30_fixed_width x hx 4 a (by norm_num) h2, ?_⟩
  rw [fixedDubG_eq, List.length_cons, field_length, numTextG, bodyTextG_fixed p s a x hx]
  have hs : (signText x).length = 1 := by simp [signText, hneg]
  set N := (rhe (|x.value| * 10 ^ a)).toNat with hN
  have hN1 : 10 ^ (3 + a) ≤ N := by
    rw [hN]; zify; rw [Int.toNat_of_nonneg (le_trans (by positivity) h1)]; exact h1
  have hN2 : N < 10 ^ (4 + a) := by
    rw [hN]; zify; rw [Int.toNat_of_nonneg (le_trans (by positivity) h1)]; exact h2
  have hq1 : 10 ^ 3 ≤ N / 10 ^ a := by
    rw [Nat.le_div_iff_mul_le (by positivity), ← pow_add]; exact hN1
  have hq2 : N / 10 ^ a < 10 ^ 4 := by
    rw [Nat.div_lt_iff_lt_mul (by positivity), ← pow_add]; exact hN2
  have hl : (natDigits (N / 10 ^ a)).length = 4 :=
    le_antisymm (natDigits_length_le _ 4 (by norm_num) hq2) (natDigits_length_ge _ 3 hq1)
  have hg : (groupDigits s (natDigits (N / 10 ^ a))).length = 5 := by
    generalize natDigits (N / 10 ^ a) = l at hl
    rcases l with _ | ⟨c0, _ | ⟨c1, _ | ⟨c2, _ | ⟨c3, _ | ⟨c4, l⟩⟩⟩⟩⟩ <;> simp at hl
    simp [groupDigits]
  rw [List.length_append, List.length_append, List.length_map, hs, hg, fracText_length, if_neg (by omega)]
  omega

/-- German text: point `,` and separator `.`; American text: point `.` and separator `,`. -/
example : PunctOk ',' ∧ PunctOk '.' ∧ PunctOk '\'' ∧ ',' ≠ '.' ∧ '\'' ≠ '.' :=
  ⟨⟨rfl, rfl, by decide, by decide, by decide, by decide⟩,
    ⟨rfl, rfl, by decide, by decide, by decide, by decide⟩,
    ⟨rfl, rfl, by decide, by decide, by decide, by decide⟩, by decide, by decide⟩

/-- Seven digits. -/
example : groupDigits ',' "1234567".toList = "1,234,567".toList ∧
    IsGrouped ',' "1234567".toList "1,234,567".toList := by
  refine ⟨rfl, ['1'], [['2', '3', '4'], ['5', '6', '7']], rfl, by simp, by simp, by simp, rfl⟩

/-- Groups of one and three digits meet the hypotheses of `C87_groups` and `C87_groups_short`. -/
example : AllDig ['1'] ∧ AllDig ['2', '3', '4'] ∧
    ∀ k, decToF64 false (digitsVal (['1'] ++ [['2', '3', '4']].flatten)) 0 ≠ inf k := by
  refine ⟨by unfold AllDig; decide, by unfold AllDig; decide, dec_small ?_⟩
  have h : digitsVal (['1'] ++ [['2', '3', '4']].flatten) = 1234 := by decide
  rw [h]
  calc ((1234 : ℕ) : ℚ) ≤ (2 : ℚ) ^ (11 : ℤ) := by norm_num
    _ ≤ (2 : ℚ) ^ (1000 : ℤ) := zpow_le_zpow_right₀ (by norm_num) (by norm_num)

/-- `1.` and 259 zeros in a locale whose separator is a point. -/
example (old : F64) : ∃ st v, extractDubG ',' '.' ⟨'1' :: '.' :: List.replicate 259 '0', false, false⟩ old = (st, v) ∧
    st.fail = false := by
  obtain ⟨st, h1, h2⟩ := C87_long_group ',' '.' ⟨rfl, rfl, by decide, by decide, by decide, by decide⟩
    ⟨rfl, rfl, by decide, by decide, by decide, by decide⟩ '1' (List.replicate 259 '0') rfl
    (fun c hc => by rw [List.eq_of_mem_replicate hc]; rfl) List.length_replicate old
  exact ⟨st, _, h1, h2⟩

/-- A null object of any type that has text meets the hypotheses. -/
example (t : Ty) (ht : t ≠ .cplx) (ht' : t ≠ .dplx) :
    (∀ c ∈ comps t (gzeroTy (α := F64) t), isValidDub c = true ∧ |c.value| ≤ 2 ^ 1000) ∧
      ∃ txt, enoteTyL '.' 3 t (gzeroTy (α := F64) t) = some txt := by
  constructor
  · have h0 : |F64.value (zero false)| ≤ 2 ^ 1000 := by
      show |(0 : ℚ)| ≤ _
      rw [abs_zero]; positivity
    cases t <;> simp [comps, gzeroTy, gzero, F64.zero_def, isValidDub_zero, h0]
  · rw [(C83_text '.' '.' t _ 3 0 0).1, C30_enote_object, if_neg (by simp [ht, ht'])]
    exact ⟨_, rfl⟩

/-- One and a half, written in the "C" locale and read in a German one, is about fifteen
hundred. -/
example : ∃ h : IsFin (3 / 2 : ℚ), ∃ txt, ∃ y : Scalar F64,
    enoteTyL '.' 3 .sca ⟨⟨fin (3 / 2) h⟩⟩ = some txt ∧
    extractTyG ',' '.' .sca ⟨txt, false, false⟩ ⟨⟨nan⟩⟩ = .ok (⟨[], true, false⟩, y) ∧
    isValidDub y.theData.d0 = true ∧ 1498 ≤ y.theData.d0.value := by
  have h : IsFin (3 / 2 : ℚ) := ⟨by norm_num, 3, -1, by norm_num, by norm_num, by norm_num, by norm_num⟩
  have hv : isValidDub (fin (3 / 2) h) = true := by
    refine (C11_double _).2 (Or.inr ⟨3 / 2, h, rfl, ?_⟩)
    have h1 : (1 : ℚ) ≤ |3 / 2| := by rw [abs_of_nonneg] <;> norm_num
    refine le_trans ?_ h1
    rw [div_le_one (by positivity)]
    exact one_le_pow₀ (by norm_num)
  have hb : |F64.value (fin (3 / 2) h)| ≤ 2 ^ 1000 := by
    show |(3 / 2 : ℚ)| ≤ _
    rw [abs_of_nonneg (by norm_num)]
    calc (3 / 2 : ℚ) ≤ 2 ^ 1 := by norm_num
      _ ≤ 2 ^ 1000 := pow_le_pow_right₀ (by norm_num) (by norm_num)
  obtain ⟨y, h1, h2⟩ := C87_thousand '.' ',' ⟨rfl, rfl, by decide, by decide, by decide, by decide⟩
    ⟨rfl, rfl, by decide, by decide, by decide, by decide⟩ .sca ⟨⟨fin (3 / 2) h⟩⟩ ⟨⟨nan⟩⟩
    (by simpa [comps] using ⟨hv, hb⟩) _ rfl
  refine ⟨h, _, y, rfl, h1, ?_⟩
  simp only [comps, List.forall₂_cons, List.Forall₂.nil, and_true] at h2
  refine ⟨h2.1, ?_⟩
  have h3 := h2.2
  have e : F64.value (fin (3 / 2) h) = 3 / 2 := rfl
  rw [e, abs_of_nonneg (show (0 : ℚ) ≤ 3 / 2 by norm_num)] at h3
  have := (abs_le.1 h3).1
  linarith

end Engabra
