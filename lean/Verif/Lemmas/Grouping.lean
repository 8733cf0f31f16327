import Verif.Model.Grouping
import Verif.Props.C83_Locale

/-! # Digit grouping: lemmas -/

namespace Engabra

open F64 (nan inf zero fin IsFin)

/-! ## Two readers in step -/

/-- Streams with the same flags and related texts. -/
def SRel (R : List Char → List Char → Prop) (a b : IStream) : Prop :=
  R a.rest b.rest ∧ a.eof = b.eof ∧ a.fail = b.fail

/-- One extraction keeps the relation and gives the same number. -/
def InStep (R : List Char → List Char → Prop) (p s : Char) : Prop :=
  ∀ a b old, SRel R a b →
    SRel R (extractDubG p s a old).1 (extractDub b old).1 ∧
      (extractDubG p s a old).2 = (extractDub b old).2

/-- Results of two readers in step. -/
def RRel {β : Type} (R : List Char → List Char → Prop) : Run (IStream × β) → Run (IStream × β) → Prop
  | .ub, .ub => True
  | .ok a, .ok b => SRel R a.1 b.1 ∧ a.2 = b.2
  | _, _ => False

theorem okay_rel {R : List Char → List Char → Prop} {a b : IStream} (h : SRel R a b) (x : F64) :
    isInputOkay a x = isInputOkay b x := by
  unfold isInputOkay
  rw [h.2.2]

theorem loop_rel {R : List Char → List Char → Prop} {p s : Char} (hs : InStep R p s)
    (xs : List F64) (ok : Bool) (a b : IStream) (h : SRel R a b) :
    SRel R (extractLoopG p s a ok xs).1 (extractLoop b ok xs).1 ∧
      (extractLoopG p s a ok xs).2 = (extractLoop b ok xs).2 := by
  induction xs generalizing ok a b with
  | nil => exact ⟨h, rfl⟩
  | cons x xs ih =>
    rw [extractLoopG, extractLoop]
    split
    · obtain ⟨h1, h2⟩ := hs a b x h
      dsimp only
      rw [h2, okay_rel h1]
      obtain ⟨i1, i2⟩ := ih (isInputOkay (extractDub b x).1 (extractDub b x).2) _ _ h1
      exact ⟨i1, by rw [i2]⟩
    · exact ⟨h, rfl⟩

theorem arr_rel {R : List Char → List Char → Prop} {p s : Char} (hs : InStep R p s)
    (xs : List F64) (a b : IStream) (h : SRel R a b) :
    RRel R (extractArrG p s a xs) (extractArr b xs) := by
  rcases xs with _ | ⟨x, xs⟩
  · trivial
  · obtain ⟨h1, h2⟩ := hs a b x h
    rw [extractArrG, extractArr]
    rw [h2, okay_rel h1]
    obtain ⟨i1, i2⟩ := loop_rel hs xs (isInputOkay (extractDub b x).1 (extractDub b x).2) _ _ h1
    rw [i2]
    split
    · exact ⟨i1, rfl⟩
    · exact ⟨i1, rfl⟩

theorem bind_rel {β γ : Type} {R : List Char → List Char → Prop} {u v : Run (IStream × β)}
    {f g : IStream × β → Run (IStream × γ)} (h : RRel R u v)
    (hf : ∀ a b y, SRel R a b → RRel R (f (a, y)) (g (b, y))) :
    RRel R (u.bind f) (v.bind g) := by
  rcases u with _ | ⟨a, y⟩ <;> rcases v with _ | ⟨b, z⟩
  · trivial
  · exact h.elim
  · exact h.elim
  · obtain ⟨h1, h2⟩ := h
    dsimp only at h1 h2
    subst h2
    exact hf a b y h1

theorem a1_rel {R : List Char → List Char → Prop} {p s : Char} (hs : InStep R p s)
    (x : A1 F64) (a b : IStream) (h : SRel R a b) :
    RRel R (extractA1G p s a x) (extractA1 b x) := by
  refine bind_rel (arr_rel hs _ a b h) fun a b y h => ?_
  rcases y with _ | ⟨u, _ | ⟨v, w⟩⟩
  · trivial
  · exact ⟨h, rfl⟩
  · trivial

theorem a3_rel {R : List Char → List Char → Prop} {p s : Char} (hs : InStep R p s)
    (x : A3 F64) (a b : IStream) (h : SRel R a b) :
    RRel R (extractA3G p s a x) (extractA3 b x) := by
  refine bind_rel (arr_rel hs _ a b h) fun a b y h => ?_
  rcases y with _ | ⟨u, _ | ⟨v, _ | ⟨w, _ | ⟨k, l⟩⟩⟩⟩
  · trivial
  · trivial
  · trivial
  · exact ⟨h, rfl⟩
  · trivial

/-- The readers stay in step over a whole object. -/
theorem ty_rel {R : List Char → List Char → Prop} {p s : Char} (hs : InStep R p s) (t : Ty)
    (x : t.D F64) (a b : IStream) (h : SRel R a b) :
    RRel R (extractTyG p s t a x) (extractTy t b x) := by
  cases t
  case dub => exact hs a b x h
  case sca => exact bind_rel (a1_rel hs _ a b h) fun a b y h => ⟨h, rfl⟩
  case vec => exact bind_rel (a3_rel hs _ a b h) fun a b y h => ⟨h, rfl⟩
  case biv => exact bind_rel (a3_rel hs _ a b h) fun a b y h => ⟨h, rfl⟩
  case tri => exact bind_rel (a1_rel hs _ a b h) fun a b y h => ⟨h, rfl⟩
  case spin =>
    exact bind_rel (a1_rel hs _ a b h) fun a b y h =>
      bind_rel (a3_rel hs _ a b h) fun a b y h => ⟨h, rfl⟩
  case imsp =>
    exact bind_rel (a3_rel hs _ a b h) fun a b y h =>
      bind_rel (a1_rel hs _ a b h) fun a b y h => ⟨h, rfl⟩
  case cplx =>
    exact bind_rel (a1_rel hs _ a b h) fun a b y h =>
      bind_rel (a1_rel hs _ a b h) fun a b y h => ⟨h, rfl⟩
  case dplx =>
    exact bind_rel (a3_rel hs _ a b h) fun a b y h =>
      bind_rel (a3_rel hs _ a b h) fun a b y h => ⟨h, rfl⟩
  case mv =>
    exact bind_rel (a1_rel hs _ a b h) fun a b y h =>
      bind_rel (a3_rel hs _ a b h) fun a b y h =>
      bind_rel (a3_rel hs _ a b h) fun a b y h =>
      bind_rel (a1_rel hs _ a b h) fun a b y h => ⟨h, rfl⟩

/-! ## Texts made of numbers that read the same -/

/-- As `ReadsAs`, in a locale with decimal point `p` and separator `s`. -/
def GReadsAs (p s : Char) (txt : List Char) (x : F64) : Prop :=
  ∀ ws rest old, AllWs ws → Ends rest →
    extractDubG p s ⟨ws ++ txt ++ rest, false, false⟩ old = (⟨rest, rest.isEmpty, false⟩, x)

/-- Texts made of fields that read the same. -/
inductive FRel (p s : Char) : List Char → List Char → Prop
  | nil : FRel p s [] []
  | cons (ws ws' num num' T T' : List Char) (x : F64) (hw : AllWs ws) (hw' : AllWs ws')
      (hn : num ≠ []) (hn' : num' ≠ []) (hr : GReadsAs p s num x) (hr' : ReadsAs num' x)
      (he : Ends T) (he' : Ends T') (h : FRel p s T T') :
      FRel p s (ws ++ num ++ T) (ws' ++ num' ++ T')

theorem FRel.empty {p s : Char} {T T' : List Char} (h : FRel p s T T') : T.isEmpty = T'.isEmpty := by
  cases h with
  | nil => rfl
  | cons ws ws' num num' T T' x hw hw' hn hn' =>
    rw [List.isEmpty_eq_false_iff.2 (by simp [hn]), List.isEmpty_eq_false_iff.2 (by simp [hn'])]

theorem frel_step (p s : Char) : InStep (FRel p s) p s := by
  rintro ⟨T, e, f⟩ ⟨T', e', f'⟩ old ⟨h1, h2, h3⟩
  dsimp only at h1 h2 h3
  subst h2; subst h3
  by_cases hb : (e || f) = true
  · unfold extractDubG extractDub
    dsimp only
    rw [if_pos hb, if_pos hb]
    exact ⟨⟨h1, rfl, rfl⟩, rfl⟩
  · have he : e = false := by cases e <;> simp_all
    have hf : f = false := by cases f <;> simp_all
    subst he; subst hf
    cases h1 with
    | nil => exact ⟨⟨FRel.nil, rfl, rfl⟩, rfl⟩
    | cons ws ws' num num' T T' x hw hw' hn hn' hr hr' he he' h =>
      rw [hr ws T old hw he, hr' ws' T' old hw' he']
      exact ⟨⟨h, h.empty, rfl⟩, rfl⟩

/-- Fields that correspond to each other. -/
def FieldRel (p s : Char) (f f' : List Char × List Char) : Prop :=
  AllWs f.1 ∧ AllWs f'.1 ∧ f.2 ≠ [] ∧ f'.2 ≠ [] ∧ ∃ x, GReadsAs p s f.2 x ∧ ReadsAs f'.2 x

theorem frel_fields {p s : Char} {fs fs' : List (List Char × List Char)}
    (h : List.Forall₂ (FieldRel p s) fs fs') (hs : ∀ f ∈ fs.tail, f.1 ≠ [])
    (hs' : ∀ f ∈ fs'.tail, f.1 ≠ []) : FRel p s (joinF fs) (joinF fs') := by
  induction h with
  | nil => exact FRel.nil
  | cons hf hfs ih =>
    rename_i f f' fs fs'
    obtain ⟨h1, h2, h3, h4, x, h5, h6⟩ := hf
    rw [joinF_cons, joinF_cons]
    rw [List.tail_cons] at hs hs'
    have hw : ∀ {fs fs'}, List.Forall₂ (FieldRel p s) fs fs' →
        (∀ f ∈ fs, AllWs f.1) ∧ ∀ f ∈ fs', AllWs f.1 := by
      intro fs fs' h
      induction h with
      | nil => simp
      | cons h _ ih => exact ⟨by simpa using ⟨h.1, fun a b => ih.1 (a, b)⟩, by simpa using ⟨h.2.1, fun a b => ih.2 (a, b)⟩⟩
    have e1 := ends_joinF fs [] ends_nil (hw hfs).1 hs
    have e2 := ends_joinF fs' [] ends_nil (hw hfs).2 hs'
    rw [List.append_nil] at e1 e2
    exact FRel.cons _ _ _ _ _ _ x h1 h2 h3 h4 h5 h6 e1 e2
      (ih (fun f hf => hs f (List.mem_of_mem_tail hf)) (fun f hf => hs' f (List.mem_of_mem_tail hf)))

/-- The texts of an object in two notations. -/
theorem frel_object {p s : Char} {pad pad' num num' : F64 → List Char} (g e : List Char) (t : Ty)
    (x : t.D F64) (hg : AllWs g) (he : AllWs e) (hp : ∀ x, AllWs (pad x)) (hp' : ∀ x, AllWs (pad' x))
    (h1 : ∀ x, g ++ pad x ≠ []) (h2 : ∀ x, e ++ pad x ≠ [])
    (h1' : ∀ x, g ++ pad' x ≠ []) (h2' : ∀ x, e ++ pad' x ≠ [])
    (h : ∀ c ∈ comps t x, num c ≠ [] ∧ num' c ≠ [] ∧ ∃ y, GReadsAs p s (num c) y ∧ ReadsAs (num' c) y) :
    FRel p s
      (g.intercalate ((blades t x).map fun b => e.intercalate (b.map fun x => pad x ++ num x)))
      (g.intercalate ((blades t x).map fun b => e.intercalate (b.map fun x => pad' x ++ num' x))) := by
  have hb : ∀ b ∈ blades t x, ∀ c ∈ b, c ∈ comps t x :=
    fun b hb c hc => by rw [← blades_join, List.mem_flatten]; exact ⟨b, hb, hc⟩
  rw [← fieldsOf_text g e pad num _ (blades_ne_nil t x), ← fieldsOf_text g e pad' num' _ (blades_ne_nil t x)]
  refine frel_fields ?_ (fieldsOf_sep g e pad num _ (blades_ne_nil t x) h1 h2)
    (fieldsOf_sep g e pad' num' _ (blades_ne_nil t x) h1' h2')
  have hbl : ∀ k, AllWs k → ∀ b : List F64, (∀ c ∈ b, c ∈ comps t x) →
      List.Forall₂ (FieldRel p s) (bladeFields k e pad num b) (bladeFields k e pad' num' b) := by
    intro k hk b hc
    rcases b with _ | ⟨y, ys⟩
    · exact List.Forall₂.nil
    · refine List.Forall₂.cons ?_ ?_
      · obtain ⟨n1, n2, n3⟩ := h y (hc y List.mem_cons_self)
        exact ⟨hk.append (hp y), hk.append (hp' y), n1, n2, n3⟩
      · rw [List.forall₂_map_left_iff, List.forall₂_map_right_iff]
        refine List.forall₂_same.2 fun c hc' => ?_
        obtain ⟨n1, n2, n3⟩ := h c (hc c (List.mem_cons_of_mem _ hc'))
        exact ⟨he.append (hp c), he.append (hp' c), n1, n2, n3⟩
  rcases hB : blades t x with _ | ⟨b, bs⟩
  · exact List.Forall₂.nil
  · rw [hB] at hb
    rw [fieldsOf, fieldsOf, List.flatten_cons, List.flatten_cons]
    refine List.rel_append (hbl [] allWs_nil b (hb b List.mem_cons_self)) ?_
    have hb' : ∀ b ∈ bs, ∀ c ∈ b, c ∈ comps t x := fun b h => hb b (List.mem_cons_of_mem _ h)
    clear hB hb
    induction bs with
    | nil => exact List.Forall₂.nil
    | cons b bs ih =>
      rw [List.map_cons, List.map_cons, List.flatten_cons, List.flatten_cons]
      exact List.rel_append (hbl g hg b (hb' b List.mem_cons_self))
        (ih fun b h => hb' b (List.mem_cons_of_mem _ h))

/-! ## Grouped digits -/

/-- Groups of three from the right, the first one of one to three digits, separated by `s`. -/
theorem group_spec (s : Char) (ds : List Char) (h : ds ≠ []) :
    ∃ first rest, ds = first ++ rest.flatten ∧ 1 ≤ first.length ∧ first.length ≤ 3 ∧
      (∀ b ∈ rest, b.length = 3) ∧ groupDigits s ds = [s].intercalate (first :: rest) := by
  induction ds with
  | nil => exact absurd rfl h
  | cons c cs ih =>
    by_cases hc : cs = []
    · subst hc
      exact ⟨[c], [], by simp, by simp, by simp, by simp, by simp [groupDigits, List.intercalate]⟩
    obtain ⟨first, rest, h1, h2, h3, h4, h5⟩ := ih hc
    have hlen : cs.length = first.length + 3 * rest.length := by
      rw [h1, List.length_append, List.length_flatten]
      have : ∀ l : List (List Char), (∀ b ∈ l, b.length = 3) → (l.map List.length).sum = 3 * l.length := by
        intro l hl
        induction l with
        | nil => rfl
        | cons b l ih =>
          rw [List.map_cons, List.sum_cons, hl b List.mem_cons_self,
            ih (fun b h => hl b (List.mem_cons_of_mem _ h)), List.length_cons]
          ring
      rw [this rest h4]
    rw [groupDigits]
    by_cases hm : cs.length % 3 = 0
    · have hf : first.length = 3 := by omega
      rw [if_pos ⟨hm, hc⟩, h5]
      refine ⟨[c], first :: rest, by simp [h1], by simp, by simp, ?_, ?_⟩
      · simpa [hf] using h4
      · rw [intercalate_cons, intercalate_cons]; simp
    · have hf : first.length ≤ 2 := by omega
      rw [if_neg (by simp [hm]), h5]
      refine ⟨c :: first, rest, by simp [h1], by simp, by simp; omega, h4, ?_⟩
      rw [intercalate_cons, intercalate_cons]; simp

theorem scanGroups_run {s : Char} (hs : isDig s = false) {ds : List Char} (hd : AllDig ds) (cur : Nat)
    (r : List Char) :
    scanGroups s cur (ds ++ r) = (ds ++ (scanGroups s (cur + ds.length) r).1,
      (scanGroups s (cur + ds.length) r).2) := by
  induction ds generalizing cur with
  | nil => simp
  | cons c cs ih =>
    have hc : isDig c = true := hd c List.mem_cons_self
    have hne : c ≠ s := by rintro rfl; rw [hs] at hc; cases hc
    rw [List.cons_append, scanGroups, if_neg hne, if_pos hc,
      ih (fun d h => hd d (List.mem_cons_of_mem _ h)), List.length_cons]
    rw [show cur + 1 + cs.length = cur + (cs.length + 1) from by omega]
    rfl

theorem scanGroups_stop {s : Char} {cur : Nat} {r : List Char}
    (hr : ∀ c ∈ r.head?, isDig c = false ∧ c ≠ s) : scanGroups s cur r = ([], [cur], false, r) := by
  rcases r with _ | ⟨c, cs⟩
  · rfl
  · obtain ⟨h1, h2⟩ := hr c (by simp)
    rw [scanGroups, if_neg h2, if_neg (by rw [h1]; decide)]

theorem scanGroups_blocks {s : Char} (hs : isDig s = false) {r : List Char}
    (hr : ∀ c ∈ r.head?, isDig c = false ∧ c ≠ s) (rest : List (List Char)) (first : List Char)
    (hf : AllDig first) (h1 : 1 ≤ first.length) (hd : ∀ b ∈ rest, AllDig b ∧ 1 ≤ b.length) :
    scanGroups s 0 ([s].intercalate (first :: rest) ++ r) =
      (first ++ rest.flatten, first.length :: rest.map List.length, false, r) := by
  induction rest generalizing first with
  | nil =>
    rw [intercalate_cons]
    simp only [List.map_nil, List.flatten_nil, List.append_nil]
    rw [scanGroups_run hs hf, scanGroups_stop hr]
    simp
  | cons b bs ih =>
    obtain ⟨b1, b2⟩ := hd b List.mem_cons_self
    have := ih b b1 b2 (fun b h => hd b (List.mem_cons_of_mem _ h))
    rw [intercalate_cons] at this ⊢
    rw [List.map_cons, List.flatten_cons]
    have e : first ++ ([s] ++ b ++ (bs.map ([s] ++ ·)).flatten) ++ r =
        first ++ (s :: (b ++ (bs.map ([s] ++ ·)).flatten ++ r)) := by simp
    rw [e, scanGroups_run hs hf, scanGroups, if_pos rfl, if_neg (by omega), this]
    simp

theorem groupDigits_cons (s c : Char) (cs : List Char) :
    ∃ tl, groupDigits s (c :: cs) = c :: tl := by
  rw [groupDigits]; split <;> exact ⟨_, rfl⟩

theorem asChar_short {n : Nat} (h : n ≤ 127) : asChar n = n :=
  Int.bmod_eq_of_le (by omega) (by omega)

theorem groupsOk_two (g k : Nat) (gs : List Nat) :
    groupsOk (g :: k :: gs) = true ↔ asChar g ≤ 3 ∧ ∀ n ∈ k :: gs, asChar n = 3 := by
  show (decide (asChar g ≤ 3) && (k :: gs).all fun k => asChar k == 3) = true ↔ _
  rw [Bool.and_eq_true, decide_eq_true_iff, List.all_eq_true]
  exact and_congr Iff.rfl (forall₂_congr fun n _ => beq_iff_eq)

/-- Grouped digits and whatever follows them are scanned as the digits are. -/
theorem scanNumG_grouped (p : Char) {s : Char} (hs : isDig s = false) (neg : Bool) {ip : List Char}
    (hi : AllDig ip) (hn : ip ≠ []) {r : List Char} (hr : ∀ c ∈ r.head?, isDig c = false ∧ c ≠ s) :
    scanNumG p s (sgn neg ++ (groupDigits s ip ++ r)) =
      (⟨neg, ip, (scanFracL p r).1, (scanExp true (scanFracL p r).2).1⟩, true,
        (scanExp true (scanFracL p r).2).2) := by
  obtain ⟨first, rest, h1, h2, h3, h4, h5⟩ := group_spec s ip hn
  have hsg : scanSign (sgn neg ++ (groupDigits s ip ++ r)) = (neg, groupDigits s ip ++ r) := by
    rcases ip with _ | ⟨c, cs⟩
    · exact absurd rfl hn
    · obtain ⟨tl, e⟩ := groupDigits_cons s c cs
      rw [e]
      have := scanSign_sgn (neg := neg) (cs := [c]) (rest := tl ++ r)
        (fun d hd => hi d (by simp at hd; simp [hd])) (by simp)
      exact this
  have hdf : AllDig first := fun c hc => hi c (by rw [h1]; exact List.mem_append_left _ hc)
  have hdr : ∀ b ∈ rest, AllDig b ∧ 1 ≤ b.length := fun b hb =>
    ⟨fun c hc => hi c (by
      rw [h1]; exact List.mem_append_right _ (List.mem_flatten.2 ⟨b, hb, hc⟩)), by rw [h4 b hb]; norm_num⟩
  have hg : scanGroups s 0 (groupDigits s ip ++ r) =
      (ip, first.length :: rest.map List.length, false, r) := by
    rw [h5, scanGroups_blocks hs hr rest first hdf h2 hdr, ← h1]
  have hok : groupsOk (first.length :: rest.map List.length) = true := by
    rcases rest with _ | ⟨b, bs⟩
    · rfl
    · rw [List.map_cons, groupsOk_two]
      refine ⟨?_, fun k hk => ?_⟩
      · rw [asChar_short (by omega)]; omega
      rw [← List.map_cons, List.mem_map] at hk
      obtain ⟨b', hb', rfl⟩ := hk
      rw [asChar_short (by rw [h4 b' hb']; norm_num), h4 b' hb']; norm_num
  unfold scanNumG
  rw [hsg]
  dsimp only
  rw [hg]
  dsimp only
  rw [if_neg (by decide), hok]
  have : ip.isEmpty = false := List.isEmpty_eq_false_iff.2 hn
  rw [this]
  rfl

/-- A grouped number and a plain one with the same digits read the same. -/
theorem gReadsAs_of (p : Char) {s : Char} (hs : isDig s = false) (neg : Bool)
    {ip tl : List Char} {x : F64} (hi : AllDig ip) (hn : ip ≠ [])
    (htl : ∀ r, Ends r → ∀ c ∈ (tl ++ r).head?, isDig c = false ∧ c ≠ s)
    (fp : List Char) (ex : Option (Bool × List Char))
    (hsc : ∀ r, Ends r → (scanFracL p (tl ++ r)).1 = fp ∧
      scanExp true (scanFracL p (tl ++ r)).2 = (ex, r))
    (hv : (NumTok.mk neg ip fp ex).convert = (x, false)) :
    GReadsAs p s (sgn neg ++ (groupDigits s ip ++ tl)) x := by
  intro ws rest old hw hr
  have hsn := scanNumG_grouped p hs neg hi hn (htl rest hr)
  obtain ⟨f1, f2⟩ := hsc rest hr
  rw [f1, f2] at hsn
  have hcons : ∃ c cs, sgn neg ++ (groupDigits s ip ++ (tl ++ rest)) = c :: cs ∧ isWs c = false := by
    rcases ip with _ | ⟨c, cs⟩
    · exact absurd rfl hn
    · obtain ⟨q, e⟩ := groupDigits_cons s c cs
      rw [e]
      cases neg
      · exact ⟨c, _, rfl, isDig_ws (hi c (by simp))⟩
      · exact ⟨'-', _, rfl, by decide⟩
  obtain ⟨c, cs, hcs, hcw⟩ := hcons
  have hdrop : (ws ++ (sgn neg ++ (groupDigits s ip ++ tl)) ++ rest).dropWhile isWs =
      sgn neg ++ (groupDigits s ip ++ (tl ++ rest)) := by
    have : ws ++ (sgn neg ++ (groupDigits s ip ++ tl)) ++ rest =
        ws ++ (sgn neg ++ (groupDigits s ip ++ (tl ++ rest))) := by simp
    rw [this, hcs, dropWhile_ws hw hcw]
  unfold extractDubG
  dsimp only
  rw [if_neg (by simp), hdrop, if_neg (by rw [hcs]; simp), hsn]
  dsimp only
  rw [hv]
  rfl

end Engabra
