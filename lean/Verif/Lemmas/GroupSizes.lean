import Verif.Model.GroupSizes
import Verif.Props.C87_Grouping

/-! # Locales with digit groups of any sizes: lemmas -/

namespace Engabra.Sizes

open F64 (nan inf zero fin IsFin rhe)

/-! ## Specification -/

/-- The groups, from right to left beginning with number `i`, have the sizes of the locale: each but the last
one has exactly its size; the last one has at least one digit, and at most its size if that has a limit. -/
def Fit (z : List Nat) : (i : Nat) → List (List Char) → Prop
  | _, [] => False
  | i, [b] => 1 ≤ b.length ∧ (Limited z i → b.length ≤ sizeAt z i)
  | i, b :: c :: bs => Limited z i ∧ b.length = sizeAt z i ∧ Fit z (i + 1) (c :: bs)

/-- The text is the digits in groups of the sizes of the locale, separated by `s`. -/
def IsGrouped (z : List Nat) (s : Char) (ds txt : List Char) : Prop :=
  ∃ gs, ds = gs.flatten ∧ Fit z 0 gs.reverse ∧ txt = [s].intercalate gs

/-! ## Grouping -/

theorem fit_cons {z : List Nat} {i : Nat} {b : List Char} {bs : List (List Char)} (hl : Limited z i)
    (hb : b.length = sizeAt z i) (h : Fit z (i + 1) bs) : Fit z i (b :: bs) := by
  rcases bs with _ | ⟨c, bs⟩
  · exact h.elim
  · exact ⟨hl, hb, h⟩

theorem fit_reverse {z : List Nat} (gs : List (List Char)) (i : Nat) (h : Fit z i gs) :
    Fit z i (gs.map List.reverse) := by
  induction gs generalizing i with
  | nil => exact h
  | cons b bs ih =>
    rcases bs with _ | ⟨c, bs⟩
    · simpa [Fit] using h
    · exact fit_cons h.1 (by rw [List.length_reverse]; exact h.2.1) (ih _ h.2.2)

theorem fit_pos {z : List Nat} (gs : List (List Char)) (i : Nat) (h : Fit z i gs) : ∀ b ∈ gs, 1 ≤ b.length := by
  induction gs generalizing i with
  | nil => exact h.elim
  | cons b bs ih =>
    rcases bs with _ | ⟨c, bs⟩
    · simpa using h.1
    · intro d hd
      rcases List.mem_cons.1 hd with rfl | hd
      · rw [h.2.1]; exact h.1.1
      · exact ih _ h.2.2 d hd

theorem rev_spec (z : List Nat) (s : Char) (cs : List Char) (i k : Nat) (hk : 1 ≤ k)
    (hl : Limited z i → k ≤ sizeAt z i) :
    ∃ f gs, cs = f ++ gs.flatten ∧ groupRev z s i k cs = f ++ (gs.map ([s] ++ ·)).flatten ∧
      (gs = [] → Limited z i → k + f.length ≤ sizeAt z i) ∧
      (gs ≠ [] → Limited z i ∧ k + f.length = sizeAt z i ∧ Fit z (i + 1) gs) := by
  induction cs generalizing i k with
  | nil => exact ⟨[], [], rfl, rfl, fun _ h => hl h, fun h => absurd rfl h⟩
  | cons c cs ih =>
    rw [groupRev]
    split
    · rename_i h
      obtain ⟨f, gs, h1, h2, h3, h4⟩ := ih (i + 1) 1 le_rfl (fun h => h.1)
      refine ⟨[], (c :: f) :: gs, by rw [h1]; simp, by rw [h2]; simp, fun h => by simp at h, fun _ => ?_⟩
      refine ⟨h.2, h.1, ?_⟩
      by_cases hg : gs = []
      · subst hg
        exact ⟨by simp, fun hl => by rw [List.length_cons, add_comm]; exact h3 rfl hl⟩
      · obtain ⟨g1, g2, g3⟩ := h4 hg
        exact fit_cons g1 (by rw [List.length_cons, add_comm]; exact g2) g3
    · rename_i h
      obtain ⟨f, gs, h1, h2, h3, h4⟩ := ih i (k + 1) (by omega) (fun hL => by
        have := hl hL
        have : k ≠ sizeAt z i := fun e => h ⟨e, hL⟩
        omega)
      have e : k + (c :: f).length = k + 1 + f.length := by rw [List.length_cons]; omega
      exact ⟨c :: f, gs, by rw [h1]; simp, by rw [h2]; simp, by rw [e]; exact h3, by rw [e]; exact h4⟩

theorem intercalate_snoc (s : Char) (l : List (List Char)) (hl : l ≠ []) (b : List Char) :
    [s].intercalate (l ++ [b]) = [s].intercalate l ++ ([s] ++ b) := by
  rcases l with _ | ⟨a, l⟩
  · exact absurd rfl hl
  · rw [List.cons_append, intercalate_cons, intercalate_cons]; simp

theorem intercalate_rev (s : Char) (l : List (List Char)) :
    ([s].intercalate l).reverse = [s].intercalate (l.map List.reverse).reverse := by
  induction l with
  | nil => rfl
  | cons a l ih =>
    rcases l with _ | ⟨b, l⟩
    · simp [List.intercalate]
    · rw [List.map_cons, List.reverse_cons, intercalate_snoc _ _ (by simp), ← ih]
      rw [intercalate_cons, intercalate_cons]; simp

theorem group_spec (z : List Nat) (s : Char) (ds : List Char) (h : ds ≠ []) :
    ∃ first rest, ds = first ++ rest.flatten ∧ (∀ b ∈ first :: rest, 1 ≤ b.length) ∧
      Fit z 0 (first :: rest).reverse ∧ groupDigits z s ds = [s].intercalate (first :: rest) := by
  obtain ⟨c, cs, hc⟩ : ∃ c cs, ds.reverse = c :: cs := by
    rcases hd : ds.reverse with _ | ⟨c, cs⟩
    · exact absurd (List.reverse_eq_nil_iff.1 hd) h
    · exact ⟨c, cs, rfl⟩
  obtain ⟨f, gs, h1, h2, h3, h4⟩ := rev_spec z s cs 0 1 le_rfl (fun h => h.1)
  have hfit : Fit z 0 ((c :: f) :: gs) := by
    by_cases hg : gs = []
    · subst hg
      exact ⟨by simp, fun hl => by rw [List.length_cons, add_comm]; exact h3 rfl hl⟩
    · obtain ⟨g1, g2, g3⟩ := h4 hg
      exact fit_cons g1 (by rw [List.length_cons, add_comm]; exact g2) g3
  have hfit' := fit_reverse _ _ hfit
  have hds : ds = ((((c :: f) :: gs).map List.reverse).reverse).flatten := by
    rw [← List.reverse_flatten, ← List.reverse_reverse ds, hc, h1]; simp
  have htx : groupDigits z s ds = [s].intercalate (((c :: f) :: gs).map List.reverse).reverse := by
    rw [← intercalate_rev, groupDigits, hc, groupRev, if_neg (by
      rintro ⟨e, hl⟩
      have := hl.1
      omega), h2, intercalate_cons]
    rfl
  rcases hL : (((c :: f) :: gs).map List.reverse).reverse with _ | ⟨first, rest⟩
  · simp at hL
  · rw [hL] at hds htx
    have hr : ((c :: f) :: gs).map List.reverse = (first :: rest).reverse := by
      rw [← hL, List.reverse_reverse]
    rw [hr] at hfit'
    refine ⟨first, rest, by rw [hds, List.flatten_cons], fun b hb => ?_, hfit', htx⟩
    exact fit_pos _ _ hfit' b (List.mem_reverse.2 hb)

theorem isGrouped_spec (z : List Nat) (s : Char) (ds : List Char) (h : ds ≠ []) :
    IsGrouped z s ds (groupDigits z s ds) := by
  obtain ⟨first, rest, h1, -, h2, h3⟩ := group_spec z s ds h
  exact ⟨first :: rest, h1, h2, h3⟩

theorem groupDigits_cons (z : List Nat) (s c : Char) (cs : List Char) :
    ∃ tl, groupDigits z s (c :: cs) = c :: tl := by
  obtain ⟨first, rest, h1, h2, -, h3⟩ := group_spec z s (c :: cs) (by simp)
  rcases first with _ | ⟨d, f⟩
  · have := h2 [] List.mem_cons_self
    simp at this
  · rw [h3, intercalate_cons]
    rw [List.cons_append, List.cons.injEq] at h1
    rw [h1.1]
    exact ⟨_, rfl⟩

theorem sizesOk_one (z : List Nat) (i n : Nat) :
    sizesOk z i [n] = true ↔ (Limited z i → asChar n ≤ sizeAt z i) := by
  show (!decide (Limited z i) || decide (asChar n ≤ sizeAt z i)) = true ↔ _
  rw [Bool.or_eq_true, Bool.not_eq_true', decide_eq_false_iff_not, decide_eq_true_iff]
  exact Decidable.imp_iff_not_or.symm

theorem sizesOk_two (z : List Nat) (i n m : Nat) (ns : List Nat) :
    sizesOk z i (n :: m :: ns) = true ↔ asChar n = sizeAt z i ∧ sizesOk z (i + 1) (m :: ns) = true := by
  show (asChar n == (sizeAt z i : Int) && sizesOk z (i + 1) (m :: ns)) = true ↔ _
  rw [Bool.and_eq_true, beq_iff_eq]

theorem sizesOk_of_fit {z : List Nat} (gs : List (List Char)) (i : Nat) (h : Fit z i gs) :
    sizesOk z i (gs.map List.length) = true := by
  induction gs generalizing i with
  | nil => exact h.elim
  | cons b bs ih =>
    rcases bs with _ | ⟨c, bs⟩
    · refine (sizesOk_one _ _ _).2 fun hl => ?_
      have := h.2 hl
      have := hl.2
      rw [asChar_short (by omega)]
      omega
    · rw [List.map_cons, List.map_cons, sizesOk_two, ← List.map_cons]
      refine ⟨?_, ih _ h.2.2⟩
      have := h.1.2
      rw [asChar_short (by rw [h.2.1]; omega), h.2.1]

theorem fit_of_sizesOk {z : List Nat} (gs : List (List Char)) (i : Nat) (hne : gs ≠ [])
    (hl : ∀ b ∈ gs, 1 ≤ b.length ∧ b.length ≤ 126) (h : sizesOk z i (gs.map List.length) = true) : Fit z i gs := by
  induction gs generalizing i with
  | nil => exact absurd rfl hne
  | cons b bs ih =>
    obtain ⟨b1, b2⟩ := hl b List.mem_cons_self
    rcases bs with _ | ⟨c, bs⟩
    · refine ⟨b1, fun hL => ?_⟩
      have := (sizesOk_one _ _ _).1 h hL
      rw [asChar_short (by omega)] at this
      omega
    · rw [List.map_cons, List.map_cons, sizesOk_two, ← List.map_cons, asChar_short (by omega)] at h
      have e : b.length = sizeAt z i := by have := h.1; omega
      exact ⟨⟨by omega, by omega⟩, e, ih _ (by simp) (fun b hb => hl b (List.mem_cons_of_mem _ hb)) h.2⟩

/-- One extraction keeps the relation and gives the same number. -/
def InStep (R : List Char → List Char → Prop) (z : List Nat) (p s : Char) : Prop :=
  ∀ a b old, SRel R a b →
    SRel R (extractDubG z p s a old).1 (extractDub b old).1 ∧
      (extractDubG z p s a old).2 = (extractDub b old).2

theorem loop_rel {R : List Char → List Char → Prop} {z : List Nat} {p s : Char} (hs : InStep R z p s)
    (xs : List F64) (ok : Bool) (a b : IStream) (h : SRel R a b) :
    SRel R (extractLoopG z p s a ok xs).1 (extractLoop b ok xs).1 ∧
      (extractLoopG z p s a ok xs).2 = (extractLoop b ok xs).2 := by
  induction xs generalizing ok a b with
  | nil => exact ⟨h, rfl⟩
  | cons x xs ih =>
    rw [extractLoopG, extractLoop]
    split
    · obtain ⟨h1, h2⟩ := hs a b x h
      dsimp only
      rw [h2, okay_rel h1]
      obtain ⟨i1, i2⟩ := ih (isInputOkay (extractDub b x).1 (extractDub b x).2) _ _ h1
      exact ⟨i1, by rw [i2]⟩
    · exact ⟨h, rfl⟩

theorem arr_rel {R : List Char → List Char → Prop} {z : List Nat} {p s : Char} (hs : InStep R z p s)
    (xs : List F64) (a b : IStream) (h : SRel R a b) :
    RRel R (extractArrG z p s a xs) (extractArr b xs) := by
  rcases xs with _ | ⟨x, xs⟩
  · trivial
  · obtain ⟨h1, h2⟩ := hs a b x h
    rw [extractArrG, extractArr]
    rw [h2, okay_rel h1]
    obtain ⟨i1, i2⟩ := loop_rel hs xs (isInputOkay (extractDub b x).1 (extractDub b x).2) _ _ h1
    rw [i2]
    split
    · exact ⟨i1, rfl⟩
    · exact ⟨i1, rfl⟩

theorem a1_rel {R : List Char → List Char → Prop} {z : List Nat} {p s : Char} (hs : InStep R z p s)
    (x : A1 F64) (a b : IStream) (h : SRel R a b) :
    RRel R (extractA1G z p s a x) (extractA1 b x) := by
  refine bind_rel (arr_rel hs _ a b h) fun a b y h => ?_
  rcases y with _ | ⟨u, _ | ⟨v, w⟩⟩
  · trivial
  · exact ⟨h, rfl⟩
  · trivial

theorem a3_rel {R : List Char → List Char → Prop} {z : List Nat} {p s : Char} (hs : InStep R z p s)
    (x : A3 F64) (a b : IStream) (h : SRel R a b) :
    RRel R (extractA3G z p s a x) (extractA3 b x) := by
  refine bind_rel (arr_rel hs _ a b h) fun a b y h => ?_
  rcases y with _ | ⟨u, _ | ⟨v, _ | ⟨w, _ | ⟨k, l⟩⟩⟩⟩
  · trivial
  · trivial
  · trivial
  · exact ⟨h, rfl⟩
  · trivial

/-- The readers stay in step over a whole object. -/
theorem ty_rel {R : List Char → List Char → Prop} {z : List Nat} {p s : Char} (hs : InStep R z p s) (t : Ty)
    (x : t.D F64) (a b : IStream) (h : SRel R a b) :
    RRel R (extractTyG z p s t a x) (extractTy t b x) := by
  cases t
  case dub => exact hs a b x h
  case sca => exact bind_rel (a1_rel hs _ a b h) fun a b y h => ⟨h, rfl⟩
  case vec => exact bind_rel (a3_rel hs _ a b h) fun a b y h => ⟨h, rfl⟩
  case biv => exact bind_rel (a3_rel hs _ a b h) fun a b y h => ⟨h, rfl⟩
  case tri => exact bind_rel (a1_rel hs _ a b h) fun a b y h => ⟨h, rfl⟩
  case spin =>
    exact bind_rel (a1_rel hs _ a b h) fun a b y h =>
      bind_rel (a3_rel hs _ a b h) fun a b y h => ⟨h, rfl⟩
  case imsp =>
    exact bind_rel (a3_rel hs _ a b h) fun a b y h =>
      bind_rel (a1_rel hs _ a b h) fun a b y h => ⟨h, rfl⟩
  case cplx =>
    exact bind_rel (a1_rel hs _ a b h) fun a b y h =>
      bind_rel (a1_rel hs _ a b h) fun a b y h => ⟨h, rfl⟩
  case dplx =>
    exact bind_rel (a3_rel hs _ a b h) fun a b y h =>
      bind_rel (a3_rel hs _ a b h) fun a b y h => ⟨h, rfl⟩
  case mv =>
    exact bind_rel (a1_rel hs _ a b h) fun a b y h =>
      bind_rel (a3_rel hs _ a b h) fun a b y h =>
      bind_rel (a3_rel hs _ a b h) fun a b y h =>
      bind_rel (a1_rel hs _ a b h) fun a b y h => ⟨h, rfl⟩

/-- As `ReadsAs`, in a locale with decimal point `p` and separator `s`. -/
def GReadsAs (z : List Nat) (p s : Char) (txt : List Char) (x : F64) : Prop :=
  ∀ ws rest old, AllWs ws → Ends rest →
    extractDubG z p s ⟨ws ++ txt ++ rest, false, false⟩ old = (⟨rest, rest.isEmpty, false⟩, x)

/-- Texts made of fields that read the same. -/
inductive FRel (z : List Nat) (p s : Char) : List Char → List Char → Prop
  | nil : FRel z p s [] []
  | cons (ws ws' num num' T T' : List Char) (x : F64) (hw : AllWs ws) (hw' : AllWs ws')
      (hn : num ≠ []) (hn' : num' ≠ []) (hr : GReadsAs z p s num x) (hr' : ReadsAs num' x)
      (he : Ends T) (he' : Ends T') (h : FRel z p s T T') :
      FRel z p s (ws ++ num ++ T) (ws' ++ num' ++ T')

theorem FRel.empty {z : List Nat} {p s : Char} {T T' : List Char} (h : FRel z p s T T') : T.isEmpty = T'.isEmpty := by
  cases h with
  | nil => rfl
  | cons ws ws' num num' T T' x hw hw' hn hn' =>
    rw [List.isEmpty_eq_false_iff.2 (by simp [hn]), List.isEmpty_eq_false_iff.2 (by simp [hn'])]

theorem frel_step (z : List Nat) (p s : Char) : InStep (FRel z p s) z p s := by
  rintro ⟨T, e, f⟩ ⟨T', e', f'⟩ old ⟨h1, h2, h3⟩
  dsimp only at h1 h2 h3
  subst h2; subst h3
  by_cases hb : (e || f) = true
  · unfold extractDubG extractDub
    dsimp only
    rw [if_pos hb, if_pos hb]
    exact ⟨⟨h1, rfl, rfl⟩, rfl⟩
  · have he : e = false := by cases e <;> simp_all
    have hf : f = false := by cases f <;> simp_all
    subst he; subst hf
    cases h1 with
    | nil => exact ⟨⟨FRel.nil, rfl, rfl⟩, rfl⟩
    | cons ws ws' num num' T T' x hw hw' hn hn' hr hr' he he' h =>
      rw [hr ws T old hw he, hr' ws' T' old hw' he']
      exact ⟨⟨h, h.empty, rfl⟩, rfl⟩

/-- Fields that correspond to each other. -/
def FieldRel (z : List Nat) (p s : Char) (f f' : List Char × List Char) : Prop :=
  AllWs f.1 ∧ AllWs f'.1 ∧ f.2 ≠ [] ∧ f'.2 ≠ [] ∧ ∃ x, GReadsAs z p s f.2 x ∧ ReadsAs f'.2 x

theorem frel_fields {z : List Nat} {p s : Char} {fs fs' : List (List Char × List Char)}
    (h : List.Forall₂ (FieldRel z p s) fs fs') (hs : ∀ f ∈ fs.tail, f.1 ≠ [])
    (hs' : ∀ f ∈ fs'.tail, f.1 ≠ []) : FRel z p s (joinF fs) (joinF fs') := by
  induction h with
  | nil => exact FRel.nil
  | cons hf hfs ih =>
    rename_i f f' fs fs'
    obtain ⟨h1, h2, h3, h4, x, h5, h6⟩ := hf
    rw [joinF_cons, joinF_cons]
    rw [List.tail_cons] at hs hs'
    have hw : ∀ {fs fs'}, List.Forall₂ (FieldRel z p s) fs fs' →
        (∀ f ∈ fs, AllWs f.1) ∧ ∀ f ∈ fs', AllWs f.1 := by
      intro fs fs' h
      induction h with
      | nil => simp
      | cons h _ ih => exact ⟨by simpa using ⟨h.1, fun a b => ih.1 (a, b)⟩, by simpa using ⟨h.2.1, fun a b => ih.2 (a, b)⟩⟩
    have e1 := ends_joinF fs [] ends_nil (hw hfs).1 hs
    have e2 := ends_joinF fs' [] ends_nil (hw hfs).2 hs'
    rw [List.append_nil] at e1 e2
    exact FRel.cons _ _ _ _ _ _ x h1 h2 h3 h4 h5 h6 e1 e2
      (ih (fun f hf => hs f (List.mem_of_mem_tail hf)) (fun f hf => hs' f (List.mem_of_mem_tail hf)))

/-- The texts of an object in two notations. -/
theorem frel_object {z : List Nat} {p s : Char} {pad pad' num num' : F64 → List Char} (g e : List Char) (t : Ty)
    (x : t.D F64) (hg : AllWs g) (he : AllWs e) (hp : ∀ x, AllWs (pad x)) (hp' : ∀ x, AllWs (pad' x))
    (h1 : ∀ x, g ++ pad x ≠ []) (h2 : ∀ x, e ++ pad x ≠ [])
    (h1' : ∀ x, g ++ pad' x ≠ []) (h2' : ∀ x, e ++ pad' x ≠ [])
    (h : ∀ c ∈ comps t x, num c ≠ [] ∧ num' c ≠ [] ∧ ∃ y, GReadsAs z p s (num c) y ∧ ReadsAs (num' c) y) :
    FRel z p s
      (g.intercalate ((blades t x).map fun b => e.intercalate (b.map fun x => pad x ++ num x)))
      (g.intercalate ((blades t x).map fun b => e.intercalate (b.map fun x => pad' x ++ num' x))) := by
  have hb : ∀ b ∈ blades t x, ∀ c ∈ b, c ∈ comps t x :=
    fun b hb c hc => by rw [← blades_join, List.mem_flatten]; exact ⟨b, hb, hc⟩
  rw [← fieldsOf_text g e pad num _ (blades_ne_nil t x), ← fieldsOf_text g e pad' num' _ (blades_ne_nil t x)]
  refine frel_fields ?_ (fieldsOf_sep g e pad num _ (blades_ne_nil t x) h1 h2)
    (fieldsOf_sep g e pad' num' _ (blades_ne_nil t x) h1' h2')
  have hbl : ∀ k, AllWs k → ∀ b : List F64, (∀ c ∈ b, c ∈ comps t x) →
      List.Forall₂ (FieldRel z p s) (bladeFields k e pad num b) (bladeFields k e pad' num' b) := by
    intro k hk b hc
    rcases b with _ | ⟨y, ys⟩
    · exact List.Forall₂.nil
    · refine List.Forall₂.cons ?_ ?_
      · obtain ⟨n1, n2, n3⟩ := h y (hc y List.mem_cons_self)
        exact ⟨hk.append (hp y), hk.append (hp' y), n1, n2, n3⟩
      · rw [List.forall₂_map_left_iff, List.forall₂_map_right_iff]
        refine List.forall₂_same.2 fun c hc' => ?_
        obtain ⟨n1, n2, n3⟩ := h c (hc c (List.mem_cons_of_mem _ hc'))
        exact ⟨he.append (hp c), he.append (hp' c), n1, n2, n3⟩
  rcases hB : blades t x with _ | ⟨b, bs⟩
  · exact List.Forall₂.nil
  · rw [hB] at hb
    rw [fieldsOf, fieldsOf, List.flatten_cons, List.flatten_cons]
    refine List.rel_append (hbl [] allWs_nil b (hb b List.mem_cons_self)) ?_
    have hb' : ∀ b ∈ bs, ∀ c ∈ b, c ∈ comps t x := fun b h => hb b (List.mem_cons_of_mem _ h)
    clear hB hb
    induction bs with
    | nil => exact List.Forall₂.nil
    | cons b bs ih =>
      rw [List.map_cons, List.map_cons, List.flatten_cons, List.flatten_cons]
      exact List.rel_append (hbl g hg b (hb' b List.mem_cons_self))
        (ih fun b h => hb' b (List.mem_cons_of_mem _ h))

/-- Grouped digits and whatever follows them are scanned as the digits are. -/
theorem scanNumG_grouped (z : List Nat) (p : Char) {s : Char} (hs : isDig s = false) (neg : Bool) {ip : List Char}
    (hi : AllDig ip) (hn : ip ≠ []) {r : List Char} (hr : ∀ c ∈ r.head?, isDig c = false ∧ c ≠ s) :
    scanNumG z p s (sgn neg ++ (groupDigits z s ip ++ r)) =
      (⟨neg, ip, (scanFracL p r).1, (scanExp true (scanFracL p r).2).1⟩, true,
        (scanExp true (scanFracL p r).2).2) := by
  obtain ⟨first, rest, h1, h4, h3, h5⟩ := group_spec z s ip hn
  have h2 : 1 ≤ first.length := h4 first List.mem_cons_self
  have hsg : scanSign (sgn neg ++ (groupDigits z s ip ++ r)) = (neg, groupDigits z s ip ++ r) := by
    rcases ip with _ | ⟨c, cs⟩
    · exact absurd rfl hn
    · obtain ⟨tl, e⟩ := groupDigits_cons z s c cs
      rw [e]
      have := scanSign_sgn (neg := neg) (cs := [c]) (rest := tl ++ r)
        (fun d hd => hi d (by simp at hd; simp [hd])) (by simp)
      exact this
  have hdf : AllDig first := fun c hc => hi c (by rw [h1]; exact List.mem_append_left _ hc)
  have hdr : ∀ b ∈ rest, AllDig b ∧ 1 ≤ b.length := fun b hb =>
    ⟨fun c hc => hi c (by
      rw [h1]; exact List.mem_append_right _ (List.mem_flatten.2 ⟨b, hb, hc⟩)), h4 b (List.mem_cons_of_mem _ hb)⟩
  have hg : scanGroups s 0 (groupDigits z s ip ++ r) =
      (ip, first.length :: rest.map List.length, false, r) := by
    rw [h5, scanGroups_blocks hs hr rest first hdf h2 hdr, ← h1]
  have hok : groupsOk z (first.length :: rest.map List.length) = true := by
    rcases rest with _ | ⟨b, bs⟩
    · rfl
    · have := sizesOk_of_fit _ 0 h3
      rw [List.map_reverse, List.map_cons] at this
      exact this
  unfold scanNumG
  rw [hsg]
  dsimp only
  rw [hg]
  dsimp only
  rw [if_neg (by decide), hok]
  have : ip.isEmpty = false := List.isEmpty_eq_false_iff.2 hn
  rw [this]
  rfl

/-- A grouped number and a plain one with the same digits read the same. -/
theorem gReadsAs_of (z : List Nat) (p : Char) {s : Char} (hs : isDig s = false) (neg : Bool)
    {ip tl : List Char} {x : F64} (hi : AllDig ip) (hn : ip ≠ [])
    (htl : ∀ r, Ends r → ∀ c ∈ (tl ++ r).head?, isDig c = false ∧ c ≠ s)
    (fp : List Char) (ex : Option (Bool × List Char))
    (hsc : ∀ r, Ends r → (scanFracL p (tl ++ r)).1 = fp ∧
      scanExp true (scanFracL p (tl ++ r)).2 = (ex, r))
    (hv : (NumTok.mk neg ip fp ex).convert = (x, false)) :
    GReadsAs z p s (sgn neg ++ (groupDigits z s ip ++ tl)) x := by
  intro ws rest old hw hr
  have hsn := scanNumG_grouped z p hs neg hi hn (htl rest hr)
  obtain ⟨f1, f2⟩ := hsc rest hr
  rw [f1, f2] at hsn
  have hcons : ∃ c cs, sgn neg ++ (groupDigits z s ip ++ (tl ++ rest)) = c :: cs ∧ isWs c = false := by
    rcases ip with _ | ⟨c, cs⟩
    · exact absurd rfl hn
    · obtain ⟨q, e⟩ := groupDigits_cons z s c cs
      rw [e]
      cases neg
      · exact ⟨c, _, rfl, isDig_ws (hi c (by simp))⟩
      · exact ⟨'-', _, rfl, by decide⟩
  obtain ⟨c, cs, hcs, hcw⟩ := hcons
  have hdrop : (ws ++ (sgn neg ++ (groupDigits z s ip ++ tl)) ++ rest).dropWhile isWs =
      sgn neg ++ (groupDigits z s ip ++ (tl ++ rest)) := by
    have : ws ++ (sgn neg ++ (groupDigits z s ip ++ tl)) ++ rest =
        ws ++ (sgn neg ++ (groupDigits z s ip ++ (tl ++ rest))) := by simp
    rw [this, hcs, dropWhile_ws hw hcw]
  unfold extractDubG
  dsimp only
  rw [if_neg (by simp), hdrop, if_neg (by rw [hcs]; simp), hsn]
  dsimp only
  rw [hv]
  rfl

/-- Text of a number in fixed notation. -/
def numTextG (z : List Nat) (p s : Char) (a : Nat) (x : F64) : List Char := signText x ++ bodyTextG z p s .fixed a x

theorem putFixedG_spec (z : List Nat) (p s : Char) (fmt : DoubleFormat) {os : OStream} (h : Plain os) (x : F64) :
    Plain ((fmt.prepareFixed os).putDubZ z p s x) ∧ ((fmt.prepareFixed os).putDubZ z p s x).out =
      os.out ++ ' ' :: field fmt.fieldWide (numTextG z p s fmt.theNumDigFrac x) := by
  unfold DoubleFormat.prepareFixed
  rw [putStr_zero h.width]
  obtain ⟨h1, h2, h3⟩ := h
  unfold OStream.putDubZ OStream.setFixed OStream.setPrec OStream.setW
  dsimp only
  rw [h2, h3]
  exact ⟨⟨rfl, rfl, rfl⟩, by simp [field, blanks, numTextG]⟩

theorem foldl_fixedG (z : List Nat) (p s : Char) (fmt : DoubleFormat) (xs : List F64) (os : OStream) (h : Plain os) :
    (xs.foldl (fun oss elem => (fmt.prepareFixed oss).putDubZ z p s elem) os).out = os.out ++
      (xs.map fun x => ' ' :: field fmt.fieldWide (numTextG z p s fmt.theNumDigFrac x)).flatten := by
  induction xs generalizing os with
  | nil => simp
  | cons x xs ih =>
    obtain ⟨i1, i2⟩ := putFixedG_spec z p s fmt h x
    rw [List.foldl_cons, ih _ i1, i2]; simp

theorem fixedDubG_eq (z : List Nat) (p s : Char) (x : F64) (b a : Nat) :
    fixedDubG z p s x b a = ' ' :: field (1 + b + 1 + a) (numTextG z p s a x) := by
  unfold fixedDubG
  dsimp only
  rw [(putFixedG_spec z p s ⟨b, a⟩ plain_fresh x).2]
  rfl

/-- Text of the components of a blade with `fixed`. -/
def fixedBladeG (z : List Nat) (p s : Char) (b a : Nat) (xs : List F64) : List Char :=
  (xs.map (fixedDubG z p s · b a)).flatten

theorem fixedArrG_eq (z : List Nat) (p s : Char) (xs : List F64) (b a : Nat) :
    fixedArrG z p s xs b a = fixedBladeG z p s b a xs := by
  unfold fixedArrG fixedBladeG
  have := (foldl_putStr (xs.map (fixedDubG z p s · b a)) _ plain_fresh).2
  rw [List.foldl_map] at this
  rw [this]; rfl

theorem putArrG_eq (z : List Nat) (p s : Char) (os : OStream) (xs : List F64) :
    putArrG z p s os xs = os.putStr (fixedBladeG z p s 3 6 xs) := by
  unfold putArrG
  dsimp only
  rw [foldl_fixedG z p s {} xs _ plain_fresh]
  unfold fixedBladeG
  simp only [fixedDubG_eq]
  rfl

theorem fixedBladeG_eq (z : List Nat) (p s : Char) (b a : Nat) (xs : List F64) : fixedBladeG z p s b a xs =
    ([] : List Char).intercalate (xs.map fun x =>
      (' ' :: blanks (1 + b + 1 + a - (numTextG z p s a x).length)) ++ numTextG z p s a x) := by
  rw [intercalate_nil, fixedBladeG]
  simp only [fixedDubG_eq, field, List.cons_append]

theorem bodyTextG_fixed (z : List Nat) (p s : Char) (a : Nat) (x : F64) (hx : x.Finite) :
    bodyTextG z p s .fixed a x =
      groupDigits z s (natDigits ((rhe (|x.value| * 10 ^ a)).toNat / 10 ^ a)) ++
        (fracText a ((rhe (|x.value| * 10 ^ a)).toNat % 10 ^ a)).map (point p) := by
  unfold bodyTextG
  dsimp only
  rw [bodyText_fixed a x hx, mantText,
    (takeWhile_dig (natDigits_dig _) (frac_not_dig _ _)).1,
    (takeWhile_dig (natDigits_dig _) (frac_not_dig _ _)).2]

theorem numTextG_reads (z : List Nat) (p s : Char) (hp : PunctOk p) (hs : PunctOk s) (hne : s ≠ p) (x : F64)
    (hx : x.Finite) (a : Nat) (hi : ∀ k, fixedVal a x ≠ inf k) :
    GReadsAs z p s (numTextG z p s a x) (fixedVal a x) := by
  rw [numTextG, bodyTextG_fixed z p s a x hx, signText_eq]
  refine gReadsAs_of z p hs.dig x.signbit (natDigits_dig _) (natDigits_ne_nil _) ?_
    (fixedDigits a ((rhe (|x.value| * 10 ^ a)).toNat % 10 ^ a)) none ?_ ?_
  · intro r hr
    by_cases ha : a = 0
    · subst ha
      simp only [fracText, if_true, List.map_nil, List.nil_append]
      exact ends_ok hs hr
    · rw [fracText, if_neg ha, List.map_cons, show point p '.' = p from if_pos rfl]
      intro c hc
      simp at hc
      subst hc
      exact ⟨hp.dig, hne.symm⟩
  · intro r hr
    rw [scanFracL_frac (ends_ok hp hr)]
    exact ⟨rfl, scanExp_ends true hr⟩
  · exact convert_fixed x.signbit a _ _ rfl hi

/-- The texts of the two locales, field by field. -/
theorem frel_fixed (z : List Nat) (p s : Char) (hp : PunctOk p) (hs : PunctOk s) (hne : s ≠ p) (g : List Char)
    (hg : AllWs g) (t : Ty) (x : t.D F64) (hx : ∀ c ∈ comps t x, c.Finite) (b a : Nat) (ha : a ≤ 306) :
    FRel z p s (g.intercalate ((blades t x).map (fixedBladeG z p s b a)))
      (g.intercalate ((blades t x).map (fixedBlade b a))) := by
  simp only [show fixedBlade b a = _ from funext (fixedBlade_eq b a),
    show fixedBladeG z p s b a = _ from funext (fixedBladeG_eq z p s b a)]
  refine frel_object g [] t x hg allWs_nil (fun _ => allWs_cons_blanks _) (fun _ => allWs_cons_blanks _)
    (fun _ => by simp) (fun _ => by simp) (fun _ => by simp) (fun _ => by simp) fun c hc => ?_
  obtain ⟨h1, h2, _⟩ := fixedVal_spec c (hx c hc) a ha
  have hi : ∀ k, fixedVal a c ≠ inf k := by rintro k hk; rw [hk] at h1; simp [F64.Finite] at h1
  refine ⟨?_, num_ne_nil _ (by decide) _ _, fixedVal a c, numTextG_reads z p s hp hs hne c (hx c hc) a hi,
    fixed_reads c (hx c hc) a hi⟩
  rw [numTextG, bodyTextG_fixed z p s a c (hx c hc)]
  have := natDigits_ne_nil ((rhe (|c.value| * 10 ^ a)).toNat / 10 ^ a)
  generalize natDigits ((rhe (|c.value| * 10 ^ a)).toNat / 10 ^ a) = l at this
  rcases l with _ | ⟨u, l⟩
  · exact absurd rfl this
  · obtain ⟨tl, e⟩ := groupDigits_cons z s u l
    rw [e]; simp

theorem frel_finish {z : List Nat} {p s : Char} {T T' : List Char} (h : FRel z p s T T') {t : Ty} {old y : t.D F64}
    (hy : extractTy t ⟨T', false, false⟩ old = .ok (⟨[], true, false⟩, y)) :
    extractTyG z p s t ⟨T, false, false⟩ old = .ok (⟨[], true, false⟩, y) := by
  have h := ty_rel (frel_step z p s) t old ⟨T, false, false⟩ ⟨T', false, false⟩ ⟨h, rfl, rfl⟩
  rw [hy] at h
  rcases hu : extractTyG z p s t ⟨T, false, false⟩ old with _ | ⟨⟨u1, u2, u3⟩, v⟩
  · rw [hu] at h; exact h.elim
  · rw [hu] at h
    obtain ⟨⟨k1, k2, k3⟩, k4⟩ := h
    dsimp only at k1 k2 k3 k4
    have := k1.empty
    rw [List.isEmpty_nil, List.isEmpty_iff] at this
    subst this; subst k2; subst k3; subst k4
    rfl

theorem fixed_readback_G (z : List Nat) (p s : Char) (hp : PunctOk p) (hs : PunctOk s) (hne : s ≠ p) (g : List Char)
    (hg : AllWs g) (t : Ty) (ht : t ≠ .dub) (x old : t.D F64) (hx : ∀ c ∈ comps t x, c.Finite)
    (b a : Nat) (ha : a ≤ 306) :
    ∃ y, extractTyG z p s t ⟨g.intercalate ((blades t x).map (fixedBladeG z p s b a)), false, false⟩ old =
        .ok (⟨[], true, false⟩, y) ∧
      List.Forall₂ (fun c c' => isValidDub c' = true ∧ |c'.value - c.value| ≤ 1 / 10 ^ a)
        (comps t x) (comps t y) := by
  obtain ⟨y, h1, h2⟩ := fixed_readback g hg t ht x old hx b a ha
  refine ⟨y, ?_, h2⟩
  exact frel_finish (frel_fixed z p s hp hs hne g hg t x hx b a ha) h1

/-- `io::fixed` and `operator<<` of an object: the texts of the numbers put together as
in the "C" locale. -/
theorem obj_fixed_object (z : List Nat) (p s : Char) (t : Ty) (x : t.D F64) (b a : Nat) :
    (fixedTyG z p s b a t x = if t = .cplx ∨ t = .dplx then none
      else some ([' ', ' '].intercalate ((blades t x).map fun l =>
        (l.map fun c => fixedDubG z p s c b a).flatten))) ∧
    (t ≠ .dub → ∀ os : OStream, os.width = 0 → (insertTyG z p s t os x).out = os.out ++
      [' '].intercalate ((blades t x).map fun l => (l.map fun c => fixedDubG z p s c 3 6).flatten)) := by
  constructor
  · cases t <;>
      simp [fixedTyG, fixedArrG_eq, catStr_eq, blades, A1.toList, A3.toList, intercalate_cons, fixedBladeG]
  · intro ht os hw
    have hw' : ∀ (o : OStream) (w : List Char), (o.putStr w).width = 0 := fun _ _ => rfl
    have hp : ∀ (o : OStream) (w : List Char), o.width = 0 → (o.putStr w).out = o.out ++ w := by
      intro o w h; rw [putStr_zero h]
    cases t <;> first | exact absurd rfl ht | skip
    all_goals
      simp [insertTyG, putArrG_eq, hp, hw, hw', blades, A1.toList, A3.toList, intercalate_cons, fixedBladeG]

/-- At most one digit in front: nothing is grouped. -/
theorem bodyTextG_short (z : List Nat) (p s : Char) (ff : FloatField) (n : Nat) (x : F64)
    (h : ((bodyText ff n x).takeWhile isDig).length ≤ 1) :
    bodyTextG z p s ff n x = (bodyText ff n x).map (point p) := by
  have hd : AllDig ((bodyText ff n x).takeWhile isDig) := 
    List.all_eq_true.1 List.all_takeWhile
  have hg : groupDigits z s ((bodyText ff n x).takeWhile isDig) = (bodyText ff n x).takeWhile isDig := by
    generalize (bodyText ff n x).takeWhile isDig = l at h
    rcases l with _ | ⟨c, _ | ⟨d, l⟩⟩
    · rfl
    · rw [groupDigits]
      show (groupRev z s 0 0 [c]).reverse = [c]
      rw [groupRev, if_neg (by rintro ⟨e, hl⟩; have := hl.1; omega)]; rfl
    · simp at h
  unfold bodyTextG
  dsimp only
  rw [hg]
  conv_rhs => rw [← List.takeWhile_append_dropWhile (p := isDig) (l := bodyText ff n x), List.map_append,
    map_point_dig p hd]

theorem putDubZ_sci (z : List Nat) (p s : Char) (os : OStream) (x : F64) (h : os.ff = .scientific) :
    os.putDubZ z p s x = os.putDubL p x := by
  unfold OStream.putDubZ OStream.putDubL
  rw [h, bodyTextG_short z p s _ _ _ (sci_one_digit _ _)]
  rfl

theorem enoteLoopG_eq (z : List Nat) (p s : Char) (d : Nat) (xs : List F64) (n : Nat) (os : OStream) :
    enoteLoopG z p s d n xs os = enoteLoopL p d n xs os := by
  induction xs generalizing n os with
  | nil => rfl
  | cons x xs ih =>
    rw [enoteLoopG, enoteLoopL, ih, putDubZ_sci z p s _ x rfl]

/-- `io::enote` writes the same text in a locale with grouping as in one without, for
every type, every object and every number of decimals. -/
theorem obj_enote_text (z : List Nat) (p s : Char) (d : Nat) (t : Ty) (x : t.D F64) :
    enoteTyG z p s d t x = enoteTyL p d t x := by
  have h1 : ∀ y, enoteDubG z p s y d = enoteDubL p y d := fun y => by
    unfold enoteDubG enoteDubL
    rw [putDubZ_sci z p s _ y rfl]
  have h2 : ∀ l, enoteArrG z p s l d = enoteArrL p l d := fun l => by
    unfold enoteArrG enoteArrL
    rw [enoteLoopG_eq]
  cases t <;> simp only [enoteTyG, enoteTyL, h1, h2]

theorem scanNumG_plain (z : List Nat) (p : Char) {s : Char} (cs : List Char) (h : s ∉ cs) :
    scanNumG z p s cs = ((scanNumL p cs).1, true, (scanNumL p cs).2) := by
  have h' : s ∉ (scanSign cs).2 := fun hm => h ((scanSign_suffix cs).subset hm)
  unfold scanNumG scanNumL
  dsimp only
  rw [scanGroups_plain _ h']
  rfl

theorem extractDubG_plain (z : List Nat) (p : Char) {s : Char} (st : IStream) (h : s ∉ st.rest) (old : F64) :
    extractDubG z p s st old = extractDubL p st old := by
  have h' : s ∉ st.rest.dropWhile isWs := fun hm => h ((List.dropWhile_suffix isWs).subset hm)
  unfold extractDubG extractDubL
  dsimp only
  rw [scanNumG_plain z p _ h']
  simp

/-- Texts without a separator. -/
theorem plain_step (z : List Nat) {p : Char} (hp : PunctOk p) (s : Char) :
    InStep (fun T T' => T' = T.map (swp p) ∧ s ∉ T) z p s := by
  rintro ⟨T, e, f⟩ ⟨T', e', f'⟩ old ⟨⟨h1, h0⟩, h2, h3⟩
  dsimp only at h1 h2 h3 h0
  subst h1; subst h2; subst h3
  rw [extractDubG_plain z p ⟨T, e, f⟩ h0, extractDub_swp hp]
  have hsuf := extractDub_suffix ⟨T.map (swp p), e, f⟩ old
  refine ⟨⟨⟨?_, ?_⟩, rfl, rfl⟩, rfl⟩
  · exact (map_swp_swp p _).symm
  · intro hm
    have hm' : s ∈ (extractDub ⟨T.map (swp p), e, f⟩ old).1.rest.map (swp p) := hm
    obtain ⟨c, hc, rfl⟩ := List.mem_map.1 hm'
    have := hsuf.subset hc
    obtain ⟨d, hd, rfl⟩ := List.mem_map.1 this
    rw [swp_swp] at h0
    exact h0 hd

/-- A text in which the separator does not occur is read as in the locale without
grouping. -/
theorem obj_no_separator (z : List Nat) (p s : Char) (hp : PunctOk p) (t : Ty) (txt : List Char) (hs : s ∉ txt)
    (eof fail : Bool) (old : t.D F64) :
    extractTyG z p s t ⟨txt, eof, fail⟩ old = extractTyL p t ⟨txt, eof, fail⟩ old := by
  have h := ty_rel (plain_step z hp s) t old ⟨txt, eof, fail⟩ (IStream.swp p ⟨txt, eof, fail⟩)
    ⟨⟨rfl, hs⟩, rfl, rfl⟩
  rw [ty_swp hp]
  rcases hu : extractTyG z p s t ⟨txt, eof, fail⟩ old with _ | ⟨a, y⟩ <;>
    rcases hv : extractTy t (IStream.swp p ⟨txt, eof, fail⟩) old with _ | ⟨b, v⟩
  · rfl
  · rw [hu, hv] at h; exact h.elim
  · rw [hu, hv] at h; exact h.elim
  · rw [hu, hv] at h
    obtain ⟨⟨⟨k1, -⟩, k2, k3⟩, k4⟩ := h
    dsimp only at k1 k2 k3 k4
    subst k4
    have : a = b.swp p := by
      rcases a with ⟨a1, a2, a3⟩
      rcases b with ⟨b1, b2, b3⟩
      dsimp only at k1 k2 k3
      subst k1; subst k2; subst k3
      rw [IStream.swp, map_swp_swp]
    subst this
    rfl

/-- Writing with `io::enote` and 16 or more decimals and reading back under the same
decimal point and separator gives the same object. -/
theorem obj_round_trip (z : List Nat) (p s : Char) (hp : PunctOk p) (hs : PunctOk s) (hne : s ≠ p) (t : Ty)
    (x old : t.D F64) (hx : ∀ c ∈ comps t x, isValidDub c = true) (d : Nat) (hd : 16 ≤ d)
    (txt : List Char) (h : enoteTyG z p s d t x = some txt) :
    extractTyG z p s t ⟨txt, false, false⟩ old = .ok (⟨[], true, false⟩, x) := by
  rw [obj_enote_text] at h
  rw [obj_no_separator z p s hp t txt ?_, C83_round_trip p hp t x old hx d hd txt h]
  rw [(C83_text p p t x d 0 0).1, Option.map_eq_some_iff] at h
  obtain ⟨T, h1, rfl⟩ := h
  have hc := numCh_enote t x (fun c hc => valid_finite (hx c hc)) d T h1
  intro hm
  obtain ⟨c, hcT, hcs⟩ := List.mem_map.1 hm
  unfold point at hcs
  split at hcs
  · exact hne hcs.symm
  · rename_i hdot
    exact (hc c hcT).ne hs hdot hcs

/-- What `operator<<` writes reads back under the same decimal point and separator to
within `10^-6`, however many separators the text has. -/
theorem obj_insert (z : List Nat) (p s : Char) (hp : PunctOk p) (hs : PunctOk s) (hne : s ≠ p) (t : Ty) (ht : t ≠ .dub)
    (x old : t.D F64) (hx : ∀ c ∈ comps t x, c.Finite) :
    ∃ y, extractTyG z p s t ⟨(insertTyG z p s t OStream.fresh x).out, false, false⟩ old =
        .ok (⟨[], true, false⟩, y) ∧
      List.Forall₂ (fun c c' => isValidDub c' = true ∧ |c'.value - c.value| ≤ 1 / 10 ^ 6)
        (comps t x) (comps t y) := by
  rw [(obj_fixed_object z p s t x 3 6).2 ht OStream.fresh rfl]
  exact fixed_readback_G z p s hp hs hne [' '] (allWs_blanks 1) t ht x old hx 3 6 (by norm_num)

/-- The same for `io::fixed` with `a` decimals. -/
theorem obj_fixed (z : List Nat) (p s : Char) (hp : PunctOk p) (hs : PunctOk s) (hne : s ≠ p) (t : Ty) (ht : t ≠ .dub)
    (x old : t.D F64) (hx : ∀ c ∈ comps t x, c.Finite) (b a : Nat) (ha : a ≤ 306) (txt : List Char)
    (h : fixedTyG z p s b a t x = some txt) :
    ∃ y, extractTyG z p s t ⟨txt, false, false⟩ old = .ok (⟨[], true, false⟩, y) ∧
      List.Forall₂ (fun c c' => isValidDub c' = true ∧ |c'.value - c.value| ≤ 1 / 10 ^ a)
        (comps t x) (comps t y) := by
  rw [(obj_fixed_object z p s t x b a).1] at h
  split at h
  · cases h
  · injection h with h
    subst h
    exact fixed_readback_G z p s hp hs hne [' ', ' '] (allWs_blanks 2) t ht x old hx b a ha

theorem obj_groups (z : List Nat) (p s : Char) (hp : PunctOk p) (hs : PunctOk s) (ws first : List Char)
    (rest : List (List Char)) (r : List Char) (hw : AllWs ws) (hr : Ends r) (hf : AllDig first)
    (h1 : 1 ≤ first.length) (hne : rest ≠ []) (hd : ∀ b ∈ rest, AllDig b ∧ 1 ≤ b.length)
    (hv : ∀ k, decToF64 false (digitsVal (first ++ rest.flatten)) 0 ≠ inf k) (old : F64) :
    ∃ st, extractDubG z p s ⟨ws ++ ([s].intercalate (first :: rest) ++ r), false, false⟩ old =
        (st, decToF64 false (digitsVal (first ++ rest.flatten)) 0) ∧ st.rest = r ∧
      (st.fail = false ↔ sizesOk z 0 ((first :: rest).reverse.map List.length) = true) := by
  obtain ⟨c, cs, rfl⟩ : ∃ c cs, first = c :: cs := by
    rcases first with _ | ⟨c, cs⟩
    · simp at h1
    · exact ⟨c, cs, rfl⟩
  have hg := scanGroups_blocks (s := s) hs.dig (ends_ok hs hr) rest (c :: cs) hf h1 hd
  have hc : isDig c = true := hf c (by simp)
  obtain ⟨d1, d2, -, -, -, d6⟩ := dig_facts hc
  have e0 : ∃ tl, [s].intercalate ((c :: cs) :: rest) ++ r = c :: tl := by
    rw [intercalate_cons]; exact ⟨_, rfl⟩
  obtain ⟨tl, e0⟩ := e0
  have hsg : scanSign ([s].intercalate ((c :: cs) :: rest) ++ r) =
      (false, [s].intercalate ((c :: cs) :: rest) ++ r) := by
    rw [e0, scanSign, if_neg d1, if_neg d2]
  have hdrop : (ws ++ ([s].intercalate ((c :: cs) :: rest) ++ r)).dropWhile isWs =
      [s].intercalate ((c :: cs) :: rest) ++ r := by
    rw [e0, dropWhile_ws hw d6]
  have hsn : scanNumG z p s ([s].intercalate ((c :: cs) :: rest) ++ r) =
      (⟨false, (c :: cs) ++ rest.flatten, [], none⟩,
        groupsOk z ((c :: cs).length :: rest.map List.length), r) := by
    unfold scanNumG
    rw [hsg]
    dsimp only
    rw [hg]
    dsimp only
    rw [if_neg (by decide), scanFracL_ends hp hr]
    dsimp only
    rw [scanExp_ends _ hr]
  have hconv : NumTok.convert ⟨false, (c :: cs) ++ rest.flatten, [], none⟩ =
      (decToF64 false (digitsVal ((c :: cs) ++ rest.flatten)) 0, false) := by
    unfold NumTok.convert
    rw [if_neg (by simp)]
    dsimp only
    rw [List.append_nil, List.length_nil, Nat.cast_zero, sub_zero]
    rcases hx : decToF64 false (digitsVal ((c :: cs) ++ rest.flatten)) 0 with _ | k | k | ⟨v, hv'⟩
    · rfl
    · exact absurd hx (hv k)
    · rfl
    · rfl
  refine ⟨⟨r, r.isEmpty, !groupsOk z ((c :: cs).length :: rest.map List.length)⟩, ?_, rfl, ?_⟩
  · unfold extractDubG
    dsimp only
    rw [if_neg (by simp), hdrop, if_neg (by rw [e0]; simp), hsn]
    dsimp only
    rw [hconv, Bool.false_or]
  · rcases rest with _ | ⟨b, bs⟩
    · exact absurd rfl hne
    · dsimp only
      rw [Bool.not_eq_false', List.map_reverse]
      exact Iff.rfl

/-- `io::fixed` of a finite number: as in a locale without grouping, with the digits
before the decimal point in groups of three; the field is not made wider for the separators. -/
theorem obj_fixed_number (z : List Nat) (p s : Char) (x : F64) (hx : x.Finite) (b a : Nat) :
    ∃ ip fr G, numText .fixed a x = signText x ++ (ip ++ fr) ∧ AllDig ip ∧ ip ≠ [] ∧
      (∀ c ∈ fr.head?, c = '.') ∧ IsGrouped z s ip G ∧
      fixedDubG z p s x b a =
        ' ' :: field (1 + b + 1 + a) (signText x ++ (G ++ fr.map (point p))) := by
  refine ⟨_, fracText a ((rhe (|x.value| * 10 ^ a)).toNat % 10 ^ a), _, ?_, natDigits_dig _,
    natDigits_ne_nil _, ?_,
    isGrouped_spec z s _ (natDigits_ne_nil ((rhe (|x.value| * 10 ^ a)).toNat / 10 ^ a)), ?_⟩
  · rw [numText, bodyText_fixed a x hx, mantText]
  · intro c hc
    unfold fracText at hc
    split at hc <;> simp at hc
    exact hc.symm
  · rw [fixedDubG_eq, numTextG, bodyTextG_fixed z p s a x hx]

end Engabra.Sizes
