import Verif.Props.C30_Format

/-! # C31: text written by the library read back by the library -/

namespace Engabra

open F64 (nan inf zero fin IsFin Finite rnVal rhe Rep)

/-! ## Reading a sequence of fields -/

/-- `txt` reads as `x`: preceded by white space and followed by white space or the end of the
text, it is consumed exactly and gives `x`. -/
def ReadsAs (txt : List Char) (x : F64) : Prop :=
  ∀ ws rest old, AllWs ws → Ends rest →
    extractDub ⟨ws ++ txt ++ rest, false, false⟩ old = (⟨rest, rest.isEmpty, false⟩, x)

/-- Text of a list of fields (white space, number). -/
def joinF (fs : List (List Char × List Char)) : List Char := fs.flatMap fun f => f.1 ++ f.2

theorem joinF_cons (f : List Char × List Char) (fs : List (List Char × List Char)) :
    joinF (f :: fs) = f.1 ++ f.2 ++ joinF fs := by
  rw [joinF, List.flatMap_cons]; rfl

theorem joinF_append (a b : List (List Char × List Char)) : joinF (a ++ b) = joinF a ++ joinF b := by
  rw [joinF, List.flatMap_append]; rfl

theorem ends_joinF (fs : List (List Char × List Char)) (more : List Char) (hm : Ends more)
    (hw : ∀ f ∈ fs, AllWs f.1) (hs : ∀ f ∈ fs, f.1 ≠ []) : Ends (joinF fs ++ more) := by
  rcases fs with _ | ⟨f, fs⟩
  · exact hm
  · rw [joinF_cons]
    have h1 := hw f List.mem_cons_self
    have h2 := hs f List.mem_cons_self
    rcases hf : f.1 with _ | ⟨c, cs⟩
    · exact absurd hf h2
    · intro d hd
      simp at hd
      subst hd
      exact h1 c (by rw [hf]; simp)

theorem readAll_fields (fs : List (List Char × List Char)) (vals : List F64) (more : List Char)
    (hm : Ends more) (hne : fs ≠ [])
    (hw : ∀ f ∈ fs, AllWs f.1) (hs : ∀ f ∈ fs.tail, f.1 ≠ [])
    (hr : List.Forall₂ (fun f v => ReadsAs f.2 v ∧ isValidDub v = true) fs vals) :
    readAll fs.length ⟨joinF fs ++ more, false, false⟩ = (⟨more, more.isEmpty, false⟩, some vals) := by
  induction fs generalizing vals with
  | nil => exact absurd rfl hne
  | cons f fs ih =>
    rcases hr with _ | ⟨⟨hread, hval⟩, hr⟩
    rename_i v vals
    have hE : Ends (joinF fs ++ more) := ends_joinF fs more hm
      (fun g hg => hw g (List.mem_cons_of_mem _ hg)) (fun g hg => hs g hg)
    have h1 := hread f.1 (joinF fs ++ more) nan (hw f List.mem_cons_self) hE
    rw [List.length_cons, readAll, joinF_cons, List.append_assoc (f.1 ++ f.2), h1]
    dsimp only
    rw [if_pos ⟨rfl, hval⟩]
    rcases fs with _ | ⟨g, fs⟩
    · rcases hr
      simp [readAll, joinF]
    · have hemp : (joinF (g :: fs) ++ more).isEmpty = false := by
        have := hs g (by simp)
        rw [List.isEmpty_eq_false_iff, joinF_cons]
        simp [this]
      rw [hemp, ih vals (by simp) (fun k hk => hw k (List.mem_cons_of_mem _ hk))
        (fun k hk => hs k (List.mem_of_mem_tail hk)) hr]
      rfl

theorem readGroups_fields (gs : List (List (List Char × List Char))) (vals : List (List F64))
    (more : List Char) (hm : Ends more)
    (hne : gs ≠ []) (hg : ∀ g ∈ gs, g ≠ []) (hw : ∀ f ∈ gs.flatten, AllWs f.1)
    (hs : ∀ f ∈ gs.flatten.tail, f.1 ≠ [])
    (hr : List.Forall₂ (List.Forall₂ fun f v => ReadsAs f.2 v ∧ isValidDub v = true) gs vals) :
    readGroups (gs.map List.length) ⟨joinF gs.flatten ++ more, false, false⟩ =
      (⟨more, more.isEmpty, false⟩, vals) := by
  induction gs generalizing vals with
  | nil => exact absurd rfl hne
  | cons g gs ih =>
    rcases hr with _ | ⟨hr1, hr⟩
    rename_i v vals
    have hg1 := hg g List.mem_cons_self
    rw [List.flatten_cons] at hw hs ⊢
    have htl : ∀ f ∈ gs.flatten, f.1 ≠ [] := by
      intro f hf
      refine hs f ?_
      rcases g with _ | ⟨a, g⟩
      · exact absurd rfl hg1
      · rw [List.cons_append, List.tail_cons]; exact List.mem_append_right _ hf
    have hE : Ends (joinF gs.flatten ++ more) := ends_joinF gs.flatten more hm
        (fun f hf => hw f (List.mem_append_right _ hf)) htl
    have h1 := readAll_fields g v (joinF gs.flatten ++ more) hE hg1
      (fun f hf => hw f (List.mem_append_left _ hf))
      (fun f hf => hs f (by
        rcases g with _ | ⟨a, g⟩
        · exact absurd rfl hg1
        · rw [List.cons_append, List.tail_cons]; exact List.mem_append_left _ hf)) hr1
    rw [joinF_append, List.map_cons, readGroups, List.append_assoc, h1]
    dsimp only
    rcases gs with _ | ⟨k, gs⟩
    · rcases hr
      simp [readGroups, joinF]
    · have hemp : (joinF (k :: gs).flatten ++ more).isEmpty = false := by
        have hk := hg k (by simp)
        rcases k with _ | ⟨a, k⟩
        · exact absurd rfl hk
        · rw [List.isEmpty_eq_false_iff, List.flatten_cons, List.cons_append, joinF_cons]
          have := htl a (by simp)
          simp [this]
      rw [hemp, ih vals (by simp) (fun l hl => hg l (List.mem_cons_of_mem _ hl))
        (fun f hf => hw f (List.mem_append_right _ hf))
        (fun f hf => htl f (List.mem_of_mem_tail hf)) hr]
      rfl

/-- Leading white space is skipped. -/
theorem extractDub_ws {ws : List Char} (hw : AllWs ws) (r : List Char) (old : F64) :
    extractDub ⟨ws ++ r, false, false⟩ old = extractDub ⟨r, false, false⟩ old := by
  unfold extractDub
  dsimp only
  rw [List.dropWhile_append_of_pos hw]
  rfl

theorem readGroups_ws {ws : List Char} (hw : AllWs ws) (n : Nat) (ns : List Nat) (r : List Char) :
    readGroups ((n + 1) :: ns) ⟨ws ++ r, false, false⟩ =
      readGroups ((n + 1) :: ns) ⟨r, false, false⟩ := by
  have : readAll (n + 1) ⟨ws ++ r, false, false⟩ = readAll (n + 1) ⟨r, false, false⟩ := by
    rw [readAll, readAll, extractDub_ws hw]
  rw [readGroups, readGroups, this]

theorem blades_inj (t : Ty) (x y : t.D F64) (h : blades t x = blades t y) : x = y := by
  cases t
  case dub => simpa [blades] using h
  all_goals
    simp only [blades, List.cons.injEq, and_true, and_assoc] at h
    ext <;> simp_all

theorem blades_map (f : F64 → F64) (t : Ty) (x : t.D F64) :
    blades t (mapTy f t x) = (blades t x).map (List.map f) := by
  cases t <;> rfl

theorem bladeFields_length (k e : List Char) (pad num : F64 → List Char) (b : List F64) :
    (bladeFields k e pad num b).length = b.length := by
  rcases b with _ | ⟨x, xs⟩ <;> simp [bladeFields]

theorem fieldsOf_length (g e : List Char) (pad num : F64 → List Char) (bs : List (List F64)) :
    (fieldsOf g e pad num bs).map List.length = bs.map List.length := by
  rcases bs with _ | ⟨b, bs⟩
  · rfl
  · simp [fieldsOf, bladeFields_length, Function.comp_def]

theorem bladeFields_reads (k e : List Char) (pad num : F64 → List Char) (val : F64 → F64)
    (b : List F64) (h : ∀ c ∈ b, ReadsAs (num c) (val c) ∧ isValidDub (val c) = true) :
    List.Forall₂ (fun f v => ReadsAs f.2 v ∧ isValidDub v = true) (bladeFields k e pad num b)
      (b.map val) := by
  rcases b with _ | ⟨x, xs⟩
  · exact List.Forall₂.nil
  · refine List.Forall₂.cons (h x List.mem_cons_self) ?_
    rw [List.forall₂_map_left_iff, List.forall₂_map_right_iff]
    exact List.forall₂_same.2 (fun c hc => h c (List.mem_cons_of_mem _ hc))

theorem fieldsOf_reads (g e : List Char) (pad num : F64 → List Char) (val : F64 → F64)
    (bs : List (List F64)) (h : ∀ b ∈ bs, ∀ c ∈ b, ReadsAs (num c) (val c) ∧ isValidDub (val c) = true) :
    List.Forall₂ (List.Forall₂ fun f v => ReadsAs f.2 v ∧ isValidDub v = true)
      (fieldsOf g e pad num bs) (bs.map (List.map val)) := by
  rcases bs with _ | ⟨b, bs⟩
  · exact List.Forall₂.nil
  · refine List.Forall₂.cons (bladeFields_reads _ _ _ _ _ _ (h b List.mem_cons_self)) ?_
    rw [List.forall₂_map_left_iff, List.forall₂_map_right_iff]
    exact List.forall₂_same.2 (fun c hc =>
      bladeFields_reads _ _ _ _ _ _ (h c (List.mem_cons_of_mem _ hc)))

/-- Reading back the text of an object: every component `c` becomes `val c`.  The text may be
preceded by white space and followed by a terminator and anything else, which is left in the
stream. -/
theorem readback_more (g e : List Char) (pad num : F64 → List Char) (val : F64 → F64) (t : Ty)
    (ht : t ≠ .dub) (x old : t.D F64)
    (hg : AllWs g) (he : AllWs e) (hp : ∀ x, AllWs (pad x)) (hg' : ∀ x, g ++ pad x ≠ [])
    (he' : ∀ x, e ++ pad x ≠ [])
    (h : ∀ c ∈ comps t x, ReadsAs (num c) (val c) ∧ isValidDub (val c) = true)
    (ws more : List Char) (hws : AllWs ws) (hm : Ends more) :
    extractTy t ⟨ws ++ (g.intercalate ((blades t x).map fun b =>
        e.intercalate (b.map fun x => pad x ++ num x)) ++ more), false, false⟩ old =
      .ok (⟨more, more.isEmpty, false⟩, mapTy val t x) := by
  have h' : ∀ b ∈ blades t x, ∀ c ∈ b, ReadsAs (num c) (val c) ∧ isValidDub (val c) = true :=
    fun b hb c hc => h c (by rw [← blades_join, List.mem_flatten]; exact ⟨b, hb, hc⟩)
  obtain ⟨s', y, h1, h2⟩ := C29_blades t ht
    ⟨ws ++ (g.intercalate ((blades t x).map fun b =>
        e.intercalate (b.map fun x => pad x ++ num x)) ++ more), false, false⟩ old
  have hall := fieldsOf_forall g e pad num (blades t x) hg he (fun _ => True)
    (fun _ _ c _ => ⟨hp c, trivial⟩)
  have hmain := readGroups_fields (fieldsOf g e pad num (blades t x)) ((blades t x).map (List.map val))
    more hm
    (by cases t <;> simp [blades, fieldsOf])
    (by
      intro l hl hnil
      have hlen := fieldsOf_length g e pad num (blades t x)
      have : l.length ∈ (blades t x).map List.length := by
        rw [← hlen]; exact List.mem_map_of_mem hl
      rw [hnil, List.length_nil] at this
      obtain ⟨b, hb, hb0⟩ := List.mem_map.1 this
      exact blades_ne_nil t x b hb (List.length_eq_zero_iff.1 hb0))
    (fun f hf => (hall f hf).1)
    (fieldsOf_sep g e pad num _ (blades_ne_nil t x) hg' he')
    (fieldsOf_reads g e pad num val _ h')
  rw [joinF, fieldsOf_text g e pad num _ (blades_ne_nil t x), fieldsOf_length, blades_sizes] at hmain
  have hskip : ∀ r, readGroups (bladeSizes t) ⟨ws ++ r, false, false⟩ =
      readGroups (bladeSizes t) ⟨r, false, false⟩ := by
    intro r; cases t <;> exact readGroups_ws hws _ _ _
  rw [hskip, hmain] at h2
  have k1 := congrArg Prod.fst h2
  have k2 := congrArg Prod.snd h2
  dsimp only at k1 k2
  rw [← blades_map] at k2
  rw [h1, k1, blades_inj t _ _ k2]

theorem readback (g e : List Char) (pad num : F64 → List Char) (val : F64 → F64) (t : Ty)
    (ht : t ≠ .dub) (x old : t.D F64)
    (hg : AllWs g) (he : AllWs e) (hp : ∀ x, AllWs (pad x)) (hg' : ∀ x, g ++ pad x ≠ [])
    (he' : ∀ x, e ++ pad x ≠ [])
    (h : ∀ c ∈ comps t x, ReadsAs (num c) (val c) ∧ isValidDub (val c) = true) :
    extractTy t ⟨g.intercalate ((blades t x).map fun b => e.intercalate (b.map fun x => pad x ++ num x)),
      false, false⟩ old = .ok (⟨[], true, false⟩, mapTy val t x) := by
  have := readback_more g e pad num val t ht x old hg he hp hg' he' h [] [] (by simp [AllWs]) ends_nil
  rwa [List.nil_append, List.append_nil] at this

/-! ## E-notation -/

/-- What the `d`-digit e-notation of `x` denotes, as a double. -/
def sciVal (d : Nat) (x : F64) : F64 :=
  if x.value = 0 then zero x.signbit
  else decToF64 x.signbit (sciParts d |x.value|).1 ((sciParts d |x.value|).2 - d)

theorem signText_eq (x : F64) : signText x = sgn x.signbit := rfl

theorem enote_reads (x : F64) (hx : x.Finite) (d : Nat) (hi : ∀ s, sciVal d x ≠ inf s) :
    ReadsAs (numText .scientific d x) (sciVal d x) := by
  intro ws rest old hw hr
  cases x with
  | nan => exact absurd hx (by simp [F64.Finite])
  | inf s => exact absurd hx (by simp [F64.Finite])
  | zero s =>
    have := extract_sci hw hr s d 0 0 (zero s) old (by simp [decToF64]) (by simp)
    simpa [numText, signText_eq, bodyText, magText, sciText, sciVal, F64.value, F64.signbit] using this
  | fin v h =>
    have hv : |v| ≠ 0 := abs_ne_zero.2 h.1
    have := extract_sci hw hr (decide (v < 0)) d (sciParts d |v|).1 (sciParts d |v|).2
      (sciVal d (fin v h)) old (by rw [sciVal, if_neg (show ¬ (fin v h).value = 0 from h.1)]; rfl) hi
    simpa [numText, signText_eq, bodyText, magText, sciText, hv, F64.signbit] using this

theorem sgn_mul_abs (v : ℚ) (w : ℚ) (k : ℚ) (hk : |w - abs v| ≤ k) :
    |(if decide (v < 0) = true then -w else w) - v| ≤ k := by
  by_cases hv : v < 0
  · rw [if_pos (by simpa using hv)]
    rw [abs_of_neg hv] at hk
    have e : -w - v = -(w - -v) := by ring
    rw [e, abs_neg]; exact hk
  · rw [if_neg (by simpa using hv)]
    rw [abs_of_nonneg (not_lt.1 hv)] at hk
    exact hk

/-- The decimal number printed by `%.{d}e`. -/
def sciDec (d : Nat) (v : ℚ) : ℚ :=
  (if decide (v < 0) = true then -((sciParts d |v|).1 : ℚ) else ((sciParts d |v|).1 : ℚ)) *
    (10 : ℚ) ^ ((sciParts d |v|).2 - (d : ℤ))

theorem sciDec_spec (d : Nat) {v : ℚ} (h : v ≠ 0) :
    |sciDec d v - v| ≤ |v| / (2 * 10 ^ d) ∧ sciDec d v ≠ 0 := by
  obtain ⟨h1, h2, h3⟩ := sciParts_spec d (abs_pos.2 h)
  have hpos : (0 : ℚ) < (10 : ℚ) ^ ((sciParts d |v|).2 - (d : ℤ)) := zpow_pos (by norm_num) _
  have hn : 0 < (sciParts d |v|).1 := lt_of_lt_of_le (by positivity) h1
  have hnq : (0 : ℚ) < ((sciParts d |v|).1 : ℚ) := by exact_mod_cast hn
  unfold sciDec
  constructor
  · have := sgn_mul_abs v (((sciParts d |v|).1 : ℚ) * (10 : ℚ) ^ ((sciParts d |v|).2 - (d : ℤ))) _ h3
    rw [ite_mul, neg_mul]
    exact this
  · apply mul_ne_zero _ hpos.ne'
    split
    · exact neg_ne_zero.2 hnq.ne'
    · exact hnq.ne'

theorem sciVal_fin (d : Nat) (v : ℚ) (h : IsFin v) : sciVal d (fin v h) = F64.roundTo (sciDec d v) := by
  rw [sciVal, if_neg (show ¬ (fin v h).value = 0 from h.1), decToF64, if_neg]
  · rfl
  · have := (sciParts_spec d (abs_pos.2 h.1)).1
    have h10 : 0 < 10 ^ d := by positivity
    show (sciParts d |v|).1 ≠ 0
    omega

theorem sciVal_recover (x : F64) (hx : x.Finite) (d : Nat) (hd : 16 ≤ d) : sciVal d x = x := by
  cases x with
  | nan => exact absurd hx (by simp [F64.Finite])
  | inf s => exact absurd hx (by simp [F64.Finite])
  | zero s => simp [sciVal, F64.value, F64.signbit]
  | fin v h =>
    obtain ⟨h1, h2⟩ := sciDec_spec d h.1
    rw [sciVal_fin]
    apply F64.roundTo_of_fin h2 _ h
    apply rnVal_near h.rep h.1
    refine h1.trans ?_
    gcongr
    norm_num

/-- **C31**, one number: for every finite double and every number of decimals from 16 up (17
significant digits), `operator>>` recovers from the text of `io::enote` the very same double,
the sign of zero included. -/
theorem C31_double (x : F64) (hx : x.Finite) (d : Nat) (hd : 16 ≤ d) (old : F64) :
    extractDub ⟨enoteDub x d, false, false⟩ old = (⟨[], true, false⟩, x) := by
  have hv := sciVal_recover x hx d hd
  have := enote_reads x hx d (by rw [hv]; rintro s rfl; simp [F64.Finite] at hx)
    (blanks (7 + d - (numText .scientific d x).length)) [] old (allWs_blanks _) ends_nil
  rw [C30_enote_number, field]
  rw [hv, List.append_nil] at this
  exact this

theorem mapTy_id (f : F64 → F64) (t : Ty) (x : t.D F64) (h : ∀ c ∈ comps t x, f c = c) :
    mapTy f t x = x := by
  apply blades_inj
  rw [blades_map]
  have : ∀ b ∈ blades t x, List.map f b = b := by
    intro b hb
    conv_rhs => rw [← List.map_id b]
    apply List.map_congr_left
    intro c hc
    exact h c (by rw [← blades_join, List.mem_flatten]; exact ⟨b, hb, hc⟩)
  conv_rhs => rw [← List.map_id (blades t x)]
  exact List.map_congr_left this

theorem valid_finite {x : F64} (h : isValidDub x = true) : x.Finite := by
  rcases (C11_double x).1 h with ⟨s, rfl⟩ | ⟨v, hv, rfl, _⟩ <;> simp [F64.Finite]

/-- **C31**, objects: for every type with an `io::enote`, every object whose components are all
valid, and every number of decimals from 16 up: `operator>>` recovers the object bit for bit
from its text, whatever the object read into held before, and leaves the stream good. -/
theorem C31_object (t : Ty) (x old : t.D F64) (hx : ∀ c ∈ comps t x, isValidDub c = true)
    (d : Nat) (hd : 16 ≤ d) (txt : List Char) (h : enoteTy d t x = some txt) :
    extractTy t ⟨txt, false, false⟩ old = .ok (⟨[], true, false⟩, x) := by
  by_cases ht : t = .dub
  · subst ht
    injection h with h
    rw [← h, extractTy, C31_double x (valid_finite (hx x (by simp [comps]))) d hd]
  rw [C30_enote_object] at h
  split at h
  · simp at h
  injection h with h
  rw [← h]
  simp only [show enoteBlade d = _ from funext (enoteBlade_eq d)]
  have hval : ∀ c ∈ comps t x, sciVal d c = c := fun c hc =>
    sciVal_recover c (valid_finite (hx c hc)) d hd
  have := readback [' ', ' '] [' '] (fun x => blanks (7 + d - (numText .scientific d x).length))
    (numText .scientific d) (sciVal d) t ht x old (allWs_blanks 2) (allWs_blanks 1)
    (fun _ => allWs_blanks _) (fun _ => by simp) (fun _ => by simp) (by
      intro c hc
      have hf := valid_finite (hx c hc)
      refine ⟨enote_reads c hf d ?_, by rw [hval c hc]; exact hx c hc⟩
      rw [hval c hc]
      rintro s rfl; simp [F64.Finite] at hf)
  rw [mapTy_id _ t x hval] at this
  exact this

/-- The hypotheses of `C31_object` are met by every type with an `enote`: `zero<T>()`. -/
example (t : Ty) (ht : t ≠ .cplx) (ht' : t ≠ .dplx) :
    (∀ c ∈ comps t (gzeroTy (α := F64) t), isValidDub c = true) ∧
      ∃ txt, enoteTy 16 t (gzeroTy (α := F64) t) = some txt := by
  constructor
  · cases t <;> simp [comps, gzeroTy, gzero, F64.zero_def, isValidDub_zero]
  · rw [C30_enote_object, if_neg (by simp [ht, ht'])]
    exact ⟨_, rfl⟩

/-! ## The default number of decimals -/

theorem rnVal_twice {v w : ℚ} (hv : Rep v) : |rnVal w - v| ≤ 2 * |w - v| := by
  have h1 := F64.rnVal_nearest (K := ℚ) w hv
  simp only [Rat.cast_id] at h1
  have h2 : |rnVal w - v| ≤ |rnVal w - w| + |w - v| := by
    have := abs_add_le (rnVal w - w) (w - v)
    rwa [sub_add_sub_cancel] at this
  have h3 := abs_sub_comm v w
  linarith

/-- **C31**, any number of decimals `d`: the value read back has a relative error of at most
`10^-d` (for numbers up to `2^1023`; above, see `C31_fails_max`). -/
theorem C31_accuracy (v : ℚ) (h : IsFin v) (hv : |v| ≤ 2 ^ 1022) (d : Nat) (old : F64) :
    ∃ y, extractDub ⟨enoteDub (fin v h) d, false, false⟩ old = (⟨[], true, false⟩, y) ∧
      y.Finite ∧ |y.value - v| ≤ |v| / 10 ^ d := by
  obtain ⟨h1, h2⟩ := sciDec_spec d h.1
  have hacc : |rnVal (sciDec d v) - v| ≤ |v| / 10 ^ d := by
    have := rnVal_twice (w := sciDec d v) h.rep
    have e : |v| / 10 ^ d = 2 * (|v| / (2 * 10 ^ d)) := by field_simp
    rw [e]; linarith
  have hbig : |rnVal (sciDec d v)| < 2 ^ 1024 := by
    have h3 : |rnVal (sciDec d v)| ≤ |v| + |v| / 10 ^ d := by
      have := abs_add_le (rnVal (sciDec d v) - v) v
      rw [sub_add_cancel] at this
      linarith
    have h4 : |v| / 10 ^ d ≤ |v| := div_le_self (abs_nonneg _) (one_le_pow₀ (by norm_num))
    have e1 : (2 : ℚ) ^ 1024 = 4 * 2 ^ 1022 := by
      rw [show 1024 = 2 + 1022 from rfl, pow_add]; norm_num only
    rw [e1]
    have hp : (0 : ℚ) < 2 ^ 1022 := pow_pos (by norm_num) _
    clear e1 hacc h1 h2
    generalize (2 : ℚ) ^ 1022 = P at *
    generalize |v| / 10 ^ d = Q at *
    linarith
  have hvalue := F64.roundTo_value (x := sciDec d v) hbig
  have hno : ∀ s, sciVal d (fin v h) ≠ inf s := by
    intro s hs
    rw [sciVal_fin] at hs
    have := hvalue.1
    rw [hs] at this
    simp [F64.Finite] at this
  have := enote_reads (fin v h) (by simp [F64.Finite]) d hno
    (blanks (7 + d - (numText .scientific d (fin v h)).length)) [] old (allWs_blanks _) ends_nil
  rw [List.append_nil] at this
  refine ⟨sciVal d (fin v h), ?_, ?_, ?_⟩
  · rw [C30_enote_number, field]; exact this
  · rw [sciVal_fin]; exact hvalue.1
  · rw [sciVal_fin, hvalue.2]; exact hacc


theorem log10_eq {x : ℚ} {n : ℤ} (h1 : (10 : ℚ) ^ n ≤ x) (h2 : x < (10 : ℚ) ^ (n + 1)) :
    Int.log 10 x = n := by
  have hx : 0 < x := lt_of_lt_of_le (zpow_pos (by norm_num) n) h1
  apply le_antisymm
  · have := (Int.lt_zpow_iff_log_lt (b := 10) (x := n + 1) (by norm_num) hx).1 (by exact_mod_cast h2)
    omega
  · exact (Int.zpow_le_iff_le_log (b := 10) (by norm_num) hx).1 (by exact_mod_cast h1)

theorem isFin_one_eps : IsFin (1 + 1 / 2 ^ 52 : ℚ) := by
  refine ⟨by positivity, 2 ^ 52 + 1, -52, by norm_num, by norm_num, by norm_num, ?_⟩
  norm_num

/-- **C31 is violated at the default precision**: `io::enote` with its default of 15 decimals
(16 significant digits) does not determine the number.  The double next to 1, `1 + 2^-52`,
reads back as `1`. -/
theorem C31_fails_default (old : F64) :
    extractDub ⟨enoteDub (fin (1 + 1 / 2 ^ 52) isFin_one_eps), false, false⟩ old =
        (⟨[], true, false⟩, 1) ∧
      (1 : F64) ≠ fin (1 + 1 / 2 ^ 52) isFin_one_eps := by
  have hlog : Int.log 10 (1 + 1 / 2 ^ 52 : ℚ) = 0 := log10_eq (by norm_num) (by norm_num)
  have hrhe : rhe ((1 + 1 / 2 ^ 52 : ℚ) / (10 : ℚ) ^ (0 - ((15 : ℕ) : ℤ))) = 10 ^ 15 := by
    apply F64.rhe_eq
    left
    rw [show (0 - ((15 : ℕ) : ℤ)) = -((15 : ℕ) : ℤ) by norm_num, zpow_neg, zpow_natCast, abs_lt]
    norm_num
  have hparts : sciParts 15 |(1 + 1 / 2 ^ 52 : ℚ)| = (10 ^ 15, 0) := by
    rw [abs_of_pos (by positivity)]
    unfold sciParts
    dsimp only
    rw [hlog, hrhe, show ((10 ^ 15 : ℤ)).toNat = 10 ^ 15 from rfl, if_neg (by norm_num)]
  have hdec : sciDec 15 (1 + 1 / 2 ^ 52 : ℚ) = 1 := by
    unfold sciDec
    rw [hparts]
    simp only [show decide ((1 + 1 / 2 ^ 52 : ℚ) < 0) = false from by
      rw [decide_eq_false_iff_not]; norm_num]
    norm_num
  have hval : sciVal 15 (fin (1 + 1 / 2 ^ 52) isFin_one_eps) = 1 := by
    rw [sciVal_fin, hdec]; rfl
  constructor
  · have := enote_reads (fin (1 + 1 / 2 ^ 52) isFin_one_eps) (by simp [F64.Finite]) 15
      (by rw [hval, F64.one_eq]; simp)
      (blanks (7 + 15 - (numText .scientific 15 (fin (1 + 1 / 2 ^ 52) isFin_one_eps)).length)) [] old
      (allWs_blanks _) ends_nil
    rw [C30_enote_number, field]
    rw [List.append_nil, hval] at this
    exact this
  · rw [F64.one_eq]
    intro h
    injection h with h
    norm_num at h

/-- A number in e-notation that overflows: the stream fails. -/
theorem extract_overflow {ws rest : List Char} (hw : AllWs ws) (hr : Ends rest) (neg : Bool) (p n : Nat)
    (e : ℤ) (old : F64) (s : Bool) (h : decToF64 neg n (e - p) = inf s) :
    extractDub ⟨ws ++ (sgn neg ++ mantText p n ++ 'e' :: expText e) ++ rest, false, false⟩ old =
      (⟨rest, rest.isEmpty, true⟩, maxDub s) := by
  have hconv : NumTok.convert ⟨neg, natDigits (n / 10 ^ p), fixedDigits p (n % 10 ^ p),
        some (decide (e < 0), expDigits e)⟩ = (maxDub s, true) := by
    unfold NumTok.convert
    rw [if_neg (fun h => natDigits_ne_nil _ h.1)]
    have hne := expDigits_ne_nil e
    have hv := digitsVal_expDigits e
    generalize expDigits e = ds at hne hv
    rcases ds with _ | ⟨d, ds⟩
    · exact absurd rfl hne
    dsimp only
    have hexp : (if decide (e < 0) = true then -(digitsVal (d :: ds) : ℤ) else digitsVal (d :: ds)) = e := by
      rw [hv]
      by_cases he : e < 0
      · rw [if_pos (by simpa using he)]; omega
      · rw [if_neg (by simpa using he)]; omega
    rw [mant_val, hexp, fixedDigits_length, h]
  have hscan := scanNum_sci neg p n e (ends_not_dig hr)
  obtain ⟨c, cs, hcs, hcw⟩ := sgn_mant_cons neg p n ('e' :: expText e ++ rest)
  have hcs' : sgn neg ++ mantText p n ++ 'e' :: expText e ++ rest = c :: cs := by
    rw [← hcs]; simp
  have hdrop : (ws ++ (sgn neg ++ mantText p n ++ 'e' :: expText e) ++ rest).dropWhile isWs =
      sgn neg ++ mantText p n ++ 'e' :: expText e ++ rest := by
    rw [List.append_assoc, hcs', dropWhile_ws hw hcw]
  have hne : sgn neg ++ mantText p n ++ 'e' :: expText e ++ rest ≠ [] := by rw [hcs']; simp
  unfold extractDub
  dsimp only
  rw [if_neg (by simp), hdrop, if_neg hne, hscan]
  dsimp only
  rw [hconv]

/-- The largest finite double. -/
def maxVal : ℚ := (2 ^ 53 - 1) * (2 : ℚ) ^ (971 : ℤ)

theorem isFin_max : IsFin maxVal := by
  refine ⟨mul_ne_zero (by norm_num) (zpow_ne_zero _ (by norm_num)), 2 ^ 53 - 1, 971, by norm_num,
    by norm_num, by norm_num, ?_⟩
  unfold maxVal
  push_cast
  ring

set_option exponentiation.threshold 1100 in
theorem maxVal_facts : (10 : ℚ) ^ 308 ≤ maxVal ∧ maxVal < 10 ^ 309 ∧
    |maxVal - 1797693134862316 * 10 ^ 293| < 10 ^ 293 / 2 ∧
    (2 : ℚ) ^ 1024 ≤ 1797693134862316 * 10 ^ 293 := by
  have h971 : (2 : ℚ) ^ (971 : ℤ) = 2 ^ 971 := by norm_cast
  unfold maxVal
  rw [h971, abs_lt]
  norm_num

/-- **C31 is violated at the default precision** for the largest double: the text
`1.797693134862316e+308` denotes a number beyond the range of `double`; reading it back fails
the stream, and a blade read from it becomes null. -/
theorem C31_fails_max (x : Scalar F64) :
    ∃ y, extractTy .sca ⟨enoteDub (fin maxVal isFin_max), false, false⟩ x =
      .ok (⟨[], true, true⟩, y) ∧ comps .sca y = [nan] := by
  obtain ⟨m1, m2, m3, m4⟩ := maxVal_facts
  have hpos : 0 < maxVal := lt_of_lt_of_le (pow_pos (by norm_num) _) m1
  have hlog : Int.log 10 maxVal = 308 := by
    apply log10_eq
    · rw [show ((308 : ℤ)) = ((308 : ℕ) : ℤ) from rfl, zpow_natCast]; exact m1
    · rw [show ((308 : ℤ) + 1) = ((309 : ℕ) : ℤ) from rfl, zpow_natCast]; exact m2
  have hz : (10 : ℚ) ^ ((308 : ℤ) - ((15 : ℕ) : ℤ)) = 10 ^ 293 := by
    rw [show ((308 : ℤ) - ((15 : ℕ) : ℤ)) = ((293 : ℕ) : ℤ) from rfl, zpow_natCast]
  have hrhe : rhe (maxVal / (10 : ℚ) ^ ((308 : ℤ) - ((15 : ℕ) : ℤ))) = 1797693134862316 := by
    apply F64.rhe_eq
    left
    rw [hz]
    have hP : (0 : ℚ) < 10 ^ 293 := pow_pos (by norm_num) _
    generalize (10 : ℚ) ^ 293 = P at hP m3
    have e : maxVal / P - ((1797693134862316 : ℤ) : ℚ) = (maxVal - 1797693134862316 * P) / P := by
      push_cast; field_simp
    rw [e, abs_div, abs_of_pos hP, div_lt_iff₀ hP]
    linarith
  have hparts : sciParts 15 |maxVal| = (1797693134862316, 308) := by
    rw [abs_of_pos hpos]
    unfold sciParts
    dsimp only
    rw [hlog, hrhe, show ((1797693134862316 : ℤ)).toNat = 1797693134862316 from rfl,
      if_neg (by norm_num)]
  have hinf : decToF64 false 1797693134862316 ((308 : ℤ) - ((15 : ℕ) : ℤ)) = inf false := by
    unfold decToF64
    rw [if_neg (by norm_num), hz]
    simp only [Bool.false_eq_true, if_false]
    apply F64.roundTo_overflow
    push_cast
    exact m4
  have hov := extract_overflow (ws := blanks (7 + 15 - (numText .scientific 15
    (fin maxVal isFin_max)).length)) (allWs_blanks _) ends_nil false 15 1797693134862316 308 nan
    false hinf
  have htxt : enoteDub (fin maxVal isFin_max) = blanks (7 + 15 - (numText .scientific 15
      (fin maxVal isFin_max)).length) ++ (sgn false ++ mantText 15 1797693134862316 ++
        'e' :: expText 308) ++ [] := by
    have hn : numText .scientific 15 (fin maxVal isFin_max) = sgn false ++
        mantText 15 1797693134862316 ++ 'e' :: expText 308 := by
      have hs : decide (maxVal < 0) = false := decide_eq_false (not_lt.2 hpos.le)
      rw [numText, signText_eq, F64.signbit, hs, bodyText, magText, sciText,
        if_neg (abs_ne_zero.2 isFin_max.1), hparts, List.append_assoc]
    rw [C30_enote_number, field, List.append_nil, hn]
  rw [← htxt] at hov
  have hread : readAll 1 ⟨enoteDub (fin maxVal isFin_max), false, false⟩ =
      (⟨[], true, true⟩, none) := by
    rw [readAll, hov]
    simp
  obtain ⟨a, h, h'⟩ := extractA1_spec ⟨enoteDub (fin maxVal isFin_max), false, false⟩ x.theData
  rw [hread] at h h'
  simp only [Option.getD_none, List.replicate, List.cons.injEq, and_true] at h'
  subst h'
  exact ⟨⟨⟨nan⟩⟩, by rw [extractTy, h]; rfl, rfl⟩

/-! ## Null objects -/

/-- **C31.** The text of a NaN or an infinity is not readable: the stream fails without
consuming more than blanks and a sign, so a blade containing one reads back as null. -/
theorem C31_nonfinite (x : F64) (hx : ¬ x.Finite) (d : Nat) (old : F64) :
    (extractDub ⟨enoteDub x d, false, false⟩ old).1.fail = true := by
  have key : ∀ (neg : Bool) (c : Char) (cs : List Char), isDig c = false → c ≠ '.' → c ≠ '-' → c ≠ '+' →
      isWs c = false → ∀ n, (extractDub ⟨blanks n ++ (sgn neg ++ c :: cs), false, false⟩ old).1.fail = true := by
    intro neg c cs h1 h2 h3 h4 h5 n
    have hdrop : (blanks n ++ (sgn neg ++ c :: cs)).dropWhile isWs = sgn neg ++ c :: cs := by
      cases neg
      · exact dropWhile_ws (allWs_blanks n) h5
      · exact dropWhile_ws (allWs_blanks n) (by decide)
    have hne : sgn neg ++ c :: cs ≠ [] := by simp
    have hsign : scanSign (sgn neg ++ c :: cs) = (neg, c :: cs) := by
      cases neg
      · simp [sgn, scanSign, h3, h4]
      · simp [sgn, scanSign]
    have hspan : (c :: cs).span isDig = ([], c :: cs) := by
      rw [List.span_eq_takeWhile_dropWhile]; simp [h1]
    have hscan : (scanNum (sgn neg ++ c :: cs)).1.convert = (zero false, true) := by
      unfold scanNum
      rw [hsign]
      dsimp only
      rw [hspan]
      dsimp only
      have : scanFrac (c :: cs) = ([], c :: cs) := by simp [scanFrac, h2]
      rw [this]
      rfl
    unfold extractDub
    dsimp only
    rw [if_neg (by simp), hdrop, if_neg hne, hscan]
  rw [C30_enote_number, field, numText, signText_eq]
  cases x with
  | nan => exact key _ 'n' _ (by decide) (by decide) (by decide) (by decide) (by decide) _
  | inf s => exact key _ 'i' _ (by decide) (by decide) (by decide) (by decide) (by decide) _
  | zero s => exact absurd trivial hx
  | fin v h => exact absurd trivial hx

/-! ## Fixed format -/

/-- What the text of `x` with `a` decimals denotes, as a double. -/
def fixedVal (a : Nat) (x : F64) : F64 :=
  decToF64 x.signbit (rhe (|x.value| * 10 ^ a)).toNat (-(a : ℤ))

theorem fixed_reads (x : F64) (hx : x.Finite) (a : Nat) (hi : ∀ s, fixedVal a x ≠ inf s) :
    ReadsAs (numText .fixed a x) (fixedVal a x) := by
  intro ws rest old hw hr
  have := extract_fixed hw hr x.signbit a (rhe (|x.value| * 10 ^ a)).toNat (fixedVal a x) old rfl hi
  cases x with
  | nan => exact absurd hx (by simp [F64.Finite])
  | inf s => exact absurd hx (by simp [F64.Finite])
  | zero s =>
    have e : numText .fixed a (zero s) = sgn (zero s).signbit ++
        mantText a (rhe (|(zero s).value| * 10 ^ a)).toNat := by
      simp only [numText, signText_eq, bodyText, magText, fixedText, F64.value, mantText, abs_zero]
    rw [e]; exact this
  | fin v h => exact this

/-- The double denoted by the text with `a ≤ 306` decimals is finite, valid, and within
`10^-a` of the number written. -/
theorem fixedVal_spec (x : F64) (hx : x.Finite) (a : Nat) (ha : a ≤ 306) :
    (fixedVal a x).Finite ∧ isValidDub (fixedVal a x) = true ∧
      |(fixedVal a x).value - x.value| ≤ 1 / 10 ^ a := by
  have hsp := fixed_spec a (abs_nonneg x.value)
  have hsign : x.value ≠ 0 → x.signbit = decide (x.value < 0) := by
    intro h0
    cases x with
    | nan => exact absurd rfl h0
    | inf s => exact absurd rfl h0
    | zero s => exact absurd rfl h0
    | fin v h => rfl
  have hten : (0 : ℚ) < 10 ^ a := by positivity
  unfold fixedVal decToF64
  by_cases hn : (rhe (|x.value| * 10 ^ a)).toNat = 0
  · rw [if_pos hn]
    refine ⟨by simp [F64.Finite], isValidDub_zero _, ?_⟩
    rw [hn, Nat.cast_zero, zero_mul, zero_sub, abs_neg, abs_abs] at hsp
    rw [show (zero x.signbit).value = 0 from rfl, zero_sub, abs_neg]
    refine hsp.trans ?_
    apply one_div_le_one_div_of_le hten
    linarith
  · rw [if_neg hn]
    have hx0 : x.value ≠ 0 := by
      intro h0
      apply hn
      rw [h0, abs_zero, zero_mul]
      have : rhe (0 : ℚ) = 0 := by simpa using F64.rhe_int (K := ℚ) 0
      rw [this]; rfl
    rw [hsign hx0]
    set n := (rhe (|x.value| * 10 ^ a)).toNat
    set w := (if decide (x.value < 0) = true then -(n : ℚ) else (n : ℚ)) * (10 : ℚ) ^ (-(a : ℤ)) with hw
    have hdist : |w - x.value| ≤ 1 / (2 * 10 ^ a) := by
      have := sgn_mul_abs x.value ((n : ℚ) * (10 : ℚ) ^ (-(a : ℤ))) _ hsp
      rw [hw, ite_mul, neg_mul]; exact this
    have hacc : |rnVal w - x.value| ≤ 1 / 10 ^ a := by
      have := rnVal_twice (w := w) (F64.value_rep (x := x))
      have e : (1 : ℚ) / 10 ^ a = 2 * (1 / (2 * 10 ^ a)) := by field_simp
      rw [e]; linarith
    have hbig : |rnVal w| < 2 ^ 1024 := by
      have h1 : |rnVal w| ≤ |x.value| + 1 := by
        have := abs_add_le (rnVal w - x.value) x.value
        rw [sub_add_cancel] at this
        have h2 : (1 : ℚ) / 10 ^ a ≤ 1 := by
          rw [div_le_one hten]; exact one_le_pow₀ (by norm_num)
        linarith
      have h3 : |x.value| ≤ maxVal := by
        cases x with
        | nan => exact absurd rfl hx0
        | inf s => exact absurd rfl hx0
        | zero s => exact absurd rfl hx0
        | fin v h =>
          obtain ⟨_, m, e, hm, _, he, hv⟩ := h
          show |v| ≤ _
          rw [hv, abs_mul, abs_of_pos (F64.two_zpow_pos (K := ℚ) e), maxVal]
          apply mul_le_mul _ (zpow_le_zpow_right₀ (by norm_num) he) (F64.two_zpow_pos (K := ℚ) e).le
            (by norm_num)
          have : |m| ≤ 2 ^ 53 - 1 := by omega
          rw [← Int.cast_abs]
          exact_mod_cast this
      have h4 : maxVal + 1 < 2 ^ 1024 := by
        have e1 : (2 : ℚ) ^ 1024 = 2 ^ 53 * (2 : ℚ) ^ (971 : ℤ) := by
          rw [show (1024 : ℕ) = 53 + 971 from rfl, pow_add,
            show ((971 : ℤ)) = ((971 : ℕ) : ℤ) from rfl, zpow_natCast]
        have hp : (1 : ℚ) < (2 : ℚ) ^ (971 : ℤ) := by
          rw [show ((971 : ℤ)) = ((971 : ℕ) : ℤ) from rfl, zpow_natCast]
          exact one_lt_pow₀ (by norm_num) (by norm_num)
        rw [e1, maxVal]
        generalize (2 : ℚ) ^ (971 : ℤ) = P at hp
        linarith
      exact lt_of_le_of_lt h1 (lt_of_le_of_lt (by linarith) h4)
    obtain ⟨hf, hv⟩ := F64.roundTo_value hbig
    refine ⟨hf, ?_, by rw [hv]; exact hacc⟩
    -- validity
    have hwabs : (10 : ℚ) ^ (-(a : ℤ)) ≤ |w| := by
      have hp : (0 : ℚ) < (10 : ℚ) ^ (-(a : ℤ)) := zpow_pos (by norm_num) _
      have hn1 : (1 : ℚ) ≤ n := by
        have : 1 ≤ n := by omega
        exact_mod_cast this
      have e : |w| = (n : ℚ) * (10 : ℚ) ^ (-(a : ℤ)) := by
        rw [hw, abs_mul, abs_of_pos hp]
        congr 1
        split
        · rw [abs_neg, abs_of_nonneg (by positivity)]
        · rw [abs_of_nonneg (by positivity)]
      rw [e]; nlinarith
    have hmin : (2 : ℚ) ^ (-1022 : ℤ) ≤ |w| := by
      refine le_trans ?_ hwabs
      have a1 : (10 : ℚ) ^ a ≤ 2 ^ 1022 := by
        calc (10 : ℚ) ^ a ≤ 10 ^ 306 := pow_le_pow_right₀ (by norm_num) ha
          _ = (10 ^ 3) ^ 102 := by rw [← pow_mul]
          _ ≤ (2 ^ 10) ^ 102 := by gcongr; norm_num
          _ = 2 ^ 1020 := by rw [← pow_mul]
          _ ≤ 2 ^ 1022 := pow_le_pow_right₀ (by norm_num) (by norm_num)
      rw [show (-1022 : ℤ) = -((1022 : ℕ) : ℤ) from rfl, zpow_neg, zpow_neg, zpow_natCast, zpow_natCast]
      exact inv_anti₀ hten a1
    have hr : (2 : ℚ) ^ (-1022 : ℤ) ≤ |rnVal w| := by
      rw [← F64.rnVal_abs]
      exact F64.rep_le_rnVal (K := ℚ) (F64.rep_pow (-1022) (by norm_num)) (by simpa using hmin)
    have hne : rnVal w ≠ 0 := by
      intro h0
      rw [h0, abs_zero] at hr
      exact absurd hr (not_le.2 (zpow_pos (by norm_num) _))
    rw [C11_double]
    right
    rcases hcase : F64.roundTo w with _ | s | s | ⟨v, h⟩
    · rw [hcase] at hf; exact absurd hf (by simp [F64.Finite])
    · rw [hcase] at hf; exact absurd hf (by simp [F64.Finite])
    · rw [hcase] at hv; exact absurd hv.symm hne
    · refine ⟨v, h, rfl, ?_⟩
      rw [hcase] at hv
      have hv' : v = rnVal w := hv
      rw [hv']
      have : (1 : ℚ) / 2 ^ 1022 = (2 : ℚ) ^ (-1022 : ℤ) := by
        rw [show (-1022 : ℤ) = -((1022 : ℕ) : ℤ) from rfl, zpow_neg, zpow_natCast, one_div]
      rw [this]; exact hr

theorem comps_mapTy (f : F64 → F64) (t : Ty) (x : t.D F64) :
    comps t (mapTy f t x) = (comps t x).map f := by
  cases t <;> rfl

/-- Result of reading back a text in fixed format. -/
theorem fixed_readback (g : List Char) (hg : AllWs g) (t : Ty) (ht : t ≠ .dub) (x old : t.D F64)
    (hx : ∀ c ∈ comps t x, c.Finite) (b a : Nat) (ha : a ≤ 306) :
    ∃ y, extractTy t ⟨g.intercalate ((blades t x).map (fixedBlade b a)), false, false⟩ old =
        .ok (⟨[], true, false⟩, y) ∧
      List.Forall₂ (fun c c' => isValidDub c' = true ∧ |c'.value - c.value| ≤ 1 / 10 ^ a)
        (comps t x) (comps t y) := by
  refine ⟨mapTy (fixedVal a) t x, ?_, ?_⟩
  · simp only [show fixedBlade b a = _ from funext (fixedBlade_eq b a)]
    refine readback g [] _ _ (fixedVal a) t ht x old hg allWs_nil
      (fun _ => allWs_cons_blanks _) (fun _ => by simp) (fun _ => by simp) ?_
    intro c hc
    obtain ⟨h1, h2, _⟩ := fixedVal_spec c (hx c hc) a ha
    exact ⟨fixed_reads c (hx c hc) a (by rintro s hs; rw [hs] at h1; simp [F64.Finite] at h1), h2⟩
  · rw [comps_mapTy, List.forall₂_map_right_iff]
    exact List.forall₂_same.2 (fun c hc =>
      ⟨(fixedVal_spec c (hx c hc) a ha).2.1, (fixedVal_spec c (hx c hc) a ha).2.2⟩)

/-- **C31**, `operator<<`: for every type and every object with finite components, the text
written by `operator<<` is read back by `operator>>` completely, without failure, to a valid
object each of whose components is within `10^-6` of the original. -/
theorem C31_insert (t : Ty) (ht : t ≠ .dub) (x old : t.D F64) (hx : ∀ c ∈ comps t x, c.Finite) :
    ∃ y, extractTy t ⟨(insertTy t OStream.fresh x).out, false, false⟩ old =
        .ok (⟨[], true, false⟩, y) ∧
      List.Forall₂ (fun c c' => isValidDub c' = true ∧ |c'.value - c.value| ≤ 1 / 10 ^ 6)
        (comps t x) (comps t y) := by
  rw [C30_insert_text t ht x OStream.fresh rfl]
  exact fixed_readback [' '] (allWs_blanks 1) t ht x old hx 3 6 (by norm_num)

/-- **C31**, `io::fixed`: the same with `a` decimals: within `10^-a`. -/
theorem C31_fixed (t : Ty) (ht : t ≠ .dub) (x old : t.D F64) (hx : ∀ c ∈ comps t x, c.Finite)
    (b a : Nat) (ha : a ≤ 306) (txt : List Char) (h : fixedTy b a t x = some txt) :
    ∃ y, extractTy t ⟨txt, false, false⟩ old = .ok (⟨[], true, false⟩, y) ∧
      List.Forall₂ (fun c c' => isValidDub c' = true ∧ |c'.value - c.value| ≤ 1 / 10 ^ a)
        (comps t x) (comps t y) := by
  rw [C30_fixed_object] at h
  split at h
  · simp at h
  injection h with h
  rw [← h]
  exact fixed_readback [' ', ' '] (allWs_blanks 2) t ht x old hx b a ha

end Engabra
