import Verif.Lemmas.Cut

/-! # C70: a text cut short

The program that writes objects with `io::enote` stops after any character (a crash, a full disk, a
copy taken too early).  What does a program that reads the text afterwards see? -/

namespace Engabra

open F64 (nan inf zero fin IsFin Finite)

/-! ## Numbers -/

theorem sciParts_exp (d : Nat) {v : ℚ} (h : IsFin v) : (sciParts d |v|).2.natAbs < 1000 := by
  have hp : 0 < |v| := abs_pos.2 h.1
  have hlo : (10 : ℚ) ^ (-900 : ℤ) ≤ |v| := by
    refine le_trans ?_ (F64.IsFin.ge h)
    rw [zpow_neg, zpow_neg, zpow_ofNat, zpow_ofNat]
    apply inv_anti₀ (pow_pos (by norm_num) _)
    calc (2 : ℚ) ^ 1074 ≤ 2 ^ (3 * 900) := pow_le_pow_right₀ (by norm_num) (by norm_num)
      _ = (2 ^ 3) ^ 900 := pow_mul _ _ _
      _ ≤ 10 ^ 900 := by gcongr; norm_num
  have hhi : |v| < (10 : ℚ) ^ (900 : ℤ) := by
    have h1 : |v| < 2 ^ 1024 := h.lt
    refine h1.trans_le ?_
    rw [zpow_ofNat]
    calc (2 : ℚ) ^ 1024 ≤ 2 ^ (3 * 900) := pow_le_pow_right₀ (by norm_num) (by norm_num)
      _ = (2 ^ 3) ^ 900 := pow_mul _ _ _
      _ ≤ 10 ^ 900 := by gcongr; norm_num
  have l1 : -900 ≤ Int.log 10 |v| :=
    (Int.zpow_le_iff_le_log (b := 10) (by norm_num) hp).1 (by exact_mod_cast hlo)
  have l2 : Int.log 10 |v| < 900 :=
    (Int.lt_zpow_iff_log_lt (b := 10) (by norm_num) hp).1 (by exact_mod_cast hhi)
  unfold sciParts
  dsimp only
  generalize Int.log 10 |v| = k at *
  split
  · dsimp only; omega
  · dsimp only; omega

theorem enote_cuts (x : F64) (hx : x.Finite) (d : Nat) (hd : 1 ≤ d) :
    Cuts (numText .scientific d x) := by
  cases x with
  | nan => exact absurd hx (by simp [F64.Finite])
  | inf s => exact absurd hx (by simp [F64.Finite])
  | zero s =>
    have := sci_cuts s d 0 0 hd (Or.inl rfl) (by norm_num)
    simpa [numText, signText_eq, bodyText, magText, sciText, F64.signbit] using this
  | fin v h =>
    have hv : |v| ≠ 0 := abs_ne_zero.2 h.1
    obtain ⟨h1, h2, -⟩ := sciParts_spec d (abs_pos.2 h.1)
    have := sci_cuts (decide (v < 0)) d (sciParts d |v|).1 (sciParts d |v|).2 hd (Or.inr ⟨h1, h2⟩)
      (sciParts_exp d h)
    simpa [numText, signText_eq, bodyText, magText, sciText, hv, F64.signbit] using this

/-! ## Fields -/

/-- A field that reads as `v`, also at the end of the text, and can be cut anywhere. -/
def GoodField (f : List Char × List Char) (v : F64) : Prop :=
  ReadsAs f.2 v ∧ isValidDub v = true ∧ Cuts f.2

theorem field_cut {f : List Char × List Char} {v : F64} (hf : GoodField f v) (hw : AllWs f.1)
    {P : List Char} (hP : P <+: f.1 ++ f.2) (old : F64) :
    ∃ b y, extractDub ⟨P, false, false⟩ old = (⟨[], true, b⟩, y) ∧
      (b = false → isValidDub y = true) := by
  obtain ⟨h1, h2, h3⟩ := hf
  rcases prefix_append_cases hP with h | ⟨q, rfl, hq⟩
  · have hw' : AllWs P := fun c hc => hw c (h.subset hc)
    exact ⟨true, old, extractDub_end hw' old, by simp⟩
  · by_cases hq' : q = f.2
    · refine ⟨false, v, ?_, fun _ => h2⟩
      have := h1 f.1 [] old hw ends_nil
      rw [List.append_nil] at this
      rw [hq']; exact this
    · exact h3 q f.1 old hq hq' hw

theorem ends_of_prefix {P R : List Char} (h : P <+: R) (hR : Ends R) : Ends P := by
  rcases P with _ | ⟨c, P⟩
  · exact ends_nil
  · obtain ⟨t, rfl⟩ := h
    exact fun d hd => hR d (by simpa using hd)

theorem isEmpty_of_ne {P : List Char} (h : P ≠ []) : P.isEmpty = false := by
  rw [List.isEmpty_eq_false_iff]; exact h

theorem dropLast_cons_congr {v : F64} {a b : List F64} (hl : a.length = b.length)
    (h : a.dropLast = b.dropLast) : (v :: a).dropLast = (v :: b).dropLast := by
  rcases a with _ | ⟨x, a⟩ <;> rcases b with _ | ⟨y, b⟩
  · rfl
  · simp at hl
  · simp at hl
  · simpa using h

theorem readAll_cut (fs : List (List Char × List Char)) (vals : List F64) (hne : fs ≠ [])
    (hw : ∀ f ∈ fs, AllWs f.1) (hs : ∀ f ∈ fs.tail, f.1 ≠ [])
    (hr : List.Forall₂ GoodField fs vals) (P : List Char) (hP : P <+: joinF fs) :
    ∃ b r, readAll fs.length ⟨P, false, false⟩ = (⟨[], true, b⟩, r) ∧
      (b = false → ∃ l, r = some l ∧ l.length = vals.length ∧ l.dropLast = vals.dropLast) := by
  induction fs generalizing vals P with
  | nil => exact absurd rfl hne
  | cons f fs ih =>
    rcases hr with _ | ⟨hf, hr⟩
    rename_i v vals
    rw [joinF_cons] at hP
    rw [List.length_cons, readAll]
    have first : P <+: f.1 ++ f.2 → _ := fun h => field_cut hf (hw f List.mem_cons_self) h nan
    have case1 : P <+: f.1 ++ f.2 → ∃ b r, (if (extractDub ⟨P, false, false⟩ nan).1.fail = false ∧
        isValidDub (extractDub ⟨P, false, false⟩ nan).2 = true then
        ((readAll fs.length (extractDub ⟨P, false, false⟩ nan).1).1,
          (readAll fs.length (extractDub ⟨P, false, false⟩ nan).1).2.map
            ((extractDub ⟨P, false, false⟩ nan).2 :: ·))
        else ((extractDub ⟨P, false, false⟩ nan).1, none)) = ((⟨[], true, b⟩ : IStream), r) ∧
        (b = false → ∃ l, r = some l ∧ l.length = (v :: vals).length ∧
          l.dropLast = (v :: vals).dropLast) := by
      intro h
      obtain ⟨b, y, e1, e2⟩ := first h
      rw [e1]
      dsimp only
      cases b with
      | true => rw [if_neg (by simp)]; exact ⟨true, none, rfl, by simp⟩
      | false =>
        rw [if_pos ⟨rfl, e2 rfl⟩]
        rcases fs with _ | ⟨g, fs⟩
        · rcases hr
          exact ⟨false, some [y], rfl, fun _ => ⟨[y], rfl, rfl, rfl⟩⟩
        · rw [readAll_bad _ _ (Or.inr rfl) (by simp)]
          exact ⟨true, none, rfl, by simp⟩
    rcases prefix_append_cases hP with h | ⟨P', hP', h⟩
    · exact case1 h
    by_cases hP0 : P' = []
    · exact case1 (by rw [hP', hP0, List.append_nil])
    have hfs : fs ≠ [] := by
      rintro rfl
      exact hP0 (List.prefix_nil.1 h)
    have hE : Ends P' := ends_of_prefix h (by
      have := ends_joinF fs [] ends_nil (fun g hg => hw g (List.mem_cons_of_mem _ hg)) hs
      rwa [List.append_nil] at this)
    have h1 := hf.1 f.1 P' nan (hw f List.mem_cons_self) hE
    rw [isEmpty_of_ne hP0] at h1
    rw [hP', h1]
    dsimp only
    rw [if_pos ⟨rfl, hf.2.1⟩]
    obtain ⟨b, r, e1, e2⟩ := ih vals hfs (fun g hg => hw g (List.mem_cons_of_mem _ hg))
      (fun g hg => hs g (List.mem_of_mem_tail hg)) hr P' h
    rw [e1]
    refine ⟨b, r.map (v :: ·), rfl, fun hb => ?_⟩
    obtain ⟨l, l1, l2, l3⟩ := e2 hb
    exact ⟨v :: l, by rw [l1]; rfl, by simp [l2], dropLast_cons_congr l2 l3⟩

theorem readGroups_cut (gs : List (List (List Char × List Char))) (vals : List (List F64))
    (hne : gs ≠ []) (hg : ∀ g ∈ gs, g ≠ []) (hw : ∀ f ∈ gs.flatten, AllWs f.1)
    (hs : ∀ f ∈ gs.flatten.tail, f.1 ≠ []) (hr : List.Forall₂ (List.Forall₂ GoodField) gs vals)
    (P : List Char) (hP : P <+: joinF gs.flatten) :
    ∃ b r, readGroups (gs.map List.length) ⟨P, false, false⟩ = (⟨[], true, b⟩, r) ∧
      (b = false → r.flatten.length = vals.flatten.length ∧
        r.flatten.dropLast = vals.flatten.dropLast) := by
  induction gs generalizing vals P with
  | nil => exact absurd rfl hne
  | cons g gs ih =>
    rcases hr with _ | ⟨hr1, hr⟩
    rename_i v vals
    have hg1 := hg g List.mem_cons_self
    rw [List.flatten_cons] at hw hs hP
    have htl : ∀ f ∈ gs.flatten, f.1 ≠ [] := by
      intro f hf
      refine hs f ?_
      rcases g with _ | ⟨a, g⟩
      · exact absurd rfl hg1
      · rw [List.cons_append, List.tail_cons]; exact List.mem_append_right _ hf
    have hwg : ∀ f ∈ g, AllWs f.1 := fun f hf => hw f (List.mem_append_left _ hf)
    have hsg : ∀ f ∈ g.tail, f.1 ≠ [] := fun f hf => hs f (by
        rcases g with _ | ⟨a, g⟩
        · exact absurd rfl hg1
        · rw [List.cons_append, List.tail_cons]; exact List.mem_append_left _ hf)
    rw [joinF_append] at hP
    rw [List.map_cons, readGroups]
    have hz : 0 ∉ gs.map List.length := by
      intro h0
      obtain ⟨l, hl, hl0⟩ := List.mem_map.1 h0
      exact hg l (List.mem_cons_of_mem _ hl) (List.length_eq_zero_iff.1 hl0)
    have case1 : P <+: joinF g → ∃ b r,
        ((readGroups (gs.map List.length) (readAll g.length ⟨P, false, false⟩).1).1,
          (readAll g.length ⟨P, false, false⟩).2.getD (List.replicate g.length nan) ::
            (readGroups (gs.map List.length) (readAll g.length ⟨P, false, false⟩).1).2) =
          ((⟨[], true, b⟩ : IStream), r) ∧
        (b = false → r.flatten.length = (v :: vals).flatten.length ∧
          r.flatten.dropLast = (v :: vals).flatten.dropLast) := by
      intro h
      obtain ⟨b, r, e1, e2⟩ := readAll_cut g v hg1 hwg hsg hr1 P h
      rw [e1]
      dsimp only
      rcases gs with _ | ⟨k, gs⟩
      · rcases hr
        refine ⟨b, _, rfl, fun hb => ?_⟩
        obtain ⟨l, rfl, l2, l3⟩ := e2 hb
        simpa [readGroups] using ⟨l2, l3⟩
      · have := (readGroups_bad ((k :: gs).map List.length) hz ⟨[], true, b⟩ (Or.inr rfl)).2 (by simp)
        refine ⟨true, _, by rw [this], by simp⟩
    rcases prefix_append_cases hP with h | ⟨P', hP', h⟩
    · exact case1 h
    by_cases hP0 : P' = []
    · exact case1 (by rw [hP', hP0, List.append_nil])
    have hgs : gs ≠ [] := by
      rintro rfl
      exact hP0 (List.prefix_nil.1 h)
    have hE : Ends P' := ends_of_prefix h (by
      have := ends_joinF gs.flatten [] ends_nil (fun f hf => hw f (List.mem_append_right _ hf)) htl
      rwa [List.append_nil] at this)
    have h1 := readAll_fields g v P' hE hg1 hwg hsg (hr1.imp (fun _ _ h => ⟨h.1, h.2.1⟩))
    rw [isEmpty_of_ne hP0] at h1
    rw [hP', h1]
    dsimp only
    obtain ⟨b, r, e1, e2⟩ := ih vals hgs (fun l hl => hg l (List.mem_cons_of_mem _ hl))
      (fun f hf => hw f (List.mem_append_right _ hf))
      (fun f hf => htl f (List.mem_of_mem_tail hf)) hr P' h
    rw [e1]
    refine ⟨b, v :: r, rfl, fun hb => ?_⟩
    obtain ⟨l2, l3⟩ := e2 hb
    rw [List.flatten_cons, List.flatten_cons, List.length_append, List.length_append, l2]
    refine ⟨rfl, ?_⟩
    have hlen : vals.flatten ≠ [] := by
      rcases gs with _ | ⟨k, gs⟩
      · exact absurd rfl hgs
      · rcases hr with _ | ⟨hk, _⟩
        rename_i w vals
        have hk0 := hg k (by simp)
        rcases hk with _ | ⟨_, _⟩
        · exact absurd rfl hk0
        · simp
    have hlen' : r.flatten ≠ [] := by
      intro h0
      rw [h0] at l2
      exact hlen (List.length_eq_zero_iff.1 l2.symm)
    rw [List.dropLast_append_of_ne_nil hlen', List.dropLast_append_of_ne_nil hlen, l3]

/-! ## Objects -/

/-- One object whose text is cut: the stream is at its end; unless it has failed, all components
but the last are those of the object. -/
theorem obj_cut (g e : List Char) (pad num : F64 → List Char) (t : Ty)
    (ht : t ≠ .dub) (x old : t.D F64)
    (hg : AllWs g) (he : AllWs e) (hp : ∀ x, AllWs (pad x)) (hg' : ∀ x, g ++ pad x ≠ [])
    (he' : ∀ x, e ++ pad x ≠ [])
    (h : ∀ c ∈ comps t x, ReadsAs (num c) c ∧ isValidDub c = true ∧ Cuts (num c))
    (ws P : List Char) (hws : AllWs ws)
    (hP : P <+: g.intercalate ((blades t x).map fun b =>
        e.intercalate (b.map fun x => pad x ++ num x))) :
    ∃ b y, extractTy t ⟨ws ++ P, false, false⟩ old = .ok (⟨[], true, b⟩, y) ∧
      (b = false → (comps t y).dropLast = (comps t x).dropLast) := by
  have h' : ∀ b ∈ blades t x, ∀ c ∈ b, ReadsAs (num c) c ∧ isValidDub c = true ∧ Cuts (num c) :=
    fun b hb c hc => h c (by rw [← blades_join, List.mem_flatten]; exact ⟨b, hb, hc⟩)
  obtain ⟨s', y, h1, h2⟩ := C29_blades t ht ⟨ws ++ P, false, false⟩ old
  have hall := fieldsOf_forall g e pad num (blades t x) hg he (fun _ => True)
    (fun _ _ c _ => ⟨hp c, trivial⟩)
  have bf : ∀ (k : List Char) (b : List F64), b ∈ blades t x →
      List.Forall₂ GoodField (bladeFields k e pad num b) b := by
    intro k b hb
    have hb' := h' b hb
    rcases b with _ | ⟨c, cs⟩
    · exact List.Forall₂.nil
    · refine List.Forall₂.cons (hb' c List.mem_cons_self) ?_
      rw [List.forall₂_map_left_iff]
      exact List.forall₂_same.2 (fun c hc => hb' c (List.mem_cons_of_mem _ hc))
  have hgood : List.Forall₂ (List.Forall₂ GoodField) (fieldsOf g e pad num (blades t x)) (blades t x) := by
    generalize hbs : blades t x = bs at bf
    rcases bs with _ | ⟨b, bs⟩
    · exact List.Forall₂.nil
    · refine List.Forall₂.cons (bf _ b List.mem_cons_self) ?_
      rw [List.forall₂_map_left_iff]
      exact List.forall₂_same.2 (fun c hc => bf _ c (List.mem_cons_of_mem _ hc))
  obtain ⟨b, r, e1, e2⟩ := readGroups_cut (fieldsOf g e pad num (blades t x)) (blades t x)
    (by cases t <;> simp [blades, fieldsOf])
    (by
      intro l hl hnil
      have hlen := fieldsOf_length g e pad num (blades t x)
      have : l.length ∈ (blades t x).map List.length := by
        rw [← hlen]; exact List.mem_map_of_mem hl
      rw [hnil, List.length_nil] at this
      obtain ⟨b, hb, hb0⟩ := List.mem_map.1 this
      exact blades_ne_nil t x b hb (List.length_eq_zero_iff.1 hb0))
    (fun f hf => (hall f hf).1)
    (fieldsOf_sep g e pad num _ (blades_ne_nil t x) hg' he') hgood P (by
      rw [joinF, fieldsOf_text g e pad num _ (blades_ne_nil t x)]; exact hP)
  rw [fieldsOf_length, blades_sizes] at e1
  have hskip : ∀ r, readGroups (bladeSizes t) ⟨ws ++ r, false, false⟩ =
      readGroups (bladeSizes t) ⟨r, false, false⟩ := by
    intro r; cases t <;> exact readGroups_ws hws _ _ _
  rw [hskip, e1] at h2
  have k1 := congrArg Prod.fst h2
  have k2 := congrArg Prod.snd h2
  dsimp only at k1 k2
  refine ⟨b, y, by rw [h1, k1], fun hb => ?_⟩
  have := (e2 hb).2
  rw [← k2, blades_join, blades_join] at this
  exact this

/-- One object in e-notation, cut. -/
theorem enote_cut (t : Ty) (x old : t.D F64) (hx : ∀ c ∈ comps t x, isValidDub c = true)
    (d : Nat) (hd : 16 ≤ d) (txt : List Char) (h : enoteTy d t x = some txt)
    (ws P : List Char) (hws : AllWs ws) (hP : P <+: txt) :
    ∃ b y, extractTy t ⟨ws ++ P, false, false⟩ old = .ok (⟨[], true, b⟩, y) ∧
      (b = false → (comps t y).dropLast = (comps t x).dropLast) := by
  have hgood : ∀ c ∈ comps t x, ReadsAs (numText .scientific d c) c ∧ isValidDub c = true ∧
      Cuts (numText .scientific d c) := by
    intro c hc
    have hf := valid_finite (hx c hc)
    have hv := sciVal_recover c hf d hd
    have := enote_reads c hf d (by rw [hv]; rintro s rfl; simp [F64.Finite] at hf)
    rw [hv] at this
    exact ⟨this, hx c hc, enote_cuts c hf d (by omega)⟩
  by_cases ht : t = .dub
  · subst ht
    injection h with h
    have hg := hgood x (by simp [comps])
    rw [← h, C30_enote_number, field] at hP
    rw [extractTy, extractDub_ws hws]
    obtain ⟨b, y, e1, -⟩ := field_cut (f := (_, _)) hg (allWs_blanks _) hP old
    rw [e1]
    exact ⟨b, y, rfl, fun _ => rfl⟩
  rw [C30_enote_object] at h
  split at h
  · simp at h
  injection h with h
  rw [← h] at hP
  simp only [show enoteBlade d = _ from funext (enoteBlade_eq d)] at hP
  exact obj_cut [' ', ' '] [' '] (fun x => blanks (7 + d - (numText .scientific d x).length))
    (numText .scientific d) t ht x old (allWs_blanks 2) (allWs_blanks 1)
    (fun _ => allWs_blanks _) (fun _ => by simp) (fun _ => by simp) hgood ws P hws hP

/-! ## Programs -/

/-- Text of one object. -/
def enoteText (d : Nat) (t : Ty) (x : t.D F64) : List Char := (enoteTy d t x).getD []

theorem enoteText_some (d : Nat) (t : Ty) (x : t.D F64) (ht : t ≠ .cplx) (ht' : t ≠ .dplx) :
    enoteTy d t x = some (enoteText d t x) := by
  unfold enoteText
  rw [C30_enote_object, if_neg (by simp only [not_or]; exact ⟨ht, ht'⟩)]
  rfl

/-- `while ((istrm >> x) && (! istrm.eof())) { xs.push_back(x); }` : an object that ends with the
text is not taken. -/
inductive GuardedLoop (t : Ty) : IStream → t.D F64 → List (t.D F64) → Prop
  | stop {s s' : IStream} {old y : t.D F64} :
      extractTy t s old = .ok (s', y) → s'.fail = true ∨ s'.eof = true → GuardedLoop t s old []
  | step {s s' : IStream} {old y : t.D F64} {ys : List (t.D F64)} :
      extractTy t s old = .ok (s', y) → s'.fail = false → s'.eof = false → GuardedLoop t s' y ys →
      GuardedLoop t s old (y :: ys)

/-- A stream at its end stops the plain loop. -/
theorem loop_at_eof (t : Ty) (old : t.D F64) : ReadLoop t ⟨[], true, false⟩ old [] := by
  by_cases ht : t = .dub
  · subst ht
    exact ReadLoop.stop (s' := ⟨[], true, true⟩) (y := old) rfl rfl
  · obtain ⟨y, h, -⟩ := C29_failed_stream t ht ⟨[], true, false⟩ (Or.inr rfl) old
    exact ReadLoop.stop h rfl

/-- The last record: what is found in the text `ws ++ R`, `R` the beginning of the record of `x`. -/
theorem last_record (t : Ty) (ht : t ≠ .cplx) (ht' : t ≠ .dplx) (d : Nat) (hd : 16 ≤ d)
    (sep : List Char) (hw : AllWs sep) (x old : t.D F64)
    (hx : ∀ c ∈ comps t x, isValidDub c = true) (R : List Char) (hR : R <+: enoteText d t x ++ sep)
    (ws : List Char) (hws : AllWs ws) :
    (∃ r, r ≠ [] ∧ AllWs r ∧ R = enoteText d t x ++ r ∧
      extractTy t ⟨ws ++ R, false, false⟩ old = .ok (⟨r, false, false⟩, x)) ∨
    (R = enoteText d t x ∧ extractTy t ⟨ws ++ R, false, false⟩ old = .ok (⟨[], true, false⟩, x)) ∨
    (R <+: enoteText d t x ∧ R ≠ enoteText d t x ∧ ∃ b y,
      extractTy t ⟨ws ++ R, false, false⟩ old = .ok (⟨[], true, b⟩, y) ∧
      (b = false → (comps t y).dropLast = (comps t x).dropLast)) := by
  have htxt := enoteText_some d t x ht ht'
  have whole := enote_more t x old hx d hd _ htxt ws [] hws ends_nil
  rw [List.append_nil] at whole
  rcases prefix_append_cases hR with h | ⟨r, rfl, hr⟩
  · by_cases hRe : R = enoteText d t x
    · right; left
      rw [hRe]
      exact ⟨rfl, whole⟩
    · right; right
      exact ⟨h, hRe, enote_cut t x old hx d hd _ htxt ws R hws h⟩
  · by_cases hr0 : r = []
    · right; left
      rw [hr0, List.append_nil]
      exact ⟨rfl, whole⟩
    · left
      have hwr : AllWs r := fun c hc => hw c (hr.subset hc)
      have := enote_more t x old hx d hd _ htxt ws r hws (by
        have := ends_append (more := []) hwr hr0
        rwa [List.append_nil] at this)
      rw [isEmpty_of_ne hr0] at this
      exact ⟨r, hr0, hwr, rfl, this⟩

/-- **C70**, plain loop.  The text holds the records of `xs` (any number of objects of one type) and
the first characters, none, some or all, of the record of one more object `x`: what is there when
the writer stopped after any character.  `while (istrm >> x)` ends and returns all the complete
records and at most one more object.  If the text of `x` is complete, that is `x`.  If not, and the
loop returns an object, all its components except the last are those of `x`. -/
theorem C70_loop (t : Ty) (ht : t ≠ .cplx) (ht' : t ≠ .dplx) (d : Nat) (hd : 16 ≤ d)
    (sep : List Char) (hw : AllWs sep) (hs : sep ≠ []) (xs : List (t.D F64)) (x old : t.D F64)
    (hxs : ∀ x ∈ xs, ∀ c ∈ comps t x, isValidDub c = true)
    (hx : ∀ c ∈ comps t x, isValidDub c = true)
    (R : List Char) (hR : R <+: enoteText d t x ++ sep) :
    ∃ ys, ReadLoop t ⟨enoteLines d sep (xs.map fun x => ⟨t, x⟩) ++ R, false, false⟩ old (xs ++ ys) ∧
      (ys = [] ∨ ∃ y, ys = [y] ∧ (comps t y).dropLast = (comps t x).dropLast) ∧
      (enoteText d t x <+: R → ys = [x]) := by
  suffices ∀ ws, AllWs ws → ∃ ys,
      ReadLoop t ⟨ws ++ (enoteLines d sep (xs.map fun x => ⟨t, x⟩) ++ R), false, false⟩ old (xs ++ ys) ∧
      (ys = [] ∨ ∃ y, ys = [y] ∧ (comps t y).dropLast = (comps t x).dropLast) ∧
      (enoteText d t x <+: R → ys = [x]) from this [] allWs_nil
  induction xs generalizing old with
  | nil =>
    intro ws hws
    simp only [List.map_nil, enoteLines, List.flatMap_nil, List.nil_append]
    rcases last_record t ht ht' d hd sep hw x old hx R hR ws hws with
      ⟨r, h0, h1, h2, h3⟩ | ⟨h1, h2⟩ | ⟨h1, h2, b, y, h3, h4⟩
    · obtain ⟨s', y, k1, k2⟩ := extractTy_end t h1 x
      exact ⟨[x], ReadLoop.step h3 rfl (ReadLoop.stop k1 k2), Or.inr ⟨x, rfl, rfl⟩, fun _ => rfl⟩
    · exact ⟨[x], ReadLoop.step h2 rfl (loop_at_eof t x), Or.inr ⟨x, rfl, rfl⟩, fun _ => rfl⟩
    · have hno : ¬ enoteText d t x <+: R := fun h => h2 (h1.eq_of_length_le h.length_le)
      cases b with
      | true => exact ⟨[], ReadLoop.stop h3 rfl, Or.inl rfl, fun h => absurd h hno⟩
      | false =>
        exact ⟨[y], ReadLoop.step h3 rfl (loop_at_eof t y), Or.inr ⟨y, rfl, h4 rfl⟩,
          fun h => absurd h hno⟩
  | cons z zs ih =>
    intro ws hws
    have htxt := enoteText_some d t z ht ht'
    obtain ⟨ys, i1, i2⟩ := ih z (fun y hy => hxs y (List.mem_cons_of_mem _ hy)) sep hw
    have h1 := enote_more t z old (hxs z List.mem_cons_self) d hd _ htxt ws
      (sep ++ (enoteLines d sep (zs.map fun x => ⟨t, x⟩) ++ R)) hws (ends_append hw hs)
    rw [isEmpty_append_sep hs] at h1
    refine ⟨ys, ReadLoop.step (y := z) ?_ rfl i1, i2⟩
    rw [← h1]
    simp only [enoteLines, List.map_cons, List.flatMap_cons, enoteText, List.append_assoc]

/-- **C70**, guarded loop.  The loop that does not take an object ending with the text returns
exactly complete records, whatever character the text ends with: all of `xs`, and `x` as well if
and only if its text and at least one character of the separator are there.  No object it returns
differs from the one written. -/
theorem C70_guarded (t : Ty) (ht : t ≠ .cplx) (ht' : t ≠ .dplx) (d : Nat) (hd : 16 ≤ d)
    (sep : List Char) (hw : AllWs sep) (hs : sep ≠ []) (xs : List (t.D F64)) (x old : t.D F64)
    (hxs : ∀ x ∈ xs, ∀ c ∈ comps t x, isValidDub c = true)
    (hx : ∀ c ∈ comps t x, isValidDub c = true)
    (R : List Char) (hR : R <+: enoteText d t x ++ sep) :
    GuardedLoop t ⟨enoteLines d sep (xs.map fun x => ⟨t, x⟩) ++ R, false, false⟩ old
      (if (enoteText d t x).length < R.length then xs ++ [x] else xs) := by
  suffices ∀ ws, AllWs ws →
      GuardedLoop t ⟨ws ++ (enoteLines d sep (xs.map fun x => ⟨t, x⟩) ++ R), false, false⟩ old
      (if (enoteText d t x).length < R.length then xs ++ [x] else xs) from this [] allWs_nil
  induction xs generalizing old with
  | nil =>
    intro ws hws
    simp only [List.map_nil, enoteLines, List.flatMap_nil, List.nil_append]
    rcases last_record t ht ht' d hd sep hw x old hx R hR ws hws with
      ⟨r, h0, h1, h2, h3⟩ | ⟨h1, h2⟩ | ⟨h1, h2, b, y, h3, h4⟩
    · rw [if_pos (by
        rw [h2, List.length_append]
        have := List.length_pos_of_ne_nil h0
        omega)]
      obtain ⟨s', y, k1, k2⟩ := extractTy_end t h1 x
      exact GuardedLoop.step h3 rfl rfl (GuardedLoop.stop k1 (Or.inl k2))
    · rw [if_neg (by rw [h1]; omega)]
      exact GuardedLoop.stop h2 (Or.inr rfl)
    · rw [if_neg (by have := h1.length_le; omega)]
      exact GuardedLoop.stop h3 (Or.inr rfl)
  | cons z zs ih =>
    intro ws hws
    have htxt := enoteText_some d t z ht ht'
    have i1 := ih z (fun y hy => hxs y (List.mem_cons_of_mem _ hy)) sep hw
    have h1 := enote_more t z old (hxs z List.mem_cons_self) d hd _ htxt ws
      (sep ++ (enoteLines d sep (zs.map fun x => ⟨t, x⟩) ++ R)) hws (ends_append hw hs)
    rw [isEmpty_append_sep hs] at h1
    have h2 := GuardedLoop.step (t := t) (y := z) h1 rfl rfl i1
    have e : (if (enoteText d t x).length < R.length then z :: zs ++ [x] else z :: zs) =
        z :: (if (enoteText d t x).length < R.length then zs ++ [x] else zs) := by
      split <;> rfl
    rw [e]
    convert h2 using 2
    simp only [enoteLines, List.map_cons, List.flatMap_cons, enoteText, List.append_assoc]

/-- The guarded loop returns one list only. -/
theorem C70_guarded_unique (t : Ty) (s : IStream) (old : t.D F64) (xs ys : List (t.D F64))
    (h : GuardedLoop t s old xs) (k : GuardedLoop t s old ys) : xs = ys := by
  induction h generalizing ys with
  | stop h1 h2 =>
    cases k with
    | stop => rfl
    | step k1 k2 k3 _ =>
      rw [h1] at k1; injection k1 with k1; injection k1 with k1 k4
      rw [← k1] at k2 k3
      rcases h2 with h2 | h2
      · rw [h2] at k2; cases k2
      · rw [h2] at k3; cases k3
  | step h1 h2 h3 _ ih =>
    cases k with
    | stop k1 k2 =>
      rw [h1] at k1; injection k1 with k1; injection k1 with k1 k4
      rw [← k1] at k2
      rcases k2 with k2 | k2
      · rw [k2] at h2; cases h2
      · rw [k2] at h3; cases h3
    | step k1 k2 k3 k4 =>
      rw [h1] at k1; injection k1 with k1; injection k1 with k1 k5
      subst k1; subst k5
      rw [ih _ k4]

theorem enoteLines_cons (d : Nat) (sep : List Char) (t : Ty) (x : t.D F64) (xs : List (t.D F64)) :
    enoteLines d sep ((x :: xs).map fun x => ⟨t, x⟩) =
      (enoteText d t x ++ sep) ++ enoteLines d sep (xs.map fun x => ⟨t, x⟩) := by
  simp only [enoteLines, List.map_cons, List.flatMap_cons, enoteText]

theorem enoteLines_append (d : Nat) (sep : List Char) (t : Ty) (xs ys : List (t.D F64)) :
    enoteLines d sep ((xs ++ ys).map fun x => ⟨t, x⟩) =
      enoteLines d sep (xs.map fun x => ⟨t, x⟩) ++ enoteLines d sep (ys.map fun x => ⟨t, x⟩) := by
  simp only [enoteLines, List.map_append, List.flatMap_append]

/-- Every prefix of a text of records is some complete records and the beginning of the next. -/
theorem cut_decomp (d : Nat) (sep : List Char) (t : Ty) (xs : List (t.D F64)) (P : List Char)
    (hP : P <+: enoteLines d sep (xs.map fun x => ⟨t, x⟩)) :
    xs = [] ∨ ∃ zs x ws R, xs = zs ++ x :: ws ∧
      P = enoteLines d sep (zs.map fun x => ⟨t, x⟩) ++ R ∧ R <+: enoteText d t x ++ sep := by
  induction xs generalizing P with
  | nil => exact Or.inl rfl
  | cons x xs ih =>
    right
    rw [enoteLines_cons] at hP
    rcases prefix_append_cases hP with h | ⟨P', rfl, h⟩
    · exact ⟨[], x, xs, P, rfl, rfl, h⟩
    · rcases ih P' h with rfl | ⟨zs, z, ws, R, rfl, rfl, hR⟩
      · have : P' = [] := List.prefix_nil.1 h
        subst this
        exact ⟨[], x, [], enoteText d t x ++ sep, rfl, List.append_nil _, List.prefix_rfl⟩
      · exact ⟨x :: zs, z, ws, R, rfl, by simp only [enoteLines_cons, List.append_assoc], hR⟩

/-- **C70**, any cut.  Let `P` be any prefix of the text of any list of objects.  The guarded loop
on `P` returns the first `k` of the objects, unchanged, for some `k`; and `k` is at least the number
of records that are completely in `P`. -/
theorem C70_prefix (t : Ty) (ht : t ≠ .cplx) (ht' : t ≠ .dplx) (d : Nat) (hd : 16 ≤ d)
    (sep : List Char) (hw : AllWs sep) (hs : sep ≠ []) (xs : List (t.D F64)) (old : t.D F64)
    (hxs : ∀ x ∈ xs, ∀ c ∈ comps t x, isValidDub c = true)
    (P : List Char) (hP : P <+: enoteLines d sep (xs.map fun x => ⟨t, x⟩)) :
    ∃ k ≤ xs.length, GuardedLoop t ⟨P, false, false⟩ old (xs.take k) ∧
      ∀ j ≤ xs.length, (enoteLines d sep ((xs.take j).map fun x => ⟨t, x⟩)).length ≤ P.length → j ≤ k := by
  rcases cut_decomp d sep t xs P hP with rfl | ⟨zs, x, ws, R, rfl, rfl, hR⟩
  · have : P = [] := List.prefix_nil.1 hP
    subst this
    obtain ⟨s', y, k1, k2⟩ := extractTy_end t allWs_nil old
    exact ⟨0, le_rfl, GuardedLoop.stop k1 (Or.inl k2), fun j hj _ => hj⟩
  have hspos : 0 < sep.length := List.length_pos_of_ne_nil hs
  have h := C70_guarded t ht ht' d hd sep hw hs zs x old
    (fun y hy => hxs y (List.mem_append_left _ hy)) (hxs x (by simp)) R hR
  -- the complete records among the first `j`
  have hj : ∀ j ≤ (zs ++ x :: ws).length,
      (enoteLines d sep (((zs ++ x :: ws).take j).map fun x => ⟨t, x⟩)).length ≤
        (enoteLines d sep (zs.map fun x => ⟨t, x⟩) ++ R).length →
      j ≤ zs.length ∨ (j = zs.length + 1 ∧ (enoteText d t x).length < R.length) := by
    intro j hj hlen
    by_cases h1 : j ≤ zs.length
    · exact Or.inl h1
    right
    obtain ⟨i, rfl⟩ : ∃ i, j = zs.length + (i + 1) := ⟨j - zs.length - 1, by omega⟩
    rw [List.take_length_add_append, List.take_succ_cons, enoteLines_append, enoteLines_cons,
      List.length_append, List.length_append, List.length_append, List.length_append] at hlen
    have hle := hR.length_le
    rw [List.length_append] at hle
    refine ⟨?_, by omega⟩
    by_contra h2
    rcases ws with _ | ⟨w, ws⟩
    · simp only [List.length_append, List.length_cons, List.length_nil] at hj; omega
    · obtain ⟨i, rfl⟩ : ∃ m, i = m + 1 := ⟨i - 1, by omega⟩
      rw [List.take_succ_cons, enoteLines_cons, List.length_append, List.length_append] at hlen
      omega
  by_cases hc : (enoteText d t x).length < R.length
  · rw [if_pos hc] at h
    refine ⟨zs.length + 1, by simp, ?_, fun j h1 h2 => ?_⟩
    · rw [List.take_length_add_append]; exact h
    · rcases hj j h1 h2 with h3 | h3 <;> omega
  · rw [if_neg hc] at h
    refine ⟨zs.length, by simp, ?_, fun j h1 h2 => ?_⟩
    · rw [List.take_left]; exact h
    · rcases hj j h1 h2 with h3 | h3
      · exact h3
      · exact absurd h3.2 hc

theorem sciParts_ten : sciParts 16 (10 : ℚ) = (10 ^ 16, 1) := by
  have hlog : Int.log 10 (10 : ℚ) = 1 := by
    have := Int.log_zpow (R := ℚ) (b := 10) (by norm_num) 1
    simpa using this
  have hr : F64.rhe ((10 : ℚ) / (10 : ℚ) ^ ((1 : ℤ) - ((16 : ℕ) : ℤ))) = 10 ^ 16 := by
    have e : (10 : ℚ) / (10 : ℚ) ^ ((1 : ℤ) - ((16 : ℕ) : ℤ)) = ((10 ^ 16 : ℤ) : ℚ) := by norm_num
    rw [e, F64.rhe_int]
  unfold sciParts
  dsimp only
  rw [hlog, hr, if_neg (by decide)]
  rfl

/-- The double 10. -/
def ten : F64 := fin 10 ⟨by norm_num, 10, 0, by norm_num, by norm_num, by norm_num, by norm_num⟩

theorem enoteText_ten : enoteText 16 .sca (⟨⟨ten⟩⟩ : Scalar F64) =
    " 1.0000000000000000e+01".toList := by
  have h : enoteTy 16 .sca (⟨⟨ten⟩⟩ : Scalar F64) = some (enoteText 16 .sca (⟨⟨ten⟩⟩ : Scalar F64)) :=
    enoteText_some 16 .sca _ (by simp) (by simp)
  rw [C30_enote_object, if_neg (by simp)] at h
  injection h with h
  rw [← h]
  have hb : bodyText .scientific 16 ten = "1.0000000000000000e+01".toList := by
    show sciText 16 |(10 : ℚ)| = _
    rw [sciText, if_neg (by norm_num), abs_of_pos (by norm_num), sciParts_ten]
    unfold mantText expText fracText
    dsimp only
    rw [natDigits_small (by norm_num), natDigits_small (by norm_num)]
    rfl
  have hn : numText .scientific 16 ten = "1.0000000000000000e+01".toList := by
    rw [numText, hb]
    have : signText ten = [] := by
      show (if decide ((10 : ℚ) < 0) = true then ['-'] else []) = []
      rw [if_neg (by norm_num)]
    rw [this]; rfl
  simp only [blades, List.map_cons, List.map_nil, enoteBlade, intercalate_cons, List.flatten_nil,
    List.append_nil, C30_enote_number, field, hn]
  rfl

/-- **C70**, the damage is real: the scalar 10, written with 16 decimals, its last character
missing.  `operator>>` reads the scalar 1 and reports no failure, and the plain loop returns it. -/
theorem C70_silent : ∃ (x y old : Scalar F64) (P : List Char),
    P <+: enoteText 16 .sca x ∧ P.length + 1 = (enoteText 16 .sca x).length ∧
      isValidTy .sca x = true ∧ isValidTy .sca y = true ∧ x.theData.d0.value = 10 ∧
      y.theData.d0.value = 1 ∧
      extractTy .sca ⟨P, false, false⟩ old = .ok (⟨[], true, false⟩, y) ∧
      ReadLoop .sca ⟨P, false, false⟩ old [y] := by
  have h1 : extractDub ⟨" 1.0000000000000000e+0".toList, false, false⟩ nan = (⟨[], true, false⟩, 1) := by
    have hs : scanNum "1.0000000000000000e+0".toList =
        (⟨false, ['1'], "0000000000000000".toList, some (false, ['0'])⟩, []) := by rfl
    have hc : NumTok.convert ⟨false, ['1'], "0000000000000000".toList, some (false, ['0'])⟩ =
        ((1 : F64), false) := by
      unfold NumTok.convert
      rw [if_neg (by simp)]
      have e1 : digitsVal (['1'] ++ "0000000000000000".toList) = 10 ^ 16 := by decide
      have e2 : digitsVal ['0'] = 0 := by decide
      have e3 : ("0000000000000000".toList).length = 16 := by decide
      have e4 : decToF64 false (10 ^ 16) (0 - ((16 : ℕ) : ℤ)) = 1 := by
        unfold decToF64
        rw [if_neg (by norm_num), F64.one_def]
        congr 1
        norm_num
      dsimp only
      rw [e1, e2, e3]
      simp only [Bool.false_eq_true, if_false, Nat.cast_zero]
      rw [e4, F64.one_eq]
    exact extract_scan (ws := [' ']) (txt := "1.0000000000000000e+0".toList) (rest := []) nan (allWs_blanks 1) ⟨'1', _, rfl, rfl⟩ hs hc
  have h2 : extractTy .sca ⟨" 1.0000000000000000e+0".toList, false, false⟩ (⟨⟨nan⟩⟩ : Scalar F64) =
      .ok (⟨[], true, false⟩, (⟨⟨1⟩⟩ : Scalar F64)) := by
    obtain ⟨s', y, k1, k2⟩ := C29_blades .sca (by simp) ⟨" 1.0000000000000000e+0".toList, false, false⟩
      (⟨⟨nan⟩⟩ : Scalar F64)
    have k3 : readGroups (bladeSizes .sca) ⟨" 1.0000000000000000e+0".toList, false, false⟩ =
        (⟨[], true, false⟩, [[1]]) := by
      have k4 : readAll 1 ⟨" 1.0000000000000000e+0".toList, false, false⟩ =
          (⟨[], true, false⟩, some [1]) := by
        rw [readAll, h1]
        dsimp only
        rw [if_pos ⟨rfl, isValidDub_one⟩]
        rfl
      show readGroups [1] _ = _
      rw [readGroups, k4]
      rfl
    rw [k3] at k2
    have k5 := congrArg Prod.fst k2
    have k6 := congrArg Prod.snd k2
    dsimp only at k5 k6
    rw [k1, k5, blades_inj .sca y (⟨⟨1⟩⟩ : Scalar F64) k6]
  refine ⟨⟨⟨ten⟩⟩, ⟨⟨1⟩⟩, ⟨⟨nan⟩⟩, " 1.0000000000000000e+0".toList, ?_, ?_, ?_, ?_, rfl, ?_, h2,
    ReadLoop.step h2 rfl (loop_at_eof .sca _)⟩
  · rw [enoteText_ten]; exact ⟨['1'], rfl⟩
  · rw [enoteText_ten]; rfl
  · show isValidDub ten = true
    refine (C11_double _).2 (Or.inr ⟨10, _, rfl, ?_⟩)
    rw [abs_of_pos (by norm_num)]
    refine le_trans ?_ (show (1 : ℚ) ≤ 10 by norm_num)
    rw [div_le_one (pow_pos (by norm_num) _)]
    exact one_le_pow₀ (by norm_num)
  · show isValidDub 1 = true
    exact isValidDub_one
  · show (1 : F64).value = 1
    rw [F64.one_eq]; rfl

/-! ## Examples -/

/-- Two vectors, the second cut anywhere: the guarded loop returns the first, or both. -/
example (R : List Char) (hR : R <+: enoteText 16 .vec (e2 : Vector F64) ++ ['\n']) :
    GuardedLoop .vec ⟨enoteLines 16 ['\n'] ([(e1 : Vector F64)].map fun x => ⟨.vec, x⟩) ++ R, false, false⟩
      (gnullTy nan .vec)
      (if (enoteText 16 .vec (e2 : Vector F64)).length < R.length then [(e1 : Vector F64)] ++ [e2] else [e1]) := by
  have hz : isValidDub (0 : F64) = true := (C11_double _).2 (Or.inl ⟨false, rfl⟩)
  have h1 : isValidDub (1 : F64) = true := isValidDub_one
  refine C70_guarded .vec (by simp) (by simp) 16 le_rfl _
    (by intro c hc; simp at hc; subst hc; rfl) (by simp) _ _ _ ?_ ?_ R hR
  · intro x hx c hc
    simp only [List.mem_cons, List.not_mem_nil, or_false] at hx
    subst hx
    simp [comps, e1, engabra] at hc
    rcases hc with rfl | rfl
    · exact h1
    · exact hz
  · intro c hc
    simp [comps, e2, engabra] at hc
    rcases hc with rfl | rfl | rfl
    · exact hz
    · exact h1
    · exact hz

/-- A text cut to nothing, and a text cut inside the second record of three characters. -/
example : ([] : List Char) <+: enoteText 16 .vec (e2 : Vector F64) ++ ['\n'] ∧
    (enoteText 16 .vec (e2 : Vector F64)).take 3 <+: enoteText 16 .vec (e2 : Vector F64) ++ ['\n'] :=
  ⟨List.nil_prefix, (List.take_prefix _ _).trans (List.prefix_append _ _)⟩

end Engabra
