import Verif.Lemmas.Decimal
import Verif.Props.C10_C12_NullValid

/-! # C29: stream extraction

`extractTy t s x` is `istrm >> x` for a stream in state `s`; `extractDub` is the extraction of
a `double` by the standard library. -/

namespace Engabra

open F64 (nan inf zero fin IsFin)

/-! ## Specification -/

/-- Read `n` numbers one after the other, stopping at the first one which the stream rejects
or which is not valid: the stream afterwards, and the numbers if all `n` are good. -/
noncomputable def readAll : Nat → IStream → IStream × Option (List F64)
  | 0, s => (s, some [])
  | n + 1, s =>
    let r := extractDub s nan
    if r.1.fail = false ∧ isValidDub r.2 = true then
      ((readAll n r.1).1, (readAll n r.1).2.map (r.2 :: ·))
    else (r.1, none)

/-- Read groups of the given sizes one after the other; a group that cannot be read is all
NaN. -/
noncomputable def readGroups : List Nat → IStream → IStream × List (List F64)
  | [], s => (s, [])
  | n :: ns, s =>
    let r := readAll n s
    ((readGroups ns r.1).1, r.2.getD (List.replicate n nan) :: (readGroups ns r.1).2)

/-- The blades of an object, in declaration order, as lists of components. -/
def blades : (t : Ty) → t.D F64 → List (List F64)
  | .dub, x => [[x]]
  | .sca, x => [[x.theData.d0]]
  | .vec, x => [[x.theData.d0, x.theData.d1, x.theData.d2]]
  | .biv, x => [[x.theData.d0, x.theData.d1, x.theData.d2]]
  | .tri, x => [[x.theData.d0]]
  | .spin, x => [[x.theSca.theData.d0],
      [x.theBiv.theData.d0, x.theBiv.theData.d1, x.theBiv.theData.d2]]
  | .imsp, x => [[x.theVec.theData.d0, x.theVec.theData.d1, x.theVec.theData.d2],
      [x.theTri.theData.d0]]
  | .cplx, x => [[x.theSca.theData.d0], [x.theTri.theData.d0]]
  | .dplx, x => [[x.theVec.theData.d0, x.theVec.theData.d1, x.theVec.theData.d2],
      [x.theBiv.theData.d0, x.theBiv.theData.d1, x.theBiv.theData.d2]]
  | .mv, x => [[x.theSca.theData.d0],
      [x.theVec.theData.d0, x.theVec.theData.d1, x.theVec.theData.d2],
      [x.theBiv.theData.d0, x.theBiv.theData.d1, x.theBiv.theData.d2], [x.theTri.theData.d0]]

/-- Number of components of the blades of a type. -/
def bladeSizes : Ty → List Nat
  | .dub => [1]
  | .sca => [1]
  | .vec => [3]
  | .biv => [3]
  | .tri => [1]
  | .spin => [1, 3]
  | .imsp => [3, 1]
  | .cplx => [1, 1]
  | .dplx => [3, 3]
  | .mv => [1, 3, 3, 1]

theorem blades_join (t : Ty) (x : t.D F64) : (blades t x).flatten = comps t x := by
  cases t <;> rfl

theorem blades_sizes (t : Ty) (x : t.D F64) : (blades t x).map List.length = bladeSizes t := by
  cases t <;> rfl

/-! ## Lemmas -/

theorem extractDub_old (s : IStream) (a b : F64) :
    (extractDub s a).1 = (extractDub s b).1 ∧
      ((extractDub s a).1.fail = false → (extractDub s a).2 = (extractDub s b).2) := by
  unfold extractDub
  split
  · simp
  · dsimp only
    split
    · simp
    · simp

theorem okay_iff (s : IStream) (x : F64) :
    isInputOkay s x = true ↔ s.fail = false ∧ isValidDub x = true := by
  simp [isInputOkay]

theorem extractLoop_spec (xs : List F64) (s : IStream) :
    (extractLoop s true xs).1 = (readAll xs.length s).1 ∧
    (∀ ys, (readAll xs.length s).2 = some ys → (extractLoop s true xs).2 = (true, ys)) ∧
    ((readAll xs.length s).2 = none → (extractLoop s true xs).2.1 = false) := by
  induction xs generalizing s with
  | nil => simp [extractLoop, readAll]
  | cons x xs ih =>
    obtain ⟨h1, h2⟩ := extractDub_old s x nan
    rw [List.length_cons, readAll, extractLoop, if_pos rfl]
    dsimp only
    by_cases hok : (extractDub s nan).1.fail = false ∧ isValidDub (extractDub s nan).2 = true
    · have hx := h2 (by rw [h1]; exact hok.1)
      have hio : isInputOkay (extractDub s x).1 (extractDub s x).2 = true := by
        rw [h1, hx, okay_iff]; exact hok
      rw [if_pos hok, hio, h1, hx]
      obtain ⟨i1, i2, i3⟩ := ih (extractDub s nan).1
      refine ⟨i1, ?_, ?_⟩
      · intro ys hys
        dsimp only at hys
        rcases hr : (readAll xs.length (extractDub s nan).1).2 with _ | zs
        · rw [hr] at hys; simp at hys
        · rw [hr] at hys
          simp only [Option.map_some, Option.some.injEq] at hys
          rw [i2 zs hr, ← hys]
      · intro hn
        dsimp only at hn
        rw [Option.map_eq_none_iff] at hn
        exact i3 hn
    · have hio : isInputOkay (extractDub s x).1 (extractDub s x).2 = false := by
        rw [Bool.eq_false_iff, Ne, okay_iff]
        intro hc
        exact hok ⟨by rw [← h1]; exact hc.1, by rw [← h2 hc.1]; exact hc.2⟩
      rw [if_neg hok, hio, h1]
      have hl : ∀ zs : List F64, extractLoop (extractDub s nan).1 false zs =
          ((extractDub s nan).1, false, zs) := by
        intro zs; cases zs <;> simp [extractLoop]
      rw [hl]
      simp

/-- The array extraction as "read `Dim` good numbers, or all NaN". -/
theorem extractArr_spec (s : IStream) (data : List F64) (h : data ≠ []) :
    extractArr s data = .ok ((readAll data.length s).1,
      (readAll data.length s).2.getD (List.replicate data.length nan)) := by
  rcases data with _ | ⟨x, xs⟩
  · exact absurd rfl h
  have := extractLoop_spec (x :: xs) s
  rw [extractLoop, if_pos rfl] at this
  obtain ⟨h1, h2, h3⟩ := this
  unfold extractArr
  dsimp only at h1 h2 h3 ⊢
  rcases hr : (readAll (x :: xs).length s).2 with _ | ys
  · rw [if_neg (by rw [h3 hr]; decide), h1]
    rfl
  · have := h2 ys hr
    have ht := congrArg Prod.fst this
    have hy := congrArg Prod.snd this
    dsimp only at ht hy
    rw [if_pos ht, hy, h1]
    rfl

theorem readAll_length (n : Nat) (s : IStream) (ys : List F64) (h : (readAll n s).2 = some ys) :
    ys.length = n := by
  induction n generalizing s ys with
  | zero => simp [readAll] at h; subst h; rfl
  | succ n ih =>
    rw [readAll] at h
    split at h
    · rw [Option.map_eq_some_iff] at h
      obtain ⟨zs, hz, rfl⟩ := h
      rw [List.length_cons, ih _ _ hz]
    · simp at h

theorem readAll_valid (n : Nat) (s : IStream) (ys : List F64) (h : (readAll n s).2 = some ys) :
    ∀ y ∈ ys, isValidDub y = true := by
  induction n generalizing s ys with
  | zero => simp [readAll] at h; subst h; simp
  | succ n ih =>
    rw [readAll] at h
    split at h
    · rename_i hc
      rw [Option.map_eq_some_iff] at h
      obtain ⟨zs, hz, rfl⟩ := h
      intro y hy
      rcases List.mem_cons.1 hy with rfl | hy
      · exact hc.2
      · exact ih _ _ hz y hy
    · simp at h

theorem readAll_nofail (n : Nat) (s : IStream) (ys : List F64) (hn : n ≠ 0)
    (h : (readAll n s).2 = some ys) : (readAll n s).1.fail = false := by
  induction n generalizing s ys with
  | zero => exact absurd rfl hn
  | succ n ih =>
    rw [readAll] at h ⊢
    split at h
    · rename_i hc
      rw [if_pos hc]
      rw [Option.map_eq_some_iff] at h
      obtain ⟨zs, hz, rfl⟩ := h
      rcases n with _ | n
      · exact hc.1
      · exact ih _ _ (by omega) hz
    · simp at h

theorem run_bind_ok {β γ : Type} (b : β) (f : β → Run γ) : (Run.ok b).bind f = f b := rfl

theorem extractA1_spec (s : IStream) (a : A1 F64) :
    ∃ x, extractA1 s a = .ok ((readAll 1 s).1, ⟨x⟩) ∧
      [x] = (readAll 1 s).2.getD (List.replicate 1 nan) := by
  unfold extractA1
  rw [extractArr_spec s a.toList (by simp [A1.toList]), run_bind_ok]
  have hl : a.toList.length = 1 := rfl
  rw [hl]
  dsimp only
  rcases hr : (readAll 1 s).2 with _ | ys
  · exact ⟨nan, rfl, rfl⟩
  · have := readAll_length _ _ _ hr
    rcases ys with _ | ⟨x, _ | ⟨y, ys⟩⟩
    · simp at this
    · exact ⟨x, rfl, rfl⟩
    · simp at this

theorem extractA3_spec (s : IStream) (a : A3 F64) :
    ∃ x y z, extractA3 s a = .ok ((readAll 3 s).1, ⟨x, y, z⟩) ∧
      [x, y, z] = (readAll 3 s).2.getD (List.replicate 3 nan) := by
  unfold extractA3
  rw [extractArr_spec s a.toList (by simp [A3.toList]), run_bind_ok]
  have hl : a.toList.length = 3 := rfl
  rw [hl]
  dsimp only
  rcases hr : (readAll 3 s).2 with _ | ys
  · exact ⟨nan, nan, nan, rfl, rfl⟩
  · have := readAll_length _ _ _ hr
    rcases ys with _ | ⟨x, _ | ⟨y, _ | ⟨z, _ | ⟨w, ys⟩⟩⟩⟩
    · simp at this
    · simp at this
    · simp at this
    · exact ⟨x, y, z, rfl, rfl⟩
    · simp at this

/-! ## The property -/

/-- **C29**, arrays of every length `≥ 1`: the result is the next `Dim` numbers of the text if
these can all be read and are all valid, and NaN in every element otherwise; reading stops at
the first number that is not good.  (Length zero: undefined behaviour.) -/
theorem C29_array (s : IStream) (data : List F64) :
    extractArr s data = if data = [] then .ub else
      .ok ((readAll data.length s).1,
        (readAll data.length s).2.getD (List.replicate data.length nan)) := by
  by_cases h : data = []
  · subst h; rfl
  · rw [if_neg h]; exact extractArr_spec s data h

/-- **C29.** Extraction is defined for every type, every stream state and every previous value
of the object; the blades are read one after the other, each of them all or NaN. -/
theorem C29_blades (t : Ty) (ht : t ≠ .dub) (s : IStream) (x : t.D F64) :
    ∃ s' y, extractTy t s x = .ok (s', y) ∧ (s', blades t y) = readGroups (bladeSizes t) s := by
  cases t <;> first | exact absurd rfl ht | skip
  case sca =>
    obtain ⟨a, h, h'⟩ := extractA1_spec s x.theData
    exact ⟨_, ⟨⟨a⟩⟩, by rw [extractTy, h]; rfl, by simp only [blades, bladeSizes, readGroups, h']⟩
  case tri =>
    obtain ⟨a, h, h'⟩ := extractA1_spec s x.theData
    exact ⟨_, ⟨⟨a⟩⟩, by rw [extractTy, h]; rfl, by simp only [blades, bladeSizes, readGroups, h']⟩
  case vec =>
    obtain ⟨a, b, c, h, h'⟩ := extractA3_spec s x.theData
    exact ⟨_, ⟨⟨a, b, c⟩⟩, by rw [extractTy, h]; rfl,
      by simp only [blades, bladeSizes, readGroups, h']⟩
  case biv =>
    obtain ⟨a, b, c, h, h'⟩ := extractA3_spec s x.theData
    exact ⟨_, ⟨⟨a, b, c⟩⟩, by rw [extractTy, h]; rfl,
      by simp only [blades, bladeSizes, readGroups, h']⟩
  case spin =>
    obtain ⟨p, h, h'⟩ := extractA1_spec s x.theSca.theData
    obtain ⟨a, b, c, k, k'⟩ := extractA3_spec (readAll 1 s).1 x.theBiv.theData
    exact ⟨_, ⟨⟨⟨p⟩⟩, ⟨⟨a, b, c⟩⟩⟩,
      by rw [extractTy, h, run_bind_ok]; dsimp only; rw [k, run_bind_ok],
      by simp only [blades, bladeSizes, readGroups, h', k']⟩
  case imsp =>
    obtain ⟨a, b, c, h, h'⟩ := extractA3_spec s x.theVec.theData
    obtain ⟨p, k, k'⟩ := extractA1_spec (readAll 3 s).1 x.theTri.theData
    exact ⟨_, ⟨⟨⟨a, b, c⟩⟩, ⟨⟨p⟩⟩⟩,
      by rw [extractTy, h, run_bind_ok]; dsimp only; rw [k, run_bind_ok],
      by simp only [blades, bladeSizes, readGroups, h', k']⟩
  case cplx =>
    obtain ⟨a, h, h'⟩ := extractA1_spec s x.theSca.theData
    obtain ⟨p, k, k'⟩ := extractA1_spec (readAll 1 s).1 x.theTri.theData
    exact ⟨_, ⟨⟨⟨a⟩⟩, ⟨⟨p⟩⟩⟩,
      by rw [extractTy, h, run_bind_ok]; dsimp only; rw [k, run_bind_ok],
      by simp only [blades, bladeSizes, readGroups, h', k']⟩
  case dplx =>
    obtain ⟨a, b, c, h, h'⟩ := extractA3_spec s x.theVec.theData
    obtain ⟨p, q, r, k, k'⟩ := extractA3_spec (readAll 3 s).1 x.theBiv.theData
    exact ⟨_, ⟨⟨⟨a, b, c⟩⟩, ⟨⟨p, q, r⟩⟩⟩,
      by rw [extractTy, h, run_bind_ok]; dsimp only; rw [k, run_bind_ok],
      by simp only [blades, bladeSizes, readGroups, h', k']⟩
  case mv =>
    obtain ⟨u, h, h'⟩ := extractA1_spec s x.theSca.theData
    obtain ⟨a, b, c, k, k'⟩ := extractA3_spec (readAll 1 s).1 x.theVec.theData
    obtain ⟨p, q, r, l, l'⟩ := extractA3_spec (readAll 3 (readAll 1 s).1).1 x.theBiv.theData
    obtain ⟨v, m, m'⟩ := extractA1_spec (readAll 3 (readAll 3 (readAll 1 s).1).1).1 x.theTri.theData
    exact ⟨_, ⟨⟨⟨u⟩⟩, ⟨⟨a, b, c⟩⟩, ⟨⟨p, q, r⟩⟩, ⟨⟨v⟩⟩⟩,
      by rw [extractTy, h, run_bind_ok]; dsimp only; rw [k, run_bind_ok]; dsimp only
         rw [l, run_bind_ok]; dsimp only; rw [m, run_bind_ok],
      by simp only [blades, bladeSizes, readGroups, h', k', l', m']⟩

theorem readGroups_all_or_null (ns : List Nat) (s : IStream) :
    ∀ b ∈ (readGroups ns s).2, (∀ c ∈ b, isValidDub c = true) ∨ (∀ c ∈ b, c = nan) := by
  induction ns generalizing s with
  | nil => simp [readGroups]
  | cons n ns ih =>
    intro b hb
    rw [readGroups] at hb
    rcases List.mem_cons.1 hb with rfl | hb
    · rcases hr : (readAll n s).2 with _ | ys
      · right
        intro c hc
        exact List.eq_of_mem_replicate hc
      · left
        exact readAll_valid n s ys hr
    · exact ih _ b hb

/-- **C29.** All or null: after `istrm >> x` the components of each blade of `x` are either all
valid or all NaN. -/
theorem C29_all_or_null (t : Ty) (ht : t ≠ .dub) (s s' : IStream) (x y : t.D F64)
    (h : extractTy t s x = .ok (s', y)) :
    ∀ b ∈ blades t y, (∀ c ∈ b, isValidDub c = true) ∨ (∀ c ∈ b, c = nan) := by
  obtain ⟨s'', y', h1, h2⟩ := C29_blades t ht s x
  rw [h1] at h
  injection h with h
  injection h with ha hb
  subst hb
  have := congrArg Prod.snd h2
  dsimp only at this
  rw [this]
  exact readGroups_all_or_null _ _

/-- **C29.** The previous value of the object does not matter. -/
theorem C29_ignores_old (t : Ty) (ht : t ≠ .dub) (s : IStream) (x x' : t.D F64) :
    extractTy t s x = extractTy t s x' := by
  obtain ⟨s1, y1, h1, k1⟩ := C29_blades t ht s x
  obtain ⟨s2, y2, h2, k2⟩ := C29_blades t ht s x'
  have e := k1.trans k2.symm
  have e1 := congrArg Prod.fst e
  have e2 := congrArg Prod.snd e
  dsimp only at e1 e2
  have e3 : y1 = y2 := by
    cases t <;> first | exact absurd rfl ht | skip
    all_goals
      simp only [blades, List.cons.injEq, and_true, and_assoc] at e2
      ext <;> simp_all
  rw [h1, h2, e1, e3]

theorem readAll_bad (n : Nat) (s : IStream) (hs : s.fail = true ∨ s.eof = true) (hn : n ≠ 0) :
    readAll n s = (⟨s.rest, s.eof, true⟩, none) := by
  rcases n with _ | n
  · exact absurd rfl hn
  have : extractDub s nan = (⟨s.rest, s.eof, true⟩, nan) := by
    unfold extractDub
    rw [if_pos (by rcases hs with h | h <;> simp [h])]
  rw [readAll, this]
  simp

theorem readGroups_bad (ns : List Nat) (hz : 0 ∉ ns) (s : IStream)
    (hs : s.fail = true ∨ s.eof = true) :
    (∀ b ∈ (readGroups ns s).2, ∀ c ∈ b, c = nan) ∧
      (ns ≠ [] → (readGroups ns s).1 = ⟨s.rest, s.eof, true⟩) := by
  induction ns generalizing s with
  | nil => simp [readGroups]
  | cons n ns ih =>
    have hn : n ≠ 0 := by rintro rfl; simp at hz
    have hz' : 0 ∉ ns := fun h => hz (List.mem_cons_of_mem _ h)
    rw [readGroups, readAll_bad n s hs hn]
    dsimp only
    obtain ⟨i1, i2⟩ := ih hz' ⟨s.rest, s.eof, true⟩ (Or.inl rfl)
    refine ⟨?_, fun _ => ?_⟩
    · intro b hb
      rcases List.mem_cons.1 hb with rfl | hb
      · intro c hc; exact List.eq_of_mem_replicate hc
      · exact i1 b hb
    · rcases ns with _ | ⟨m, ns⟩
      · rfl
      · exact i2 (by simp)

/-- **C29.** Extraction from a stream that has failed (or is at its end) makes every component
NaN, consumes nothing and leaves the stream failed. -/
theorem C29_failed_stream (t : Ty) (ht : t ≠ .dub) (s : IStream)
    (hs : s.fail = true ∨ s.eof = true) (x : t.D F64) :
    ∃ y, extractTy t s x = .ok (⟨s.rest, s.eof, true⟩, y) ∧ ∀ c ∈ comps t y, c = nan := by
  obtain ⟨s', y, h, k⟩ := C29_blades t ht s x
  obtain ⟨h1, h2⟩ := readGroups_bad (bladeSizes t) (by cases t <;> simp [bladeSizes]) s hs
  have k1 := congrArg Prod.fst k
  have k2 := congrArg Prod.snd k
  dsimp only at k1 k2
  rw [h2 (by cases t <;> simp [bladeSizes])] at k1
  refine ⟨y, by rw [h, k1], ?_⟩
  intro c hc
  rw [← blades_join, List.mem_flatten] at hc
  obtain ⟨b, hb, hc⟩ := hc
  rw [k2] at hb
  exact h1 b hb c hc

/-- **C29.** After extraction `isValid` is exact (although it looks at first components only,
see C11): the object is reported valid iff all its components are valid. -/
theorem C29_isValid_iff (t : Ty) (s s' : IStream) (x y : t.D F64)
    (h : extractTy t s x = .ok (s', y)) :
    isValidTy t y = true ↔ ∀ c ∈ comps t y, isValidDub c = true := by
  constructor
  · intro hv
    by_cases ht : t = .dub
    · subst ht
      intro c hc
      rw [C11_first_components] at hv
      simpa [firstComps, comps] using (show isValidDub c = true from by
        simp [comps] at hc; subst hc; simpa [firstComps] using hv)
    have hb := C29_all_or_null t ht s s' x y h
    rw [C11_first_components] at hv
    intro c hc
    rw [← blades_join, List.mem_flatten] at hc
    obtain ⟨b, hbm, hcb⟩ := hc
    rcases hb b hbm with hall | hnan
    · exact hall c hcb
    · exfalso
      have hn : isValidDub (nan : F64) = false := isValidDub_nan
      cases t <;> first | exact absurd rfl ht | skip
      all_goals
        simp only [blades, List.mem_cons, List.not_mem_nil, or_false] at hbm
        simp only [firstComps, List.all_cons, List.all_nil, Bool.and_true, Bool.and_eq_true] at hv
        try casesm* _ ∨ _
        all_goals
          subst b
          first
          | rw [hnan _ (List.mem_cons_self)] at hv
            simp [hn] at hv
  · exact C11_valid_partial t y

theorem extractDub_fail_mono (s : IStream) (x : F64) (h : s.fail = true) :
    (extractDub s x).1.fail = true := by
  unfold extractDub
  rw [if_pos (by simp [h])]

theorem readAll_fail_mono (n : Nat) (s : IStream) (h : s.fail = true) :
    (readAll n s).1.fail = true := by
  rcases n with _ | n
  · exact h
  · rw [readAll_bad _ _ (Or.inl h) (by omega)]

theorem readGroups_fail_mono (ns : List Nat) (s : IStream) (h : s.fail = true) :
    (readGroups ns s).1.fail = true := by
  induction ns generalizing s with
  | nil => exact h
  | cons n ns ih => rw [readGroups]; exact ih _ (readAll_fail_mono n s h)

/-- A number delivered by a stream that has not failed is finite. -/
theorem extractDub_finite (s : IStream) (x : F64) (h : (extractDub s x).1.fail = false) :
    (∃ b, (extractDub s x).2 = zero b) ∨ (∃ v hv, (extractDub s x).2 = fin v hv) := by
  unfold extractDub at h ⊢
  split at h
  · simp at h
  rename_i hc
  rw [if_neg hc]
  dsimp only at h ⊢
  split at h
  · simp at h
  rename_i hc
  rw [if_neg hc]
  dsimp only at h ⊢
  generalize (scanNum (s.rest.dropWhile isWs)).1 = k at h ⊢
  have key : ∀ neg n e, decToF64 neg n e ≠ nan := by
    intro neg n e
    unfold decToF64
    split
    · simp
    · exact F64.roundTo_not_nan _
  unfold NumTok.convert at h ⊢
  split at h
  · simp at h
  rename_i hd
  rw [if_neg hd]
  split at h
  · simp at h
  dsimp only at h ⊢
  split
  · rename_i hinf
    rw [hinf] at h; simp at h
  · rename_i hinf
    rcases hv : decToF64 k.neg (digitsVal (k.ip ++ k.fp)) _ with _ | b | b | ⟨w, hw⟩
    · exact absurd hv (key _ _ _)
    · exact absurd hv (hinf b)
    · exact Or.inl ⟨b, rfl⟩
    · exact Or.inr ⟨w, hw, rfl⟩

/-- **C29.** The only value that a stream delivers without failing and that extraction rejects
is a subnormal number. -/
theorem C29_rejects_only_subnormal (s : IStream) (x : F64)
    (h : (extractDub s x).1.fail = false) (hv : isValidDub (extractDub s x).2 = false) :
    ∃ v hv, (extractDub s x).2 = fin v hv ∧ |v| < 1 / 2 ^ 1022 := by
  rcases extractDub_finite s x h with ⟨b, hb⟩ | ⟨v, hf, hb⟩
  · rw [hb, isValidDub_zero] at hv; exact absurd hv (by decide)
  · refine ⟨v, hf, hb, ?_⟩
    by_contra hc
    rw [not_lt] at hc
    rw [hb, (C11_double _).2 (Or.inr ⟨v, hf, rfl, hc⟩)] at hv
    exact absurd hv (by decide)


theorem readGroups_nofail (ns : List Nat) (hz : 0 ∉ ns) (hne : ns ≠ []) (s : IStream)
    (h : ∀ b ∈ (readGroups ns s).2, ∀ c ∈ b, isValidDub c = true) :
    (readGroups ns s).1.fail = false := by
  induction ns generalizing s with
  | nil => exact absurd rfl hne
  | cons n ns ih =>
    have hn : n ≠ 0 := by rintro rfl; simp at hz
    rw [readGroups] at h ⊢
    have hfst := h _ List.mem_cons_self
    have hok : (readAll n s).1.fail = false := by
      rcases hr : (readAll n s).2 with _ | ys
      · rw [hr] at hfst
        have := hfst nan (by simp [hn])
        rw [isValidDub_nan] at this
        exact absurd this (by decide)
      · exact readAll_nofail n s ys hn hr
    rcases ns with _ | ⟨m, ns⟩
    · exact hok
    · exact ih (fun h => hz (List.mem_cons_of_mem _ h)) (by simp) _
        (fun b hb => h b (List.mem_cons_of_mem _ hb))

/-- **C29.** An object reported valid after extraction was read from a stream which has not
failed. -/
theorem C29_valid_stream (t : Ty) (ht : t ≠ .dub) (s s' : IStream) (x y : t.D F64)
    (h : extractTy t s x = .ok (s', y)) (hv : isValidTy t y = true) : s'.fail = false := by
  have hc := (C29_isValid_iff t s s' x y h).1 hv
  obtain ⟨s'', y', h1, h2⟩ := C29_blades t ht s x
  rw [h1] at h
  injection h with h
  injection h with ha hb
  subst ha hb
  have k1 := congrArg Prod.fst h2
  have k2 := congrArg Prod.snd h2
  dsimp only at k1 k2
  rw [k1]
  refine readGroups_nofail _ (by cases t <;> simp [bladeSizes]) (by cases t <;> simp [bladeSizes]) s ?_
  intro b hb c hcb
  rw [← k2] at hb
  exact hc c (by rw [← blades_join, List.mem_flatten]; exact ⟨b, hb, hcb⟩)

/-! ### Only a prefix of the text is consumed -/

theorem scanSign_suffix (cs : List Char) : (scanSign cs).2 <:+ cs := by
  rcases cs with _ | ⟨c, cs⟩
  · exact List.suffix_refl _
  · unfold scanSign
    dsimp only
    split
    · exact List.suffix_cons _ _
    · split
      · exact List.suffix_cons _ _
      · exact List.suffix_refl _

theorem span_suffix (p : Char → Bool) (cs : List Char) : (cs.span p).2 <:+ cs := by
  rw [List.span_eq_takeWhile_dropWhile]; exact List.dropWhile_suffix _

theorem scanFrac_suffix (cs : List Char) : (scanFrac cs).2 <:+ cs := by
  rcases cs with _ | ⟨c, cs⟩
  · exact List.suffix_refl _
  · unfold scanFrac
    dsimp only
    split
    · exact (span_suffix _ _).trans (List.suffix_cons _ _)
    · exact List.suffix_refl _

theorem scanExp_suffix (b : Bool) (cs : List Char) : (scanExp b cs).2 <:+ cs := by
  rcases cs with _ | ⟨c, cs⟩
  · exact List.suffix_refl _
  · unfold scanExp
    dsimp only
    split
    · exact ((span_suffix _ _).trans (scanSign_suffix _)).trans (List.suffix_cons _ _)
    · exact List.suffix_refl _

theorem extractDub_suffix (s : IStream) (x : F64) : (extractDub s x).1.rest <:+ s.rest := by
  unfold extractDub
  split
  · exact List.suffix_refl _
  · dsimp only
    split
    · exact List.nil_suffix
    · unfold scanNum
      dsimp only
      exact (((scanExp_suffix _ _).trans (scanFrac_suffix _)).trans
        ((span_suffix _ _).trans (scanSign_suffix _))).trans (List.dropWhile_suffix _)

theorem readAll_suffix (n : Nat) (s : IStream) : (readAll n s).1.rest <:+ s.rest := by
  induction n generalizing s with
  | zero => exact List.suffix_refl _
  | succ n ih =>
    rw [readAll]
    split
    · exact (ih _).trans (extractDub_suffix _ _)
    · exact extractDub_suffix _ _

theorem readGroups_suffix (ns : List Nat) (s : IStream) : (readGroups ns s).1.rest <:+ s.rest := by
  induction ns generalizing s with
  | nil => exact List.suffix_refl _
  | cons n ns ih => rw [readGroups]; exact (ih _).trans (readAll_suffix _ _)

/-- **C29.** What is left in the stream is a suffix of what was there. -/
theorem C29_suffix (t : Ty) (s s' : IStream) (x y : t.D F64)
    (h : extractTy t s x = .ok (s', y)) : s'.rest <:+ s.rest := by
  by_cases ht : t = .dub
  · subst ht
    rw [extractTy] at h
    injection h with h
    rw [← show (extractDub s x).1 = s' from congrArg Prod.fst h]
    exact extractDub_suffix s x
  obtain ⟨s'', y', h1, h2⟩ := C29_blades t ht s x
  rw [h1] at h
  injection h with h
  injection h with ha hb
  subst ha
  rw [show s'' = (readGroups (bladeSizes t) s).1 from congrArg Prod.fst h2]
  exact readGroups_suffix _ _

/-! ### Concrete texts -/

theorem roundTo_subnormal {q : ℚ} (h1 : (2 : ℚ) ^ (-1074 : ℤ) ≤ q) (h2 : q ≤ (2 : ℚ) ^ (-1023 : ℤ)) :
    isValidDub (F64.roundTo q) = false ∧ ∀ s, F64.roundTo q ≠ inf s := by
  have hp : (0 : ℚ) < (2 : ℚ) ^ (-1074 : ℤ) := zpow_pos (by norm_num) _
  have h0 : q ≠ 0 := (lt_of_lt_of_le hp h1).ne'
  have b1 : (2 : ℚ) ^ (-1074 : ℤ) ≤ F64.rnVal q :=
    F64.rep_le_rnVal (K := ℚ) (F64.rep_pow (-1074) (by norm_num)) (by simpa using h1)
  have b2 : F64.rnVal q ≤ (2 : ℚ) ^ (-1023 : ℤ) :=
    F64.rnVal_le_rep (K := ℚ) (F64.rep_pow (-1023) (by norm_num)) (by simpa using h2)
  have hr0 : F64.rnVal q ≠ 0 := (lt_of_lt_of_le hp b1).ne'
  have habs : |F64.rnVal q| = F64.rnVal q := abs_of_pos (lt_of_lt_of_le hp b1)
  have hlt : |F64.rnVal q| < 2 ^ 1024 := by
    rw [habs]
    refine lt_of_le_of_lt b2 ?_
    rw [← zpow_natCast]
    exact zpow_lt_zpow_right₀ (by norm_num) (by norm_num)
  unfold F64.roundTo
  rw [dif_neg h0, dif_neg hr0, dif_pos hlt]
  refine ⟨?_, by simp⟩
  rw [Bool.eq_false_iff, Ne, C11_double]
  rintro (⟨s, h⟩ | ⟨v, hv, h, hle⟩)
  · simp at h
  · injection h with h
    subst h
    rw [habs] at hle
    have : (1 : ℚ) / 2 ^ 1022 = (2 : ℚ) ^ (-1022 : ℤ) := by
      rw [zpow_neg, ← zpow_natCast, one_div]; rfl
    rw [this] at hle
    have h3 : (2 : ℚ) ^ (-1023 : ℤ) < (2 : ℚ) ^ (-1022 : ℤ) :=
      zpow_lt_zpow_right₀ (by norm_num) (by norm_num)
    linarith

/-- The text of a small non-negative integer. -/
theorem extract_int {ws rest : List Char} (hw : AllWs ws) (hr : Ends rest) (n : ℕ) (h0 : n ≠ 0)
    (hn : n ≤ 2 ^ 53) (old : F64) :
    ∃ h, extractDub ⟨ws ++ natDigits n ++ rest, false, false⟩ old =
      (⟨rest, rest.isEmpty, false⟩, fin (n : ℚ) h) := by
  have hrep : F64.Rep (n : ℚ) := by
    have := F64.rep_int (n : ℤ) (by rw [abs_of_nonneg (by positivity)]; exact_mod_cast hn)
    exact_mod_cast this
  have hne : (n : ℚ) ≠ 0 := by exact_mod_cast h0
  have hlt : |F64.rnVal (n : ℚ)| < 2 ^ 1024 := by
    rw [F64.rnVal_exact hrep, abs_of_nonneg (by positivity)]
    have : (n : ℚ) ≤ 2 ^ 53 := by exact_mod_cast hn
    refine lt_of_le_of_lt this (pow_lt_pow_right₀ (by norm_num) (by norm_num))
  have hfin : IsFin (n : ℚ) := by
    have := F64.rnVal_isFin (n : ℚ) hne (by rw [F64.rnVal_exact hrep]; exact hne) hlt
    rwa [F64.rnVal_exact hrep] at this
  refine ⟨hfin, ?_⟩
  have := extract_fixed hw hr false 0 n (fin (n : ℚ) hfin) old (by
    unfold decToF64
    rw [if_neg h0]
    simp only [Bool.false_eq_true, if_false, Nat.cast_zero, neg_zero, zpow_zero, mul_one]
    exact F64.roundTo_fin hfin) (by simp)
  simpa [sgn, mantText, fracText] using this

theorem natDigits_small {d : ℕ} (h : d < 10) : natDigits d = [digitChar d] := by
  rw [natDigits, if_pos h]

/-- A concrete extraction: `" 7 8 9"` into a vector gives `(7, 8, 9)`. -/
example (x : Vector F64) : ∃ y : Vector F64,
    extractTy .vec ⟨" 7 8 9".toList, false, false⟩ x = .ok (⟨[], true, false⟩, y) ∧
      (comps .vec y).map F64.value = [7, 8, 9] ∧ isValidTy .vec y = true := by
  obtain ⟨h7, e7⟩ := extract_int (ws := [' ']) (rest := " 8 9".toList) (allWs_replicate 1)
    (ends_space _) 7 (by norm_num) (by norm_num) nan
  obtain ⟨h8, e8⟩ := extract_int (ws := [' ']) (rest := " 9".toList) (allWs_replicate 1)
    (ends_space _) 8 (by norm_num) (by norm_num) nan
  obtain ⟨h9, e9⟩ := extract_int (ws := [' ']) (rest := []) (allWs_replicate 1)
    ends_nil 9 (by norm_num) (by norm_num) nan
  rw [natDigits_small (by norm_num)] at e7 e8 e9
  have v : ∀ n : ℕ, ∀ h, 1 ≤ n → isValidDub (fin (n : ℚ) h) = true := by
    intro n h hn
    refine (C11_double _).2 (Or.inr ⟨n, h, rfl, ?_⟩)
    have h1 : (1 : ℚ) ≤ n := by exact_mod_cast hn
    rw [abs_of_nonneg (by linarith)]
    refine le_trans ?_ h1
    rw [div_le_one (by positivity)]
    exact one_le_pow₀ (by norm_num)
  have hr : readAll 3 ⟨" 7 8 9".toList, false, false⟩ =
      (⟨[], true, false⟩, some [fin (7 : ℕ) h7, fin (8 : ℕ) h8, fin (9 : ℕ) h9]) := by
    rw [readAll, show " 7 8 9".toList = [' '] ++ [digitChar 7] ++ " 8 9".toList from by decide, e7]
    dsimp only
    rw [if_pos ⟨rfl, v 7 h7 (by norm_num)⟩, readAll,
      show ⟨" 8 9".toList, " 8 9".toList.isEmpty, false⟩ =
        (⟨[' '] ++ [digitChar 8] ++ " 9".toList, false, false⟩ : IStream) from by decide, e8]
    dsimp only
    rw [if_pos ⟨rfl, v 8 h8 (by norm_num)⟩, readAll,
      show ⟨" 9".toList, " 9".toList.isEmpty, false⟩ =
        (⟨[' '] ++ [digitChar 9] ++ [], false, false⟩ : IStream) from by decide, e9]
    dsimp only
    rw [if_pos ⟨rfl, v 9 h9 (by norm_num)⟩, readAll]
    rfl
  obtain ⟨a, b, c, h, h'⟩ := extractA3_spec ⟨" 7 8 9".toList, false, false⟩ x.theData
  rw [hr] at h h'
  simp only [Option.getD_some, List.cons.injEq, and_true] at h'
  obtain ⟨rfl, rfl, rfl⟩ := h'
  refine ⟨⟨⟨_, _, _⟩⟩, by rw [extractTy, h]; rfl, by simp [comps, F64.value], ?_⟩
  exact C11_valid_partial .vec _ (by
    intro c hc
    simp only [comps, List.mem_cons, List.not_mem_nil, or_false] at hc
    rcases hc with rfl | rfl | rfl
    exacts [v 7 h7 (by norm_num), v 8 h8 (by norm_num), v 9 h9 (by norm_num)])

/-- **Weakness of composite extraction.**  A subnormal number in the text of one blade nulls
this blade without failing the stream, and the next blade is then read from the wrong place:
extracting an `ImSpin` (vector, trivector) from `1e-310 2 3 4` leaves the stream good, the
vector null, and stores `2` (the second component of the vector) in the trivector. -/
theorem C29_fails_misaligned (x : ImSpin F64) :
    ∃ y : ImSpin F64, extractTy .imsp ⟨"1e-310 2 3 4".toList, false, false⟩ x =
        .ok (⟨" 3 4".toList, false, false⟩, y) ∧
      y.theVec.theData = ⟨nan, nan, nan⟩ ∧ y.theTri.theData.d0.value = 2 := by
  have hpow : (2 : ℚ) ^ (-1074 : ℤ) ≤ (10 : ℚ) ^ (-310 : ℤ) ∧
      (10 : ℚ) ^ (-310 : ℤ) ≤ (2 : ℚ) ^ (-1023 : ℤ) := by
    have a1 : (10 : ℚ) ^ 310 ≤ 2 ^ 1074 := by
      calc (10 : ℚ) ^ 310 = (10 ^ 31) ^ 10 := by rw [← pow_mul]
        _ ≤ (2 ^ 107) ^ 10 := by gcongr; norm_num
        _ = 2 ^ 1070 := by rw [← pow_mul]
        _ ≤ 2 ^ 1074 := pow_le_pow_right₀ (by norm_num) (by norm_num)
    have a2 : (2 : ℚ) ^ 1023 ≤ 10 ^ 310 := by
      calc (2 : ℚ) ^ 1023 ≤ 2 ^ 1025 := pow_le_pow_right₀ (by norm_num) (by norm_num)
        _ = (2 ^ 205) ^ 5 := by rw [← pow_mul]
        _ ≤ (10 ^ 62) ^ 5 := by gcongr; norm_num
        _ = 10 ^ 310 := by rw [← pow_mul]
    have z : ∀ (a : ℚ) (n : ℕ), a ^ (-(n : ℤ)) = (a ^ n)⁻¹ := fun a n => by
      rw [zpow_neg, zpow_natCast]
    have z1 := z 2 1074
    have z2 := z 10 310
    have z3 := z 2 1023
    push_cast at z1 z2 z3
    rw [z1, z2, z3]
    exact ⟨inv_anti₀ (pow_pos (by norm_num) _) a1, inv_anti₀ (pow_pos (by norm_num) _) a2⟩
  obtain ⟨hs1, hs2⟩ := roundTo_subnormal hpow.1 hpow.2
  have e1 := extract_sci (ws := []) (rest := " 2 3 4".toList) (by intro c hc; simp at hc)
    (ends_space _) false 0 1 (-310) (F64.roundTo ((10 : ℚ) ^ (-310 : ℤ))) nan
    (by simp [decToF64]) hs2
  have htxt : [] ++ (sgn false ++ mantText 0 1 ++ 'e' :: expText (-310)) ++ " 2 3 4".toList =
      "1e-310 2 3 4".toList := by
    have h1 : natDigits 310 = ['3', '1', '0'] := by
      rw [natDigits, if_neg (by norm_num), natDigits, if_neg (by norm_num), natDigits,
        if_pos (by norm_num)]
      decide
    have h2 : natDigits 1 = ['1'] := natDigits_small (by norm_num)
    simp [sgn, mantText, fracText, expText, h1, h2]
  rw [htxt] at e1
  obtain ⟨h2, e2⟩ := extract_int (ws := [' ']) (rest := " 3 4".toList) (allWs_replicate 1)
    (ends_space _) 2 (by norm_num) (by norm_num) nan
  rw [natDigits_small (by norm_num)] at e2
  have r1 : readAll 3 ⟨"1e-310 2 3 4".toList, false, false⟩ =
      (⟨[' '] ++ [digitChar 2] ++ " 3 4".toList, false, false⟩, none) := by
    rw [readAll, e1]
    dsimp only
    rw [if_neg (by rw [hs1]; simp)]
    rfl
  have r2 : readAll 1 ⟨[' '] ++ [digitChar 2] ++ " 3 4".toList, false, false⟩ =
      (⟨" 3 4".toList, false, false⟩, some [fin (2 : ℕ) h2]) := by
    rw [readAll, e2]
    dsimp only
    have : isValidDub (fin ((2 : ℕ) : ℚ) h2) = true := by
      refine (C11_double _).2 (Or.inr ⟨_, h2, rfl, ?_⟩)
      push_cast
      rw [abs_of_pos (by norm_num)]
      refine le_trans ?_ (show (1 : ℚ) ≤ 2 by norm_num)
      rw [div_le_one (by positivity)]
      exact one_le_pow₀ (by norm_num)
    rw [if_pos ⟨rfl, this⟩, readAll]
    rfl
  obtain ⟨a, b, c, h, h'⟩ := extractA3_spec ⟨"1e-310 2 3 4".toList, false, false⟩ x.theVec.theData
  rw [r1] at h h'
  obtain ⟨p, k, k'⟩ := extractA1_spec ⟨[' '] ++ [digitChar 2] ++ " 3 4".toList, false, false⟩
    x.theTri.theData
  rw [r2] at k k'
  simp only [Option.getD_none, List.replicate, List.cons.injEq, and_true] at h'
  obtain ⟨rfl, rfl, rfl⟩ := h'
  simp only [Option.getD_some, List.cons.injEq, and_true] at k'
  subst k'
  refine ⟨⟨⟨⟨_, _, _⟩⟩, ⟨⟨_⟩⟩⟩, by rw [extractTy, h, run_bind_ok]; dsimp only; rw [k, run_bind_ok],
    rfl, by simp [F64.value]⟩

end Engabra
