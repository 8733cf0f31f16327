import Verif.Model.Stream
import Verif.Props.C41_Sequences

/-! # C72: extraction from a stream told to throw -/

namespace Engabra

open F64 (nan inf zero fin IsFin Finite)

/-! ## Specification -/

/-- The numbers `vs` are read one after the other, all accepted by the stream and valid. -/
inductive Reads : IStream → List F64 → IStream → Prop
  | nil (s : IStream) : Reads s [] s
  | cons {s s1 s2 : IStream} {v old : F64} {vs : List F64} :
      extractDub s old = (s1, v) → s1.fail = false → isValidDub v = true → Reads s1 vs s2 →
      Reads s (v :: vs) s2

/-- What an exception leaves in an array `old`: some numbers of the text (`vs`), in the next element
what the extraction that threw has stored (`v`), and the old values in the elements after it. -/
def Left (m : Mask) (s : IStream) (old : List F64) (s1 : IStream) (l : List F64) : Prop :=
  ∃ (vs pre post : List F64) (v x : F64) (s2 : IStream), old = pre ++ x :: post ∧
    pre.length = vs.length ∧ l = vs ++ v :: post ∧ Reads s vs s2 ∧ extractDub s2 x = (s1, v) ∧
    m.hit s1 = true

/-! ## Lemmas -/

theorem hit_extractDub (m : Mask) (s : IStream) (x : F64) (h : m.hit s = true) :
    m.hit (extractDub s x).1 = true := by
  unfold Mask.hit at h ⊢
  have : (s.eof || s.fail) = true := by
    revert h; cases m.eof <;> cases m.fail <;> cases s.eof <;> cases s.fail <;> simp
  unfold extractDub
  rw [if_pos this]
  revert h; cases m.eof <;> cases m.fail <;> cases s.eof <;> cases s.fail <;> simp

theorem hit_loop (m : Mask) (xs : List F64) (s : IStream) (b : Bool) (h : m.hit s = true) :
    m.hit (extractLoop s b xs).1 = true := by
  induction xs generalizing s b with
  | nil => exact h
  | cons x xs ih =>
    rw [extractLoop]
    split
    · exact ih _ _ (hit_extractDub m s x h)
    · exact h

theorem hit_readAll (m : Mask) (n : Nat) (s : IStream) (h : m.hit s = true) :
    m.hit (readAll n s).1 = true := by
  induction n generalizing s with
  | zero => exact h
  | succ n ih =>
    rw [readAll]
    split
    · exact ih _ (hit_extractDub m s nan h)
    · exact hit_extractDub m s nan h

theorem loopX_false (m : Mask) (xs : List F64) (s : IStream) :
    extractLoopX m s false xs = .ok (extractLoop s false xs) := by
  cases xs <;> simp [extractLoopX, extractLoop]

theorem loopX_spec (m : Mask) (xs : List F64) (s : IStream) :
    ((xs = [] ∨ m.hit (extractLoop s true xs).1 = false) →
      extractLoopX m s true xs = .ok (extractLoop s true xs)) ∧
    (xs ≠ [] → m.hit (extractLoop s true xs).1 = true →
      ∃ s1 b l, extractLoopX m s true xs = .threw (s1, b, l) ∧ Left m s xs s1 l) := by
  induction xs generalizing s with
  | nil => exact ⟨fun _ => rfl, fun h => absurd rfl h⟩
  | cons x xs ih =>
    rw [extractLoopX, extractLoop, if_pos rfl, if_pos rfl]
    dsimp only
    by_cases hh : m.hit (extractDub s x).1 = true
    · have hx : extractDubX m s x = .threw (extractDub s x) := by
        unfold extractDubX; rw [if_pos hh]
      rw [hx]
      dsimp only
      constructor
      · rintro (h | h)
        · cases h
        · rw [hit_loop m xs _ _ hh] at h; cases h
      · intro _ _
        exact ⟨_, _, _, rfl, [], [], xs, _, x, s, rfl, rfl, rfl, Reads.nil s, rfl, hh⟩
    · have hx : extractDubX m s x = .ok (extractDub s x) := by
        unfold extractDubX; rw [if_neg hh]
      rw [hx]
      dsimp only
      have hh' : m.hit (extractDub s x).1 = false := by simpa using hh
      by_cases hok : isInputOkay (extractDub s x).1 (extractDub s x).2 = true
      · rw [hok]
        obtain ⟨i1, i2⟩ := ih (extractDub s x).1
        constructor
        · rintro (h | h)
          · cases h
          · rw [i1 (Or.inr h)]
        · intro _ h
          have hne : xs ≠ [] := by
            rintro rfl
            rw [extractLoop] at h
            dsimp only at h
            rw [hh'] at h; cases h
          obtain ⟨s1, b, l, e, vs, pre, post, v, y, s2, h1, h2, h3, h4, h5, h6⟩ := i2 hne h
          rw [e]
          dsimp only
          obtain ⟨hf, hv⟩ := (okay_iff _ _).1 hok
          refine ⟨s1, b, _, rfl, (extractDub s x).2 :: vs, x :: pre, post, v, y, s2, by rw [h1]; rfl,
            by simp [h2], by rw [h3]; rfl, Reads.cons (old := x) rfl hf hv h4, h5, h6⟩
      · have hok' : isInputOkay (extractDub s x).1 (extractDub s x).2 = false := by simpa using hok
        rw [hok', loopX_false]
        dsimp only
        have hl : (extractLoop (extractDub s x).1 false xs).1 = (extractDub s x).1 := by
          cases xs <;> simp [extractLoop]
        refine ⟨fun _ => rfl, fun _ h => ?_⟩
        rw [hl, hh'] at h; cases h

theorem arrX_loop (m : Mask) (s : IStream) (data : List F64) (hne : data ≠ []) :
    extractArrX m s data = match extractLoopX m s true data with
      | .ub => .ub
      | .threw l => .threw (l.1, l.2.2)
      | .ok l => if l.2.1 then .ok (l.1, l.2.2) else .ok (l.1, List.replicate data.length nan) := by
  rcases data with _ | ⟨x, xs⟩
  · exact absurd rfl hne
  unfold extractArrX
  rw [extractLoopX, if_pos rfl]
  dsimp only
  cases extractDubX m s x with
  | ub => rfl
  | threw r => rfl
  | ok r =>
    dsimp only
    cases extractLoopX m r.1 (isInputOkay r.1 r.2) xs with
    | ub => rfl
    | threw l => rfl
    | ok l => rfl

theorem arr_loop (s : IStream) (data : List F64) (hne : data ≠ []) :
    extractArr s data = if (extractLoop s true data).2.1 then
        .ok ((extractLoop s true data).1, (extractLoop s true data).2.2)
      else .ok ((extractLoop s true data).1, List.replicate data.length nan) := by
  rcases data with _ | ⟨x, xs⟩
  · exact absurd rfl hne
  unfold extractArr
  rw [extractLoop, if_pos rfl]
  rfl

/-- **C72**, arrays of every length `≥ 1`.  Let `s'` be the state in which extraction without
exceptions leaves the stream.  If no bit of the mask is set in `s'`, nothing is thrown and the result
is that of the extraction without exceptions.  Otherwise an exception is thrown, and the array then
holds the numbers read so far, what the last extraction stored, and its old elements: it is not set
to NaN. -/
theorem C72_array (m : Mask) (s s' : IStream) (data l : List F64) (hne : data ≠ [])
    (h : extractArr s data = .ok (s', l)) :
    (m.hit s' = false → extractArrX m s data = .ok (s', l)) ∧
    (m.hit s' = true → ∃ s1 l1, extractArrX m s data = .threw (s1, l1) ∧ Left m s data s1 l1) := by
  obtain ⟨h1, h2⟩ := loopX_spec m data s
  rw [arr_loop s data hne] at h
  have hs : (extractLoop s true data).1 = s' := by
    split at h <;> · injection h with h; injection h
  rw [arrX_loop m s data hne]
  constructor
  · intro hh
    rw [h1 (Or.inr (by rw [hs]; exact hh))]
    dsimp only
    split at h <;> rename_i hc
    · rw [if_pos hc]; injection h with h; rw [h]
    · rw [if_neg hc]; injection h with h; rw [h]
  · intro hh
    obtain ⟨s1, b, l1, e, hl⟩ := h2 hne (by rw [hs]; exact hh)
    exact ⟨s1, l1, by rw [e], hl⟩

theorem Left.length {m : Mask} {s s1 : IStream} {old l : List F64} (h : Left m s old s1 l) :
    l.length = old.length := by
  obtain ⟨vs, pre, post, v, x, s2, rfl, h2, rfl, -⟩ := h
  simp [h2]

theorem ex_andThen_ok {β γ : Type} (s : IStream) (a : β) (f : β → γ)
    (g : IStream → β → Ex (IStream × γ)) : Ex.andThen (.ok (s, a)) f g = g s a := rfl

theorem A1X_spec (m : Mask) (s : IStream) (a : A1 F64) (w : A1 F64)
    (h : extractA1 s a = .ok ((readAll 1 s).1, w)) :
    (m.hit (readAll 1 s).1 = false → extractA1X m s a = .ok ((readAll 1 s).1, w)) ∧
    (m.hit (readAll 1 s).1 = true → ∃ s1 z, extractA1X m s a = .threw (s1, ⟨z⟩) ∧
      Left m s [a.d0] s1 [z]) := by
  have e := extractArr_spec s a.toList (by simp [A1.toList])
  obtain ⟨h1, h2⟩ := C72_array m s _ _ _ (by simp [A1.toList]) e
  rw [show a.toList.length = 1 from rfl] at h1 h2 e
  obtain ⟨x, k1, k2⟩ := extractA1_spec s a
  rw [k1] at h
  injection h with h; injection h with _ h
  constructor
  · intro hh
    unfold extractA1X
    rw [h1 hh, ← k2, ← h]
  · intro hh
    obtain ⟨s1, l1, e1, hl⟩ := h2 hh
    have hlen := hl.length
    rcases l1 with _ | ⟨z, _ | ⟨z', l1⟩⟩
    · simp [A1.toList] at hlen
    · exact ⟨s1, z, by unfold extractA1X; rw [e1], hl⟩
    · simp [A1.toList] at hlen

theorem A3X_spec (m : Mask) (s : IStream) (a : A3 F64) (w : A3 F64)
    (h : extractA3 s a = .ok ((readAll 3 s).1, w)) :
    (m.hit (readAll 3 s).1 = false → extractA3X m s a = .ok ((readAll 3 s).1, w)) ∧
    (m.hit (readAll 3 s).1 = true → ∃ s1 z0 z1 z2, extractA3X m s a = .threw (s1, ⟨z0, z1, z2⟩) ∧
      Left m s [a.d0, a.d1, a.d2] s1 [z0, z1, z2]) := by
  have e := extractArr_spec s a.toList (by simp [A3.toList])
  obtain ⟨h1, h2⟩ := C72_array m s _ _ _ (by simp [A3.toList]) e
  rw [show a.toList.length = 3 from rfl] at h1 h2 e
  obtain ⟨x, y, z, k1, k2⟩ := extractA3_spec s a
  rw [k1] at h
  injection h with h; injection h with _ h
  constructor
  · intro hh
    unfold extractA3X
    rw [h1 hh, ← k2, ← h]
  · intro hh
    obtain ⟨s1, l1, e1, hl⟩ := h2 hh
    have hlen := hl.length
    rcases l1 with _ | ⟨z, _ | ⟨z', _ | ⟨z'', _ | ⟨z3, l1⟩⟩⟩⟩
    · simp [A3.toList] at hlen
    · simp [A3.toList] at hlen
    · simp [A3.toList] at hlen
    · exact ⟨s1, z, z', z'', by unfold extractA3X; rw [e1], hl⟩
    · simp [A3.toList] at hlen

/-! ## Objects -/

/-- What an exception leaves in an object `x`: the first `j` blades are those `y` of the extraction
without exceptions, the next one is as in `Left`, and the others still have their old values. -/
def LeftTy (m : Mask) (t : Ty) (s : IStream) (x y : t.D F64) (s1 : IStream) (z : t.D F64) : Prop :=
  ∃ (j : Nat) (b l : List F64), (blades t x)[j]? = some b ∧
    blades t z = (blades t y).take j ++ l :: (blades t x).drop (j + 1) ∧
    Left m (readGroups ((bladeSizes t).take j) s).1 b s1 l

/-- **C72.** Extraction of an object of any type from any stream told to throw on any of `eofbit` and
`failbit`.  Let `(s', y)` be the stream and the object after the extraction without exceptions.
Nothing is thrown exactly if no bit of the mask is set in `s'`, and then stream and object are `s'`
and `y`.  Otherwise an exception is thrown, and the object is a mixture of new and old values. -/
theorem C72_object (m : Mask) (t : Ty) (s : IStream) (x : t.D F64) :
    ∃ s' y, extractTy t s x = .ok (s', y) ∧
      (m.hit s' = false → extractTyX m t s x = .ok (s', y)) ∧
      (m.hit s' = true → ∃ s1 z, extractTyX m t s x = .threw (s1, z) ∧ m.hit s1 = true ∧
        LeftTy m t s x y s1 z) := by
  have hitL : ∀ {s old s1 l}, Left m s old s1 l → m.hit s1 = true := by
    rintro s old s1 l ⟨_, _, _, _, _, _, _, _, _, _, _, h⟩; exact h
  have two : ∀ {h1 h2 : Bool}, (h1 = true → h2 = true) → h2 = false → h1 = false := by
    intro h1 h2 h e; cases h1 <;> simp_all
  cases t
  case dub =>
    refine ⟨(extractDub s x).1, (extractDub s x).2, rfl, fun h => ?_, fun h => ?_⟩
    · show extractDubX m s x = _
      unfold extractDubX; rw [h]; rfl
    · refine ⟨(extractDub s x).1, (extractDub s x).2, ?_, h, 0, [x], [(extractDub s x).2], rfl, rfl,
        [], [], [], (extractDub s x).2, x, s, rfl, rfl, rfl, Reads.nil s, rfl, h⟩
      show extractDubX m s x = _
      unfold extractDubX; rw [if_pos h]
  case sca =>
    obtain ⟨a, h, h'⟩ := extractA1_spec s x.theData
    obtain ⟨p1, p2⟩ := A1X_spec m s _ _ h
    refine ⟨_, ⟨⟨a⟩⟩, by rw [extractTy, h]; rfl, fun hh => ?_, fun hh => ?_⟩
    · rw [extractTyX, p1 hh]; rfl
    · obtain ⟨s1, z, e, hl⟩ := p2 hh
      exact ⟨s1, ⟨⟨z⟩⟩, by rw [extractTyX, e]; rfl, hitL hl, 0, _, [z], rfl, rfl, hl⟩
  case tri =>
    obtain ⟨a, h, h'⟩ := extractA1_spec s x.theData
    obtain ⟨p1, p2⟩ := A1X_spec m s _ _ h
    refine ⟨_, ⟨⟨a⟩⟩, by rw [extractTy, h]; rfl, fun hh => ?_, fun hh => ?_⟩
    · rw [extractTyX, p1 hh]; rfl
    · obtain ⟨s1, z, e, hl⟩ := p2 hh
      exact ⟨s1, ⟨⟨z⟩⟩, by rw [extractTyX, e]; rfl, hitL hl, 0, _, [z], rfl, rfl, hl⟩
  case vec =>
    obtain ⟨a, b, c, h, h'⟩ := extractA3_spec s x.theData
    obtain ⟨p1, p2⟩ := A3X_spec m s _ _ h
    refine ⟨_, ⟨⟨a, b, c⟩⟩, by rw [extractTy, h]; rfl, fun hh => ?_, fun hh => ?_⟩
    · rw [extractTyX, p1 hh]; rfl
    · obtain ⟨s1, z0, z1, z2, e, hl⟩ := p2 hh
      exact ⟨s1, ⟨⟨z0, z1, z2⟩⟩, by rw [extractTyX, e]; rfl, hitL hl, 0, _, [z0, z1, z2], rfl, rfl, hl⟩
  case biv =>
    obtain ⟨a, b, c, h, h'⟩ := extractA3_spec s x.theData
    obtain ⟨p1, p2⟩ := A3X_spec m s _ _ h
    refine ⟨_, ⟨⟨a, b, c⟩⟩, by rw [extractTy, h]; rfl, fun hh => ?_, fun hh => ?_⟩
    · rw [extractTyX, p1 hh]; rfl
    · obtain ⟨s1, z0, z1, z2, e, hl⟩ := p2 hh
      exact ⟨s1, ⟨⟨z0, z1, z2⟩⟩, by rw [extractTyX, e]; rfl, hitL hl, 0, _, [z0, z1, z2], rfl, rfl, hl⟩
  case spin =>
    obtain ⟨p, h, h'⟩ := extractA1_spec s x.theSca.theData
    obtain ⟨a, b, c, k, k'⟩ := extractA3_spec (readAll 1 s).1 x.theBiv.theData
    obtain ⟨p1, p2⟩ := A1X_spec m s _ _ h
    obtain ⟨q1, q2⟩ := A3X_spec m _ _ _ k
    refine ⟨_, ⟨⟨⟨p⟩⟩, ⟨⟨a, b, c⟩⟩⟩,
      by rw [extractTy, h, run_bind_ok]; dsimp only; rw [k, run_bind_ok], fun hh => ?_, fun hh => ?_⟩
    · rw [extractTyX, p1 (two (hit_readAll m 3 _) hh)]
      rw [ex_andThen_ok]
      rw [q1 hh]; rfl
    · by_cases g1 : m.hit (readAll 1 s).1 = true
      · obtain ⟨s1, z, e, hl⟩ := p2 g1
        exact ⟨s1, ⟨⟨⟨z⟩⟩, x.theBiv⟩, by rw [extractTyX, e]; rfl, hitL hl, 0, _, [z], rfl, rfl, hl⟩
      · obtain ⟨s1, z0, z1, z2, e, hl⟩ := q2 hh
        refine ⟨s1, ⟨⟨⟨p⟩⟩, ⟨⟨z0, z1, z2⟩⟩⟩, ?_, hitL hl, 1, _, [z0, z1, z2], rfl, rfl, hl⟩
        rw [extractTyX, p1 (by simpa using g1)]
        rw [ex_andThen_ok]
        rw [e]; rfl
  case imsp =>
    obtain ⟨a, b, c, h, h'⟩ := extractA3_spec s x.theVec.theData
    obtain ⟨p, k, k'⟩ := extractA1_spec (readAll 3 s).1 x.theTri.theData
    obtain ⟨p1, p2⟩ := A3X_spec m s _ _ h
    obtain ⟨q1, q2⟩ := A1X_spec m _ _ _ k
    refine ⟨_, ⟨⟨⟨a, b, c⟩⟩, ⟨⟨p⟩⟩⟩,
      by rw [extractTy, h, run_bind_ok]; dsimp only; rw [k, run_bind_ok], fun hh => ?_, fun hh => ?_⟩
    · rw [extractTyX, p1 (two (hit_readAll m 1 _) hh)]
      rw [ex_andThen_ok]
      rw [q1 hh]; rfl
    · by_cases g1 : m.hit (readAll 3 s).1 = true
      · obtain ⟨s1, z0, z1, z2, e, hl⟩ := p2 g1
        exact ⟨s1, ⟨⟨⟨z0, z1, z2⟩⟩, x.theTri⟩, by rw [extractTyX, e]; rfl, hitL hl, 0, _, [z0, z1, z2],
          rfl, rfl, hl⟩
      · obtain ⟨s1, z, e, hl⟩ := q2 hh
        refine ⟨s1, ⟨⟨⟨a, b, c⟩⟩, ⟨⟨z⟩⟩⟩, ?_, hitL hl, 1, _, [z], rfl, rfl, hl⟩
        rw [extractTyX, p1 (by simpa using g1)]
        rw [ex_andThen_ok]
        rw [e]; rfl
  case cplx =>
    obtain ⟨a, h, h'⟩ := extractA1_spec s x.theSca.theData
    obtain ⟨p, k, k'⟩ := extractA1_spec (readAll 1 s).1 x.theTri.theData
    obtain ⟨p1, p2⟩ := A1X_spec m s _ _ h
    obtain ⟨q1, q2⟩ := A1X_spec m _ _ _ k
    refine ⟨_, ⟨⟨⟨a⟩⟩, ⟨⟨p⟩⟩⟩,
      by rw [extractTy, h, run_bind_ok]; dsimp only; rw [k, run_bind_ok], fun hh => ?_, fun hh => ?_⟩
    · rw [extractTyX, p1 (two (hit_readAll m 1 _) hh)]
      rw [ex_andThen_ok]
      rw [q1 hh]; rfl
    · by_cases g1 : m.hit (readAll 1 s).1 = true
      · obtain ⟨s1, z, e, hl⟩ := p2 g1
        exact ⟨s1, ⟨⟨⟨z⟩⟩, x.theTri⟩, by rw [extractTyX, e]; rfl, hitL hl, 0, _, [z], rfl, rfl, hl⟩
      · obtain ⟨s1, z, e, hl⟩ := q2 hh
        refine ⟨s1, ⟨⟨⟨a⟩⟩, ⟨⟨z⟩⟩⟩, ?_, hitL hl, 1, _, [z], rfl, rfl, hl⟩
        rw [extractTyX, p1 (by simpa using g1)]
        rw [ex_andThen_ok]
        rw [e]; rfl
  case dplx =>
    obtain ⟨a, b, c, h, h'⟩ := extractA3_spec s x.theVec.theData
    obtain ⟨p, q, r, k, k'⟩ := extractA3_spec (readAll 3 s).1 x.theBiv.theData
    obtain ⟨p1, p2⟩ := A3X_spec m s _ _ h
    obtain ⟨q1, q2⟩ := A3X_spec m _ _ _ k
    refine ⟨_, ⟨⟨⟨a, b, c⟩⟩, ⟨⟨p, q, r⟩⟩⟩,
      by rw [extractTy, h, run_bind_ok]; dsimp only; rw [k, run_bind_ok], fun hh => ?_, fun hh => ?_⟩
    · rw [extractTyX, p1 (two (hit_readAll m 3 _) hh)]
      rw [ex_andThen_ok]
      rw [q1 hh]; rfl
    · by_cases g1 : m.hit (readAll 3 s).1 = true
      · obtain ⟨s1, z0, z1, z2, e, hl⟩ := p2 g1
        exact ⟨s1, ⟨⟨⟨z0, z1, z2⟩⟩, x.theBiv⟩, by rw [extractTyX, e]; rfl, hitL hl, 0, _, [z0, z1, z2],
          rfl, rfl, hl⟩
      · obtain ⟨s1, z0, z1, z2, e, hl⟩ := q2 hh
        refine ⟨s1, ⟨⟨⟨a, b, c⟩⟩, ⟨⟨z0, z1, z2⟩⟩⟩, ?_, hitL hl, 1, _, [z0, z1, z2], rfl, rfl, hl⟩
        rw [extractTyX, p1 (by simpa using g1)]
        rw [ex_andThen_ok]
        rw [e]; rfl
  case mv =>
    obtain ⟨u, h, h'⟩ := extractA1_spec s x.theSca.theData
    obtain ⟨a, b, c, k, k'⟩ := extractA3_spec (readAll 1 s).1 x.theVec.theData
    obtain ⟨p, q, r, l, l'⟩ := extractA3_spec (readAll 3 (readAll 1 s).1).1 x.theBiv.theData
    obtain ⟨v, n, n'⟩ := extractA1_spec (readAll 3 (readAll 3 (readAll 1 s).1).1).1 x.theTri.theData
    obtain ⟨p1, p2⟩ := A1X_spec m s _ _ h
    obtain ⟨q1, q2⟩ := A3X_spec m _ _ _ k
    obtain ⟨r1, r2⟩ := A3X_spec m _ _ _ l
    obtain ⟨t1, t2⟩ := A1X_spec m _ _ _ n
    refine ⟨_, ⟨⟨⟨u⟩⟩, ⟨⟨a, b, c⟩⟩, ⟨⟨p, q, r⟩⟩, ⟨⟨v⟩⟩⟩,
      by rw [extractTy, h, run_bind_ok]; dsimp only; rw [k, run_bind_ok]; dsimp only
         rw [l, run_bind_ok]; dsimp only; rw [n, run_bind_ok], fun hh => ?_, fun hh => ?_⟩
    · have g3 := two (hit_readAll m 1 _) hh
      have g2 := two (hit_readAll m 3 _) g3
      have g1 := two (hit_readAll m 3 _) g2
      rw [extractTyX, p1 g1]
      rw [ex_andThen_ok]
      rw [q1 g2]
      rw [ex_andThen_ok]
      rw [r1 g3]
      rw [ex_andThen_ok]
      rw [t1 hh]; rfl
    · by_cases g1 : m.hit (readAll 1 s).1 = true
      · obtain ⟨s1, z, e, hl⟩ := p2 g1
        exact ⟨s1, ⟨⟨⟨z⟩⟩, x.theVec, x.theBiv, x.theTri⟩, by rw [extractTyX, e]; rfl, hitL hl, 0, _, [z],
          rfl, rfl, hl⟩
      have g1' : m.hit (readAll 1 s).1 = false := by simpa using g1
      by_cases g2 : m.hit (readAll 3 (readAll 1 s).1).1 = true
      · obtain ⟨s1, z0, z1, z2, e, hl⟩ := q2 g2
        refine ⟨s1, ⟨⟨⟨u⟩⟩, ⟨⟨z0, z1, z2⟩⟩, x.theBiv, x.theTri⟩, ?_, hitL hl, 1, _, [z0, z1, z2], rfl, rfl,
          hl⟩
        rw [extractTyX, p1 g1']
        rw [ex_andThen_ok]
        rw [e]; rfl
      have g2' : m.hit (readAll 3 (readAll 1 s).1).1 = false := by simpa using g2
      by_cases g3 : m.hit (readAll 3 (readAll 3 (readAll 1 s).1).1).1 = true
      · obtain ⟨s1, z0, z1, z2, e, hl⟩ := r2 g3
        refine ⟨s1, ⟨⟨⟨u⟩⟩, ⟨⟨a, b, c⟩⟩, ⟨⟨z0, z1, z2⟩⟩, x.theTri⟩, ?_, hitL hl, 2, _, [z0, z1, z2], rfl,
          rfl, hl⟩
        rw [extractTyX, p1 g1']
        rw [ex_andThen_ok]
        rw [q1 g2']
        rw [ex_andThen_ok]
        rw [e]; rfl
      have g3' : m.hit (readAll 3 (readAll 3 (readAll 1 s).1).1).1 = false := by simpa using g3
      · obtain ⟨s1, z, e, hl⟩ := t2 hh
        refine ⟨s1, ⟨⟨⟨u⟩⟩, ⟨⟨a, b, c⟩⟩, ⟨⟨p, q, r⟩⟩, ⟨⟨z⟩⟩⟩, ?_, hitL hl, 3, _, [z], rfl, rfl, hl⟩
        rw [extractTyX, p1 g1']
        rw [ex_andThen_ok]
        rw [q1 g2']
        rw [ex_andThen_ok]
        rw [r1 g3']
        rw [ex_andThen_ok]
        rw [e]; rfl

/-- **C72.** A stream that is not told to throw: nothing is thrown, and the result is that of C29. -/
theorem C72_quiet (t : Ty) (s : IStream) (x : t.D F64) :
    ∃ s' y, extractTyX ⟨false, false⟩ t s x = .ok (s', y) ∧ extractTy t s x = .ok (s', y) := by
  obtain ⟨s', y, h1, h2, -⟩ := C72_object ⟨false, false⟩ t s x
  exact ⟨s', y, h2 (by simp [Mask.hit]), h1⟩

/-- **C72**, with `exceptions(failbit)`: the extraction throws if and only if the one without
exceptions fails; if it returns, the result is the same. -/
theorem C72_failbit (t : Ty) (s s' : IStream) (x y : t.D F64) (h : extractTy t s x = .ok (s', y)) :
    (s'.fail = false ↔ extractTyX ⟨false, true⟩ t s x = .ok (s', y)) ∧
      (s'.fail = true ↔ ∃ b, extractTyX ⟨false, true⟩ t s x = .threw b) := by
  obtain ⟨s'', y', h1, h2, h3⟩ := C72_object ⟨false, true⟩ t s x
  rw [h] at h1
  injection h1 with h1; injection h1 with e1 e2
  subst e1; subst e2
  have hm : (⟨false, true⟩ : Mask).hit s' = s'.fail := by simp [Mask.hit]
  rw [hm] at h2 h3
  cases hf : s'.fail with
  | false => simp [h2 hf]
  | true =>
    obtain ⟨s1, z, e, -⟩ := h3 hf
    simp [e]

/-- **C72**, with `exceptions(eofbit)`: an object in e-notation (valid components, 16 or more
decimals) that is the last thing in the text is read correctly and yet the extraction throws. -/
theorem C72_eof_throws (t : Ty) (x old : t.D F64) (hx : ∀ c ∈ comps t x, isValidDub c = true)
    (d : Nat) (hd : 16 ≤ d) (txt : List Char) (h : enoteTy d t x = some txt) :
    extractTy t ⟨txt, false, false⟩ old = .ok (⟨[], true, false⟩, x) ∧
      ∃ b, extractTyX ⟨true, false⟩ t ⟨txt, false, false⟩ old = .threw b := by
  have h0 := enote_more t x old hx d hd txt h [] [] allWs_nil ends_nil
  rw [List.nil_append, List.append_nil] at h0
  obtain ⟨s', y, h1, -, h3⟩ := C72_object ⟨true, false⟩ t ⟨txt, false, false⟩ old
  rw [h0] at h1
  injection h1 with h1; injection h1 with e1 e2
  subst e1
  obtain ⟨s1, z, e, -⟩ := h3 (by simp [Mask.hit])
  exact ⟨h0, _, e⟩

/-! ## A valid object from unreadable text -/

theorem extractDub_x (old : F64) :
    extractDub ⟨" x".toList, false, false⟩ old = (⟨['x'], false, true⟩, zero false) := by
  have hd : isDig 'x' = false := by decide
  simp [extractDub, hd, isWs, scanNum, scanSign, scanFrac, scanExp, NumTok.convert, List.span, List.span.loop]

/-- **C72.** With `exceptions(failbit)`, the text `4 x` and any vector with a valid third component:
the extraction throws and leaves the vector `(4, 0, third component as before)`, which `isValid`
accepts; without exceptions it is null. -/
theorem C72_mixture (o0 o1 o2 : F64) (h2 : isValidDub o2 = true) : ∃ four : F64, four.value = 4 ∧
    extractTyX ⟨false, true⟩ .vec ⟨"4 x".toList, false, false⟩ (⟨⟨o0, o1, o2⟩⟩ : Vector F64) =
      .threw (⟨['x'], false, true⟩, (⟨⟨four, zero false, o2⟩⟩ : Vector F64)) ∧
    isValidTy .vec (⟨⟨four, zero false, o2⟩⟩ : Vector F64) = true ∧
    extractTy .vec ⟨"4 x".toList, false, false⟩ (⟨⟨o0, o1, o2⟩⟩ : Vector F64) =
      .ok (⟨['x'], false, true⟩, (⟨⟨nan, nan, nan⟩⟩ : Vector F64)) := by
  obtain ⟨h4, e4⟩ := extract_int (ws := []) (rest := " x".toList) allWs_nil (ends_space _) 4
    (by norm_num) (by norm_num) o0
  rw [natDigits_small (by norm_num),
    show [] ++ [digitChar 4] ++ " x".toList = "4 x".toList from by decide,
    show " x".toList.isEmpty = false from by decide] at e4
  have v4 : isValidDub (fin ((4 : ℕ) : ℚ) h4) = true := by
    refine (C11_double _).2 (Or.inr ⟨_, h4, rfl, ?_⟩)
    rw [abs_of_nonneg (by positivity)]
    refine le_trans ?_ (show (1 : ℚ) ≤ ((4 : ℕ) : ℚ) by norm_num)
    rw [div_le_one (by positivity)]
    exact one_le_pow₀ (by norm_num)
  have v0 : isValidDub (zero false) = true := (C11_double _).2 (Or.inl ⟨false, rfl⟩)
  have ok4 : isInputOkay ⟨" x".toList, false, false⟩ (fin ((4 : ℕ) : ℚ) h4) = true :=
    (okay_iff _ _).2 ⟨rfl, v4⟩
  have nok : isInputOkay ⟨['x'], false, true⟩ (zero false) = false := by
    by_contra h
    exact absurd ((okay_iff _ _).1 (by simpa using h)).1 (by simp)
  refine ⟨fin ((4 : ℕ) : ℚ) h4, by simp [F64.value], ?_, ?_, ?_⟩
  · simp only [extractTyX, extractA3X, extractArrX, A3.toList, extractDubX, e4, Mask.hit,
      extractLoopX, ok4, extractDub_x, Ex.andThen, Bool.and_false, Bool.true_and,
      Bool.or_true, Bool.or_self, if_true, Bool.false_eq_true, if_false]
  · exact C11_valid_partial .vec _ (by
      intro c hc
      simp only [comps, List.mem_cons, List.not_mem_nil, or_false] at hc
      rcases hc with rfl | rfl | rfl
      exacts [v4, v0, h2])
  · simp only [extractTy, extractA3, extractArr, A3.toList, e4, extractLoop, ok4, extractDub_x, nok,
      Run.bind, if_true, Bool.false_eq_true, if_false, List.length, List.replicate]
    rfl

/-- The vector `(1, NaN, 1)`, null before, is valid after the exception. -/
example : ∃ four : F64, four.value = 4 ∧
    extractTyX ⟨false, true⟩ .vec ⟨"4 x".toList, false, false⟩ (⟨⟨1, nan, 1⟩⟩ : Vector F64) =
      .threw (⟨['x'], false, true⟩, (⟨⟨four, zero false, 1⟩⟩ : Vector F64)) := by
  obtain ⟨f, h1, h2, -⟩ := C72_mixture 1 nan 1 isValidDub_one
  exact ⟨f, h1, h2⟩

/-- `e1` in e-notation, with nothing after it: read, and thrown. -/
example : ∃ txt, enoteTy 17 .vec (e1 : Vector F64) = some txt ∧
    extractTy .vec ⟨txt, false, false⟩ (gnullTy nan .vec) = .ok (⟨[], true, false⟩, (e1 : Vector F64)) ∧
    ∃ b, extractTyX ⟨true, false⟩ .vec ⟨txt, false, false⟩ (gnullTy nan .vec) = .threw b := by
  have hz : isValidDub (0 : F64) = true := (C11_double _).2 (Or.inl ⟨false, rfl⟩)
  refine ⟨_, rfl, C72_eof_throws .vec e1 (gnullTy nan .vec) ?_ 17 (by norm_num) _ rfl⟩
  intro c hc
  simp [comps, e1, engabra] at hc
  rcases hc with rfl | rfl
  exacts [isValidDub_one, hz]

end Engabra
