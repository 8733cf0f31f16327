import Verif.Model.Device
import Verif.Props.C73_AnyText

/-! # C82 — reading from a device that breaks

`Spec`: `DReadLoop` is the caller's `while (istrm >> x) { xs.push_back(x); }` on such a device;
`ReadLoop` (C41) is the same loop on a text that ends with an end of file. -/

namespace Engabra

open F64

/-! ## Specification -/

/-- `while (istrm >> x) { xs.push_back(x); }` on a device that breaks; `s'` is the stream when the
loop has ended. -/
inductive DReadLoop (t : Ty) : DStream → t.D F64 → List (t.D F64) → DStream → Prop
  | stop {s s' : DStream} {old y : t.D F64} :
      extractTyD t s old = .ok (s', y) → (s'.fail || s'.bad) = true → DReadLoop t s old [] s'
  | step {s s' e : DStream} {old y : t.D F64} {ys : List (t.D F64)} :
      extractTyD t s old = .ok (s', y) → (s'.fail || s'.bad) = false → DReadLoop t s' y ys e →
      DReadLoop t s old (y :: ys) e

/-- A device that delivers these characters and then breaks. -/
def device (p : List Char) : DStream := ⟨p, false, false⟩

/-! ## Lemmas: the blades, as in C29 -/

/-- `readAll` on a device. -/
noncomputable def readAllD : Nat → DStream → DStream × Option (List F64)
  | 0, s => (s, some [])
  | n + 1, s =>
    let r := extractDubD s nan
    if (r.1.fail || r.1.bad) = false ∧ isValidDub r.2 = true then
      ((readAllD n r.1).1, (readAllD n r.1).2.map (r.2 :: ·))
    else (r.1, none)

/-- `readGroups` on a device. -/
noncomputable def readGroupsD : List Nat → DStream → DStream × List (List F64)
  | [], s => (s, [])
  | n :: ns, s =>
    let r := readAllD n s
    ((readGroupsD ns r.1).1, r.2.getD (List.replicate n nan) :: (readGroupsD ns r.1).2)

theorem extractDubD_old (s : DStream) (a b : F64) :
    (extractDubD s a).1 = (extractDubD s b).1 ∧
      (((extractDubD s a).1.fail || (extractDubD s a).1.bad) = false →
        (extractDubD s a).2 = (extractDubD s b).2) := by
  obtain ⟨h1, h2⟩ := extractDub_old ⟨s.rest, false, false⟩ a b
  unfold extractDubD
  by_cases hg : s.good = true
  · rw [if_pos hg, if_pos hg]
    dsimp only
    by_cases he : (extractDub ⟨s.rest, false, false⟩ a).1.eof = true
    · rw [if_pos he, if_pos (by rw [← h1]; exact he)]
      simp
    · rw [if_neg he, if_neg (by rw [← h1]; exact he), h1]
      refine ⟨rfl, fun hf => h2 ?_⟩
      rw [h1]; simpa using hf
  · rw [if_neg hg, if_neg hg]
    simp

theorem okayD_iff (s : DStream) (x : F64) :
    isInputOkayD s x = true ↔ (s.fail || s.bad) = false ∧ isValidDub x = true := by
  simp [isInputOkayD]

theorem extractLoopD_spec (xs : List F64) (s : DStream) :
    (extractLoopD s true xs).1 = (readAllD xs.length s).1 ∧
    (∀ ys, (readAllD xs.length s).2 = some ys → (extractLoopD s true xs).2 = (true, ys)) ∧
    ((readAllD xs.length s).2 = none → (extractLoopD s true xs).2.1 = false) := by
  induction xs generalizing s with
  | nil => simp [extractLoopD, readAllD]
  | cons x xs ih =>
    obtain ⟨h1, h2⟩ := extractDubD_old s x nan
    rw [List.length_cons, readAllD, extractLoopD, if_pos rfl]
    dsimp only
    by_cases hok : ((extractDubD s nan).1.fail || (extractDubD s nan).1.bad) = false ∧ isValidDub (extractDubD s nan).2 = true
    · have hx := h2 (by rw [h1]; exact hok.1)
      have hio : isInputOkayD (extractDubD s x).1 (extractDubD s x).2 = true := by
        rw [h1, hx, okayD_iff]; exact hok
      rw [if_pos hok, hio, h1, hx]
      obtain ⟨i1, i2, i3⟩ := ih (extractDubD s nan).1
      refine ⟨i1, ?_, ?_⟩
      · intro ys hys
        dsimp only at hys
        rcases hr : (readAllD xs.length (extractDubD s nan).1).2 with _ | zs
        · rw [hr] at hys; simp at hys
        · rw [hr] at hys
          simp only [Option.map_some, Option.some.injEq] at hys
          rw [i2 zs hr, ← hys]
      · intro hn
        dsimp only at hn
        rw [Option.map_eq_none_iff] at hn
        exact i3 hn
    · have hio : isInputOkayD (extractDubD s x).1 (extractDubD s x).2 = false := by
        rw [Bool.eq_false_iff, Ne, okayD_iff]
        intro hc
        exact hok ⟨by rw [← h1]; exact hc.1, by rw [← h2 hc.1]; exact hc.2⟩
      rw [if_neg hok, hio, h1]
      have hl : ∀ zs : List F64, extractLoopD (extractDubD s nan).1 false zs =
          ((extractDubD s nan).1, false, zs) := by
        intro zs; cases zs <;> simp [extractLoopD]
      rw [hl]
      simp

theorem extractArrD_spec (s : DStream) (data : List F64) (h : data ≠ []) :
    extractArrD s data = .ok ((readAllD data.length s).1,
      (readAllD data.length s).2.getD (List.replicate data.length nan)) := by
  rcases data with _ | ⟨x, xs⟩
  · exact absurd rfl h
  have := extractLoopD_spec (x :: xs) s
  rw [extractLoopD, if_pos rfl] at this
  obtain ⟨h1, h2, h3⟩ := this
  unfold extractArrD
  dsimp only at h1 h2 h3 ⊢
  rcases hr : (readAllD (x :: xs).length s).2 with _ | ys
  · rw [if_neg (by rw [h3 hr]; decide), h1]
    rfl
  · have := h2 ys hr
    have ht := congrArg Prod.fst this
    have hy := congrArg Prod.snd this
    dsimp only at ht hy
    rw [if_pos ht, hy, h1]
    rfl

theorem readAllD_length (n : Nat) (s : DStream) (ys : List F64) (h : (readAllD n s).2 = some ys) :
    ys.length = n := by
  induction n generalizing s ys with
  | zero => simp [readAllD] at h; subst h; rfl
  | succ n ih =>
    rw [readAllD] at h
    split at h
    · rw [Option.map_eq_some_iff] at h
      obtain ⟨zs, hz, rfl⟩ := h
      rw [List.length_cons, ih _ _ hz]
    · simp at h

theorem extractA1D_spec (s : DStream) (a : A1 F64) :
    ∃ x, extractA1D s a = .ok ((readAllD 1 s).1, ⟨x⟩) ∧
      [x] = (readAllD 1 s).2.getD (List.replicate 1 nan) := by
  unfold extractA1D
  rw [extractArrD_spec s a.toList (by simp [A1.toList]), run_bind_ok]
  have hl : a.toList.length = 1 := rfl
  rw [hl]
  dsimp only
  rcases hr : (readAllD 1 s).2 with _ | ys
  · exact ⟨nan, rfl, rfl⟩
  · have := readAllD_length _ _ _ hr
    rcases ys with _ | ⟨x, _ | ⟨y, ys⟩⟩
    · simp at this
    · exact ⟨x, rfl, rfl⟩
    · simp at this

theorem extractA3D_spec (s : DStream) (a : A3 F64) :
    ∃ x y z, extractA3D s a = .ok ((readAllD 3 s).1, ⟨x, y, z⟩) ∧
      [x, y, z] = (readAllD 3 s).2.getD (List.replicate 3 nan) := by
  unfold extractA3D
  rw [extractArrD_spec s a.toList (by simp [A3.toList]), run_bind_ok]
  have hl : a.toList.length = 3 := rfl
  rw [hl]
  dsimp only
  rcases hr : (readAllD 3 s).2 with _ | ys
  · exact ⟨nan, nan, nan, rfl, rfl⟩
  · have := readAllD_length _ _ _ hr
    rcases ys with _ | ⟨x, _ | ⟨y, _ | ⟨z, _ | ⟨w, ys⟩⟩⟩⟩
    · simp at this
    · simp at this
    · simp at this
    · exact ⟨x, y, z, rfl, rfl⟩
    · simp at this

theorem bladesD (t : Ty) (ht : t ≠ .dub) (s : DStream) (x : t.D F64) :
    ∃ s' y, extractTyD t s x = .ok (s', y) ∧ (s', blades t y) = readGroupsD (bladeSizes t) s := by
  cases t <;> first | exact absurd rfl ht | skip
  case sca =>
    obtain ⟨a, h, h'⟩ := extractA1D_spec s x.theData
    exact ⟨_, ⟨⟨a⟩⟩, by rw [extractTyD, h]; rfl, by simp only [blades, bladeSizes, readGroupsD, h']⟩
  case tri =>
    obtain ⟨a, h, h'⟩ := extractA1D_spec s x.theData
    exact ⟨_, ⟨⟨a⟩⟩, by rw [extractTyD, h]; rfl, by simp only [blades, bladeSizes, readGroupsD, h']⟩
  case vec =>
    obtain ⟨a, b, c, h, h'⟩ := extractA3D_spec s x.theData
    exact ⟨_, ⟨⟨a, b, c⟩⟩, by rw [extractTyD, h]; rfl,
      by simp only [blades, bladeSizes, readGroupsD, h']⟩
  case biv =>
    obtain ⟨a, b, c, h, h'⟩ := extractA3D_spec s x.theData
    exact ⟨_, ⟨⟨a, b, c⟩⟩, by rw [extractTyD, h]; rfl,
      by simp only [blades, bladeSizes, readGroupsD, h']⟩
  case spin =>
    obtain ⟨p, h, h'⟩ := extractA1D_spec s x.theSca.theData
    obtain ⟨a, b, c, k, k'⟩ := extractA3D_spec (readAllD 1 s).1 x.theBiv.theData
    exact ⟨_, ⟨⟨⟨p⟩⟩, ⟨⟨a, b, c⟩⟩⟩,
      by rw [extractTyD, h, run_bind_ok]; dsimp only; rw [k, run_bind_ok],
      by simp only [blades, bladeSizes, readGroupsD, h', k']⟩
  case imsp =>
    obtain ⟨a, b, c, h, h'⟩ := extractA3D_spec s x.theVec.theData
    obtain ⟨p, k, k'⟩ := extractA1D_spec (readAllD 3 s).1 x.theTri.theData
    exact ⟨_, ⟨⟨⟨a, b, c⟩⟩, ⟨⟨p⟩⟩⟩,
      by rw [extractTyD, h, run_bind_ok]; dsimp only; rw [k, run_bind_ok],
      by simp only [blades, bladeSizes, readGroupsD, h', k']⟩
  case cplx =>
    obtain ⟨a, h, h'⟩ := extractA1D_spec s x.theSca.theData
    obtain ⟨p, k, k'⟩ := extractA1D_spec (readAllD 1 s).1 x.theTri.theData
    exact ⟨_, ⟨⟨⟨a⟩⟩, ⟨⟨p⟩⟩⟩,
      by rw [extractTyD, h, run_bind_ok]; dsimp only; rw [k, run_bind_ok],
      by simp only [blades, bladeSizes, readGroupsD, h', k']⟩
  case dplx =>
    obtain ⟨a, b, c, h, h'⟩ := extractA3D_spec s x.theVec.theData
    obtain ⟨p, q, r, k, k'⟩ := extractA3D_spec (readAllD 3 s).1 x.theBiv.theData
    exact ⟨_, ⟨⟨⟨a, b, c⟩⟩, ⟨⟨p, q, r⟩⟩⟩,
      by rw [extractTyD, h, run_bind_ok]; dsimp only; rw [k, run_bind_ok],
      by simp only [blades, bladeSizes, readGroupsD, h', k']⟩
  case mv =>
    obtain ⟨u, h, h'⟩ := extractA1D_spec s x.theSca.theData
    obtain ⟨a, b, c, k, k'⟩ := extractA3D_spec (readAllD 1 s).1 x.theVec.theData
    obtain ⟨p, q, r, l, l'⟩ := extractA3D_spec (readAllD 3 (readAllD 1 s).1).1 x.theBiv.theData
    obtain ⟨v, m, m'⟩ := extractA1D_spec (readAllD 3 (readAllD 3 (readAllD 1 s).1).1).1 x.theTri.theData
    exact ⟨_, ⟨⟨⟨u⟩⟩, ⟨⟨a, b, c⟩⟩, ⟨⟨p, q, r⟩⟩, ⟨⟨v⟩⟩⟩,
      by rw [extractTyD, h, run_bind_ok]; dsimp only; rw [k, run_bind_ok]; dsimp only
         rw [l, run_bind_ok]; dsimp only; rw [m, run_bind_ok],
      by simp only [blades, bladeSizes, readGroupsD, h', k', l', m']⟩

/-! ## Lemmas: a device against a text -/

/-- The same stream on the device, or the device has broken where the text ended. -/
def Sim (s : IStream) (d : DStream) : Prop :=
  (s.eof = false ∧ d = ⟨s.rest, s.fail, false⟩) ∨ (s.eof = true ∧ d.bad = true)

theorem Sim.live {s : IStream} {d : DStream} (h : Sim s d) (he : s.eof = false) :
    d = ⟨s.rest, s.fail, false⟩ := by
  rcases h with h | h
  · exact h.2
  · rw [h.1] at he; cases he

theorem Sim.dead {s : IStream} {d : DStream} (h : Sim s d) (he : s.eof = true) : d.bad = true := by
  rcases h with h | h
  · rw [h.1] at he; cases he
  · exact h.2

theorem sim_dub {s : IStream} {d : DStream} (h : Sim s d) (old : F64) :
    Sim (extractDub s old).1 (extractDubD d old).1 ∧
      ((extractDub s old).1.eof = false → (extractDubD d old).2 = (extractDub s old).2) := by
  rcases h with ⟨he, rfl⟩ | ⟨he, hb⟩
  · unfold extractDubD
    by_cases hf : s.fail = true
    · rw [if_neg (by simp [DStream.good, hf])]
      have : extractDub s old = (⟨s.rest, s.eof, true⟩, old) := by
        unfold extractDub; rw [if_pos (by simp [hf])]
      rw [this]
      exact ⟨Or.inl ⟨he, rfl⟩, fun _ => rfl⟩
    · have hf' : s.fail = false := by simpa using hf
      rw [if_pos (by simp [DStream.good, hf'])]
      have hs : (⟨s.rest, false, false⟩ : IStream) = s := by
        rcases s with ⟨r, e, f⟩; simp_all
      dsimp only
      rw [hs]
      by_cases hc : (extractDub s old).1.eof = true
      · rw [if_pos hc]
        exact ⟨Or.inr ⟨hc, rfl⟩, fun hn => by rw [hc] at hn; cases hn⟩
      · rw [if_neg hc]
        exact ⟨Or.inl ⟨by simpa using hc, rfl⟩, fun _ => rfl⟩
  · have h1 := extractDub_eof_mono s old he
    refine ⟨Or.inr ⟨h1, ?_⟩, fun hn => by rw [h1] at hn; cases hn⟩
    unfold extractDubD
    rw [if_neg (by simp [DStream.good, hb])]
    exact hb

theorem sim_readAll (n : Nat) {s : IStream} {d : DStream} (h : Sim s d) :
    Sim (readAll n s).1 (readAllD n d).1 ∧
      ((readAll n s).1.eof = false → (readAllD n d).2 = (readAll n s).2) ∧
      (n ≠ 0 → (readAll n s).1.eof = true → (readAllD n d).2 = none) := by
  induction n generalizing s d with
  | zero => exact ⟨h, fun _ => rfl, fun h => absurd rfl h⟩
  | succ n ih =>
    obtain ⟨h1, h2⟩ := sim_dub h nan
    rw [readAll, readAllD]
    try dsimp only
    by_cases he : (extractDub s nan).1.eof = false
    · have hl := h1.live he
      have hv := h2 he
      have hiff : ((extractDubD d nan).1.fail || (extractDubD d nan).1.bad) =
          (extractDub s nan).1.fail := by rw [hl]; simp
      rw [hiff, hv]
      by_cases hok : (extractDub s nan).1.fail = false ∧ isValidDub (extractDub s nan).2 = true
      · rw [if_pos hok, if_pos hok]
        obtain ⟨i1, i2, i3⟩ := ih h1
        refine ⟨i1, fun hn => by dsimp only at hn ⊢; rw [i2 hn], fun _ hn => ?_⟩
        dsimp only at hn ⊢
        rcases n with _ | n
        · rw [readAll] at hn; rw [he] at hn; cases hn
        · rw [i3 (by omega) hn]; rfl
      · rw [if_neg hok, if_neg hok]
        exact ⟨h1, fun _ => rfl, fun _ _ => rfl⟩
    · have he' : (extractDub s nan).1.eof = true := by simpa using he
      have hb := h1.dead he'
      rw [if_neg (c := _ ∧ isValidDub (extractDubD d nan).2 = true) (by simp [hb])]
      have hE : ∀ x : Option (List F64), (if (extractDub s nan).1.fail = false ∧ isValidDub (extractDub s nan).2 = true then
          ((readAll n (extractDub s nan).1).1, x) else ((extractDub s nan).1, none)).1.eof = true := by
        intro x
        split
        · exact readAll_eof_mono n _ he'
        · exact he'
      refine ⟨Or.inr ⟨hE _, hb⟩, fun hn => ?_, fun _ _ => rfl⟩
      rw [hE] at hn; cases hn

theorem readAll_zero_eof {n : Nat} {s : IStream} (h : s.eof = false) (h' : (readAll n s).1.eof = true) :
    n ≠ 0 := by
  rintro rfl
  rw [readAll, h] at h'
  cases h'

/-- What is read of a list of groups. -/
theorem sim_readGroups (ns : List Nat) (hz : 0 ∉ ns) {s : IStream} {d : DStream} (h : Sim s d) :
    Sim (readGroups ns s).1 (readGroupsD ns d).1 ∧
      ((readGroups ns s).1.eof = false → (readGroupsD ns d).2 = (readGroups ns s).2) ∧
      (s.eof = false → (readGroups ns s).1.eof = true → ∃ k < ns.length,
        (readGroups (ns.take k) s).1.eof = false ∧ (readGroups (ns.take (k + 1)) s).1.eof = true ∧
        (readGroupsD ns d).2 =
          (readGroups (ns.take k) s).2 ++ (ns.drop k).map (List.replicate · nan)) ∧
      (s.eof = true → (readGroupsD ns d).2 = ns.map (List.replicate · nan)) := by
  induction ns generalizing s d with
  | nil =>
    refine ⟨h, fun _ => rfl, fun h1 h2 => ?_, fun _ => rfl⟩
    rw [show (readGroups [] s).1 = s from rfl, h1] at h2
    cases h2
  | cons n ns ih =>
    have hn : n ≠ 0 := by rintro rfl; simp at hz
    have hz' : 0 ∉ ns := fun h => hz (List.mem_cons_of_mem _ h)
    obtain ⟨a1, a2, a3⟩ := sim_readAll n h
    obtain ⟨i1, i2, i3, i4⟩ := ih hz' a1
    rw [readGroups, readGroupsD]
    try dsimp only
    refine ⟨i1, fun he => ?_, fun hs he => ?_, fun hs => ?_⟩
    · have h0 : (readAll n s).1.eof = false := by
        by_contra hc
        rw [readGroups_eof_mono ns _ (by simpa using hc)] at he; cases he
      rw [a2 h0, i2 he]
    · by_cases h0 : (readAll n s).1.eof = false
      · obtain ⟨k, hk, k1, k2, k3⟩ := i3 h0 he
        refine ⟨k + 1, by simpa using hk, ?_, ?_, ?_⟩
        · rw [List.take_succ_cons, readGroups]; exact k1
        · rw [List.take_succ_cons, readGroups]; exact k2
        · rw [List.take_succ_cons, readGroups, k3, a2 h0]; rfl
      · have h1 : (readAll n s).1.eof = true := by simpa using h0
        refine ⟨0, by simp, ?_, ?_, ?_⟩
        · rw [List.take_zero, readGroups]; exact hs
        · rw [List.take_succ_cons, readGroups]; exact h1
        · rw [i4 h1, a3 hn h1]; rfl
    · have h1 := readAll_eof_mono n s hs
      rw [i4 h1, a3 hn h1]; rfl

theorem bladeSizes_pos (t : Ty) : 0 ∉ bladeSizes t := by cases t <;> simp [bladeSizes]

theorem sim_ty (t : Ty) (s s' : IStream) (d : DStream) (old y : t.D F64) (h : Sim s d)
    (hx : extractTy t s old = .ok (s', y)) :
    ∃ d' z, extractTyD t d old = .ok (d', z) ∧ Sim s' d' ∧ (s'.eof = false → z = y) := by
  by_cases ht : t = .dub
  · subst ht
    rw [extractTy] at hx
    injection hx with hx
    obtain ⟨h1, h2⟩ := sim_dub h old
    rw [hx] at h1 h2
    exact ⟨_, _, rfl, h1, h2⟩
  · obtain ⟨s1, y1, k1, k2⟩ := C29_blades t ht s old
    obtain ⟨d', z, l1, l2⟩ := bladesD t ht d old
    rw [hx] at k1
    injection k1 with k1; injection k1 with ka kb
    subst ka; subst kb
    obtain ⟨m1, m2, -, -⟩ := sim_readGroups (bladeSizes t) (bladeSizes_pos t) h
    rw [← k2, ← l2] at m1 m2
    exact ⟨d', z, l1, m1, fun he => blades_inj t z y (m2 he)⟩

/-! ## The property -/

/-- **C82**, one object: an extraction that has all the characters it looks at reads what it reads
from every text beginning with what the device delivers, and the device is still good. -/
theorem C82_object (t : Ty) (p : List Char) (s' : IStream) (old y : t.D F64)
    (h : extractTy t ⟨p, false, false⟩ old = .ok (s', y)) (he : s'.eof = false) :
    extractTyD t (device p) old = .ok (⟨s'.rest, s'.fail, false⟩, y) ∧
      ∀ q, extractTy t ⟨p ++ q, false, false⟩ old = .ok (⟨s'.rest ++ q, false, s'.fail⟩, y) := by
  obtain ⟨d', z, h1, h2, h3⟩ := sim_ty t ⟨p, false, false⟩ s' (device p) old y (Or.inl ⟨rfl, rfl⟩) h
  refine ⟨by rw [h1, h2.live he, h3 he], fun q => ?_⟩
  have := C73_local t _ _ _ _ q h he
  rw [IStream.more, IStream.more, he] at this
  exact this

/-- The groups are read from left to right. -/
theorem readGroups_take (ns : List Nat) (k : Nat) (s : IStream) :
    (readGroups (ns.take k) s).2 = (readGroups ns s).2.take k := by
  induction ns generalizing s k with
  | nil => simp [readGroups]
  | cons n ns ih =>
    rcases k with _ | k
    · rfl
    · rw [List.take_succ_cons, readGroups, readGroups, ih]; rfl

/-- **C82**, one object, the device breaks: `badbit` is set exactly if the extraction needs more
characters than are delivered.  Then the first `k` blades hold what is read of them without needing
more characters, and every later component is NaN: no component depends on where the device broke,
and the object is not valid. -/
theorem C82_broken (t : Ty) (ht : t ≠ .dub) (p : List Char) (s' : IStream) (old y : t.D F64)
    (h : extractTy t ⟨p, false, false⟩ old = .ok (s', y)) :
    ∃ d z, extractTyD t (device p) old = .ok (d, z) ∧ (d.bad = true ↔ s'.eof = true) ∧
      (d.bad = true → isValidTy t z = false ∧ ∃ k < (bladeSizes t).length,
        blades t z = (blades t y).take k ++ ((bladeSizes t).drop k).map (List.replicate · nan) ∧
        ∀ (q : List Char) (e : IStream) (w : t.D F64),
          extractTy t ⟨p ++ q, false, false⟩ old = .ok (e, w) →
          (blades t w).take k = (blades t z).take k) := by
  obtain ⟨s1, y1, k1, k2⟩ := C29_blades t ht ⟨p, false, false⟩ old
  obtain ⟨d, z, l1, l2⟩ := bladesD t ht (device p) old
  rw [h] at k1
  injection k1 with k1; injection k1 with ka kb
  subst ka; subst kb
  obtain ⟨m1, m2, m3, -⟩ := sim_readGroups (bladeSizes t) (bladeSizes_pos t)
    (s := ⟨p, false, false⟩) (d := device p) (Or.inl ⟨rfl, rfl⟩)
  rw [← k2] at m1 m2 m3
  rw [← l2] at m1 m2 m3
  dsimp only at m1 m2 m3
  have hiff : d.bad = true ↔ s'.eof = true := by
    constructor
    · intro hb
      by_contra hc
      rw [m1.live (by simpa using hc)] at hb
      cases hb
    · exact fun he => m1.dead he
  refine ⟨d, z, l1, hiff, fun hb => ?_⟩
  obtain ⟨k, hk, n1, -, n3⟩ := m3 rfl (hiff.1 hb)
  have n4 := readGroups_take (bladeSizes t) k ⟨p, false, false⟩
  have n5 : (readGroups (bladeSizes t) ⟨p, false, false⟩).2 = blades t y := by rw [← k2]
  have n6 : ((blades t y).take k).length = k := by
    rw [List.length_take, ← List.length_map (f := List.length), blades_sizes]
    exact min_eq_left hk.le
  refine ⟨?_, k, hk, by rw [n3, n4, n5], fun q e w hw => ?_⟩
  · rw [n4, n5] at n3
    rw [C11_first_components]
    clear m1 m2 m3 l2 k2 n1 n4 n5 n6 h l1 hiff hb
    have hn : isValidDub (nan : F64) = false := isValidDub_nan
    cases t <;> first | exact absurd rfl ht | skip
    all_goals
      simp only [bladeSizes, List.length_cons, List.length_nil] at hk
      interval_cases k <;>
        simp [blades, bladeSizes, List.replicate] at n3 <;>
        simp [firstComps, n3, hn]
  · obtain ⟨s2, y2, j1, j2⟩ := C29_blades t ht ⟨p ++ q, false, false⟩ old
    rw [hw] at j1
    injection j1 with j1; injection j1 with ja jb
    subst ja; subst jb
    have j3 : blades t w = (readGroups (bladeSizes t) ⟨p ++ q, false, false⟩).2 := by rw [← j2]
    have j4 := readGroups_more ((bladeSizes t).take k) ⟨p, false, false⟩ q n1
    rw [j3, ← readGroups_take,
      show (⟨p ++ q, false, false⟩ : IStream) = IStream.more ⟨p, false, false⟩ q from rfl, j4, n3, n4, n5]
    rw [List.take_append_of_le_length n6.ge, List.take_take, min_self]

/-- **C82.** A device that has broken stays broken: nothing more is read, every component is NaN. -/
theorem C82_stays_broken (t : Ty) (ht : t ≠ .dub) (s : DStream) (old : t.D F64) (hb : s.bad = true) :
    ∃ y, extractTyD t s old = .ok (⟨s.rest, true, true⟩, y) ∧ ∀ c ∈ comps t y, c = nan := by
  obtain ⟨d, z, l1, l2⟩ := bladesD t ht s old
  have hd : ∀ r f old, extractDubD ⟨r, f, true⟩ old = (⟨r, true, true⟩, old) := by
    intro r f old
    unfold extractDubD
    rw [if_neg (by simp [DStream.good])]
  have hr : ∀ n r f, n ≠ 0 → readAllD n ⟨r, f, true⟩ = (⟨r, true, true⟩, none) := by
    intro n r f hn
    obtain ⟨m, rfl⟩ := Nat.exists_eq_succ_of_ne_zero hn
    rw [readAllD, hd]
    simp
  have hs : s = ⟨s.rest, s.fail, true⟩ := by rcases s with ⟨a, b, c⟩; simp_all
  have hg : ∀ ns : List Nat, 0 ∉ ns → ∀ r f, (readGroupsD ns ⟨r, f, true⟩).2 = ns.map (List.replicate · nan) ∧
      (ns ≠ [] → (readGroupsD ns ⟨r, f, true⟩).1 = ⟨r, true, true⟩) := by
    intro ns
    induction ns with
    | nil => intro _ r f; exact ⟨rfl, fun h => absurd rfl h⟩
    | cons n ns ih =>
      intro hz r f
      have hn : n ≠ 0 := by rintro rfl; simp at hz
      obtain ⟨i1, i2⟩ := ih (fun h => hz (List.mem_cons_of_mem _ h)) r true
      rw [readGroupsD, hr n r f hn]
      refine ⟨by rw [i1]; rfl, fun _ => ?_⟩
      rcases ns with _ | ⟨m, ns⟩
      · rfl
      · exact i2 (by simp)
  obtain ⟨g1, g2⟩ := hg (bladeSizes t) (bladeSizes_pos t) s.rest s.fail
  rw [← hs, ← l2] at g1 g2
  have hne : bladeSizes t ≠ [] := by cases t <;> simp [bladeSizes]
  refine ⟨z, by rw [l1, ← g2 hne], fun c hc => ?_⟩
  rw [← blades_join, List.mem_flatten] at hc
  obtain ⟨b, hbm, hcb⟩ := hc
  dsimp only at g1
  rw [g1, List.mem_map] at hbm
  obtain ⟨n, -, rfl⟩ := hbm
  exact List.eq_of_mem_replicate hcb

theorem loopD_guarded (t : Ty) (s : IStream) (old : t.D F64) (he : s.eof = false)
    (xs : List (t.D F64)) (h : GuardedLoop t s old xs) :
    ∃ e, DReadLoop t ⟨s.rest, s.fail, false⟩ old xs e := by
  induction h with
  | @stop s s' old y h1 h2 =>
    obtain ⟨d, z, k1, k2, -⟩ := sim_ty t s s' _ old y (Or.inl ⟨he, rfl⟩) h1
    refine ⟨d, DReadLoop.stop k1 ?_⟩
    by_cases h3 : s'.eof = true
    · rw [k2.dead h3]; simp
    · have h3' : s'.eof = false := by simpa using h3
      rcases h2 with h2 | h2
      · rw [k2.live h3', h2]; rfl
      · exact absurd h2 h3
  | @step s s' old y ys h1 h2 h3 _ ih =>
    obtain ⟨d, z, k1, k2, k3⟩ := sim_ty t s s' _ old y (Or.inl ⟨he, rfl⟩) h1
    obtain ⟨e, i⟩ := ih h3
    have := k3 h3
    subst this
    rw [← k2.live h3] at i
    refine ⟨e, DReadLoop.step k1 ?_ i⟩
    rw [k2.live h3, h2]; rfl

theorem loopD_unique (t : Ty) (s : DStream) (old : t.D F64) (xs ys : List (t.D F64)) (e f : DStream)
    (h : DReadLoop t s old xs e) (k : DReadLoop t s old ys f) : xs = ys ∧ e = f := by
  induction h generalizing ys f with
  | stop h1 h2 =>
    cases k with
    | stop k1 k2 =>
      rw [h1] at k1; injection k1 with k1; injection k1 with k1 k3
      exact ⟨rfl, k1⟩
    | step k1 k2 _ =>
      rw [h1] at k1; injection k1 with k1; injection k1 with k1 k3
      rw [← k1, h2] at k2; cases k2
  | step h1 h2 _ ih =>
    cases k with
    | stop k1 k2 =>
      rw [h1] at k1; injection k1 with k1; injection k1 with k1 k3
      rw [← k1, h2] at k2; cases k2
    | step k1 k2 k4 =>
      rw [h1] at k1; injection k1 with k1; injection k1 with k1 k3
      subst k1; subst k3
      obtain ⟨rfl, rfl⟩ := ih _ _ k4
      exact ⟨rfl, rfl⟩

/-- **C82**, the loop ends, with one result: `while (istrm >> x)` on a device that breaks collects
what the guarded loop of C70 collects from the text that was delivered. -/
theorem C82_loop (t : Ty) (p : List Char) (old : t.D F64) :
    ∃ xs e, DReadLoop t (device p) old xs e ∧
      (∀ ys f, DReadLoop t (device p) old ys f → ys = xs ∧ f = e) ∧
      ∀ ys, GuardedLoop t ⟨p, false, false⟩ old ys ↔ ys = xs := by
  obtain ⟨-, xs, h, -⟩ := C73_ends t ⟨p, false, false⟩ old
  obtain ⟨e, k⟩ := loopD_guarded t ⟨p, false, false⟩ old rfl xs h
  refine ⟨xs, e, k, fun ys f hy => ?_, fun ys => ⟨fun hy => C70_guarded_unique t _ _ _ _ hy h, ?_⟩⟩
  · obtain ⟨h1, h2⟩ := loopD_unique t _ _ _ _ _ _ k hy
    exact ⟨h1.symm, h2.symm⟩
  · rintro rfl; exact h

/-- **C82.** Nothing wrong is collected: whatever the device would have delivered next, the objects
collected are the first of those the same loop collects from the whole text. -/
theorem C82_no_wrong_object (t : Ty) (p q : List Char) (old : t.D F64) (xs ys : List (t.D F64))
    (e : DStream) (h : DReadLoop t (device p) old xs e)
    (k : ReadLoop t ⟨p ++ q, false, false⟩ old ys) : xs <+: ys := by
  obtain ⟨xs', e', h1, h2, h3⟩ := C82_loop t p old
  obtain ⟨rfl, rfl⟩ := h2 _ _ h
  have hg := (h3 xs).2 rfl
  clear h h1 h2 h3
  rw [show (⟨p ++ q, false, false⟩ : IStream) = IStream.more ⟨p, false, false⟩ q from rfl] at k
  generalize (⟨p, false, false⟩ : IStream) = s at *
  induction hg generalizing ys with
  | stop => exact List.nil_prefix
  | step h1 h2 h3 _ ih =>
    have h4 := C73_local t _ _ _ _ q h1 h3
    cases k with
    | stop k1 k2 =>
      rw [h4] at k1
      injection k1 with k1; injection k1 with ka kb
      subst ka
      rw [show (IStream.more _ q).fail = _ from h2] at k2; cases k2
    | step k1 k2 k4 =>
      rw [h4] at k1
      injection k1 with k1; injection k1 with ka kb
      subst ka; subst kb
      exact List.cons_prefix_cons.2 ⟨rfl, ih _ k4⟩

/-- **C82**, records written with `io::enote`: the device delivers an initial part `P` of them.  The
loop collects an initial part of the objects written, among them every one whose record was
delivered whole, and it ends with the stream failed. -/
theorem C82_records (t : Ty) (ht : t ≠ .cplx) (ht' : t ≠ .dplx) (d : Nat) (hd : 16 ≤ d)
    (sep : List Char) (hw : AllWs sep) (hs : sep ≠ []) (xs : List (t.D F64)) (old : t.D F64)
    (hxs : ∀ x ∈ xs, ∀ c ∈ comps t x, isValidDub c = true)
    (P : List Char) (hP : P <+: enoteLines d sep (xs.map fun x => ⟨t, x⟩)) :
    ∃ k ≤ xs.length, ∃ e, DReadLoop t (device P) old (xs.take k) e ∧ (e.fail || e.bad) = true ∧
      ∀ j ≤ xs.length, (enoteLines d sep ((xs.take j).map fun x => ⟨t, x⟩)).length ≤ P.length →
        j ≤ k := by
  obtain ⟨k, hk, h, hj⟩ := C70_prefix t ht ht' d hd sep hw hs xs old hxs P hP
  obtain ⟨e, h'⟩ := loopD_guarded t ⟨P, false, false⟩ old rfl _ h
  refine ⟨k, hk, e, h', ?_, hj⟩
  clear h hj
  generalize xs.take k = zs at h'
  generalize (⟨_, _, _⟩ : DStream) = s at h'
  induction h' with
  | stop _ h => exact h
  | step _ _ _ ih => exact ih

/-- **C82** beside `C70_silent`: the scalar 10 is written and its last character is missing.  If the
text ends there the plain loop returns the scalar 1; if the device breaks there it returns
nothing, with `badbit` set. -/
theorem C82_contrast : ∃ (x y old : Scalar F64) (P : List Char),
    P <+: enoteText 16 .sca x ∧ x.theData.d0.value = 10 ∧ y.theData.d0.value = 1 ∧
      ReadLoop .sca ⟨P, false, false⟩ old [y] ∧
      ∃ e, DReadLoop .sca (device P) old [] e ∧ e.bad = true := by
  obtain ⟨x, y, old, P, h1, -, -, -, h2, h3, h4, h5⟩ := C70_silent
  obtain ⟨d, z, k1, k2, -⟩ := sim_ty .sca _ _ (device P) old y (Or.inl ⟨rfl, rfl⟩) h4
  have hb := k2.dead rfl
  exact ⟨x, y, old, P, h1, h2, h3, h5, d, DReadLoop.stop k1 (by rw [hb]; simp), hb⟩

-- three records of which the device delivers any initial part: the hypotheses are met
example (P : List Char)
    (hP : P <+: enoteLines 17 ['\n'] ([(e1 : Vector F64), e1, e1].map fun x => ⟨.vec, x⟩)) :
    ∃ k ≤ 3, ∃ e, DReadLoop .vec (device P) e1 ([(e1 : Vector F64), e1, e1].take k) e ∧
      (e.fail || e.bad) = true := by
  obtain ⟨k, hk, e, h1, h2, -⟩ := C82_records .vec (by simp) (by simp) 17 (by norm_num) ['\n']
    (by intro c hc; simp at hc; subst hc; rfl) (by simp) [e1, e1, e1] e1
    (by intro x hx; simp at hx; subst hx; exact e1_valid) P hP
  exact ⟨k, hk, e, h1, h2⟩

end Engabra
