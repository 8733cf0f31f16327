import Verif.Model.Stream
import Verif.Props.C70_Cut

/-! # C71: writing to a device that fills up -/

namespace Engabra

open F64 (nan inf zero fin IsFin Finite)

/-- `ostrm << a << b << ...` on a device with limited room. -/
def insertSeqF (f : FStream) (xs : List Obj) : FStream := xs.foldl (fun f o => insertTyF o.1 f o.2) f

/-- The stream `f` and the stream `u` without limit, after the same insertions. -/
def Follows (room : Nat) (f : FStream) (u : OStream) : Prop :=
  f.room = room ∧ ((f.bad = false ∧ f.os = u ∧ u.out.length ≤ room) ∨
    (f.bad = true ∧ f.os.out = u.out.take room ∧ room < u.out.length))

theorem Follows.emit {room : Nat} {f : FStream} {u : OStream} (op : OStream → OStream)
    (hop : ∀ os, os.out <+: (op os).out) (h : Follows room f u) : Follows room (f.emit (op f.os)) (op u) := by
  obtain ⟨hr, ⟨hb, hos, hlen⟩ | ⟨hb, hos, hlen⟩⟩ := h
  · unfold FStream.emit
    rw [hb, if_neg (by simp), hos]
    split
    · rename_i hle
      exact ⟨hr, Or.inl ⟨rfl, rfl, by rw [← hr]; exact hle⟩⟩
    · rename_i hle
      exact ⟨hr, Or.inr ⟨rfl, by rw [hr], by rw [← hr]; omega⟩⟩
  · unfold FStream.emit
    rw [hb, if_pos rfl]
    refine ⟨hr, Or.inr ⟨hb, ?_, ?_⟩⟩
    · obtain ⟨t, ht⟩ := hop u
      rw [hos, ← ht, List.take_append_of_le_length hlen.le]
    · exact hlen.trans_le (hop u).length_le

theorem putStr_prefix (s : List Char) (os : OStream) : os.out <+: (os.putStr s).out := by
  unfold OStream.putStr
  exact List.prefix_append _ _

theorem putDub_prefix (x : F64) (os : OStream) : os.out <+: (os.putDub x).out := by
  unfold OStream.putDub
  exact List.prefix_append _ _

theorem Follows.putStr {room : Nat} {f : FStream} {u : OStream} (s : List Char)
    (h : Follows room f u) : Follows room (f.putStr s) (u.putStr s) :=
  h.emit (OStream.putStr · s) (putStr_prefix s)

theorem Follows.putDub {room : Nat} {f : FStream} {u : OStream} (x : F64)
    (h : Follows room f u) : Follows room (f.putDub x) (u.putDub x) :=
  h.emit (OStream.putDub · x) (putDub_prefix x)

theorem Follows.insert {room : Nat} {f : FStream} {u : OStream} (t : Ty) (x : t.D F64)
    (h : Follows room f u) : Follows room (insertTyF t f x) (insertTy t u x) := by
  cases t
  case dub => exact h.putDub x
  case sca => exact h.putStr _
  case vec => exact h.putStr _
  case biv => exact h.putStr _
  case tri => exact h.putStr _
  case spin => exact ((h.putStr _).putStr _).putStr _
  case imsp => exact ((h.putStr _).putStr _).putStr _
  case cplx => exact ((h.putStr _).putStr _).putStr _
  case dplx => exact ((h.putStr _).putStr _).putStr _
  case mv => exact ((((((h.putStr _).putStr _).putStr _).putStr _).putStr _).putStr _).putStr _

theorem Follows.seq {room : Nat} {f : FStream} {u : OStream} (xs : List Obj)
    (h : Follows room f u) : Follows room (insertSeqF f xs) (insertSeq u xs) := by
  induction xs generalizing f u with
  | nil => exact h
  | cons o xs ih => exact ih (h.insert o.1 o.2)

/-- **C71.** Any number of objects of any types inserted with `operator<<` into a good stream, with
any formatting state, whose device has room for `room` characters: the device receives exactly the
first `room` characters of the text that a device without limit receives; the stream reports the
failure (`badbit`) if and only if a character was lost; and as long as it does not, stream and text
are those of a device without limit. -/
theorem C71_insert (xs : List Obj) (os : OStream) (room : Nat) (h : os.out.length ≤ room) :
    (insertSeqF ⟨os, room, false⟩ xs).os.out = (insertSeq os xs).out.take room ∧
      ((insertSeqF ⟨os, room, false⟩ xs).bad = true ↔ room < (insertSeq os xs).out.length) ∧
      ((insertSeqF ⟨os, room, false⟩ xs).bad = false →
        (insertSeqF ⟨os, room, false⟩ xs).os = insertSeq os xs) := by
  have h0 : Follows room ⟨os, room, false⟩ os := ⟨rfl, Or.inl ⟨rfl, rfl, h⟩⟩
  obtain ⟨hr, ⟨hb, hos, hlen⟩ | ⟨hb, hos, hlen⟩⟩ := h0.seq xs
  · refine ⟨?_, ?_, fun _ => hos⟩
    · rw [hos, List.take_of_length_le hlen]
    · rw [hb]; simp; exact hlen
  · refine ⟨hos, ?_, ?_⟩
    · rw [hb]; simp; exact hlen
    · rw [hb]; intro h; cases h

/-- **C71.** Once the stream has failed nothing more is written, and `operator<<` leaves the whole
stream alone. -/
theorem C71_after_failure (xs : List Obj) (f : FStream) (h : f.bad = true) : insertSeqF f xs = f := by
  have he : ∀ new, f.emit new = f := by
    intro new; unfold FStream.emit; rw [h, if_pos rfl]
  have hs : ∀ s, f.putStr s = f := fun s => he _
  have hd : ∀ s, f.putDub s = f := fun s => he _
  induction xs with
  | nil => rfl
  | cons o xs ih =>
    obtain ⟨t, x⟩ := o
    have : insertTyF t f x = f := by
      cases t <;> simp only [insertTyF, putArrF, hs, hd]
    show insertSeqF (insertTyF t f x) xs = f
    rw [this, ih]

/-! ## Records written with `io::enote` -/

/-- `for (x : xs) { ostrm << io::enote(x, d) << sep; }` -/
def writeF (d : Nat) (sep : List Char) (f : FStream) (xs : List Obj) : FStream :=
  xs.foldl (fun f o => (f.putStr ((enoteTy d o.1 o.2).getD [])).putStr sep) f

/-- The same on a device without limit. -/
def writeU (d : Nat) (sep : List Char) (os : OStream) (xs : List Obj) : OStream :=
  xs.foldl (fun os o => (os.putStr ((enoteTy d o.1 o.2).getD [])).putStr sep) os

theorem Follows.write {room : Nat} {f : FStream} {u : OStream} (d : Nat) (sep : List Char)
    (xs : List Obj) (h : Follows room f u) : Follows room (writeF d sep f xs) (writeU d sep u xs) := by
  induction xs generalizing f u with
  | nil => exact h
  | cons o xs ih => exact ih ((h.putStr _).putStr _)

theorem putStr_plain (os : OStream) (hw : os.width = 0) (s : List Char) :
    (os.putStr s).out = os.out ++ s ∧ (os.putStr s).width = 0 := by
  unfold OStream.putStr
  dsimp only
  rw [hw, Nat.zero_sub, List.replicate_zero]
  refine ⟨?_, rfl⟩
  cases os.adj <;> simp

theorem writeU_out (d : Nat) (sep : List Char) (os : OStream) (hw : os.width = 0) (xs : List Obj) :
    (writeU d sep os xs).out = os.out ++ enoteLines d sep xs := by
  induction xs generalizing os with
  | nil => simp [writeU, enoteLines]
  | cons o xs ih =>
    obtain ⟨h1, h2⟩ := putStr_plain os hw ((enoteTy d o.1 o.2).getD [])
    obtain ⟨h3, h4⟩ := putStr_plain _ h2 sep
    have := ih ((os.putStr ((enoteTy d o.1 o.2).getD [])).putStr sep) h4
    show (writeU d sep _ xs).out = _
    rw [this, h3, h1]
    simp only [enoteLines, List.flatMap_cons, List.append_assoc]

/-- **C71.** Records written with `io::enote` to an empty device: what it holds at the end is the
first `room` characters of the full text, and the stream is still good if and only if it is all. -/
theorem C71_records (d : Nat) (sep : List Char) (xs : List Obj) (room : Nat) :
    (writeF d sep ⟨OStream.fresh, room, false⟩ xs).os.out = (enoteLines d sep xs).take room ∧
      ((writeF d sep ⟨OStream.fresh, room, false⟩ xs).bad = false ↔
        (enoteLines d sep xs).length ≤ room) := by
  have h0 : Follows room ⟨OStream.fresh, room, false⟩ OStream.fresh :=
    ⟨rfl, Or.inl ⟨rfl, rfl, Nat.zero_le _⟩⟩
  have hout := writeU_out d sep OStream.fresh rfl xs
  rw [show OStream.fresh.out = [] from rfl, List.nil_append] at hout
  obtain ⟨hr, ⟨hb, hos, hlen⟩ | ⟨hb, hos, hlen⟩⟩ := h0.write d sep xs
  · rw [hout] at hlen
    refine ⟨?_, ?_⟩
    · rw [hos, hout, List.take_of_length_le hlen]
    · rw [hb]; simpa using hlen
  · rw [hout] at hos hlen
    refine ⟨hos, ?_⟩
    rw [hb]; simpa using hlen

/-- **C71**, from writer to reader.  Objects of one type with valid components are written with
`io::enote`, 16 or more decimals and white space after each, to a device with room for any number of
characters; afterwards the device is read with the guarded loop of C70.  The reader gets the first
`k` objects, unchanged, for some `k`; no record that fits completely is missing; and if the writer's
stream is still good, it gets them all. -/
theorem C71_recover (t : Ty) (ht : t ≠ .cplx) (ht' : t ≠ .dplx) (d : Nat) (hd : 16 ≤ d)
    (sep : List Char) (hw : AllWs sep) (hs : sep ≠ []) (xs : List (t.D F64)) (old : t.D F64)
    (hxs : ∀ x ∈ xs, ∀ c ∈ comps t x, isValidDub c = true) (room : Nat) :
    ∃ k ≤ xs.length,
      GuardedLoop t ⟨(writeF d sep ⟨OStream.fresh, room, false⟩ (xs.map fun x => ⟨t, x⟩)).os.out,
        false, false⟩ old (xs.take k) ∧
      (∀ j ≤ xs.length, (enoteLines d sep ((xs.take j).map fun x => ⟨t, x⟩)).length ≤ room → j ≤ k) ∧
      ((writeF d sep ⟨OStream.fresh, room, false⟩ (xs.map fun x => ⟨t, x⟩)).bad = false →
        xs.take k = xs) := by
  obtain ⟨h1, h2⟩ := C71_records d sep (xs.map fun x => ⟨t, x⟩) room
  obtain ⟨k, hk, h3, h4⟩ := C70_prefix t ht ht' d hd sep hw hs xs old hxs _
    (List.take_prefix room (enoteLines d sep (xs.map fun x => ⟨t, x⟩)))
  have h5 : ∀ j ≤ xs.length, (enoteLines d sep ((xs.take j).map fun x => ⟨t, x⟩)).length ≤ room →
      j ≤ k := by
    intro j hj hlen
    refine h4 j hj ?_
    rw [List.length_take]
    refine le_min hlen ?_
    conv_rhs => rw [← List.take_append_drop j xs]
    rw [enoteLines_append, List.length_append]
    omega
  refine ⟨k, hk, by rw [h1]; exact h3, h5, fun hb => ?_⟩
  have := h5 xs.length le_rfl (by rw [List.take_length]; exact h2.1 hb)
  rw [List.take_of_length_le this]

/-! ## Examples -/

/-- A vector and a spinor into an empty device of any size. -/
example (room : Nat) : (insertSeqF ⟨OStream.fresh, room, false⟩
      [⟨.vec, (e1 : Vector F64)⟩, ⟨.spin, gzeroTy .spin⟩]).os.out =
    (insertSeq OStream.fresh [⟨.vec, (e1 : Vector F64)⟩, ⟨.spin, gzeroTy .spin⟩]).out.take room :=
  (C71_insert _ OStream.fresh room (Nat.zero_le _)).1

/-- A device without room: the stream fails and nothing is written. -/
example : (insertSeqF ⟨OStream.fresh, 0, false⟩ [⟨.vec, (e1 : Vector F64)⟩]).bad = true ∧
    (insertSeqF ⟨OStream.fresh, 0, false⟩ [⟨.vec, (e1 : Vector F64)⟩]).os.out = [] := by
  obtain ⟨h1, h2, -⟩ := C71_insert [⟨.vec, (e1 : Vector F64)⟩] OStream.fresh 0 (Nat.zero_le _)
  refine ⟨h2.2 ?_, by rw [h1, List.take_zero]⟩
  rw [insertSeq_out _ (by simp) _ rfl]
  have := (insText_ends ⟨.vec, (e1 : Vector F64)⟩ (by simp) []).2
  rw [List.append_nil] at this
  simp only [List.flatMap_cons, List.flatMap_nil, List.append_nil]
  exact List.length_pos_of_ne_nil (by rw [show OStream.fresh.out = [] from rfl]; exact this)

/-- Two vectors on lines, a device of any size. -/
example (room : Nat) : ∃ k ≤ 2, GuardedLoop .vec
    ⟨(writeF 16 ['\n'] ⟨OStream.fresh, room, false⟩
      ([(e1 : Vector F64), gzeroTy .vec].map fun x => ⟨.vec, x⟩)).os.out, false, false⟩
    (gnullTy nan .vec) ([(e1 : Vector F64), gzeroTy .vec].take k) := by
  have hz : isValidDub (0 : F64) = true := (C11_double _).2 (Or.inl ⟨false, rfl⟩)
  have h1 : isValidDub (1 : F64) = true := isValidDub_one
  obtain ⟨k, hk, h, -⟩ := C71_recover .vec (by simp) (by simp) 16 le_rfl ['\n']
    (by intro c hc; simp at hc; subst hc; rfl) (by simp) [(e1 : Vector F64), gzeroTy .vec]
    (gnullTy nan .vec) (by
      intro x hx c hc
      simp only [List.mem_cons, List.not_mem_nil, or_false] at hx
      rcases hx with rfl | rfl <;> simp [comps, gzeroTy, e1, engabra] at hc <;>
        (try rcases hc with rfl | rfl) <;> first | exact hz | exact h1) room
  exact ⟨k, hk, h⟩

end Engabra
