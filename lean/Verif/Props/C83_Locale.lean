import Verif.Model.Locale
import Verif.Props.C70_Cut

/-! # C83 — the decimal point of the locale

`Spec`: `PunctOk p` — `p` can serve as a decimal point: it is no digit, white space, sign or `e`.
`point g` (`Model/Locale.lean`) replaces `.` by `g`. -/

namespace Engabra

open F64 (nan inf zero fin IsFin)

/-! ## Specification -/

/-- The character can serve as a decimal point. -/
structure PunctOk (p : Char) : Prop where
  dig : isDig p = false
  ws : isWs p = false
  plus : p ≠ '+'
  minus : p ≠ '-'
  e : p ≠ 'e'
  E : p ≠ 'E'

/-- The first digit of a text. -/
def firstDigit (txt : List Char) : Option Nat := (txt.find? isDig).map digitVal

/-! ## Lemmas: output -/

/-- The text so far with the decimal point replaced. -/
def OStream.pt (g : Char) (os : OStream) : OStream := { os with out := os.out.map (point g) }

theorem point_sign (g : Char) (x : F64) : (signText x).map (point g) = signText x := by
  unfold signText
  split <;> simp [point]

theorem point_blank (g : Char) (n : Nat) : (List.replicate n ' ').map (point g) = List.replicate n ' ' := by
  simp [point]

theorem pt_putDub (g : Char) (os : OStream) (x : F64) (hf : os.fill = ' ') :
    (os.pt g).putDubL g x = (os.putDub x).pt g := by
  rcases os with ⟨out, ff, prec, width, fill, adj⟩
  dsimp only at hf
  subst hf
  simp only [OStream.pt, OStream.putDubL, OStream.putDub, List.length_append, List.length_map]
  cases adj <;> simp only [List.map_append, point_sign, point_blank]

theorem pt_putStr (g : Char) (os : OStream) (s : List Char) (hf : os.fill = ' ') :
    (os.pt g).putStr (s.map (point g)) = (os.putStr s).pt g := by
  rcases os with ⟨out, ff, prec, width, fill, adj⟩
  dsimp only at hf
  subst hf
  simp only [OStream.pt, OStream.putStr, List.length_map]
  cases adj <;> simp only [List.map_append, point_blank]

theorem pt_prepareFixed (g : Char) (fmt : DoubleFormat) (os : OStream) (hf : os.fill = ' ') :
    fmt.prepareFixed (os.pt g) = (fmt.prepareFixed os).pt g := by
  have := pt_putStr g os [' '] hf
  rw [show [' '].map (point g) = [' '] from by simp [point]] at this
  unfold DoubleFormat.prepareFixed
  rw [this]
  rfl

theorem fill_putDub (os : OStream) (x : F64) : (os.putDub x).fill = os.fill := rfl
theorem fill_putStr (os : OStream) (s : List Char) : (os.putStr s).fill = os.fill := rfl
theorem fill_prepareFixed (fmt : DoubleFormat) (os : OStream) :
    (fmt.prepareFixed os).fill = os.fill := rfl

theorem fixedDubL_eq (g : Char) (x : F64) (b a : Nat) :
    fixedDubL g x b a = (fixedDub x b a).map (point g) := by
  unfold fixedDubL fixedDub
  dsimp only
  rw [show OStream.fresh = OStream.fresh.pt g from rfl, pt_prepareFixed g _ _ rfl, pt_putDub g _ _ rfl]
  rfl

theorem foldl_putStrL (g : Char) (f f' : F64 → List Char) (hf : ∀ x, f' x = (f x).map (point g))
    (xs : List F64) (os : OStream) (h : os.fill = ' ') :
    xs.foldl (fun oss x => oss.putStr (f' x)) (os.pt g) =
      (xs.foldl (fun oss x => oss.putStr (f x)) os).pt g := by
  induction xs generalizing os with
  | nil => rfl
  | cons x xs ih =>
    rw [List.foldl_cons, List.foldl_cons, hf, pt_putStr g os _ h]
    exact ih _ h

theorem fixedArrL_eq (g : Char) (xs : List F64) (b a : Nat) :
    fixedArrL g xs b a = (fixedArr xs b a).map (point g) := by
  unfold fixedArrL fixedArr
  have := foldl_putStrL g (fun x => fixedDub x b a) (fun x => fixedDubL g x b a)
    (fun x => fixedDubL_eq g x b a) xs OStream.fresh rfl
  rw [show OStream.fresh.pt g = OStream.fresh from rfl] at this
  rw [this]
  rfl

theorem foldl_fixedL (g : Char) (fmt : DoubleFormat) (xs : List F64) (os : OStream) (h : os.fill = ' ') :
    xs.foldl (fun oss x => (fmt.prepareFixed oss).putDubL g x) (os.pt g) =
      (xs.foldl (fun oss x => (fmt.prepareFixed oss).putDub x) os).pt g := by
  induction xs generalizing os with
  | nil => rfl
  | cons x xs ih =>
    rw [List.foldl_cons, List.foldl_cons, pt_prepareFixed g _ _ h,
      pt_putDub g (fmt.prepareFixed os) x h]
    exact ih _ h

theorem putArrL_eq (g : Char) (os : OStream) (xs : List F64) :
    putArrL g os xs = os.putStr ((fixedBlade 3 6 xs).map (point g)) := by
  have h1 := putArr_eq OStream.fresh xs
  unfold putArrL
  have := foldl_fixedL g {} xs OStream.fresh rfl
  rw [show OStream.fresh.pt g = OStream.fresh from rfl] at this
  dsimp only
  rw [this]
  unfold putArr at h1
  dsimp only at h1
  have h2 := congrArg OStream.out h1
  rw [plain_fresh.out_putStr, plain_fresh.out_putStr] at h2
  rw [show ∀ o : OStream, (o.pt g).out = o.out.map (point g) from fun _ => rfl, List.append_cancel_left h2]

theorem enoteDubL_eq (g : Char) (x : F64) (d : Nat) :
    enoteDubL g x d = (enoteDub x d).map (point g) := by
  unfold enoteDubL enoteDub
  rw [show prepareEnote OStream.fresh d = (prepareEnote OStream.fresh d).pt g from rfl,
    pt_putDub g _ _ rfl]
  rfl

theorem enoteLoopL_eq (g : Char) (d : Nat) (xs : List F64) (n : Nat) (os : OStream) (h : os.fill = ' ') :
    enoteLoopL g d n xs (os.pt g) = (enoteLoop d n xs os).pt g := by
  induction xs generalizing n os with
  | nil => rfl
  | cons x xs ih =>
    rw [enoteLoopL, enoteLoop]
    try dsimp only
    have key : (if 0 < n then (os.pt g).putStr [' '] else os.pt g) =
        (if 0 < n then os.putStr [' '] else os).pt g := by
      have := pt_putStr g os [' '] h
      rw [show [' '].map (point g) = [' '] from by simp [point]] at this
      split
      · exact this
      · rfl
    rw [key]
    have hf : (if 0 < n then os.putStr [' '] else os).fill = ' ' := by split <;> exact h
    generalize (if 0 < n then os.putStr [' '] else os) = o at hf ⊢
    rw [show prepareEnote (o.pt g) d = (prepareEnote o d).pt g from rfl,
      pt_putDub g (prepareEnote o d) x hf]
    exact ih _ _ hf

theorem enoteArrL_eq (g : Char) (xs : List F64) (d : Nat) :
    enoteArrL g xs d = (enoteArr xs d).map (point g) := by
  unfold enoteArrL enoteArr
  have := enoteLoopL_eq g d xs 0 OStream.fresh rfl
  rw [show OStream.fresh.pt g = OStream.fresh from rfl] at this
  rw [this]
  rfl

/-! ## Lemmas: input -/

/-- Exchange `.` and the decimal point. -/
def swp (p : Char) (c : Char) : Char := if c = '.' then p else if c = p then '.' else c

theorem swp_swp (p c : Char) : swp p (swp p c) = c := by
  unfold swp
  split_ifs <;> simp_all

theorem swp_fix {p c : Char} (h1 : c ≠ '.') (h2 : c ≠ p) : swp p c = c := by
  unfold swp; rw [if_neg h1, if_neg h2]

theorem swp_eq_iff {p c k : Char} (h1 : k ≠ '.') (h2 : k ≠ p) : swp p c = k ↔ c = k := by
  constructor
  · intro h
    have := swp_swp p c
    rw [h, swp_fix h1 h2] at this
    exact this.symm
  · rintro rfl; exact swp_fix h1 h2

theorem swp_isDig {p : Char} (hp : PunctOk p) (c : Char) : isDig (swp p c) = isDig c := by
  have h0 : isDig '.' = false := rfl
  unfold swp
  split_ifs with h h'
  · rw [h, hp.dig, h0]
  · rw [h', hp.dig, h0]
  · rfl

theorem swp_isWs {p : Char} (hp : PunctOk p) (c : Char) : isWs (swp p c) = isWs c := by
  have h0 : isWs '.' = false := rfl
  unfold swp
  split_ifs with h h'
  · rw [h, hp.ws, h0]
  · rw [h', hp.ws, h0]
  · rfl

theorem swp_of_dig {p : Char} (hp : PunctOk p) {c : Char} (h : isDig c = true) : swp p c = c := by
  refine swp_fix ?_ ?_
  · rintro rfl; cases h
  · rintro rfl; rw [hp.dig] at h; cases h

theorem map_swp_swp (p : Char) (cs : List Char) : (cs.map (swp p)).map (swp p) = cs := by
  rw [List.map_map]
  conv_rhs => rw [← List.map_id cs]
  exact List.map_congr_left fun c _ => swp_swp p c

theorem span_swp {p : Char} (hp : PunctOk p) (cs : List Char) :
    (cs.map (swp p)).span isDig = ((cs.span isDig).1, (cs.span isDig).2.map (swp p)) := by
  rw [List.span_eq_takeWhile_dropWhile, List.span_eq_takeWhile_dropWhile]
  induction cs with
  | nil => rfl
  | cons c cs ih =>
    rw [List.map_cons]
    by_cases h : isDig c = true
    · have h' : isDig (swp p c) = true := by rw [swp_isDig hp]; exact h
      rw [List.takeWhile_cons_of_pos h', List.dropWhile_cons_of_pos h',
        List.takeWhile_cons_of_pos h, List.dropWhile_cons_of_pos h]
      have i1 := congrArg Prod.fst ih
      have i2 := congrArg Prod.snd ih
      dsimp only at i1 i2
      rw [i1, i2, swp_of_dig hp h]
    · have h' : ¬ isDig (swp p c) = true := by rw [swp_isDig hp]; exact h
      rw [List.takeWhile_cons_of_neg h', List.dropWhile_cons_of_neg h',
        List.takeWhile_cons_of_neg h, List.dropWhile_cons_of_neg h]
      rfl

theorem scanSign_swp {p : Char} (hp : PunctOk p) (cs : List Char) :
    scanSign (cs.map (swp p)) = ((scanSign cs).1, (scanSign cs).2.map (swp p)) := by
  rcases cs with _ | ⟨c, cs⟩
  · rfl
  have h1 := swp_eq_iff (p := p) (c := c) (k := '-') (by decide) hp.minus.symm
  have h2 := swp_eq_iff (p := p) (c := c) (k := '+') (by decide) hp.plus.symm
  rw [List.map_cons, scanSign, scanSign]
  by_cases a : c = '-'
  · rw [if_pos a, if_pos (h1.2 a)]
  · rw [if_neg a, if_neg (fun h => a (h1.1 h))]
    by_cases b : c = '+'
    · rw [if_pos b, if_pos (h2.2 b)]
    · rw [if_neg b, if_neg (fun h => b (h2.1 h))]
      rfl

theorem scanFrac_swp {p : Char} (hp : PunctOk p) (cs : List Char) :
    scanFrac (cs.map (swp p)) = ((scanFracL p cs).1, (scanFracL p cs).2.map (swp p)) := by
  rcases cs with _ | ⟨c, cs⟩
  · rfl
  rw [List.map_cons, scanFrac, scanFracL]
  by_cases a : c = p
  · have : swp p c = '.' := by
      unfold swp; split_ifs with h
      · rw [← a, h]
      · rfl
    rw [if_pos a, if_pos this, span_swp hp]
  · have : swp p c ≠ '.' := by
      intro h
      have := swp_swp p c
      rw [h] at this
      unfold swp at this
      rw [if_pos rfl] at this
      exact a this.symm
    rw [if_neg a, if_neg this]
    rfl

theorem scanExp_swp {p : Char} (hp : PunctOk p) (b : Bool) (cs : List Char) :
    scanExp b (cs.map (swp p)) = ((scanExp b cs).1, (scanExp b cs).2.map (swp p)) := by
  rcases cs with _ | ⟨c, cs⟩
  · rfl
  have h1 := swp_eq_iff (p := p) (c := c) (k := 'e') (by decide) hp.e.symm
  have h2 := swp_eq_iff (p := p) (c := c) (k := 'E') (by decide) hp.E.symm
  rw [List.map_cons, scanExp, scanExp]
  by_cases h : (c = 'e' ∨ c = 'E') ∧ b = true
  · rw [if_pos h, if_pos (by rw [h1, h2]; exact h), scanSign_swp hp]
    dsimp only
    rw [span_swp hp]
  · rw [if_neg h, if_neg (by rw [h1, h2]; exact h)]
    rfl

theorem scanNum_swp {p : Char} (hp : PunctOk p) (cs : List Char) :
    scanNum (cs.map (swp p)) = ((scanNumL p cs).1, (scanNumL p cs).2.map (swp p)) := by
  unfold scanNum scanNumL
  rw [scanSign_swp hp]
  dsimp only
  rw [span_swp hp]
  dsimp only
  rw [scanFrac_swp hp]
  dsimp only
  rw [scanExp_swp hp]

/-- The stream with `.` and the decimal point exchanged. -/
def IStream.swp (p : Char) (s : IStream) : IStream := ⟨s.rest.map (Engabra.swp p), s.eof, s.fail⟩

theorem IStream.swp_swp (p : Char) (s : IStream) : (s.swp p).swp p = s := by
  rcases s with ⟨r, e, f⟩
  simp only [IStream.swp, map_swp_swp]

theorem dropWhile_swp {p : Char} (hp : PunctOk p) (cs : List Char) :
    (cs.map (swp p)).dropWhile isWs = (cs.dropWhile isWs).map (swp p) := by
  induction cs with
  | nil => rfl
  | cons c cs ih =>
    rw [List.map_cons, List.dropWhile_cons, List.dropWhile_cons, swp_isWs hp]
    split
    · exact ih
    · rfl

theorem extractDub_swp {p : Char} (hp : PunctOk p) (s : IStream) (old : F64) :
    extractDubL p s old = ((extractDub (s.swp p) old).1.swp p, (extractDub (s.swp p) old).2) := by
  unfold extractDubL extractDub
  rw [show (s.swp p).eof = s.eof from rfl, show (s.swp p).fail = s.fail from rfl,
    show (s.swp p).rest = s.rest.map (swp p) from rfl]
  split
  · simp only [IStream.swp, map_swp_swp]
  · dsimp only
    rw [dropWhile_swp hp]
    by_cases h : s.rest.dropWhile isWs = []
    · rw [if_pos h, if_pos (by rw [h]; rfl)]
      rfl
    · rw [if_neg h, if_neg (by simpa using h), scanNum_swp hp]
      simp only [IStream.swp, map_swp_swp, List.isEmpty_map]

theorem loop_swp {p : Char} (hp : PunctOk p) (xs : List F64) (s : IStream) (ok : Bool) :
    extractLoopL p s ok xs =
      ((extractLoop (s.swp p) ok xs).1.swp p, (extractLoop (s.swp p) ok xs).2) := by
  induction xs generalizing s ok with
  | nil => simp only [extractLoopL, extractLoop, IStream.swp_swp]
  | cons x xs ih =>
    rw [extractLoopL, extractLoop]
    split
    · dsimp only
      rw [extractDub_swp hp]
      dsimp only
      rw [ih, IStream.swp_swp]
      rfl
    · simp only [IStream.swp_swp]

/-- A result with `.` and the decimal point exchanged in what is left of the text. -/
def Run.swp {β : Type} (p : Char) (r : Run (IStream × β)) : Run (IStream × β) :=
  r.bind fun a => .ok (a.1.swp p, a.2)

theorem arr_swp {p : Char} (hp : PunctOk p) (s : IStream) (data : List F64) :
    extractArrL p s data = (extractArr (s.swp p) data).swp p := by
  rcases data with _ | ⟨x, xs⟩
  · rfl
  unfold extractArrL extractArr
  dsimp only
  rw [extractDub_swp hp]
  dsimp only
  rw [loop_swp hp, IStream.swp_swp,
    show isInputOkay ((extractDub (s.swp p) x).1.swp p) _ = isInputOkay (extractDub (s.swp p) x).1 _ from rfl]
  dsimp only
  split <;> rfl

theorem a1_swp {p : Char} (hp : PunctOk p) (s : IStream) (a : A1 F64) :
    extractA1L p s a = (extractA1 (s.swp p) a).swp p := by
  unfold extractA1L extractA1
  rw [arr_swp hp]
  rcases h : extractArr (s.swp p) a.toList with _ | ⟨s', l⟩
  · rfl
  · simp only [Run.swp, Run.bind]
    rcases l with _ | ⟨x, _ | ⟨y, l⟩⟩ <;> rfl

theorem a3_swp {p : Char} (hp : PunctOk p) (s : IStream) (a : A3 F64) :
    extractA3L p s a = (extractA3 (s.swp p) a).swp p := by
  unfold extractA3L extractA3
  rw [arr_swp hp]
  rcases h : extractArr (s.swp p) a.toList with _ | ⟨s', l⟩
  · rfl
  · simp only [Run.swp, Run.bind]
    rcases l with _ | ⟨x, _ | ⟨y, _ | ⟨z, _ | ⟨w, l⟩⟩⟩⟩ <;> rfl

theorem bind_swp {β γ : Type} (p : Char) (r : Run (IStream × β)) (f : IStream × β → Run γ) :
    (r.swp p).bind f = r.bind fun a => f (a.1.swp p, a.2) := by
  rcases r with _ | a <;> rfl

theorem swp_bind {β γ : Type} (p : Char) (r : Run (IStream × β)) (f : IStream × β → Run (IStream × γ)) :
    (r.bind f).swp p = r.bind fun a => (f a).swp p := by
  rcases r with _ | a <;> rfl

theorem ty_swp {p : Char} (hp : PunctOk p) (t : Ty) (s : IStream) (old : t.D F64) :
    extractTyL p t s old = (extractTy t (s.swp p) old).swp p := by
  cases t
  case dub => rw [extractTyL, extractTy, extractDub_swp hp]; rfl
  all_goals
    simp only [extractTyL, extractTy, a1_swp hp, a3_swp hp, bind_swp, swp_bind, IStream.swp_swp]
    rfl

/-! ## Lemmas: the characters of the text -/

/-- Characters of numbers and between numbers. -/
def NumCh (c : Char) : Prop :=
  isDig c = true ∨ isWs c = true ∨ c = '.' ∨ c = '+' ∨ c = '-' ∨ c = 'e'

theorem NumCh.ne {p c : Char} (hp : PunctOk p) (hc : NumCh c) (h : c ≠ '.') : c ≠ p := by
  rintro rfl
  rcases hc with h1 | h1 | h1 | h1 | h1 | h1
  · rw [hp.dig] at h1; cases h1
  · rw [hp.ws] at h1; cases h1
  · exact h h1
  · exact hp.plus h1
  · exact hp.minus h1
  · exact hp.e h1

theorem numCh_dig {cs : List Char} (h : AllDig cs) : ∀ c ∈ cs, NumCh c := fun c hc => Or.inl (h c hc)

theorem numCh_frac (p n : Nat) : ∀ c ∈ fracText p n, NumCh c := by
  intro c hc
  unfold fracText at hc
  split at hc
  · cases hc
  · rcases List.mem_cons.1 hc with rfl | hc
    · simp [NumCh]
    · exact numCh_dig (fixedDigits_dig _ _) c hc

theorem numCh_mant (p n : Nat) : ∀ c ∈ mantText p n, NumCh c := by
  intro c hc
  unfold mantText at hc
  rcases List.mem_append.1 hc with hc | hc
  · exact numCh_dig (natDigits_dig _) c hc
  · exact numCh_frac _ _ c hc

theorem numCh_exp (e : ℤ) : ∀ c ∈ expText e, NumCh c := by
  intro c hc
  rw [expText_eq] at hc
  rcases List.mem_cons.1 hc with rfl | hc
  · split <;> simp [NumCh]
  · exact numCh_dig (expDigits_dig e) c hc

theorem numCh_num (f : FloatField) (hf : f ≠ .general) (p : Nat) (x : F64) (hx : x.Finite) :
    ∀ c ∈ numText f p x, NumCh c := by
  intro c hc
  unfold numText at hc
  rcases List.mem_append.1 hc with hc | hc
  · unfold signText at hc
    split at hc
    · simp at hc; subst hc; simp [NumCh]
    · cases hc
  · have key : ∀ v : ℚ, ∀ c ∈ magText f p v, NumCh c := by
      intro v c hc
      cases f with
      | general => exact absurd rfl hf
      | fixed =>
        rw [magText, fixedText] at hc
        rcases List.mem_append.1 hc with hc | hc
        · exact numCh_dig (natDigits_dig _) c hc
        · exact numCh_frac _ _ c hc
      | scientific =>
        rw [magText, sciText] at hc
        have k2 : ∀ n e, c ∈ mantText p n ++ 'e' :: expText e → NumCh c := by
          intro n e hc
          rcases List.mem_append.1 hc with hc | hc
          · exact numCh_mant _ _ c hc
          · rcases List.mem_cons.1 hc with rfl | hc
            · simp [NumCh]
            · exact numCh_exp e c hc
        split at hc
        · exact k2 _ _ hc
        · exact k2 _ _ hc
    cases x with
    | nan => exact absurd hx (by simp [F64.Finite])
    | inf s => exact absurd hx (by simp [F64.Finite])
    | zero s => exact key _ c hc
    | fin v h => exact key _ c hc

theorem numCh_field (w : Nat) {num : List Char} (h : ∀ c ∈ num, NumCh c) : ∀ c ∈ field w num, NumCh c := by
  intro c hc
  unfold field at hc
  rcases List.mem_append.1 hc with hc | hc
  · exact Or.inr (Or.inl (allWs_blanks _ c hc))
  · exact h c hc

theorem mem_intercalate {sep : List Char} {l : List (List Char)} {P : Char → Prop}
    (hs : ∀ c ∈ sep, P c) (hl : ∀ a ∈ l, ∀ c ∈ a, P c) : ∀ c ∈ sep.intercalate l, P c := by
  intro c hc
  rcases l with _ | ⟨a, l⟩
  · simp [List.intercalate] at hc
  · rw [intercalate_cons] at hc
    rcases List.mem_append.1 hc with hc | hc
    · exact hl a (by simp) c hc
    · rw [List.mem_flatten] at hc
      obtain ⟨b, hb, hc⟩ := hc
      rw [List.mem_map] at hb
      obtain ⟨b', hb', rfl⟩ := hb
      rcases List.mem_append.1 hc with hc | hc
      · exact hs c hc
      · exact hl b' (by simp [hb']) c hc

theorem numCh_blank {k : Nat} : ∀ c ∈ List.replicate k ' ', NumCh c := by
  intro c hc
  rw [List.eq_of_mem_replicate hc]
  exact Or.inr (Or.inl rfl)

theorem numCh_enote (t : Ty) (x : t.D F64) (hx : ∀ c ∈ comps t x, c.Finite) (d : Nat) (txt : List Char)
    (h : enoteTy d t x = some txt) : ∀ c ∈ txt, NumCh c := by
  rw [C30_enote_object] at h
  split at h
  · cases h
  injection h with h
  subst h
  refine mem_intercalate (numCh_blank (k := 2)) ?_
  intro a ha
  rw [List.mem_map] at ha
  obtain ⟨b, hb, rfl⟩ := ha
  unfold enoteBlade
  refine mem_intercalate (numCh_blank (k := 1)) ?_
  intro a ha
  rw [List.mem_map] at ha
  obtain ⟨y, hy, rfl⟩ := ha
  rw [C30_enote_number]
  refine numCh_field _ (numCh_num _ (by simp) d y (hx y ?_))
  rw [← blades_join, List.mem_flatten]
  exact ⟨b, hb, hy⟩

theorem numCh_fixedBlade (b a : Nat) (xs : List F64) (hx : ∀ c ∈ xs, c.Finite) :
    ∀ c ∈ fixedBlade b a xs, NumCh c := by
  intro c hc
  unfold fixedBlade at hc
  rw [List.mem_flatten] at hc
  obtain ⟨l, hl, hc⟩ := hc
  rw [List.mem_map] at hl
  obtain ⟨y, hy, rfl⟩ := hl
  rw [C30_fixed_number] at hc
  rcases List.mem_cons.1 hc with rfl | hc
  · exact Or.inr (Or.inl rfl)
  · exact numCh_field _ (numCh_num _ (by simp) a y (hx y hy)) c hc

theorem swp_point {p : Char} (hp : PunctOk p) {txt : List Char} (h : ∀ c ∈ txt, NumCh c) :
    (txt.map (point p)).map (swp p) = txt := by
  rw [List.map_map]
  conv_rhs => rw [← List.map_id txt]
  refine List.map_congr_left fun c hc => ?_
  show swp p (point p c) = c
  unfold point
  split
  · next h0 =>
    rw [h0]
    unfold swp
    by_cases h1 : p = '.'
    · rw [if_pos h1, h1]
    · rw [if_neg h1, if_pos rfl]
  · next h0 => exact swp_fix h0 ((h c hc).ne hp h0)

theorem swp_point_ne {w r : Char} (hr : PunctOk r) {txt : List Char}
    (h : ∀ c ∈ txt, NumCh c) : (txt.map (point w)).map (swp r) = txt.map (point (swp r w)) := by
  rw [List.map_map]
  refine List.map_congr_left fun c hc => ?_
  show swp r (point w c) = point (swp r w) c
  unfold point
  split
  · rfl
  · next h0 => exact swp_fix h0 ((h c hc).ne hr h0)

/-! ## The property -/

/-- **C83**, text: `io::enote`, `io::fixed` and, for every type of the library, `operator<<` write
the text of the "C" locale with the decimal point of the *global* locale; the locale `loc` of the
stream written to has no effect. -/
theorem C83_text (g loc : Char) (t : Ty) (x : t.D F64) (d b a : Nat) :
    enoteTyL g d t x = (enoteTy d t x).map (List.map (point g)) ∧
      fixedTyL g b a t x = (fixedTy b a t x).map (List.map (point g)) ∧
      (t ≠ .dub → ∀ (os : OStream) (T : List Char), os.width = 0 →
        (insertTy t os x).out = os.out ++ T →
        insertTyL g loc t os x = { insertTy t os x with out := os.out ++ T.map (point g) }) := by
  refine ⟨?_, ?_, fun ht os T hw hT => ?_⟩
  · cases t <;>
      simp [enoteTyL, enoteTy, enoteDubL_eq, enoteArrL_eq, catStr_eq, point]
  · cases t <;>
      simp [fixedTyL, fixedTy, fixedDubL_eq, fixedArrL_eq, catStr_eq, point]
  · have hT' : T = [' '].intercalate ((blades t x).map (fixedBlade 3 6)) := by
      rw [C30_insert_text t ht x os hw] at hT
      exact (List.append_cancel_left hT).symm
    subst hT'
    cases t <;> first | exact absurd rfl ht | skip
    all_goals
      simp only [insertTyL, insertTy, putArrL_eq, putArr_eq, putStr_zero hw,
        putStr_zero (os := { os with out := _, width := 0 }) rfl, blades,
        A1.toList, A3.toList]
      simp [point]

/-- **C83.** Writing and reading with the same decimal point: `io::enote` with 16 or more decimals
reads back to the same object, and every further extraction of the text goes on as in the "C"
locale. -/
theorem C83_round_trip (p : Char) (hp : PunctOk p) (t : Ty) (x old : t.D F64)
    (hx : ∀ c ∈ comps t x, isValidDub c = true) (d : Nat) (hd : 16 ≤ d) (txt : List Char)
    (h : enoteTyL p d t x = some txt) :
    extractTyL p t ⟨txt, false, false⟩ old = .ok (⟨[], true, false⟩, x) := by
  rw [(C83_text p p t x d 0 0).1, Option.map_eq_some_iff] at h
  obtain ⟨T, h1, rfl⟩ := h
  rw [ty_swp hp]
  have hc := numCh_enote t x (fun c hc => valid_finite (hx c hc)) d T h1
  rw [show IStream.swp p ⟨T.map (point p), false, false⟩ = ⟨T, false, false⟩ from by
      rw [IStream.swp, swp_point hp hc],
    C31_object t x old hx d hd T h1]
  rfl

/-- **C83.** What `operator<<` writes with the global decimal point `p` reads back with the decimal
point `p` to within `10^-6`, whatever the locale of the stream written to. -/
theorem C83_insert (p loc : Char) (hp : PunctOk p) (t : Ty) (ht : t ≠ .dub) (x old : t.D F64)
    (hx : ∀ c ∈ comps t x, c.Finite) :
    ∃ y, extractTyL p t ⟨(insertTyL p loc t OStream.fresh x).out, false, false⟩ old =
        .ok (⟨[], true, false⟩, y) ∧
      List.Forall₂ (fun c c' => isValidDub c' = true ∧ |c'.value - c.value| ≤ 1 / 10 ^ 6)
        (comps t x) (comps t y) := by
  obtain ⟨y, h1, h2⟩ := C31_insert t ht x old hx
  have ht' := C30_insert_text t ht x OStream.fresh rfl
  refine ⟨y, ?_, h2⟩
  rw [(C83_text p loc t x 0 0 0).2.2 ht OStream.fresh _ rfl ht', ty_swp hp]
  rw [ht'] at h1
  rw [show OStream.fresh.out = [] from rfl, List.nil_append] at h1 ⊢
  have hc : ∀ c ∈ [' '].intercalate ((blades t x).map (fixedBlade 3 6)), NumCh c := by
    refine mem_intercalate (numCh_blank (k := 1)) ?_
    intro a ha
    rw [List.mem_map] at ha
    obtain ⟨b, hb, rfl⟩ := ha
    refine numCh_fixedBlade 3 6 b fun c hc => hx c ?_
    rw [← blades_join, List.mem_flatten]
    exact ⟨b, hb, hc⟩
  rw [IStream.swp]
  dsimp only
  rw [swp_point hp hc, h1]
  rfl

/-! ## Different decimal points -/

theorem swp_ok {w r : Char} (hw : PunctOk w) (hr : PunctOk r) : PunctOk (swp r w) := by
  have h0 : PunctOk '.' := ⟨rfl, rfl, by decide, by decide, by decide, by decide⟩
  unfold swp
  split_ifs
  · exact hr
  · exact h0
  · exact hw

theorem swp_ne_dot {w r : Char} (h : w ≠ r) : swp r w ≠ '.' := by
  intro hc
  have := swp_swp r w
  rw [hc] at this
  unfold swp at this
  rw [if_pos rfl] at this
  exact h this.symm

/-- A number of scientific notation begins with one digit and the point. -/
theorem enote_head (x : F64) (hx : x.Finite) (d : Nat) (hd : 1 ≤ d) :
    ∃ k < 10, ∃ tl, numText .scientific d x = sgn x.signbit ++ digitChar k :: '.' :: tl ∧
      (x.value ≠ 0 → 1 ≤ k) := by
  have key : ∀ n < 10 ^ (d + 1), ∀ e : ℤ, ∃ tl, mantText d n ++ 'e' :: expText e =
      digitChar (n / 10 ^ d) :: '.' :: tl ∧ n / 10 ^ d < 10 := by
    intro n hn e
    have hk : n / 10 ^ d < 10 := by
      rw [Nat.div_lt_iff_lt_mul (by positivity)]
      rw [pow_succ] at hn; linarith
    refine ⟨fixedDigits d (n % 10 ^ d) ++ 'e' :: expText e, ?_, hk⟩
    · unfold mantText fracText
      rw [natDigits_small hk, if_neg (by omega)]
      rfl
  cases x with
  | nan => exact absurd hx (by simp [F64.Finite])
  | inf s => exact absurd hx (by simp [F64.Finite])
  | zero s =>
    obtain ⟨tl, h1, h2⟩ := key 0 (by positivity) 0
    refine ⟨0, by norm_num, tl, ?_, fun h => absurd rfl h⟩
    rw [numText, signText_eq, bodyText, magText, sciText, if_pos rfl, h1]
    simp
  | fin v h =>
    have hv : |v| ≠ 0 := abs_ne_zero.2 h.1
    obtain ⟨a1, a2, -⟩ := sciParts_spec d (abs_pos.2 h.1)
    obtain ⟨tl, h1, h2⟩ := key (sciParts d |v|).1 a2 (sciParts d |v|).2
    refine ⟨_, h2, tl, ?_, fun _ => ?_⟩
    · rw [numText, signText_eq, bodyText, magText, sciText, if_neg hv, h1]
    · rw [Nat.one_le_div_iff (by positivity)]; exact a1

/-- The number a digit stands for. -/
theorem digit_value (neg : Bool) (k : Nat) (hk : k < 10) :
    (decToF64 neg k 0).value = (if neg then -(k : ℚ) else k) ∧
      isValidDub (decToF64 neg k 0) = true ∧ ∀ s, decToF64 neg k 0 ≠ inf s := by
  by_cases h0 : k = 0
  · subst h0
    unfold decToF64
    rw [if_pos rfl]
    refine ⟨by cases neg <;> simp [F64.value], ?_, by simp⟩
    exact (C11_double _).2 (Or.inl ⟨neg, rfl⟩)
  have hv : ∀ m : ℤ, m ≠ 0 → |m| < 10 → ∃ h : IsFin (m : ℚ), F64.roundTo (m : ℚ) = fin (m : ℚ) h := by
    intro m hm hm'
    have hrep : F64.Rep (m : ℚ) := F64.rep_int m (by linarith)
    have hne : (m : ℚ) ≠ 0 := by exact_mod_cast hm
    have hlt : |F64.rnVal (m : ℚ)| < 2 ^ 1024 := by
      rw [F64.rnVal_exact hrep]
      have h1 : |(m : ℚ)| < 10 := by exact_mod_cast hm'
      have h2 : (10 : ℚ) ≤ 2 ^ 1024 := by
        calc (10 : ℚ) ≤ 2 ^ 4 := by norm_num
          _ ≤ 2 ^ 1024 := pow_le_pow_right₀ (by norm_num) (by norm_num)
      exact lt_of_lt_of_le h1 h2
    have hfin : IsFin (m : ℚ) := by
      have := F64.rnVal_isFin (m : ℚ) hne (by rw [F64.rnVal_exact hrep]; exact hne) hlt
      rwa [F64.rnVal_exact hrep] at this
    exact ⟨hfin, F64.roundTo_fin hfin⟩
  have hval : ∀ (m : ℤ) (h : IsFin (m : ℚ)), m ≠ 0 → isValidDub (fin (m : ℚ) h) = true := by
    intro m h hm
    refine (C11_double _).2 (Or.inr ⟨m, h, rfl, ?_⟩)
    have h1 : (1 : ℚ) ≤ |(m : ℚ)| := by exact_mod_cast Int.one_le_abs hm
    refine le_trans ?_ h1
    rw [div_le_one (by positivity)]
    exact one_le_pow₀ (by norm_num)
  unfold decToF64
  rw [if_neg h0, zpow_zero, mul_one]
  cases neg
  · obtain ⟨h, e⟩ := hv (k : ℤ) (by exact_mod_cast h0) (by rw [abs_of_nonneg (by positivity)]; exact_mod_cast hk)
    have hq := hval (k : ℤ) h (by exact_mod_cast h0)
    simp only [Bool.false_eq_true, if_false]
    rw [show ((k : ℕ) : ℚ) = ((k : ℤ) : ℚ) from by push_cast; rfl, e]
    exact ⟨rfl, hq, by simp⟩
  · obtain ⟨h, e⟩ := hv (-(k : ℤ)) (by simpa using h0)
      (by rw [abs_neg, abs_of_nonneg (by positivity)]; exact_mod_cast hk)
    have hq := hval (-(k : ℤ)) h (by simpa using h0)
    simp only [if_true]
    rw [show (-((k : ℕ) : ℚ)) = ((-(k : ℤ) : ℤ) : ℚ) from by push_cast; rfl, e]
    exact ⟨rfl, hq, by simp⟩

theorem isDig_ws {c : Char} (h : isDig c = true) : isWs c = false := by
  obtain ⟨-, -, -, -, -, h6⟩ := dig_facts h
  exact h6

/-- Reading stops at a character that is not the decimal point. -/
theorem extract_stop {q : Char} (hq : PunctOk q) (hd : q ≠ '.') (n : Nat) (neg : Bool) (k : Nat)
    (hk : k < 10) (tl : List Char) (old : F64) :
    extractDub ⟨blanks n ++ (sgn neg ++ digitChar k :: q :: tl), false, false⟩ old =
      (⟨q :: tl, false, false⟩, decToF64 neg k 0) := by
  obtain ⟨f1, f2, -⟩ := digit_facts k hk
  have hdig : AllDig [digitChar k] := allDig_single hk
  have hscan : scanNum (sgn neg ++ digitChar k :: q :: tl) =
      (⟨neg, [digitChar k], [], none⟩, q :: tl) := by
    unfold scanNum
    have e1 : scanSign (sgn neg ++ ([digitChar k] ++ q :: tl)) = (neg, [digitChar k] ++ q :: tl) :=
      scanSign_sgn hdig (by simp)
    rw [show sgn neg ++ digitChar k :: q :: tl = sgn neg ++ ([digitChar k] ++ q :: tl) from rfl, e1]
    dsimp only
    rw [span_dig hdig (by intro c hc; simp at hc; subst hc; exact hq.dig)]
    dsimp only
    rw [scanFrac, if_neg hd]
    dsimp only
    rw [scanExp, if_neg (by simp [hq.e, hq.E])]
  have hdv : digitsVal [digitChar k] = k := by
    have := digitsVal_natDigits k
    rwa [natDigits_small hk] at this
  have hconv : NumTok.convert ⟨neg, [digitChar k], [], none⟩ = (decToF64 neg k 0, false) := by
    unfold NumTok.convert
    rw [if_neg (by simp)]
    dsimp only
    rw [List.append_nil, hdv]
    simp only [List.length_nil, Nat.cast_zero, sub_zero]
    have := (digit_value neg k hk).2.2
    rcases h : decToF64 neg k 0 with _ | s | s | ⟨v, hv⟩
    all_goals first | rfl | (exact absurd h (this _))
  have hdrop : (blanks n ++ (sgn neg ++ digitChar k :: q :: tl)).dropWhile isWs =
      sgn neg ++ digitChar k :: q :: tl := by
    cases neg
    · exact dropWhile_ws (allWs_blanks n) (isDig_ws f2)
    · exact dropWhile_ws (allWs_blanks n) (by decide)
  unfold extractDub
  rw [if_neg (by simp)]
  dsimp only
  rw [hdrop, if_neg (by simp), hscan]
  dsimp only
  rw [hconv]
  rfl

/-- Nothing is read at that character. -/
theorem extract_stuck {q : Char} (hq : PunctOk q) (hd : q ≠ '.') (tl : List Char) (old : F64) :
    (extractDub ⟨q :: tl, false, false⟩ old).1 = ⟨q :: tl, false, true⟩ := by
  have hscan : scanNum (q :: tl) = (⟨false, [], [], none⟩, q :: tl) := by
    unfold scanNum
    rw [scanSign, if_neg hq.minus, if_neg hq.plus]
    dsimp only
    have : (q :: tl).span isDig = ([], q :: tl) := by
      rw [List.span_eq_takeWhile_dropWhile, List.takeWhile_cons_of_neg (by rw [hq.dig]; decide),
        List.dropWhile_cons_of_neg (by rw [hq.dig]; decide)]
    rw [this]
    dsimp only
    rw [scanFrac, if_neg hd]
    dsimp only
    rw [scanExp, if_neg (by simp)]
  unfold extractDub
  rw [if_neg (by simp)]
  dsimp only
  rw [List.dropWhile_cons_of_neg (by rw [hq.ws]; decide), if_neg (by simp), hscan]
  rfl

/-- The text of an object begins with the text of its first component. -/
theorem enote_first (t : Ty) (x : t.D F64) (d : Nat) (T : List Char) (h : enoteTy d t x = some T) :
    ∃ c ∈ comps t x, ∃ more, (comps t x).head? = some c ∧ T = enoteDub c d ++ more := by
  rw [C30_enote_object] at h
  split at h
  · cases h
  injection h with h
  subst h
  cases t <;>
    simp only [blades, List.map_cons, List.map_nil, intercalate_cons, enoteBlade, comps,
      List.mem_cons, List.head?_cons, List.append_assoc]
  all_goals exact ⟨_, Or.inl rfl, _, rfl, rfl⟩

/-- **C83**, different decimal points: text written by `io::enote` under the decimal point `w` and
read under `r ≠ w`.  An object with more than one component is not read: the stream fails and the
object is not valid.  A `Scalar`, a `TriVector` or a `double` *is* read, without any failure: it
becomes the first digit of the number, with its sign. -/
theorem C83_mismatch (w r : Char) (hw : PunctOk w) (hr : PunctOk r) (hne : w ≠ r) (t : Ty)
    (x old : t.D F64) (hx : ∀ c ∈ comps t x, isValidDub c = true) (d : Nat) (hd : 1 ≤ d)
    (txt : List Char) (h : enoteTyL w d t x = some txt) :
    ∃ s' y, extractTyL r t ⟨txt, false, false⟩ old = .ok (s', y) ∧
      ((comps t x).length ≠ 1 → s'.fail = true ∧ isValidTy t y = false) ∧
      ∀ c, comps t x = [c] → s'.fail = false ∧ isValidTy t y = true ∧
        ∃ k < 10, firstDigit txt = some k ∧ (c.value ≠ 0 → 1 ≤ k) ∧
          (comps t y).map F64.value = [if c.signbit then -(k : ℚ) else k] := by
  rw [(C83_text w w t x d 0 0).1, Option.map_eq_some_iff] at h
  obtain ⟨T, h1, rfl⟩ := h
  have hfin : ∀ c ∈ comps t x, c.Finite := fun c hc => valid_finite (hx c hc)
  have hc := numCh_enote t x hfin d T h1
  have hq := swp_ok hw hr
  have hq' := swp_ne_dot hne
  obtain ⟨c0, hc0, more, hhd, hT⟩ := enote_first t x d T h1
  obtain ⟨k, hk, tl, k1, k2⟩ := enote_head c0 (hfin c0 hc0) d hd
  obtain ⟨v1, v2, -⟩ := digit_value c0.signbit k hk
  obtain ⟨f1, f2, -⟩ := digit_facts k hk
  have hdot : digitChar k ≠ '.' := by
    intro hcon; rw [hcon] at f2; cases f2
  -- the text, with the point `q`
  have hform : ∀ q, ∃ n tl', T.map (point q) = blanks n ++ (sgn c0.signbit ++ digitChar k :: q :: tl') := by
    intro q
    refine ⟨7 + d - (numText .scientific d c0).length, (tl ++ more).map (point q), ?_⟩
    rw [hT, C30_enote_number, field]
    conv_lhs => rw [k1]
    simp only [List.map_append, List.map_cons, List.append_assoc, List.cons_append]
    rw [blanks, point_blank, show (sgn c0.signbit).map (point q) = sgn c0.signbit from point_sign q c0,
      show point q '.' = q from if_pos rfl, show point q (digitChar k) = digitChar k from if_neg hdot, ← k1]
    rfl
  have hfirst : firstDigit (T.map (point w)) = some k := by
    obtain ⟨n, tl', e⟩ := hform w
    rw [e]
    unfold firstDigit
    have hb : (blanks n).find? isDig = none := by
      rw [List.find?_eq_none]
      intro c hc
      rw [List.eq_of_mem_replicate hc]; decide
    have hs : (sgn c0.signbit).find? isDig = none := by
      unfold sgn; split <;> simp [isDig]
    rw [List.find?_append, hb, Option.none_or, List.find?_append, hs, Option.none_or,
      List.find?_cons_of_pos f2]
    simp [f1]
  obtain ⟨n, tl', e⟩ := hform (swp r w)
  rw [ty_swp hr, IStream.swp]
  dsimp only
  rw [swp_point_ne hr hc, e]
  have hex : ∀ old, extractDub ⟨blanks n ++ (sgn c0.signbit ++ digitChar k :: swp r w :: tl'), false, false⟩ old =
      (⟨swp r w :: tl', false, false⟩, decToF64 c0.signbit k 0) :=
    fun old => extract_stop hq hq' n c0.signbit k hk tl' old
  by_cases ht : t = .dub
  · subst ht
    have : c0 = x := by simp [comps] at hhd; exact hhd.symm
    subst this
    refine ⟨_, _, by rw [extractTy, hex]; rfl, fun hl => absurd rfl hl, fun c hcc => ?_⟩
    have : c = c0 := by simp [comps] at hcc; exact hcc.symm
    subst this
    exact ⟨rfl, v2, k, hk, hfirst, k2, by simp [comps, v1]⟩
  generalize hS : (⟨blanks n ++ (sgn c0.signbit ++ digitChar k :: swp r w :: tl'), false, false⟩ : IStream) = S at hex ⊢
  have hr1 : readAll 1 S = (⟨swp r w :: tl', false, false⟩, some [decToF64 c0.signbit k 0]) := by
    rw [readAll, hex]
    try dsimp only
    rw [if_pos ⟨rfl, v2⟩]
    rfl
  have hbad : ∀ m, readAll (m + 1) ⟨swp r w :: tl', false, false⟩ = (⟨swp r w :: tl', false, true⟩, none) := by
    intro m
    rw [readAll]
    rw [extract_stuck hq hq', if_neg (by simp)]
  have hr3 : readAll 3 S = (⟨swp r w :: tl', false, true⟩, none) := by
    rw [readAll, hex]
    try dsimp only
    rw [if_pos ⟨rfl, v2⟩, hbad 1]
    rfl
  have hf : ∀ m, readAll (m + 1) ⟨swp r w :: tl', false, true⟩ = (⟨swp r w :: tl', false, true⟩, none) :=
    fun m => readAll_bad _ _ (Or.inl rfl) (by omega)
  obtain ⟨s', y, e1, e2⟩ := C29_blades t ht S old
  rw [e1]
  refine ⟨s'.swp r, y, rfl, ?_⟩
  have hn : isValidDub (nan : F64) = false := isValidDub_nan
  clear e e1 hform hT h1 hx hfin hc hS hex
  cases t <;> first | exact absurd rfl ht | skip
  case sca =>
    rw [bladeSizes, readGroups, hr1, readGroups] at e2
    have e3 := congrArg Prod.fst e2
    have e4 := congrArg Prod.snd e2
    simp [blades] at e3 e4
    refine ⟨fun hl => absurd rfl hl, fun c hcc => ?_⟩
    simp [comps] at hcc hhd
    rw [hhd] at hcc; subst hcc
    refine ⟨by rw [e3]; rfl, ?_, k, hk, hfirst, k2, by simp [comps, e4, v1]⟩
    show isValidDub y.theData.d0 = true
    rw [e4]; exact v2
  case tri =>
    rw [bladeSizes, readGroups, hr1, readGroups] at e2
    have e3 := congrArg Prod.fst e2
    have e4 := congrArg Prod.snd e2
    simp [blades] at e3 e4
    refine ⟨fun hl => absurd rfl hl, fun c hcc => ?_⟩
    simp [comps] at hcc hhd
    rw [hhd] at hcc; subst hcc
    refine ⟨by rw [e3]; rfl, ?_, k, hk, hfirst, k2, by simp [comps, e4, v1]⟩
    show isValidDub y.theData.d0 = true
    rw [e4]; exact v2
  all_goals
    simp only [bladeSizes, readGroups, hr1, hr3, hbad, hf] at e2
    have e3 := congrArg Prod.fst e2
    have e4 := congrArg Prod.snd e2
    simp [blades, List.replicate] at e3 e4
    refine ⟨fun _ => ⟨by rw [e3]; rfl, ?_⟩, fun c hcc => by simp [comps] at hcc⟩
    rw [C11_first_components]
    simp [firstComps, e4, hn]

/-- **C83**: so a `Scalar`, `TriVector` or `double` whose number is not one of the integers
`-9 .. 9` is silently read as another, valid, object. -/
theorem C83_silent (w r : Char) (hw : PunctOk w) (hr : PunctOk r) (hne : w ≠ r) (t : Ty)
    (x old : t.D F64) (c : F64) (hc : comps t x = [c]) (hv : isValidDub c = true)
    (hint : ∀ m : ℤ, |m| < 10 → c.value ≠ m) (d : Nat) (hd : 1 ≤ d) :
    ∃ txt s' y, enoteTyL w d t x = some txt ∧
      extractTyL r t ⟨txt, false, false⟩ old = .ok (s', y) ∧
      s'.fail = false ∧ isValidTy t y = true ∧ y ≠ x := by
  have hE : ∃ txt, enoteTyL w d t x = some txt := by
    cases t <;> first | exact ⟨_, rfl⟩ | (simp [comps] at hc)
  obtain ⟨txt, h⟩ := hE
  obtain ⟨s', y, h1, -, h2⟩ := C83_mismatch w r hw hr hne t x old
    (by rw [hc]; simpa using hv) d hd txt h
  obtain ⟨a1, a2, k, hk, -, -, a3⟩ := h2 c hc
  refine ⟨txt, s', y, h, h1, a1, a2, ?_⟩
  rintro rfl
  rw [hc] at a3
  simp only [List.map_cons, List.map_nil, List.cons.injEq, and_true] at a3
  have hk' : ((k : ℕ) : ℤ) < 10 := by exact_mod_cast hk
  by_cases hs : c.signbit = true
  · rw [if_pos hs] at a3
    exact hint (-(k : ℤ)) (by rw [abs_neg, abs_of_nonneg (by positivity)]; exact hk')
      (by rw [a3]; push_cast; rfl)
  · rw [if_neg hs] at a3
    exact hint (k : ℤ) (by rw [abs_of_nonneg (by positivity)]; exact hk')
      (by rw [a3]; push_cast; rfl)

/-- The decimal points in use satisfy the assumption. -/
example : PunctOk '.' ∧ PunctOk ',' ∧ PunctOk '٫' ∧ ',' ≠ '.' :=
  ⟨⟨rfl, rfl, by decide, by decide, by decide, by decide⟩,
    ⟨rfl, rfl, by decide, by decide, by decide, by decide⟩,
    ⟨rfl, rfl, by decide, by decide, by decide, by decide⟩, by decide⟩

/-- A null object of any type that has text meets the hypotheses of `C83_round_trip` and
`C83_mismatch`. -/
example (t : Ty) (ht : t ≠ .cplx) (ht' : t ≠ .dplx) :
    (∀ c ∈ comps t (gzeroTy (α := F64) t), isValidDub c = true) ∧
      ∃ txt, enoteTyL ',' 16 t (gzeroTy (α := F64) t) = some txt := by
  constructor
  · cases t <;> simp [comps, gzeroTy, gzero, F64.zero_def, isValidDub_zero]
  · rw [(C83_text ',' '.' t _ 16 0 0).1, C30_enote_object, if_neg (by simp [ht, ht'])]
    exact ⟨_, rfl⟩

/-- One and a half, written in a German locale and read in the "C" locale. -/
example : ∃ h : IsFin (3 / 2 : ℚ), ∃ txt s', ∃ y : Scalar F64,
    enoteTyL ',' 15 .sca ⟨⟨fin (3 / 2) h⟩⟩ = some txt ∧
    extractTyL '.' .sca ⟨txt, false, false⟩ ⟨⟨nan⟩⟩ = .ok (s', y) ∧
    s'.fail = false ∧ isValidTy .sca y = true ∧ y ≠ ⟨⟨fin (3 / 2) h⟩⟩ := by
  have h : IsFin (3 / 2 : ℚ) := ⟨by norm_num, 3, -1, by norm_num, by norm_num, by norm_num, by norm_num⟩
  refine ⟨h, C83_silent ',' '.' ⟨rfl, rfl, by decide, by decide, by decide, by decide⟩
    ⟨rfl, rfl, by decide, by decide, by decide, by decide⟩ (by decide) .sca ⟨⟨fin (3 / 2) h⟩⟩
    ⟨⟨nan⟩⟩ (fin (3 / 2) h) rfl ?_ ?_ 15 (by norm_num)⟩
  · refine (C11_double _).2 (Or.inr ⟨3 / 2, h, rfl, ?_⟩)
    have h1 : (1 : ℚ) ≤ |3 / 2| := by rw [abs_of_nonneg] <;> norm_num
    refine le_trans ?_ h1
    rw [div_le_one (by positivity)]
    exact one_le_pow₀ (by norm_num)
  · intro m _ hm
    have h2 : (3 / 2 : ℚ) = m := hm
    have h3 : (3 : ℚ) = 2 * m := by linarith
    have h4 : (3 : ℤ) = 2 * m := by exact_mod_cast h3
    omega

end Engabra
