import Verif.Model.Counts
import Verif.Props.C31_RoundTrip

/-! # C88 — numbers of digits of any size

`Spec`: `decimalsOf n` and `widthOf n` — the number of decimals and the field width that the
streams use when they are asked for `n`; `field`, `numText` are those of C30. -/

namespace Engabra

open F64 (nan inf zero fin IsFin rhe)

/-! ## Specification -/

/-- `n` modulo `2^32`, and six from `2^31` on. -/
def decimalsOf (n : Nat) : Nat := if n % 2 ^ 32 < 2 ^ 31 then n % 2 ^ 32 else 6

/-- `n` modulo `2^32`, and nothing from `2^31` on. -/
def widthOf (n : Nat) : Nat := if n % 2 ^ 32 < 2 ^ 31 then n % 2 ^ 32 else 0

/-! ## Text -/

theorem toInt32_eq (n : BitVec 64) :
    toInt32 n = if n.toNat % 2 ^ 32 < 2 ^ 31 then ((n.toNat % 2 ^ 32 : Nat) : ℤ)
      else ((n.toNat % 2 ^ 32 : Nat) : ℤ) - 2 ^ 32 := by
  unfold toInt32
  rw [BitVec.toInt_eq_toNat_cond, BitVec.toNat_setWidth]
  norm_num
  split <;> split <;> first | rfl | omega

theorem prec_eq (n : BitVec 64) :
    (if toInt32 n < 0 then 6 else (toInt32 n).toNat) = decimalsOf n.toNat := by
  rw [toInt32_eq]
  unfold decimalsOf
  have : n.toNat % 2 ^ 32 < 2 ^ 32 := Nat.mod_lt _ (by norm_num)
  split
  · rw [if_neg (by omega), Int.toNat_natCast]
  · rw [if_pos (by push_cast; omega)]

theorem width_eq (n : BitVec 64) : (toInt32 n).toNat = widthOf n.toNat := by
  rw [toInt32_eq]
  unfold widthOf
  have : n.toNat % 2 ^ 32 < 2 ^ 32 := Nat.mod_lt _ (by norm_num)
  split
  · rw [Int.toNat_natCast]
  · rw [Int.toNat_of_nonpos (by push_cast; omega)]

theorem widthOf_mod (n : Nat) : widthOf (n % 2 ^ 64) = widthOf n := by
  unfold widthOf
  rw [Nat.mod_mod_of_dvd _ (by norm_num)]

theorem fieldWideC_eq (b a : BitVec 64) :
    (toInt32 (DoubleFormatC.fieldWide ⟨b, a⟩)).toNat = widthOf (1 + b.toNat + 1 + a.toNat) := by
  rw [width_eq]
  unfold DoubleFormatC.fieldWide
  rw [← widthOf_mod (1 + b.toNat + 1 + a.toNat)]
  congr 1
  simp only [BitVec.toNat_add, show (1 : BitVec 64).toNat = 1 from rfl]
  omega

theorem enoteWideC_eq (a : BitVec 64) :
    (toInt32 (1 + 1 + 1 + 1 + 1 + 2 + a)).toNat = widthOf (7 + a.toNat) := by
  rw [width_eq, ← widthOf_mod (7 + a.toNat)]
  congr 1

theorem putFixedC_spec (b a : BitVec 64) {os : OStream} (h : Plain os) (x : F64) :
    Plain ((DoubleFormatC.prepareFixed ⟨b, a⟩ os).putDub x) ∧
      ((DoubleFormatC.prepareFixed ⟨b, a⟩ os).putDub x).out =
      os.out ++ ' ' :: field (widthOf (1 + b.toNat + 1 + a.toNat))
        (numText .fixed (decimalsOf a.toNat) x) := by
  unfold DoubleFormatC.prepareFixed
  rw [putStr_zero h.width]
  obtain ⟨h1, h2, h3⟩ := h
  unfold OStream.setWInt OStream.setPrecInt
  rw [fieldWideC_eq, prec_eq]
  unfold OStream.putDub OStream.setFixed OStream.setPrec OStream.setW
  dsimp only
  rw [h2, h3]
  exact ⟨⟨rfl, rfl, rfl⟩, by simp [field, blanks, numText]⟩

theorem putEnoteC_spec (d : BitVec 64) {os : OStream} (h : Plain os) (x : F64) :
    Plain ((prepareEnoteC os d).putDub x) ∧ ((prepareEnoteC os d).putDub x).out =
      os.out ++ field (widthOf (7 + d.toNat)) (numText .scientific (decimalsOf d.toNat) x) := by
  obtain ⟨h1, h2, h3⟩ := h
  unfold prepareEnoteC OStream.setWInt OStream.setPrecInt
  dsimp only
  rw [enoteWideC_eq, prec_eq]
  unfold OStream.putDub OStream.setScientific OStream.setPrec OStream.setW
  dsimp only
  rw [h2, h3]
  exact ⟨⟨rfl, rfl, rfl⟩, by simp [field, blanks, numText]⟩

/-- **C88.**  `io::fixed` of a number: a blank, then the number right-aligned in a field. -/
theorem C88_fixed_number (x : F64) (b a : BitVec 64) :
    fixedDubC x b a = ' ' :: field (widthOf (1 + b.toNat + 1 + a.toNat))
      (numText .fixed (decimalsOf a.toNat) x) := by
  unfold fixedDubC
  dsimp only
  rw [(putFixedC_spec b a plain_fresh x).2]
  rfl

/-- **C88.**  `io::enote` of a number. -/
theorem C88_enote_number (x : F64) (d : BitVec 64) :
    enoteDubC x d = field (widthOf (7 + d.toNat)) (numText .scientific (decimalsOf d.toNat) x) := by
  unfold enoteDubC
  rw [(putEnoteC_spec d plain_fresh x).2]
  rfl

theorem fixedArrC_eq (xs : List F64) (b a : BitVec 64) :
    fixedArrC xs b a = (xs.map (fixedDubC · b a)).flatten := by
  unfold fixedArrC
  have := (foldl_putStr (xs.map (fixedDubC · b a)) _ plain_fresh).2
  rw [List.foldl_map] at this
  rw [this]; rfl

theorem enoteLoopC_out (d : BitVec 64) (xs : List F64) (n : Nat) (hn : 0 < n) (os : OStream)
    (h : Plain os) : (enoteLoopC d n xs os).out = os.out ++
      (xs.map fun x => ' ' :: enoteDubC x d).flatten := by
  induction xs generalizing os n with
  | nil => simp [enoteLoopC]
  | cons x xs ih =>
    rw [enoteLoopC, if_pos hn]
    obtain ⟨i1, i2⟩ := putEnoteC_spec d (h.putStr [' ']) x
    rw [ih (n + 1) (by omega) _ i1, i2, h.out_putStr, ← C88_enote_number]; simp

theorem enoteArrC_eq (xs : List F64) (d : BitVec 64) :
    enoteArrC xs d = [' '].intercalate (xs.map (enoteDubC · d)) := by
  unfold enoteArrC
  rcases xs with _ | ⟨x, xs⟩
  · simp [enoteLoopC, OStream.fresh, List.intercalate]
  · rw [enoteLoopC, if_neg (by simp)]
    obtain ⟨i1, i2⟩ := putEnoteC_spec d plain_fresh x
    rw [enoteLoopC_out d xs 1 (by norm_num) _ i1, i2, List.map_cons, intercalate_cons,
      ← C88_enote_number]
    rw [List.map_map]
    rfl

/-- **C88.**  The objects are laid out as for small numbers of digits (C30): `io::fixed` puts the
components one after the other and two blanks between blades, `io::enote` one blank between
components. -/
theorem C88_object (t : Ty) (x : t.D F64) (b a : BitVec 64) :
    (fixedTyC b a t x = if t = .cplx ∨ t = .dplx then none
      else some ([' ', ' '].intercalate ((blades t x).map fun l =>
        (l.map fun c => fixedDubC c b a).flatten))) ∧
    (enoteTyC a t x = if t = .cplx ∨ t = .dplx then none
      else some ([' ', ' '].intercalate ((blades t x).map fun l =>
        [' '].intercalate (l.map fun c => enoteDubC c a)))) := by
  constructor <;> cases t <;>
    simp [fixedTyC, enoteTyC, fixedArrC_eq, enoteArrC_eq, catStr_eq, blades, A1.toList, A3.toList,
      intercalate_cons]

/-- **C88.**  The texts are those of C30 as long as the field width is less than `2^31`. -/
theorem C88_in_range (t : Ty) (x : t.D F64) (b a : BitVec 64) :
    (2 + b.toNat + a.toNat < 2 ^ 31 → fixedTyC b a t x = fixedTy b.toNat a.toNat t x) ∧
    (7 + a.toNat < 2 ^ 31 → enoteTyC a t x = enoteTy a.toNat t x) := by
  have hd : a.toNat < 2 ^ 31 → decimalsOf a.toNat = a.toNat := fun h => by
    unfold decimalsOf; rw [Nat.mod_eq_of_lt (by omega), if_pos h]
  have hw : ∀ n, n < 2 ^ 31 → widthOf n = n := fun n h => by
    unfold widthOf; rw [Nat.mod_eq_of_lt (by omega), if_pos h]
  constructor <;> intro h
  · have h1 : ∀ c, fixedDubC c b a = fixedDub c b.toNat a.toNat := fun c => by
      rw [C88_fixed_number, C30_fixed_number, hd (by omega), hw _ (by omega)]
    rw [(C88_object t x b a).1, C30_fixed_object]
    simp only [h1]
    rfl
  · have h1 : ∀ c, enoteDubC c a = enoteDub c a.toNat := fun c => by
      rw [C88_enote_number, C30_enote_number, hd (by omega), hw _ (by omega)]
    rw [(C88_object t x b a).2, C30_enote_object]
    simp only [h1]
    rfl

/-- **C88.**  The default numbers of digits are in range. -/
theorem C88_default (x : F64) (l : List F64) : fixedDubC x = fixedDub x ∧ enoteDubC x = enoteDub x ∧
    fixedArrC l = fixedArr l ∧ enoteArrC l = enoteArr l ∧ fixedDub x = fixedDub x 3 6 ∧
    enoteDub x = enoteDub x 15 := by
  have h1 : ∀ x, fixedDubC x 3 6 = fixedDub x 3 6 := fun x => by
    have := (C88_in_range .dub x 3 6).1 (by decide)
    exact Option.some.inj this
  have h2 : ∀ x, enoteDubC x 15 = enoteDub x 15 := fun x => by
    have := (C88_in_range .dub x 3 15).2 (by decide)
    exact Option.some.inj this
  refine ⟨h1 x, h2 x, ?_, ?_, rfl, rfl⟩
  · rw [fixedArrC_eq, fixedArr_eq, fixedBlade]
    simp only [h1]
  · rw [enoteArrC_eq, enoteArr_eq, enoteBlade]
    simp only [h2]

/-- All the bits of both numbers set, as by `-1`: six decimals, no field. -/
example : decimalsOf (BitVec.allOnes 64).toNat = 6 ∧
    widthOf (1 + (BitVec.allOnes 64).toNat + 1 + (BitVec.allOnes 64).toNat) = 0 := by decide

/-- `2^32 + 2` decimals: two. -/
example : decimalsOf (2 ^ 32 + 2) = 2 := by decide

/-! ## Reading back -/

theorem enoteC_text (t : Ty) (x : t.D F64) (n : BitVec 64) (txt : List Char)
    (h : enoteTyC n t x = some txt) :
    txt = [' ', ' '].intercalate ((blades t x).map fun l => [' '].intercalate (l.map fun c =>
      blanks (widthOf (7 + n.toNat) - (numText .scientific (decimalsOf n.toNat) c).length) ++
        numText .scientific (decimalsOf n.toNat) c)) := by
  rw [(C88_object t x n n).2] at h
  split at h
  · cases h
  injection h with h
  rw [← h]
  simp only [C88_enote_number, field]

/-- **C88.**  Text of `io::enote` reads back to the same object for every number of decimals whose
remainder modulo `2^32` is from 16 to `2^31 - 1`. -/
theorem C88_round_trip (t : Ty) (x old : t.D F64) (hx : ∀ c ∈ comps t x, isValidDub c = true)
    (n : BitVec 64) (hn : 16 ≤ decimalsOf n.toNat) (txt : List Char) (h : enoteTyC n t x = some txt) :
    extractTy t ⟨txt, false, false⟩ old = .ok (⟨[], true, false⟩, x) := by
  have hval : ∀ c ∈ comps t x, sciVal (decimalsOf n.toNat) c = c := fun c hc =>
    sciVal_recover c (valid_finite (hx c hc)) _ hn
  have hread : ∀ c ∈ comps t x, ReadsAs (numText .scientific (decimalsOf n.toNat) c)
      (sciVal (decimalsOf n.toNat) c) ∧ isValidDub (sciVal (decimalsOf n.toNat) c) = true := by
    intro c hc
    have hf := valid_finite (hx c hc)
    refine ⟨enote_reads c hf _ ?_, by rw [hval c hc]; exact hx c hc⟩
    rw [hval c hc]
    rintro s rfl; simp [F64.Finite] at hf
  by_cases ht : t = .dub
  · subst ht
    injection h with h
    have := (hread x (by simp [comps])).1
      (blanks (widthOf (7 + n.toNat) - (numText .scientific (decimalsOf n.toNat) x).length)) [] old
      (allWs_blanks _) ends_nil
    rw [hval x (by simp [comps]), List.append_nil] at this
    rw [← h, extractTy, C88_enote_number, field, this]
    rfl
  rw [enoteC_text t x n txt h]
  have := readback [' ', ' '] [' ']
    (fun c => blanks (widthOf (7 + n.toNat) - (numText .scientific (decimalsOf n.toNat) c).length))
    (numText .scientific (decimalsOf n.toNat)) (sciVal (decimalsOf n.toNat)) t ht x old
    (allWs_blanks 2) (allWs_blanks 1) (fun _ => allWs_blanks _) (fun _ => by simp) (fun _ => by simp)
    hread
  rw [mapTy_id _ t x hval] at this
  exact this

theorem sciVal_one_eps (d : Nat) (hd : d ≤ 15) : sciVal d (fin (1 + 1 / 2 ^ 52) isFin_one_eps) = 1 := by
  have hlog : Int.log 10 (1 + 1 / 2 ^ 52 : ℚ) = 0 := log10_eq (by norm_num) (by norm_num)
  have hP : (10 : ℚ) ^ d ≤ 10 ^ 15 := pow_le_pow_right₀ (by norm_num) hd
  have hP0 : (0 : ℚ) < 10 ^ d := by positivity
  have hrhe : rhe ((1 + 1 / 2 ^ 52 : ℚ) / (10 : ℚ) ^ (0 - (d : ℤ))) = 10 ^ d := by
    apply F64.rhe_eq
    left
    rw [zero_sub, zpow_neg, zpow_natCast, abs_lt]
    push_cast
    generalize (10 : ℚ) ^ d = P at *
    rw [div_inv_eq_mul]
    constructor <;> [linarith; (norm_num at hP ⊢; linarith)]
  have hparts : sciParts d |(1 + 1 / 2 ^ 52 : ℚ)| = (10 ^ d, 0) := by
    rw [abs_of_pos (by positivity)]
    unfold sciParts
    dsimp only
    rw [hlog, hrhe, show ((10 ^ d : ℤ)).toNat = 10 ^ d from by norm_cast,
      if_neg (by rw [Nat.pow_right_inj (by norm_num)]; omega)]
  have hdec : sciDec d (1 + 1 / 2 ^ 52 : ℚ) = 1 := by
    unfold sciDec
    rw [hparts]
    simp only [show decide ((1 + 1 / 2 ^ 52 : ℚ) < 0) = false from by
      rw [decide_eq_false_iff_not]; norm_num]
    rw [zero_sub, zpow_neg, zpow_natCast]
    push_cast
    rw [mul_inv_cancel₀ (ne_of_gt hP0)]
  rw [sciVal_fin, hdec]; rfl

/-- **C88.**  For no other number of decimals: `1 + 2^-52` then reads back as `1`. -/
theorem C88_fails_round_trip (n : BitVec 64) (hn : decimalsOf n.toNat ≤ 15) (old : F64) :
    isValidDub (fin (1 + 1 / 2 ^ 52) isFin_one_eps) = true ∧
    extractDub ⟨enoteDubC (fin (1 + 1 / 2 ^ 52) isFin_one_eps) n, false, false⟩ old =
      (⟨[], true, false⟩, 1) ∧ (1 : F64) ≠ fin (1 + 1 / 2 ^ 52) isFin_one_eps := by
  have hval := sciVal_one_eps _ hn
  refine ⟨?_, ?_, (C31_fails_default old).2⟩
  · refine (C11_double _).2 (Or.inr ⟨_, _, rfl, ?_⟩)
    rw [abs_of_pos (by positivity)]
    have : (1 : ℚ) / 2 ^ 1022 ≤ 1 := (div_le_one (by positivity)).2 (one_le_pow₀ (by norm_num))
    exact le_trans this (le_add_of_nonneg_right (by positivity))
  · have := enote_reads (fin (1 + 1 / 2 ^ 52) isFin_one_eps) (by simp [F64.Finite]) _
      (by rw [hval, F64.one_eq]; simp) (blanks (widthOf (7 + n.toNat) -
        (numText .scientific (decimalsOf n.toNat) (fin (1 + 1 / 2 ^ 52) isFin_one_eps)).length)) [] old
      (allWs_blanks _) ends_nil
    rw [C88_enote_number, field]
    rw [List.append_nil, hval] at this
    exact this

/-- **C88.**  `io::fixed` reads back to within as many decimals as are written, which may be fewer
than those asked for. -/
theorem C88_fixed (t : Ty) (ht : t ≠ .dub) (x old : t.D F64) (hx : ∀ c ∈ comps t x, c.Finite)
    (b a : BitVec 64) (ha : decimalsOf a.toNat ≤ 306) (txt : List Char) (h : fixedTyC b a t x = some txt) :
    ∃ y, extractTy t ⟨txt, false, false⟩ old = .ok (⟨[], true, false⟩, y) ∧
      List.Forall₂ (fun c c' => isValidDub c' = true ∧ |c'.value - c.value| ≤ 1 / 10 ^ decimalsOf a.toNat)
        (comps t x) (comps t y) := by
  rw [(C88_object t x b a).1] at h
  split at h
  · cases h
  injection h with h
  have e : txt = [' ', ' '].intercalate ((blades t x).map fun l => ([] : List Char).intercalate (l.map
      fun c => (' ' :: blanks (widthOf (1 + b.toNat + 1 + a.toNat) -
        (numText .fixed (decimalsOf a.toNat) c).length)) ++ numText .fixed (decimalsOf a.toNat) c)) := by
    rw [← h]
    simp only [intercalate_nil, C88_fixed_number, field, List.cons_append]
  refine ⟨mapTy (fixedVal (decimalsOf a.toNat)) t x, ?_, ?_⟩
  · rw [e]
    refine readback [' ', ' '] [] _ _ (fixedVal (decimalsOf a.toNat)) t ht x old (allWs_blanks 2) allWs_nil
      (fun _ => allWs_cons_blanks _) (fun _ => by simp) (fun _ => by simp) ?_
    intro c hc
    obtain ⟨h1, h2, _⟩ := fixedVal_spec c (hx c hc) _ ha
    exact ⟨fixed_reads c (hx c hc) _ (by rintro s hs; rw [hs] at h1; simp [F64.Finite] at h1), h2⟩
  · rw [comps_mapTy, List.forall₂_map_right_iff]
    exact List.forall₂_same.2 (fun c hc =>
      ⟨(fixedVal_spec c (hx c hc) _ ha).2.1, (fixedVal_spec c (hx c hc) _ ha).2.2⟩)

/-- The hypotheses of `C88_round_trip` and `C88_fixed` are met with numbers of digits out of range:
`2^32 + 16` and `2^32 + 4`, on `one<Spinor>()`. -/
example : (∀ c ∈ comps .spin (⟨⟨⟨1⟩⟩, ⟨⟨0, 0, 0⟩⟩⟩ : Spinor F64), isValidDub c = true ∧ c.Finite) ∧
    16 ≤ decimalsOf (BitVec.ofNat 64 (2 ^ 32 + 16)).toNat ∧
    decimalsOf (BitVec.ofNat 64 (2 ^ 32 + 4)).toNat ≤ 306 ∧
    (∃ txt, enoteTyC (BitVec.ofNat 64 (2 ^ 32 + 16)) .spin (⟨⟨⟨1⟩⟩, ⟨⟨0, 0, 0⟩⟩⟩ : Spinor F64) = some txt) ∧
    ∃ txt, fixedTyC 3 (BitVec.ofNat 64 (2 ^ 32 + 4)) .spin (⟨⟨⟨1⟩⟩, ⟨⟨0, 0, 0⟩⟩⟩ : Spinor F64) = some txt := by
  refine ⟨?_, by decide, by decide, ⟨_, rfl⟩, ⟨_, rfl⟩⟩
  intro c hc
  have h : c = 1 ∨ c = 0 := by
    simp only [comps] at hc
    simpa using hc
  rcases h with rfl | rfl
  · exact ⟨isValidDub_one, valid_finite isValidDub_one⟩
  · exact ⟨isValidDub_zero false, by trivial⟩

end Engabra
