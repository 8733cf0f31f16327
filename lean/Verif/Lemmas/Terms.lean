import Verif.Props.C42_Expressions
import Verif.Props.C44_ExprRounding
import Verif.Props.C32_Bitwise
import Verif.Props.C38_Constants
import Verif.Model.Fused

/-! # Symbolic evaluation of the arithmetic of the library

`T` (Model/Fused.lean) is the type of terms over variables.  The polymorphic model can be run on terms, which shows the
order in which an overload adds its products.  `T.nf` is a normal form that is sound for IEEE
arithmetic up to the signs of zeros (commutativity, signs, zeros; not associativity).  `T.run`
evaluates a term on integers with the rounding of binary64 where it is easy to know. -/

namespace Engabra

open F64 (nan inf zero fin IsFin Finite HasVal)

/-- Value of a term in binary64. -/
noncomputable def T.eval (env : Nat → F64) : T → F64
  | .zero => 0
  | .var n => env n
  | .add a b => a.eval env + b.eval env
  | .sub a b => a.eval env - b.eval env
  | .mul a b => a.eval env * b.eval env
  | .neg a => - a.eval env

/-- Normal forms. -/
inductive S
  | zero
  | var (s : Bool) (n : Nat)
  | prod (s : Bool) (i j : Nat)
  | add (a b : S)
  | bad
deriving DecidableEq

/-- Some order, used to sort the operands of a sum. -/
def S.le : S → S → Bool
  | .zero, _ => true
  | .var _ _, .zero => false
  | .var _ n, .var _ m => n ≤ m
  | .var _ _, _ => true
  | .prod _ _ _, .zero => false
  | .prod _ _ _, .var _ _ => false
  | .prod _ i j, .prod _ k l => if i = k then j ≤ l else i ≤ k
  | .prod _ _ _, _ => true
  | .add _ _, .zero => false
  | .add _ _, .var _ _ => false
  | .add _ _, .prod _ _ _ => false
  | .add a b, .add c d => if a = c then S.le b d else S.le a c
  | .add _ _, .bad => true
  | .bad, _ => false

def S.neg : S → S
  | .zero => .zero
  | .var s n => .var (!s) n
  | .prod s i j => .prod (!s) i j
  | .add a b => .add a.neg b.neg
  | .bad => .bad

def S.plus (x y : S) : S :=
  if x = .zero then y else if y = .zero then x else if S.le x y then .add x y else .add y x

def S.times : S → S → S
  | .zero, .zero => .zero
  | .zero, .var _ _ => .zero
  | .var _ _, .zero => .zero
  | .var s n, .var t m => if n ≤ m then .prod (xor s t) n m else .prod (xor s t) m n
  | _, _ => .bad

def T.nf : T → S
  | .zero => .zero
  | .var n => .var false n
  | .neg a => a.nf.neg
  | .add a b => a.nf.plus b.nf
  | .sub a b => a.nf.plus b.nf.neg
  | .mul a b => a.nf.times b.nf

def S.ok : S → Bool
  | .add a b => a.ok && b.ok
  | .bad => false
  | _ => true

def T.hasMul : T → Bool
  | .zero => false
  | .var _ => false
  | .add a b => a.hasMul || b.hasMul
  | .sub a b => a.hasMul || b.hasMul
  | .mul _ _ => true
  | .neg a => a.hasMul

/-- `x` or `-x`. -/
noncomputable def flipIf (s : Bool) (x : F64) : F64 := if s then -x else x

noncomputable def S.eval (env : Nat → F64) : S → F64
  | .zero => 0
  | .var s n => flipIf s (env n)
  | .prod s i j => flipIf s (env i * env j)
  | .add a b => a.eval env + b.eval env
  | .bad => 0

/-! ## Equality up to the sign of zeros is a congruence -/

theorem Sz.symm {x y : F64} (h : Sz x y) : Sz y x := by
  rcases h with h | ⟨s, t, h1, h2⟩
  · exact Or.inl h.symm
  · exact Or.inr ⟨t, s, h2, h1⟩

theorem Sz.trans {x y z : F64} (h : Sz x y) (k : Sz y z) : Sz x z := by
  rcases h with rfl | ⟨s, t, rfl, rfl⟩
  · exact k
  · rcases k with rfl | ⟨s', t', -, rfl⟩
    · exact Or.inr ⟨_, _, rfl, rfl⟩
    · exact Or.inr ⟨_, _, rfl, rfl⟩

theorem Sz.neg {x y : F64} (h : Sz x y) : Sz (-x) (-y) := by
  rcases h with rfl | ⟨s, t, rfl, rfl⟩
  · exact .refl _
  · exact Or.inr ⟨!s, !t, rfl, rfl⟩

theorem Sz.zeros (s t : Bool) : Sz (F64.zero s) (F64.zero t) := Or.inr ⟨s, t, rfl, rfl⟩

theorem zero_add_sz (s : Bool) (x : F64) : Sz (F64.zero s + x) x := by
  rw [F64.add_def]
  cases x with
  | nan => exact Or.inl rfl
  | inf t => exact Or.inl rfl
  | zero t => exact Or.inr ⟨_, _, if_pos (add_zero _), rfl⟩
  | fin v hv =>
    left
    have h1 : F64.add (F64.zero s) (F64.fin v hv) = F64.roundTo (0 + v) :=
      if_neg (by change ¬ (0 + v = 0); rw [zero_add]; exact hv.1)
    rw [h1, zero_add, F64.roundTo_fin hv]

theorem Sz.add_left {x y : F64} (z : F64) (h : Sz x y) : Sz (x + z) (y + z) := by
  rcases h with rfl | ⟨s, t, rfl, rfl⟩
  · exact .refl _
  · exact (zero_add_sz s z).trans (zero_add_sz t z).symm

theorem Sz.add {x y z w : F64} (h : Sz x y) (k : Sz z w) : Sz (x + z) (y + w) := by
  refine (h.add_left z).trans ?_
  rw [F64.add_comm' y z, F64.add_comm' y w]
  exact k.add_left y

theorem Sz.sub {x y z w : F64} (h : Sz x y) (k : Sz z w) : Sz (x - z) (y - w) := h.add k.neg

theorem zero_mul_sz (s t : Bool) (x : F64) : Sz (F64.zero s * x) (F64.zero t * x) := by
  rw [F64.mul_def]
  cases x with
  | nan => exact Or.inl rfl
  | inf t => exact Or.inl rfl
  | zero t => exact Or.inr ⟨_, _, if_pos (mul_zero _), if_pos (mul_zero _)⟩
  | fin v hv => exact Or.inr ⟨_, _, if_pos (zero_mul _), if_pos (zero_mul _)⟩

theorem Sz.mul_left {x y : F64} (z : F64) (h : Sz x y) : Sz (x * z) (y * z) := by
  rcases h with rfl | ⟨s, t, rfl, rfl⟩
  · exact .refl _
  · exact zero_mul_sz s t z

theorem Sz.mul {x y z w : F64} (h : Sz x y) (k : Sz z w) : Sz (x * z) (y * w) := by
  refine (h.mul_left z).trans ?_
  rw [F64.mul_comm' y z, F64.mul_comm' y w]
  exact k.mul_left y

theorem sz_zero_of {x : F64} (h : HasVal x 0) : Sz x 0 := by
  cases x with
  | nan => exact h.1.elim
  | inf _ => exact h.1.elim
  | zero s => exact Sz.zeros _ _
  | fin v hv => exact absurd h.2 hv.1

theorem zero_mul_fin {x : F64} (hx : x.Finite) : Sz (0 * x) 0 := sz_zero_of (F64.hasVal_zero_mul hx)

/-! ## Soundness of the normal form -/

theorem flipIf_neg (s : Bool) (x : F64) : flipIf (!s) x = - flipIf s x := by
  cases s
  · rfl
  · exact (F64.neg_neg'' x).symm

theorem S.neg_sound (env : Nat → F64) (x : S) : x.neg.ok = x.ok ∧ Sz (-(x.eval env)) (x.neg.eval env) := by
  induction x with
  | zero => exact ⟨rfl, Sz.zeros _ _⟩
  | var s n => exact ⟨rfl, Or.inl (flipIf_neg s _).symm⟩
  | prod s i j => exact ⟨rfl, Or.inl (flipIf_neg s _).symm⟩
  | add a b iha ihb =>
    refine ⟨by simp only [S.neg, S.ok, iha.1, ihb.1], ?_⟩
    exact (F64.neg_add' _ _).trans (iha.2.add ihb.2)
  | bad => exact ⟨rfl, Sz.zeros _ _⟩

theorem S.plus_sound (env : Nat → F64) (x y : S) (h : (x.plus y).ok = true) :
    x.ok = true ∧ y.ok = true ∧ Sz (x.eval env + y.eval env) ((x.plus y).eval env) := by
  unfold S.plus at *
  split_ifs at * with h1 h2 h3
  · subst h1; exact ⟨rfl, h, zero_add_sz false _⟩
  · subst h2; exact ⟨h, rfl, by rw [F64.add_comm']; exact zero_add_sz false _⟩
  · rw [S.ok, Bool.and_eq_true] at h
    exact ⟨h.1, h.2, .refl _⟩
  · rw [S.ok, Bool.and_eq_true] at h
    exact ⟨h.2, h.1, Or.inl (F64.add_comm' _ _)⟩

theorem flipIf_mul (s t : Bool) (x y : F64) : flipIf s x * flipIf t y = flipIf (xor s t) (x * y) := by
  cases s <;> cases t <;> simp [flipIf, F64.neg_mul', F64.mul_neg', F64.neg_neg'']

theorem flipIf_finite {s : Bool} {x : F64} (h : x.Finite) : (flipIf s x).Finite := by
  cases s
  · exact h
  · exact F64.neg_finite_iff.2 h

theorem S.times_sound (env : Nat → F64) (hf : ∀ n, (env n).Finite) (x y : S)
    (h : (x.times y).ok = true) :
    x.ok = true ∧ y.ok = true ∧ Sz (x.eval env * y.eval env) ((x.times y).eval env) := by
  cases x with
  | zero =>
    cases y with
    | zero => exact ⟨rfl, rfl, zero_mul_fin trivial⟩
    | var s n => exact ⟨rfl, rfl, zero_mul_fin (flipIf_finite (hf n))⟩
    | _ => cases h
  | var s n =>
    cases y with
    | zero =>
      refine ⟨rfl, rfl, ?_⟩
      rw [F64.mul_comm']
      exact zero_mul_fin (flipIf_finite (hf n))
    | var t m =>
      refine ⟨rfl, rfl, ?_⟩
      change Sz _ (S.eval env (if n ≤ m then .prod (xor s t) n m else .prod (xor s t) m n))
      split_ifs
      · exact Or.inl (flipIf_mul _ _ _ _)
      · exact Or.inl ((flipIf_mul _ _ _ _).trans (by rw [F64.mul_comm']; rfl))
    | _ => cases h
  | _ => cases y <;> cases h

theorem T.nf_sound (env : Nat → F64) (t : T) (hf : t.hasMul = true → ∀ n, (env n).Finite)
    (h : t.nf.ok = true) : Sz (t.eval env) (t.nf.eval env) := by
  induction t with
  | zero => exact .refl _
  | var n => exact .refl _
  | add a b iha ihb =>
    obtain ⟨h1, h2, h3⟩ := S.plus_sound env a.nf b.nf h
    exact ((iha (fun k => hf (by rw [T.hasMul, k, Bool.true_or])) h1).add
      (ihb (fun k => hf (by rw [T.hasMul, k, Bool.or_true])) h2)).trans h3
  | sub a b iha ihb =>
    obtain ⟨h1, h2, h3⟩ := S.plus_sound env a.nf b.nf.neg h
    obtain ⟨h4, h5⟩ := S.neg_sound env b.nf
    rw [h4] at h2
    exact ((iha (fun k => hf (by rw [T.hasMul, k, Bool.true_or])) h1).add
      ((ihb (fun k => hf (by rw [T.hasMul, k, Bool.or_true])) h2).neg.trans h5)).trans h3
  | mul a b iha ihb =>
    have hf := hf rfl
    obtain ⟨h1, h2, h3⟩ := S.times_sound env hf a.nf b.nf h
    exact ((iha (fun _ => hf) h1).mul (ihb (fun _ => hf) h2)).trans h3
  | neg a ih =>
    obtain ⟨h4, h5⟩ := S.neg_sound env a.nf
    have h : a.nf.neg.ok = true := h
    rw [h4] at h
    exact (ih hf h).neg.trans h5

/-- Two terms with the same normal form have the same value up to the sign of zero. -/
theorem T.sound (env : Nat → F64) (a b : T)
    (hf : a.hasMul = true ∨ b.hasMul = true → ∀ n, (env n).Finite)
    (h : a.nf = b.nf) (hk : a.nf.ok = true) : Sz (a.eval env) (b.eval env) := by
  refine (T.nf_sound env a (fun k => hf (.inl k)) hk).trans ?_
  rw [h] at hk ⊢
  exact (T.nf_sound env b (fun k => hf (.inr k)) hk).symm

/-! ## Integers, with the rounding of binary64 where it is easy -/

/-- Rounding of an integer: `none` where this function does not know. -/
def rint (s : ℤ) : Option ℤ :=
  if s.natAbs ≤ 2 ^ 53 then some s
  else if s = 2 ^ 54 + 1 then some (2 ^ 54)
  else if s = -(2 ^ 54 + 1) then some (-(2 ^ 54))
  else if s % 4 = 0 ∧ s.natAbs ≤ 2 ^ 55 then some s
  else none

def T.run (env : Nat → ℤ) : T → Option ℤ
  | .zero => some 0
  | .var n => some (env n)
  | .neg a => (a.run env).map fun x => -x
  | .add a b => (a.run env).bind fun x => (b.run env).bind fun y => rint (x + y)
  | .sub a b => (a.run env).bind fun x => (b.run env).bind fun y => rint (x + -y)
  | .mul a b => (a.run env).bind fun x => (b.run env).bind fun y => rint (x * y)

theorem rnVal_big : F64.rnVal ((2 : ℚ) ^ 54 + 1) = 2 ^ 54 := by
  rw [rnVal_of (e := 2) (n := 2 ^ 52) (by norm_num) (by norm_num) (by norm_num)
    (by rw [abs_lt]; constructor <;> norm_num)]
  norm_num

theorem rint_sound {n m : ℤ} (h : rint n = some m) :
    F64.rnVal (n : ℚ) = m ∧ |(m : ℚ)| < 2 ^ 1024 := by
  have big : (2 : ℚ) ^ 55 < 2 ^ 1024 := pow_lt_pow_right₀ (by norm_num) (by norm_num)
  unfold rint at h
  split_ifs at h with h1 h2 h3 h4
  · cases h
    have h5 : |n| ≤ 2 ^ 53 := by rw [Int.abs_eq_natAbs]; exact_mod_cast h1
    refine ⟨F64.rnVal_exact (F64.rep_int n h5), lt_of_le_of_lt ?_ big⟩
    have h6 : |(n : ℚ)| ≤ 2 ^ 53 := by rw [← Int.cast_abs]; exact_mod_cast h5
    exact h6.trans (by norm_num)
  · obtain rfl := Option.some.inj h
    subst h2
    refine ⟨?_, lt_of_le_of_lt ?_ big⟩
    · rw [Int.cast_add, Int.cast_pow, Int.cast_ofNat, Int.cast_one, rnVal_big]
    · rw [Int.cast_pow, Int.cast_ofNat, abs_of_pos (by positivity)]; norm_num
  · obtain rfl := Option.some.inj h
    subst h3
    refine ⟨?_, lt_of_le_of_lt ?_ big⟩
    · rw [Int.cast_neg, Int.cast_neg, F64.rnVal_neg, Int.cast_add, Int.cast_pow, Int.cast_ofNat,
        Int.cast_one, rnVal_big]
    · rw [Int.cast_neg, Int.cast_pow, Int.cast_ofNat, abs_neg, abs_of_pos (by positivity)]; norm_num
  · cases h
    obtain ⟨q, rfl⟩ : ∃ q, n = 4 * q := ⟨n / 4, by omega⟩
    have h5 : |q| ≤ 2 ^ 53 := by rw [Int.abs_eq_natAbs]; omega
    have h6 : |(q : ℚ)| ≤ 2 ^ 53 := by rw [← Int.cast_abs]; exact_mod_cast h5
    refine ⟨F64.rnVal_exact ⟨q, 2, h5, by norm_num, by push_cast; ring⟩, lt_of_le_of_lt ?_ big⟩
    push_cast
    rw [abs_mul, abs_of_pos (by norm_num : (0 : ℚ) < 4)]
    linarith

theorem T.run_sound (env : Nat → F64) (v : Nat → ℤ) (hv : ∀ n, HasVal (env n) (v n)) (t : T) :
    ∀ m, t.run v = some m → HasVal (t.eval env) m := by
  induction t with
  | zero => intro m h; cases h; exact_mod_cast F64.hasVal_zero'
  | var n => intro m h; cases h; exact hv n
  | neg a ih =>
    intro m h
    simp only [T.run, Option.map_eq_some_iff] at h
    obtain ⟨x, hx, rfl⟩ := h
    push_cast
    exact (ih x hx).neg
  | add a b iha ihb =>
    intro m h
    simp only [T.run, Option.bind_eq_some_iff] at h
    obtain ⟨x, hx, y, hy, h⟩ := h
    obtain ⟨h1, h2⟩ := rint_sound h
    have ha := iha x hx
    have hb := ihb y hy
    have := F64.add_spec ha.1 hb.1 (by rw [ha.2, hb.2]; push_cast at h1; rw [h1]; exact h2)
    rw [ha.2, hb.2] at this
    push_cast at h1
    rw [h1] at this
    exact this
  | sub a b iha ihb =>
    intro m h
    simp only [T.run, Option.bind_eq_some_iff] at h
    obtain ⟨x, hx, y, hy, h⟩ := h
    obtain ⟨h1, h2⟩ := rint_sound h
    have ha := iha x hx
    have hb := (ihb y hy).neg
    have := F64.add_spec ha.1 hb.1 (by rw [ha.2, hb.2]; push_cast at h1; rw [h1]; exact h2)
    rw [ha.2, hb.2] at this
    push_cast at h1
    rw [h1] at this
    exact this
  | mul a b iha ihb =>
    intro m h
    simp only [T.run, Option.bind_eq_some_iff] at h
    obtain ⟨x, hx, y, hy, h⟩ := h
    obtain ⟨h1, h2⟩ := rint_sound h
    have ha := iha x hx
    have hb := ihb y hy
    have := F64.mul_spec ha.1 hb.1 (by rw [ha.2, hb.2]; push_cast at h1; rw [h1]; exact h2)
    rw [ha.2, hb.2] at this
    push_cast at h1
    rw [h1] at this
    exact this

/-! ## Running the model on terms -/

/-- Object of type `t` with component `i` equal to variable `k + i`. -/
def sv (t : Ty) (k : Nat) : t.D T :=
  match t with
  | .dub => .var k
  | .sca => ⟨⟨.var k⟩⟩
  | .vec => ⟨⟨.var (k + 1), .var (k + 2), .var (k + 3)⟩⟩
  | .biv => ⟨⟨.var (k + 4), .var (k + 5), .var (k + 6)⟩⟩
  | .tri => ⟨⟨.var (k + 7)⟩⟩
  | .spin => ⟨⟨⟨.var k⟩⟩, ⟨⟨.var (k + 4), .var (k + 5), .var (k + 6)⟩⟩⟩
  | .imsp => ⟨⟨⟨.var (k + 1), .var (k + 2), .var (k + 3)⟩⟩, ⟨⟨.var (k + 7)⟩⟩⟩
  | .cplx => ⟨⟨⟨.var k⟩⟩, ⟨⟨.var (k + 7)⟩⟩⟩
  | .dplx => ⟨⟨⟨.var (k + 1), .var (k + 2), .var (k + 3)⟩⟩,
      ⟨⟨.var (k + 4), .var (k + 5), .var (k + 6)⟩⟩⟩
  | .mv => ⟨⟨⟨.var k⟩⟩, ⟨⟨.var (k + 1), .var (k + 2), .var (k + 3)⟩⟩,
      ⟨⟨.var (k + 4), .var (k + 5), .var (k + 6)⟩⟩, ⟨⟨.var (k + 7)⟩⟩⟩

/-- Variables 0..7 are the components of `x`, 8..15 those of `y`. -/
noncomputable def env2 (x y : MultiVector F64) : Nat → F64
  | 0 => x.theSca.theData.d0
  | 1 => x.theVec.theData.d0
  | 2 => x.theVec.theData.d1
  | 3 => x.theVec.theData.d2
  | 4 => x.theBiv.theData.d0
  | 5 => x.theBiv.theData.d1
  | 6 => x.theBiv.theData.d2
  | 7 => x.theTri.theData.d0
  | 8 => y.theSca.theData.d0
  | 9 => y.theVec.theData.d0
  | 10 => y.theVec.theData.d1
  | 11 => y.theVec.theData.d2
  | 12 => y.theBiv.theData.d0
  | 13 => y.theBiv.theData.d1
  | 14 => y.theBiv.theData.d2
  | 15 => y.theTri.theData.d0
  | _ => 0

theorem env2_finite {x y : MultiVector F64} (hx : ∀ k, (cf x k).Finite) (hy : ∀ k, (cf y k).Finite)
    (n : Nat) : (env2 x y n).Finite := by
  match n with
  | 0 => exact hx 0
  | 1 => exact hx 1
  | 2 => exact hx 2
  | 3 => exact hx 3
  | 4 => exact hx 4
  | 5 => exact hx 5
  | 6 => exact hx 6
  | 7 => exact hx 7
  | 8 => exact hy 0
  | 9 => exact hy 1
  | 10 => exact hy 2
  | 11 => exact hy 3
  | 12 => exact hy 4
  | 13 => exact hy 5
  | 14 => exact hy 6
  | 15 => exact hy 7
  | _ + 16 => trivial

/-- Terms for the components of the typed product, and of the product of the promoted operands. -/
def typedT (s t : Ty) : MultiVector T := promote _ (mulTy s t (sv s 0) (sv t 8))
def promotedT (s t : Ty) : MultiVector T := promote s (sv s 0) * promote t (sv t 8)

theorem typedT_eval (s t : Ty) (a : s.D F64) (b : t.D F64) : ∀ k,
    (cf (typedT s t) k).eval (env2 (promote s a) (promote t b)) = cf (promote _ (mulTy s t a b)) k := by
  cases s <;> cases t <;> exact forall_fin8 rfl rfl rfl rfl rfl rfl rfl rfl

theorem promotedT_eval (s t : Ty) (a : s.D F64) (b : t.D F64) : ∀ k,
    (cf (promotedT s t) k).eval (env2 (promote s a) (promote t b)) = cf (promote s a * promote t b) k := by
  cases s <;> cases t <;> exact forall_fin8 rfl rfl rfl rfl rfl rfl rfl rfl

end Engabra
