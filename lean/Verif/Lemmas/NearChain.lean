import Verif.Props.C60_Close

/-! # Lemmas for C90: the comparison as a distance test, grade by grade -/

namespace Engabra
open F64 (nan inf zero fin IsFin Finite HasVal)

theorem listNorm_nonneg (l : List ℝ) : 0 ≤ listNorm l := Real.sqrt_nonneg _

theorem listDist_nonneg (l m : List ℝ) : 0 ≤ listDist l m := Real.sqrt_nonneg _

theorem listNorm_cons (a : ℝ) (l : List ℝ) :
    listNorm (a :: l) = √(a * a + listNorm l * listNorm l) := by
  rw [listNorm_sq]
  unfold listNorm
  rw [List.map_cons, List.sum_cons]

theorem minkowski_step {a b L M N : ℝ} (hN : 0 ≤ N) (h : N ≤ L + M) :
    √((a + b) * (a + b) + N * N) ≤ √(a * a + L * L) + √(b * b + M * M) := by
  have hP : 0 ≤ a * a + L * L := by nlinarith [mul_self_nonneg a, mul_self_nonneg L]
  have hQ : 0 ≤ b * b + M * M := by nlinarith [mul_self_nonneg b, mul_self_nonneg M]
  have hp := Real.sqrt_nonneg (a * a + L * L)
  have hq := Real.sqrt_nonneg (b * b + M * M)
  have ep := Real.mul_self_sqrt hP
  have eq := Real.mul_self_sqrt hQ
  have hc : a * b + L * M ≤ √(a * a + L * L) * √(b * b + M * M) := by
    rw [← Real.sqrt_mul hP]
    refine Real.le_sqrt_of_sq_le ?_
    nlinarith [mul_self_nonneg (a * M - b * L)]
  have hn : N * N ≤ (L + M) * (L + M) := mul_self_le_mul_self hN h
  refine Real.sqrt_le_iff.2 ⟨add_nonneg hp hq, ?_⟩
  generalize √(a * a + L * L) = p at *
  generalize √(b * b + M * M) = q at *
  nlinarith

theorem listDist_triangle (x y z : List ℝ) (h1 : x.length = y.length) (h2 : y.length = z.length) :
    listDist x z ≤ listDist x y + listDist y z := by
  induction x generalizing y z with
  | nil =>
    have : listDist [] z = 0 := by unfold listDist listNorm; simp
    rw [this]
    exact add_nonneg (listDist_nonneg _ _) (listDist_nonneg _ _)
  | cons a x ih =>
    cases y with
    | nil => simp at h1
    | cons b y =>
      cases z with
      | nil => simp at h2
      | cons c z =>
        have e := ih y z (by simpa using h1) (by simpa using h2)
        unfold listDist at e ⊢
        rw [List.zipWith_cons_cons, List.zipWith_cons_cons, List.zipWith_cons_cons, listNorm_cons,
          listNorm_cons, listNorm_cons, show a - c = (a - b) + (b - c) by ring]
        exact minkowski_step (listNorm_nonneg _) e

theorem listDist_symm (x y : List ℝ) : listDist x y = listDist y x := by
  induction x generalizing y with
  | nil => cases y <;> rfl
  | cons a x ih =>
    cases y with
    | nil => rfl
    | cons b y =>
      have e := ih y
      unfold listDist at e ⊢
      rw [List.zipWith_cons_cons, List.zipWith_cons_cons, listNorm_cons, listNorm_cons, e]
      congr 1
      ring

theorem listNorm_le_dist (x y : List ℝ) (h : x.length = y.length) :
    listNorm x ≤ listDist x y + listNorm y := by
  induction x generalizing y with
  | nil =>
    have : listNorm [] = 0 := by unfold listNorm; simp
    rw [this]
    exact add_nonneg (listDist_nonneg _ _) (listNorm_nonneg _)
  | cons a x ih =>
    cases y with
    | nil => simp at h
    | cons b y =>
      have e := ih y (by simpa using h)
      unfold listDist at e ⊢
      rw [List.zipWith_cons_cons, listNorm_cons, listNorm_cons, listNorm_cons,
        show a * a = (a - b + b) * (a - b + b) by ring]
      exact minkowski_step (listNorm_nonneg _) e

/-- Specification: two grades of the same kind: both zero, or both of norm at least `2^-440`. -/
def SameGrade (a b : List F64) : Prop :=
  ((2 : ℝ) ^ (-440 : ℤ) ≤ listNorm (vals a) ∧ (2 : ℝ) ^ (-440 : ℤ) ≤ listNorm (vals b)) ∨
    ((∀ c ∈ a, c.value = 0) ∧ ∀ c ∈ b, c.value = 0)

theorem SameGrade.symm {a b : List F64} (h : SameGrade a b) : SameGrade b a := by
  rcases h with ⟨h1, h2⟩ | ⟨h1, h2⟩
  · exact .inl ⟨h2, h1⟩
  · exact .inr ⟨h2, h1⟩

theorem norm_zero {a : List F64} (h : ∀ c ∈ a, c.value = 0) : listNorm (vals a) = 0 := by
  induction a with
  | nil => unfold vals listNorm; simp
  | cons c a ih =>
    have e : vals (c :: a) = (c.value : ℝ) :: vals a := rfl
    rw [e, listNorm_cons, ih fun d hd => h d (by simp [hd]), h c (by simp)]
    simp

theorem dist_zero {a b : List F64} (ha : ∀ c ∈ a, c.value = 0) (hb : ∀ c ∈ b, c.value = 0) :
    listDist (vals a) (vals b) = 0 := by
  induction a generalizing b with
  | nil => unfold vals listDist listNorm; simp
  | cons c a ih =>
    cases b with
    | nil => unfold vals listDist listNorm; simp
    | cons d b =>
      have e : vals (c :: a) = (c.value : ℝ) :: vals a := rfl
      have e' : vals (d :: b) = (d.value : ℝ) :: vals b := rfl
      have k := ih (fun x hx => ha x (by simp [hx])) (b := b) fun x hx => hb x (by simp [hx])
      unfold listDist at k ⊢
      rw [e, e', List.zipWith_cons_cons, listNorm_cons, k, ha c (by simp), hb d (by simp)]
      simp

theorem pos_norm_pos : (0 : ℝ) < 2 ^ (-440 : ℤ) := by positivity

theorem SameGrade.trans {a b c : List F64} (h : SameGrade a b) (k : SameGrade b c) :
    SameGrade a c := by
  rcases h with ⟨h1, h2⟩ | ⟨h1, h2⟩ <;> rcases k with ⟨k1, k2⟩ | ⟨k1, k2⟩
  · exact .inl ⟨h1, k2⟩
  · rw [norm_zero k1] at h2; exact absurd pos_norm_pos (not_lt.2 h2)
  · rw [norm_zero h2] at k1; exact absurd pos_norm_pos (not_lt.2 k1)
  · exact .inr ⟨h1, k2⟩

/-- The relative distance of two grades of the same kind is at most `ε`. -/
def NearGrade (ε : ℝ) (a b : List F64) : Prop :=
  a.length = b.length ∧ SameGrade a b ∧ listDist (vals a) (vals b) ≤ ε * listNorm (vals b)

theorem vals_length (a : List F64) : (vals a).length = a.length := by unfold vals; simp

theorem NearGrade.trans {ε δ : ℝ} (hε : 0 ≤ ε) {a b c : List F64}
    (h : NearGrade ε a b) (k : NearGrade δ b c) : NearGrade ((1 + ε) * (1 + δ) - 1) a c := by
  obtain ⟨h1, h2, h3⟩ := h
  obtain ⟨k1, k2, k3⟩ := k
  refine ⟨h1.trans k1, h2.trans k2, ?_⟩
  have t := listDist_triangle (vals a) (vals b) (vals c) (by simp [vals_length, h1])
    (by simp [vals_length, k1])
  have n := listNorm_le_dist (vals b) (vals c) (by simp [vals_length, k1])
  have := mul_le_mul_of_nonneg_left (n.trans (add_le_add_left k3 _)) hε
  generalize listDist (vals a) (vals b) = p at *
  generalize listDist (vals b) (vals c) = q at *
  generalize listNorm (vals b) = r at *
  nlinarith

theorem NearGrade.symm {ε : ℝ} (hε : 0 ≤ ε) (hε1 : ε < 1) {a b : List F64} (h : NearGrade ε a b) :
    NearGrade (ε / (1 - ε)) b a := by
  obtain ⟨h1, h2, h3⟩ := h
  refine ⟨h1.symm, h2.symm, ?_⟩
  have n := listNorm_le_dist (vals b) (vals a) (by simp [vals_length, h1])
  rw [listDist_symm (vals b) (vals a)] at n ⊢
  rw [div_mul_eq_mul_div, le_div_iff₀ (by linarith)]
  have := mul_le_mul_of_nonneg_left n hε
  generalize listDist (vals a) (vals b) = p at *
  generalize listNorm (vals b) = r at *
  nlinarith

theorem NearGrade.mono {ε δ : ℝ} (h : ε ≤ δ) {a b : List F64} (k : NearGrade ε a b) :
    NearGrade δ a b :=
  ⟨k.1, k.2.1, k.2.2.trans (mul_le_mul_of_nonneg_right h (listNorm_nonneg _))⟩

end Engabra
