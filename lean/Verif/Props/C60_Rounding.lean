import Verif.Lemmas.Memory
import Verif.Model.Sequences
import Mathlib.Data.Rat.Floor
import Mathlib.Tactic.Linarith
import Mathlib.Tactic.NormNum

/-! # C60, C61: rounding, rectification and differentiation of sequences -/

namespace Edsp.Props

open Edsp Edsp.Spec

section
variable {K : Type} [Field K] [LinearOrder K] [IsStrictOrderedRing K] [FloorRing K]

/-- `y` is the largest integer not above `x`. -/
def IsFloor (x y : K) : Prop := (∃ n : ℤ, y = n) ∧ y ≤ x ∧ x < y + 1
/-- `y` is the smallest integer not below `x`. -/
def IsCeil (x y : K) : Prop := (∃ n : ℤ, y = n) ∧ x ≤ y ∧ y < x + 1
/-- `y` is the integer obtained by dropping the fraction of `x`. -/
def IsTrunc (x y : K) : Prop := (∃ n : ℤ, y = n) ∧ |y| ≤ |x| ∧ |x| < |y| + 1 ∧ 0 ≤ x * y
/-- `y` is the integer nearest to `x`, the one of larger magnitude in case of a tie. -/
def IsRound (x y : K) : Prop := (∃ n : ℤ, y = n) ∧ |x - y| ≤ 1 / 2 ∧ (|x - y| = 1 / 2 → |x| < |y|)

theorem isTrunc_trunc1 (x : K) : IsTrunc x (Seq.trunc1 x) := by
  unfold Seq.trunc1
  split
  · rename_i h
    have h1 := Int.floor_le x
    have h2 := Int.lt_floor_add_one x
    have h3 : (0 : K) ≤ (⌊x⌋ : K) := by exact_mod_cast Int.floor_nonneg.mpr h
    refine ⟨⟨_, rfl⟩, ?_, ?_, mul_nonneg h h3⟩
    · rw [abs_of_nonneg h, abs_of_nonneg h3]; exact h1
    · rw [abs_of_nonneg h, abs_of_nonneg h3]; exact h2
  · rename_i h
    have h := not_le.mp h
    have h1 := Int.le_ceil x
    have h2 := Int.ceil_lt_add_one x
    have h3 : (⌈x⌉ : K) ≤ 0 := by
      have : ⌈x⌉ ≤ 0 := Int.ceil_le.mpr (by simpa using h.le)
      exact_mod_cast this
    refine ⟨⟨_, rfl⟩, ?_, ?_, mul_nonneg_of_nonpos_of_nonpos h.le h3⟩
    · rw [abs_of_neg h, abs_of_nonpos h3]; linarith
    · rw [abs_of_neg h, abs_of_nonpos h3]; linarith

theorem isRound_round1 (x : K) : IsRound x (Seq.round1 x) := by
  unfold Seq.round1
  split
  · rename_i h
    have h1 := Int.floor_le (x + 1 / 2)
    have h2 := Int.lt_floor_add_one (x + 1 / 2)
    have h3 : (0 : K) ≤ (⌊x + 1 / 2⌋ : K) := by
      exact_mod_cast Int.floor_nonneg.mpr (by linarith)
    refine ⟨⟨_, rfl⟩, ?_, ?_⟩
    · rw [abs_le]; constructor <;> linarith
    · intro he
      rw [abs_of_nonneg h, abs_of_nonneg h3]
      rcases abs_cases (x - (⌊x + 1 / 2⌋ : K)) with ⟨h4, -⟩ | ⟨h4, -⟩ <;> linarith
  · rename_i h
    have h := not_le.mp h
    have h1 := Int.le_ceil (x - 1 / 2)
    have h2 := Int.ceil_lt_add_one (x - 1 / 2)
    have h3 : (⌈x - 1 / 2⌉ : K) ≤ 0 := by
      have : ⌈x - 1 / 2⌉ ≤ 0 := Int.ceil_le.mpr (by simp; linarith)
      exact_mod_cast this
    refine ⟨⟨_, rfl⟩, ?_, ?_⟩
    · rw [abs_le]; constructor <;> linarith
    · intro he
      rw [abs_of_neg h, abs_of_nonpos h3]
      rcases abs_cases (x - (⌈x - 1 / 2⌉ : K)) with ⟨h4, -⟩ | ⟨h4, -⟩ <;> linarith

/-- **C60.** `floor`, `ceil`, `fix` and `round` store, for every range, the integers they are named after. -/
theorem C60_rounding {m : List K} {a b d : Nat} (hab : a ≤ b) (hb : b ≤ m.length)
    (hd : d + (b - a) ≤ m.length) (ho : d ≤ a ∨ b ≤ d) :
    (∃ m' ys, Seq.floor m a b d = .ok m' ∧ Wrote m m' d ys ∧ List.Forall₂ IsFloor (seg m a b) ys) ∧
    (∃ m' ys, Seq.ceil m a b d = .ok m' ∧ Wrote m m' d ys ∧ List.Forall₂ IsCeil (seg m a b) ys) ∧
    (∃ m' ys, Seq.fix m a b d = .ok m' ∧ Wrote m m' d ys ∧ List.Forall₂ IsTrunc (seg m a b) ys) ∧
    (∃ m' ys, Seq.round m a b d = .ok m' ∧ Wrote m m' d ys ∧ List.Forall₂ IsRound (seg m a b) ys) := by
  have key : ∀ (f : K → K) (R : K → K → Prop), (∀ x, R x (f x)) →
      ∃ m' ys, Mem.transform f m a b d = .ok m' ∧ Wrote m m' d ys ∧ List.Forall₂ R (seg m a b) ys := by
    intro f R hR
    obtain ⟨m', h1, h2⟩ := Mem.transform_ok f hab hb hd ho
    refine ⟨m', _, h1, h2, ?_⟩
    rw [List.forall₂_map_right_iff]
    exact List.forall₂_same.mpr (fun x _ => hR x)
  exact ⟨key _ _ fun x => ⟨⟨_, rfl⟩, Int.floor_le x, Int.lt_floor_add_one x⟩,
    key _ _ fun x => ⟨⟨_, rfl⟩, Int.le_ceil x, Int.ceil_lt_add_one x⟩,
    key _ _ isTrunc_trunc1, key _ _ isRound_round1⟩

omit [FloorRing K] in
/-- Each of the four relations determines its result. -/
theorem C60_unique {x y z : K} : (IsFloor x y → IsFloor x z → y = z) ∧ (IsCeil x y → IsCeil x z → y = z) ∧
    (IsRound x y → IsRound x z → y = z) := by
  have lt1 : ∀ p q : ℤ, (p : K) < q + 1 → p ≤ q := by
    intro p q h
    have : ((p : ℤ) : K) < ((q + 1 : ℤ) : K) := by push_cast; exact h
    have := Int.cast_lt.mp this
    omega
  refine ⟨?_, ?_, ?_⟩
  · rintro ⟨⟨p, rfl⟩, h1, h2⟩ ⟨⟨q, rfl⟩, h3, h4⟩
    have := lt1 p q (by linarith)
    have := lt1 q p (by linarith)
    rw [show p = q by omega]
  · rintro ⟨⟨p, rfl⟩, h1, h2⟩ ⟨⟨q, rfl⟩, h3, h4⟩
    have := lt1 p q (by linarith)
    have := lt1 q p (by linarith)
    rw [show p = q by omega]
  · rintro ⟨⟨p, rfl⟩, h1, h2⟩ ⟨⟨q, rfl⟩, h3, h4⟩
    by_contra hne
    have hpq : p ≠ q := fun h => hne (by rw [h])
    have key : ∀ p q : ℤ, p < q → |x - (p : K)| ≤ 1 / 2 → (|x - (p : K)| = 1 / 2 → |x| < |(p : K)|) →
        |x - (q : K)| ≤ 1 / 2 → (|x - (q : K)| = 1 / 2 → |x| < |(q : K)|) → False := by
      intro p q hpq h1 h2 h3 h4
      have hge : (p : K) + 1 ≤ q := by exact_mod_cast hpq
      obtain ⟨a1, a2⟩ := abs_le.mp h1
      obtain ⟨b1, b2⟩ := abs_le.mp h3
      have e1 : x - p = 1 / 2 := by linarith
      have e2 : x - q = -(1 / 2) := by linarith
      have c1 := h2 (by rw [e1]; norm_num)
      have c2 := h4 (by rw [e2]; norm_num)
      rcases abs_cases x with ⟨d1, d1'⟩ | ⟨d1, d1'⟩
      · rcases abs_cases (p : K) with ⟨d2, d2'⟩ | ⟨d2, d2'⟩
        · linarith
        · have : (-1 : K) < p := by linarith
          have hp : -1 < p := by exact_mod_cast this
          have hp0 : (p : K) < 0 := d2'
          have : p < 0 := by exact_mod_cast hp0
          omega
      · rcases abs_cases (q : K) with ⟨d2, d2'⟩ | ⟨d2, d2'⟩
        · have : (q : K) < 1 := by linarith
          have hq : q < 1 := by exact_mod_cast this
          have : 0 ≤ q := by exact_mod_cast d2'
          have : q = 0 := by omega
          rw [this] at d2 c2
          simp at c2
          linarith [abs_nonneg x]
        · linarith
    rcases lt_or_gt_of_ne hpq with h | h
    · exact key p q h h1 h2 h3 h4
    · exact key q p h h3 h4 h1 h2

end

example : ∃ m' ys, Seq.round ([5/2, -5/2, 1/4] : List ℚ) 0 3 0 = .ok m' ∧
    Wrote [5/2, -5/2, 1/4] m' 0 ys ∧ List.Forall₂ IsRound (seg [5/2, -5/2, 1/4] 0 3) ys :=
  (C60_rounding (m := ([5/2, -5/2, 1/4] : List ℚ)) (a := 0) (b := 3) (d := 0) (by norm_num)
    (by norm_num) (by norm_num) (by norm_num)).2.2.2
example : IsRound (5/2 : ℚ) 3 := ⟨⟨3, by norm_num⟩, by norm_num [abs_of_neg], by norm_num [abs_of_pos]⟩

section
variable {K : Type} [LinearOrder K] [AddCommGroup K]

/-- **C61, rectify.** Stores the absolute values. -/
theorem C61_rectify {m : List K} {a b d : Nat} (hab : a ≤ b) (hb : b ≤ m.length)
    (hd : d + (b - a) ≤ m.length) (ho : d ≤ a ∨ b ≤ d) :
    ∃ m', Seq.rectify m a b d = .ok m' ∧ Wrote m m' d ((seg m a b).map fun x => |x|) :=
  Mem.transform_ok _ hab hb hd ho

omit [LinearOrder K] in
theorem adjDiffN_ok : ∀ (n : Nat) (val : K) (m : List K) (s d : Nat), s + n ≤ m.length →
    d + n ≤ m.length → (d ≤ s ∨ s + n ≤ d) →
    ∃ m', Mem.adjDiffN n val m s d = .ok m' ∧
      Wrote m m' d (List.zipWith (· - ·) (seg m s (s + n)) (val :: seg m s (s + n)))
  | 0, val, m, s, d, _, hd, _ => by
    refine ⟨m, rfl, ?_⟩
    have : seg m s (s + 0) = [] := by unfold seg; simp
    rw [this]
    exact Mem.wrote_nil m (by omega)
  | n + 1, val, m, s, d, hs, hd, ho => by
    have hv : m[s]? = some (m[s]'(by omega)) := List.getElem?_eq_getElem _
    obtain ⟨m', h1, h2⟩ := adjDiffN_ok n (m[s]'(by omega)) (m.set d (m[s]'(by omega) - val)) (s + 1)
      (d + 1) (by rw [List.length_set]; omega) (by rw [List.length_set]; omega) (by omega)
    refine ⟨m', ?_, ?_⟩
    · simp only [Mem.adjDiffN, bind, Except.bind]
      rw [Mem.read_ok hv]
      simp only []
      rw [Mem.write_ok (by omega)]
      exact h1
    · rw [Mem.seg_cons hv, List.zipWith_cons_cons]
      refine Mem.wrote_cons (by omega) ?_
      rwa [Mem.seg_set_of_out _ (by omega)] at h2

omit [LinearOrder K] in
/-- **C61, derivative.** The first sample is copied, every later output is the difference of two
neighbouring samples; in place as well as out of place. -/
theorem C61_derivative {m : List K} {a b d : Nat} (hab : a < b) (hb : b ≤ m.length)
    (hd : d + (b - a) ≤ m.length) (ho : d ≤ a ∨ b ≤ d) :
    ∃ m', Seq.derivative m a b d = .ok m' ∧
      Wrote m m' d (List.zipWith (· - ·) (seg m a b) (0 :: seg m a b)) := by
  have hv : m[a]? = some (m[a]'(by omega)) := List.getElem?_eq_getElem _
  obtain ⟨n, hn⟩ : ∃ n, b - a = n + 1 := ⟨b - a - 1, by omega⟩
  obtain ⟨m', h1, h2⟩ := adjDiffN_ok n (m[a]'(by omega)) (m.set d (m[a]'(by omega))) (a + 1) (d + 1)
    (by rw [List.length_set]; omega) (by rw [List.length_set]; omega) (by omega)
  refine ⟨m', ?_, ?_⟩
  · unfold Seq.derivative Mem.adjacentDifference
    rw [Mem.distance_ok hab.le, hn]
    simp only [bind, Except.bind]
    rw [Mem.read_ok hv]
    simp only []
    rw [Mem.write_ok (by omega)]
    exact h1
  · have hbn : b = a + (n + 1) := by omega
    rw [hbn, Mem.seg_cons hv, List.zipWith_cons_cons, sub_zero]
    refine Mem.wrote_cons (by omega) ?_
    rwa [Mem.seg_set_of_out _ (by omega)] at h2

omit [LinearOrder K] in
/-- **C61, inverse.** Running sums of the derivative give the signal back: the sum of its first `k+1`
values is sample `k`. -/
theorem C61_derivative_inverse (xs : List K) :
    ∀ k x, xs[k]? = some x →
      ((List.zipWith (· - ·) xs (0 :: xs)).take (k + 1)).sum = x := by
  have gen : ∀ (xs : List K) (v : K) k x, xs[k]? = some x →
      ((List.zipWith (· - ·) xs (v :: xs)).take (k + 1)).sum = x - v := by
    intro xs
    induction xs with
    | nil => intro v k x h; simp at h
    | cons y ys ih =>
      intro v k x h
      cases k with
      | zero => simp at h; simp [h]
      | succ k =>
        rw [List.getElem?_cons_succ] at h
        rw [List.zipWith_cons_cons, List.take_succ_cons, List.sum_cons, ih y k x h]
        abel
  intro k x h
  rw [gen xs 0 k x h, sub_zero]

end

example : ∃ m', Seq.derivative ([1, 4, 9, 0] : List ℤ) 0 3 0 = .ok m' ∧ Wrote [1, 4, 9, 0] m' 0 [1, 3, 5] :=
  C61_derivative (m := ([1, 4, 9, 0] : List ℤ)) (a := 0) (b := 3) (d := 0) (by norm_num) (by norm_num)
    (by norm_num) (by norm_num)
example : ((List.zipWith (· - ·) [1, 4, 9] (0 :: [1, 4, 9])).take 3).sum = (9 : ℤ) :=
  C61_derivative_inverse [1, 4, 9] 2 9 rfl
example : ∃ m', Seq.rectify ([1, -4, 9, 0] : List ℤ) 0 3 0 = .ok m' ∧
    Wrote [1, -4, 9, 0] m' 0 ((seg ([1, -4, 9, 0] : List ℤ) 0 3).map fun x => |x|) :=
  C61_rectify (by norm_num) (by norm_num) (by norm_num) (by norm_num)

end Edsp.Props
