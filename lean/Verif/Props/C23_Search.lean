import Verif.Lemmas.Memory
import Verif.Model.Sequences
import Mathlib.Tactic.Linarith
import Mathlib.Tactic.NormNum

/-! # C23, C24: binary search, linear search, index_of, contains -/

namespace Edsp.Props

open Edsp Edsp.Spec

variable {K : Type} [LinearOrder K]

/-- `r` is the first position of `[a, b)` holding `v`, or `b` if there is none. -/
def FirstAt (m : List K) (a b : Nat) (v : K) (r : Nat) : Prop :=
  (v ∈ seg m a b ∧ a ≤ r ∧ r < b ∧ m[r]? = some v ∧ ∀ j, a ≤ j → j < r → m[j]? ≠ some v) ∨
    (v ∉ seg m a b ∧ r = b)

omit [LinearOrder K] in
theorem mem_seg {m : List K} {a b : Nat} {v : K} :
    v ∈ seg m a b ↔ ∃ j, a ≤ j ∧ j < b ∧ m[j]? = some v := by
  rw [List.mem_iff_getElem?]
  constructor
  · rintro ⟨i, hi⟩
    rw [Mem.seg_getElem?] at hi
    split at hi
    · exact ⟨a + i, by omega, by omega, hi⟩
    · cases hi
  · rintro ⟨j, h1, h2, h3⟩
    refine ⟨j - a, ?_⟩
    rw [Mem.seg_getElem?, if_pos (by omega), show a + (j - a) = j by omega, h3]

omit [LinearOrder K] in
theorem firstAt_unique {m : List K} {a b : Nat} {v : K} {r s : Nat} (hr : FirstAt m a b v r)
    (hs : FirstAt m a b v s) : r = s := by
  rcases hr with ⟨h1, h2, h3, h4, h5⟩ | ⟨h1, h2⟩ <;> rcases hs with ⟨g1, g2, g3, g4, g5⟩ | ⟨g1, g2⟩
  · rcases Nat.lt_trichotomy r s with h | h | h
    · exact absurd h4 (g5 r h2 h)
    · exact h
    · exact absurd g4 (h5 s g2 h)
  · exact absurd h1 g1
  · exact absurd g1 h1
  · omega

/-- The halving loop never leaves the range, sorted or not. -/
theorem lowerBoundN_safe (m : List K) (v : K) : ∀ (len first : Nat), first + len ≤ m.length →
    ∃ r, Seq.lowerBoundN m v first len = .ok r ∧ first ≤ r ∧ r ≤ first + len := by
  intro len
  induction len using Nat.strong_induction_on with
  | _ len ih =>
    intro first h
    rw [Seq.lowerBoundN]
    by_cases h0 : len = 0
    · rw [dif_pos h0]; exact ⟨first, rfl, by omega, by omega⟩
    · rw [dif_neg h0]
      have hx : m[first + len / 2]? = some (m[first + len / 2]'(by omega)) :=
        List.getElem?_eq_getElem _
      rw [Mem.read_ok hx]
      simp only []
      split
      · obtain ⟨r, h1, h2, h3⟩ := ih (len - len / 2 - 1) (by omega) (first + len / 2 + 1) (by omega)
        exact ⟨r, h1, by omega, by omega⟩
      · obtain ⟨r, h1, h2, h3⟩ := ih (len / 2) (by omega) first (by omega)
        exact ⟨r, h1, by omega, by omega⟩

theorem lowerBoundN_sorted (m : List K) (v : K) : ∀ (len first : Nat), first + len ≤ m.length →
    (∀ i j x y, first ≤ i → i ≤ j → j < first + len → m[i]? = some x → m[j]? = some y → x ≤ y) →
    ∃ r, Seq.lowerBoundN m v first len = .ok r ∧ first ≤ r ∧ r ≤ first + len ∧
      (∀ j x, first ≤ j → j < r → m[j]? = some x → x < v) ∧
      (∀ j x, r ≤ j → j < first + len → m[j]? = some x → v ≤ x) := by
  intro len
  induction len using Nat.strong_induction_on with
  | _ len ih =>
    intro first h hs
    rw [Seq.lowerBoundN]
    by_cases h0 : len = 0
    · rw [dif_pos h0]
      exact ⟨first, rfl, by omega, by omega, by intros; omega, by intros; omega⟩
    · rw [dif_neg h0]
      have hx : m[first + len / 2]? = some (m[first + len / 2]'(by omega)) :=
        List.getElem?_eq_getElem _
      rw [Mem.read_ok hx]
      simp only []
      split
      · rename_i hlt
        obtain ⟨r, h1, h2, h3, h4, h5⟩ := ih (len - len / 2 - 1) (by omega) (first + len / 2 + 1)
          (by omega) (fun i j x y a1 a2 a3 => hs i j x y (by omega) a2 (by omega))
        refine ⟨r, h1, by omega, by omega, ?_, ?_⟩
        · intro j x hj1 hj2 hjx
          by_cases hj : j ≤ first + len / 2
          · exact lt_of_le_of_lt (hs j (first + len / 2) x _ hj1 hj (by omega) hjx hx) hlt
          · exact h4 j x (by omega) hj2 hjx
        · intro j x hj1 hj2 hjx
          exact h5 j x hj1 (by omega) hjx
      · rename_i hlt
        obtain ⟨r, h1, h2, h3, h4, h5⟩ := ih (len / 2) (by omega) first (by omega)
          (fun i j x y a1 a2 a3 => hs i j x y a1 a2 (by omega))
        refine ⟨r, h1, by omega, by omega, h4, ?_⟩
        intro j x hj1 hj2 hjx
        by_cases hj : j < first + len / 2
        · exact h5 j x hj1 hj hjx
        · exact le_trans (not_lt.mp hlt) (hs (first + len / 2) j _ x (by omega) (by omega) hj2 hx hjx)

/-- **C23, safety.** Whatever the range holds, sorted or not, the search stays inside the range and never
reports a position that does not hold the value. -/
theorem C23_safe {m : List K} {a b : Nat} (hab : a ≤ b) (hb : b ≤ m.length) (v : K) :
    ∃ r, Seq.binarySearch m a b v = .ok r ∧ a ≤ r ∧ r ≤ b ∧ (r < b → m[r]? = some v) := by
  obtain ⟨r, h1, h2, h3⟩ := lowerBoundN_safe m v (b - a) a (by omega)
  unfold Seq.binarySearch
  rw [Mem.distance_ok hab]
  simp only [bind, Except.bind, h1, pure, Except.pure]
  by_cases hr : r = b
  · rw [if_neg (not_not.mpr hr)]
    exact ⟨b, rfl, hab, le_rfl, by omega⟩
  · rw [if_pos hr]
    have hx : m[r]? = some (m[r]'(by omega)) := List.getElem?_eq_getElem _
    rw [Mem.read_ok hx]
    simp only []
    by_cases hv : v = m[r]'(by omega)
    · rw [if_pos hv]
      exact ⟨r, rfl, h2, by omega, fun _ => by rw [hx, ← hv]⟩
    · rw [if_neg hv]
      exact ⟨b, rfl, hab, le_rfl, by omega⟩

example : ∃ r, Seq.binarySearch ([5, 1, 4, 1] : List ℤ) 0 4 1 = .ok r ∧ 0 ≤ r ∧ r ≤ 4 ∧
    (r < 4 → ([5, 1, 4, 1] : List ℤ)[r]? = some 1) :=
  C23_safe (by norm_num) (by norm_num) 1

/-- **C23, binary search.** On every sorted range it returns the first position of the value, or the end
when the value is absent. -/
theorem C23_binary_search {m : List K} {a b : Nat} (hab : a ≤ b) (hb : b ≤ m.length) (v : K)
    (hs : (seg m a b).Pairwise (· ≤ ·)) :
    ∃ r, Seq.binarySearch m a b v = .ok r ∧ FirstAt m a b v r := by
  have hs' : ∀ i j x y, a ≤ i → i ≤ j → j < a + (b - a) → m[i]? = some x → m[j]? = some y → x ≤ y := by
    intro i j x y h1 h2 h3 hx hy
    rcases Nat.eq_or_lt_of_le h2 with rfl | h2
    · rw [hx] at hy; injection hy with hy; exact hy.le
    · rw [List.pairwise_iff_getElem] at hs
      have hl := Mem.seg_length (m := m) (a := a) hb
      have := hs (i - a) (j - a) (by omega) (by omega) (by omega)
      have gi : (seg m a b)[i - a]? = some x := by
        rw [Mem.seg_getElem?, if_pos (by omega), show a + (i - a) = i by omega, hx]
      have gj : (seg m a b)[j - a]? = some y := by
        rw [Mem.seg_getElem?, if_pos (by omega), show a + (j - a) = j by omega, hy]
      rw [List.getElem?_eq_getElem (by omega)] at gi gj
      injection gi with gi
      injection gj with gj
      rwa [gi, gj] at this
  obtain ⟨r, h1, h2, h3, h4, h5⟩ := lowerBoundN_sorted m v (b - a) a (by omega) hs'
  unfold Seq.binarySearch
  rw [Mem.distance_ok hab]
  simp only [bind, Except.bind, h1, pure, Except.pure]
  by_cases hr : r = b
  · rw [if_neg (not_not.mpr hr)]
    refine ⟨b, rfl, Or.inr ⟨?_, rfl⟩⟩
    rw [mem_seg]
    rintro ⟨j, g1, g2, g3⟩
    exact lt_irrefl _ (h4 j v g1 (by omega) g3)
  · rw [if_pos hr]
    have hx : m[r]? = some (m[r]'(by omega)) := List.getElem?_eq_getElem _
    rw [Mem.read_ok hx]
    simp only []
    by_cases hv : v = m[r]'(by omega)
    · rw [if_pos hv]
      refine ⟨r, rfl, Or.inl ⟨?_, h2, by omega, by rw [hx, ← hv], ?_⟩⟩
      · rw [mem_seg]; exact ⟨r, h2, by omega, by rw [hx, ← hv]⟩
      · intro j g1 g2 g3
        exact lt_irrefl _ (h4 j v g1 g2 g3)
    · rw [if_neg hv]
      refine ⟨b, rfl, Or.inr ⟨?_, rfl⟩⟩
      rw [mem_seg]
      rintro ⟨j, g1, g2, g3⟩
      by_cases hj : j < r
      · exact lt_irrefl _ (h4 j v g1 hj g3)
      · have e1 := h5 r _ le_rfl (by omega) hx
        have e2 := hs' r j _ v h2 (by omega) (by omega) hx g3
        exact hv (le_antisymm e1 e2)

example : ∃ r, Seq.binarySearch ([0, 2, 2, 5, 1] : List ℤ) 0 4 2 = .ok r ∧
    FirstAt ([0, 2, 2, 5, 1] : List ℤ) 0 4 2 r :=
  C23_binary_search (m := ([0, 2, 2, 5, 1] : List ℤ)) (a := 0) (b := 4) (by norm_num) (by norm_num) 2
    (by decide)

/-- The loop of `std::find`. -/
theorem findN_ok (m : List K) (v : K) : ∀ (n first : Nat), first + n ≤ m.length →
    ∃ r, Seq.findN m v first n = .ok r ∧ FirstAt m first (first + n) v r
  | 0, first, h => by
    refine ⟨first, rfl, Or.inr ⟨?_, rfl⟩⟩
    rw [mem_seg]; rintro ⟨j, h1, h2, -⟩; omega
  | n + 1, first, h => by
    have hx : m[first]? = some (m[first]'(by omega)) := List.getElem?_eq_getElem _
    simp only [Seq.findN, bind, Except.bind]
    rw [Mem.read_ok hx]
    simp only [pure, Except.pure]
    by_cases hv : m[first]'(by omega) = v
    · rw [if_pos hv]
      refine ⟨first, rfl, Or.inl ⟨?_, le_rfl, by omega, by rw [hx, hv], by intros; omega⟩⟩
      rw [mem_seg]; exact ⟨first, le_rfl, by omega, by rw [hx, hv]⟩
    · rw [if_neg hv]
      obtain ⟨r, h1, h2⟩ := findN_ok m v n (first + 1) (by omega)
      refine ⟨r, h1, ?_⟩
      rcases h2 with ⟨g1, g2, g3, g4, g5⟩ | ⟨g1, g2⟩
      · refine Or.inl ⟨?_, by omega, by omega, g4, ?_⟩
        · rw [mem_seg] at g1 ⊢
          obtain ⟨j, a1, a2, a3⟩ := g1
          exact ⟨j, by omega, by omega, a3⟩
        · intro j a1 a2
          by_cases hj : j = first
          · rw [hj, hx]; intro hc; injection hc with hc; exact hv hc
          · exact g5 j (by omega) a2
      · refine Or.inr ⟨?_, by omega⟩
        rw [mem_seg] at g1 ⊢
        rintro ⟨j, a1, a2, a3⟩
        by_cases hj : j = first
        · rw [hj, hx] at a3; injection a3 with hc; exact hv hc
        · exact g1 ⟨j, by omega, by omega, a3⟩

/-- **C24, linear search.** The first position of the value, or the end, on every range. -/
theorem C24_linear_search {m : List K} {a b : Nat} (hab : a ≤ b) (hb : b ≤ m.length) (v : K) :
    ∃ r, Seq.linearSearch m a b v = .ok r ∧ FirstAt m a b v r := by
  obtain ⟨r, h1, h2⟩ := findN_ok m v (b - a) a (by omega)
  rw [show a + (b - a) = b by omega] at h2
  refine ⟨r, ?_, h2⟩
  unfold Seq.linearSearch
  rw [Mem.distance_ok hab]
  exact h1

example : ∃ r, Seq.linearSearch ([7, 2, 9, 2] : List ℤ) 0 4 2 = .ok r ∧ FirstAt ([7, 2, 9, 2] : List ℤ) 0 4 2 r :=
  C24_linear_search (m := ([7, 2, 9, 2] : List ℤ)) (a := 0) (b := 4) (by norm_num) (by norm_num) 2

/-- **C24, agreement.** On a sorted range linear and binary search return the same position. -/
theorem C24_searches_agree {m : List K} {a b : Nat} (hab : a ≤ b) (hb : b ≤ m.length) (v : K)
    (hs : (seg m a b).Pairwise (· ≤ ·)) : Seq.linearSearch m a b v = Seq.binarySearch m a b v := by
  obtain ⟨r, h1, h2⟩ := C24_linear_search hab hb v
  obtain ⟨s, h3, h4⟩ := C23_binary_search hab hb v hs
  rw [h1, h3, firstAt_unique h2 h4]

example : Seq.linearSearch ([0, 2, 2, 5] : List ℤ) 0 4 2 = Seq.binarySearch ([0, 2, 2, 5] : List ℤ) 0 4 2 :=
  C24_searches_agree (m := ([0, 2, 2, 5] : List ℤ)) (a := 0) (b := 4) (by norm_num) (by norm_num) 2
    (by decide)

theorem toInt32_small {x : Int} (h1 : -2 ^ 31 ≤ x) (h2 : x < 2 ^ 31) : Seq.toInt32 x = x := by
  unfold Seq.toInt32
  have e : ((2 ^ 32 : Nat) : Int) = 4294967296 := by norm_num
  apply Int.bmod_eq_of_le_mul_two <;> omega

/-- **C24, index_of.** On ranges of at most `2^31` elements the result is the offset of the first
occurrence, or −1 when the value is absent. -/
theorem C24_index_of_partial {m : List K} {a b : Nat} (hab : a ≤ b) (hb : b ≤ m.length)
    (hsz : b - a ≤ 2 ^ 31) (v : K) :
    (∃ r, FirstAt m a b v (a + r) ∧ a + r < b ∧ Seq.indexOf m a b v = .ok (r : Int)) ∨
      (v ∉ seg m a b ∧ Seq.indexOf m a b v = .ok (-1)) := by
  obtain ⟨r, h1, h2⟩ := C24_linear_search hab hb v
  unfold Seq.indexOf
  simp only [bind, Except.bind, h1, pure, Except.pure]
  rcases h2 with ⟨g1, g2, g3, g4, g5⟩ | ⟨g1, g2⟩
  · left
    refine ⟨r - a, ?_, by omega, ?_⟩
    · rw [show a + (r - a) = r by omega]
      exact Or.inl ⟨g1, g2, g3, g4, g5⟩
    · rw [if_pos (by omega), toInt32_small (by omega) (by omega)]
      congr 1; omega
  · right
    refine ⟨g1, ?_⟩
    rw [if_neg (by omega)]
    rfl

example : (∃ r, FirstAt ([7, 2, 9, 2] : List ℤ) 0 4 9 (0 + r) ∧ 0 + r < 4 ∧
      Seq.indexOf [7, 2, 9, 2] 0 4 9 = .ok (r : Int)) ∨
    ((9 : ℤ) ∉ seg [7, 2, 9, 2] 0 4 ∧ Seq.indexOf ([7, 2, 9, 2] : List ℤ) 0 4 9 = .ok (-1)) :=
  C24_index_of_partial (by norm_num) (by norm_num) (by norm_num) 9

/-- **C24 is violated on longer ranges**: the offset is cast to a 32-bit integer, so a value whose first
occurrence is at an offset `n` with `2^31 ≤ n < 2^32` is reported at the negative index `n − 2^32`. -/
theorem C24_index_of_violates (n : Nat) (h1 : 2 ^ 31 ≤ n) (h2 : n < 2 ^ 32) :
    Seq.indexOf (List.replicate n (0 : ℤ) ++ [1]) 0 (n + 1) 1 = .ok ((n : Int) - 2 ^ 32) := by
  have hl : (List.replicate n (0 : ℤ)).length = n := List.length_replicate
  have hlen : (List.replicate n (0 : ℤ) ++ [1]).length = n + 1 := by
    rw [List.length_append, hl]; rfl
  obtain ⟨r, h3, h4⟩ := C24_linear_search (m := List.replicate n (0 : ℤ) ++ [1]) (a := 0)
    (b := n + 1) (Nat.zero_le _) hlen.ge 1
  have hF : FirstAt (List.replicate n (0 : ℤ) ++ [1]) 0 (n + 1) 1 n := by
    have hv : (List.replicate n (0 : ℤ) ++ [1])[n]? = some 1 := by
      rw [List.getElem?_append_right hl.le, hl, Nat.sub_self]; rfl
    refine Or.inl ⟨?_, Nat.zero_le _, Nat.lt_succ_self _, hv, ?_⟩
    · rw [mem_seg]; exact ⟨_, Nat.zero_le _, Nat.lt_succ_self _, hv⟩
    · intro j _ hj
      rw [List.getElem?_append_left (by rw [hl]; exact hj), List.getElem?_replicate, if_pos hj]
      decide
  obtain rfl := firstAt_unique h4 hF
  unfold Seq.indexOf
  simp only [bind, Except.bind, h3, pure, Except.pure]
  rw [if_pos (by omega)]
  refine congrArg Except.ok ?_
  unfold Seq.toInt32
  rw [Int.bmod_def]
  have e : ((2 ^ 32 : Nat) : Int) = 4294967296 := by norm_num
  rw [e]
  have : (2 : Int) ^ 32 = 4294967296 := by norm_num
  rw [this]
  split <;> omega

/-- **C23/C24, the C interface.** For every `int` size: `binary_search` (on sorted arrays), `linear_search`
and `index_of` return the index of the first occurrence or −1 exactly when the value is absent, and
`contains` says whether it is present. -/
theorem C24_c_interface {m : List K} {p size : Nat} (hb : p + size ≤ m.length) (hsz : size < 2 ^ 31)
    (v : K) :
    ∃ i : Int, Seq.cLinearSearch m p size v = .ok i ∧ Seq.cIndexOf m p size v = .ok i ∧
      Seq.cContains m p size v = .ok (decide (v ∈ seg m p (p + size))) ∧
      (i = -1 ↔ v ∉ seg m p (p + size)) ∧
      (v ∈ seg m p (p + size) → ∃ r : Nat, i = r ∧ r < size ∧ FirstAt m p (p + size) v (p + r)) ∧
      ((seg m p (p + size)).Pairwise (· ≤ ·) → Seq.cBinarySearch m p size v = .ok i) := by
  have hab : p ≤ p + size := by omega
  obtain ⟨r, h1, h2⟩ := C24_linear_search hab hb v
  have hbin : (seg m p (p + size)).Pairwise (· ≤ ·) → Seq.binarySearch m p (p + size) v = .ok r :=
    fun hs => by rw [← C24_searches_agree hab hb v hs, h1]
  unfold Seq.cLinearSearch Seq.cIndexOf Seq.cContains Seq.cBinarySearch Seq.indexOf
  simp only [bind, Except.bind, h1, pure, Except.pure]
  rcases h2 with ⟨g1, g2, g3, g4, g5⟩ | ⟨g1, g2⟩
  · have hne : r ≠ p + size := by omega
    have e : Seq.toInt32 ((r : Int) - p) = ((r - p : Nat) : Int) := by
      rw [toInt32_small (by omega) (by omega)]; omega
    refine ⟨((r - p : Nat) : Int), by rw [if_pos hne, e], by rw [if_pos hne, e], ?_, ?_, ?_, ?_⟩
    · simp [g1, hne]
    · constructor
      · intro h; omega
      · intro h; exact absurd g1 h
    · intro _
      refine ⟨r - p, rfl, by omega, ?_⟩
      rw [show p + (r - p) = r by omega]
      exact Or.inl ⟨g1, g2, g3, g4, g5⟩
    · intro hs
      rw [hbin hs]
      simp only []
      rw [if_pos hne, e]
  · refine ⟨-1, by rw [if_neg (not_not.mpr g2)], by rw [if_neg (not_not.mpr g2)]; rfl, ?_, ?_, ?_, ?_⟩
    · simp [g1, g2]
    · simp [g1]
    · intro h; exact absurd h g1
    · intro hs
      rw [hbin hs]
      simp only []
      rw [if_neg (not_not.mpr g2)]

example : ∃ i : Int, Seq.cLinearSearch ([7, 2, 9, 2] : List ℤ) 1 3 2 = .ok i ∧
    Seq.cIndexOf ([7, 2, 9, 2] : List ℤ) 1 3 2 = .ok i ∧
    (i = -1 ↔ (2 : ℤ) ∉ seg [7, 2, 9, 2] 1 4) :=
  have ⟨i, h1, h2, _, h4, _⟩ := C24_c_interface (m := ([7, 2, 9, 2] : List ℤ)) (p := 1) (size := 3)
    (by norm_num) (by norm_num) 2
  ⟨i, h1, h2, h4⟩

/-- **C23, the C interface.** `binary_search` returns −1 exactly for absent values. -/
theorem C23_c_binary_search {m : List K} {p size : Nat} (hb : p + size ≤ m.length)
    (hsz : size < 2 ^ 31) (v : K) (hs : (seg m p (p + size)).Pairwise (· ≤ ·)) :
    ∃ i : Int, Seq.cBinarySearch m p size v = .ok i ∧ (i = -1 ↔ v ∉ seg m p (p + size)) ∧
      (v ∈ seg m p (p + size) → ∃ r : Nat, i = r ∧ r < size ∧ FirstAt m p (p + size) v (p + r)) := by
  obtain ⟨i, -, -, -, h4, h5, h6⟩ := C24_c_interface hb hsz v
  exact ⟨i, h6 hs, h4, h5⟩

example : ∃ i : Int, Seq.cBinarySearch ([0, 2, 2, 5] : List ℤ) 0 4 3 = .ok i ∧
    (i = -1 ↔ (3 : ℤ) ∉ seg [0, 2, 2, 5] 0 4) :=
  have ⟨i, h1, h2, _⟩ := C23_c_binary_search (m := ([0, 2, 2, 5] : List ℤ)) (p := 0) (size := 4)
    (by norm_num) (by norm_num) 3 (by decide)
  ⟨i, h1, h2⟩

end Edsp.Props
