import Verif.Model.Sequences
import Mathlib.Order.OrderDual
import Mathlib.Tactic.Linarith
import Mathlib.Tactic.NormNum

namespace Edsp.ExtremumL

open Edsp

variable {K L : Type} [LinearOrder K] [LinearOrder L]

/-- `(i, v)` is the first element of `l` with the largest key. -/
def IsArgmax (key : K → L) (l : List K) (i : Nat) (v : K) : Prop :=
  l[i]? = some v ∧ (∀ x ∈ l, key x ≤ key v) ∧ ∀ j x, j < i → l[j]? = some x → key x < key v

omit [LinearOrder K] in
theorem maxLoop_spec (key : K → L) (lt : K → K → Bool) (hlt : ∀ a b, lt a b = decide (key a < key b)) :
    ∀ (xs pre : List K) (b : Nat × K), IsArgmax key pre b.1 b.2 →
      IsArgmax key (pre ++ xs) (Seq.maxLoop lt xs pre.length b).1 (Seq.maxLoop lt xs pre.length b).2
  | [], pre, b, h => by simpa [Seq.maxLoop] using h
  | x :: xs, pre, b, h => by
    have key' : IsArgmax key (pre ++ [x]) (if lt b.2 x then (pre.length, x) else b).1
        (if lt b.2 x then (pre.length, x) else b).2 := by
      obtain ⟨h1, h2, h3⟩ := h
      have hlen : b.1 < pre.length := by
        by_contra hc
        rw [List.getElem?_eq_none (by omega)] at h1
        cases h1
      rw [hlt]
      by_cases hx : key b.2 < key x
      · simp only [hx, decide_true, if_true]
        refine ⟨by simp, ?_, ?_⟩
        · intro y hy
          rw [List.mem_append, List.mem_singleton] at hy
          rcases hy with hy | rfl
          · exact le_trans (h2 y hy) hx.le
          · exact le_rfl
        · intro j y hj hy
          rw [List.getElem?_append_left hj] at hy
          exact lt_of_le_of_lt (h2 y (List.mem_of_getElem? hy)) hx
      · simp only [hx, decide_false, Bool.false_eq_true, if_false]
        refine ⟨by rw [List.getElem?_append_left hlen, h1], ?_, ?_⟩
        · intro y hy
          rw [List.mem_append, List.mem_singleton] at hy
          rcases hy with hy | rfl
          · exact h2 y hy
          · exact not_lt.mp hx
        · intro j y hj hy
          rw [List.getElem?_append_left (by omega)] at hy
          exact h3 j y hj hy
    have := maxLoop_spec key lt hlt xs (pre ++ [x]) _ key'
    simp only [Seq.maxLoop]
    rw [List.length_append, List.length_singleton, List.append_assoc, List.singleton_append] at this
    exact this

omit [LinearOrder K] in
theorem maxLoop_head (key : K → L) (lt : K → K → Bool) (hlt : ∀ a b, lt a b = decide (key a < key b))
    (x : K) (xs : List K) :
    IsArgmax key (x :: xs) (Seq.maxLoop lt xs 1 (0, x)).1 (Seq.maxLoop lt xs 1 (0, x)).2 := by
  have h0 : IsArgmax key [x] (0, x).1 (0, x).2 := by
    refine ⟨rfl, ?_, ?_⟩
    · intro y hy; rw [List.mem_singleton] at hy; rw [hy]
    · intro j y hj; exact absurd hj (Nat.not_lt_zero _)
  exact maxLoop_spec key lt hlt xs [x] (0, x) h0

omit [LinearOrder K] in
theorem maxElement_ok (key : K → L) (lt : K → K → Bool) (hlt : ∀ a b, lt a b = decide (key a < key b))
    {l : List K} (hl : l ≠ []) : ∃ i v, Seq.maxElement lt l = .ok (i, v) ∧ IsArgmax key l i v := by
  cases l with
  | nil => exact absurd rfl hl
  | cons x xs => exact ⟨_, _, rfl, maxLoop_head key lt hlt x xs⟩

omit [LinearOrder K] in
theorem minElement_ok (key : K → L) (lt : K → K → Bool) (hlt : ∀ a b, lt a b = decide (key a < key b))
    {l : List K} (hl : l ≠ []) :
    ∃ i v, Seq.minElement lt l = .ok (i, v) ∧ IsArgmax (fun x => OrderDual.toDual (key x)) l i v := by
  cases l with
  | nil => exact absurd rfl hl
  | cons x xs =>
    refine ⟨_, _, rfl, maxLoop_head (fun x => OrderDual.toDual (key x)) _ ?_ x xs⟩
    intro a b
    rw [hlt]
    rfl

omit [LinearOrder K] in
theorem argmax_unique {key : K → L} {l : List K} {i j : Nat} {v w : K} (h1 : IsArgmax key l i v)
    (h2 : IsArgmax key l j w) : i = j ∧ v = w := by
  have hij : i = j := by
    rcases Nat.lt_trichotomy i j with h | h | h
    · exact absurd (h2.2.2 i v h h1.1) (not_lt.mpr (h1.2.1 w (List.mem_of_getElem? h2.1)))
    · exact h
    · exact absurd (h1.2.2 j w h h2.1) (not_lt.mpr (h2.2.1 v (List.mem_of_getElem? h1.1)))
  refine ⟨hij, ?_⟩
  have a := h1.1
  rw [hij, h2.1] at a
  injection a with a
  exact a.symm

theorem max_ok {l : List K} (hl : l ≠ []) :
    ∃ v, Seq.max l = .ok v ∧ v ∈ l ∧ ∀ x ∈ l, x ≤ v := by
  obtain ⟨i, v, h1, h2⟩ := maxElement_ok (fun x : K => x) Seq.less (fun _ _ => rfl) hl
  refine ⟨v, ?_, List.mem_of_getElem? h2.1, h2.2.1⟩
  unfold Seq.max; rw [h1]; rfl

theorem min_ok {l : List K} (hl : l ≠ []) :
    ∃ v, Seq.min l = .ok v ∧ v ∈ l ∧ ∀ x ∈ l, v ≤ x := by
  obtain ⟨i, v, h1, h2⟩ := minElement_ok (fun x : K => x) Seq.less (fun _ _ => rfl) hl
  refine ⟨v, ?_, List.mem_of_getElem? h2.1, fun x hx => h2.2.1 x hx⟩
  unfold Seq.min; rw [h1]; rfl

theorem maxabs_ok [AddCommGroup K] {l : List K} (hl : l ≠ []) :
    ∃ v, Seq.maxabs l = .ok v ∧ (∃ x ∈ l, v = |x|) ∧ ∀ x ∈ l, |x| ≤ v := by
  obtain ⟨i, v, h1, h2⟩ := maxElement_ok (fun x : K => |x|) Seq.lessAbs (fun _ _ => rfl) hl
  refine ⟨|v|, ?_, ⟨v, List.mem_of_getElem? h2.1, rfl⟩, h2.2.1⟩
  unfold Seq.maxabs; rw [h1]; rfl

theorem minabs_ok [AddCommGroup K] {l : List K} (hl : l ≠ []) :
    ∃ v, Seq.minabs l = .ok v ∧ (∃ x ∈ l, v = |x|) ∧ ∀ x ∈ l, v ≤ |x| := by
  obtain ⟨i, v, h1, h2⟩ := minElement_ok (fun x : K => |x|) Seq.lessAbs (fun _ _ => rfl) hl
  refine ⟨|v|, ?_, ⟨v, List.mem_of_getElem? h2.1, rfl⟩, fun x hx => h2.2.1 x hx⟩
  unfold Seq.minabs; rw [h1]; rfl

end Edsp.ExtremumL
