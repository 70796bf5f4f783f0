import Verif.Props.C84_PyArrays

/-!
# C85: a Python function of two arrays works on both or rejects them
-/

namespace Edsp.Props

open Edsp.Spec Edsp.Py

variable {β : Type}

theorem exec2Int_small (f : List Rat → List Rat → Except Fault β) {a b : Ndarray} {n : Nat} (hs : a.shape = [n])
    (hb : b.shape.length = 1) (h : n < 2147483648) : exec2Int f a b = exec2 f a b := by
  have h1 : ¬ toInt32 n < 0 := by rw [toInt32_within h]; omega
  have h2 : (toInt32 n).toNat = n := by rw [toInt32_within h]; exact Int.toNat_natCast n
  unfold exec2Int exec2
  simp only [hs, hb]
  rw [if_neg (by simp), if_neg h1, h2, if_neg (by simp)]

/-- **C85, two contiguous floating point arrays of the same length.** The functions of two arrays work on the
elements of both; `equal` tells whether the elements are the same, and is false for different lengths;
`concatenate` joins the elements. Missing: different lengths and numbers of dimensions, and what C84 misses. -/
theorem C85_pairs_partial (f : List Rat → List Rat → Except Fault β) {a b : Ndarray} {l r : List Rat}
    (ha : Elements a l) (hb : Elements b r) (hfa : Floats a) (hfb : Floats b) (hca : Contiguous a)
    (hcb : Contiguous b) (hl : l.length < 2147483648) :
    (l.length = r.length → exec2 f a b = f l r ∧ exec2Int f a b = f l r) ∧
    (∃ e, equal a b = .ok e ∧ (e = true ↔ l = r)) ∧ concatenate a b = .ok (l ++ r) := by
  obtain ⟨a1, a2⟩ := readReals_elements ha hfa hca
  obtain ⟨b1, b2⟩ := readReals_elements hb hfb hcb
  have hb1 : b.shape.length = 1 := by rw [b1]; rfl
  have main : ∀ {γ : Type} (g : List Rat → List Rat → Except Fault γ), l.length = r.length →
      exec2 g a b = g l r ∧ exec2Int g a b = g l r := by
    intro γ g h
    have e : exec2 g a b = g l r := by
      unfold exec2
      rw [if_neg (by rw [hb1]; simp), a1]
      simp only [a2, bind, Except.bind]
      rw [h]
      simp only [b2]
    exact ⟨e, by rw [exec2Int_small g a1 hb1 hl]; exact e⟩
  refine ⟨main f, ?_, ?_⟩
  · unfold equal
    rw [if_neg (by rw [a1, b1]; simp)]
    by_cases h : l.length = r.length
    · rw [if_neg (by rw [a1, b1, h]; simp), (main _ h).2]
      exact ⟨_, rfl, by simp⟩
    · rw [if_pos (by rw [a1, b1]; simpa using h)]
      exact ⟨false, rfl, by simp; intro e; exact h (by rw [e])⟩
  · simp only [concatenate, a1, b1, a2, b2, bind, Except.bind]
    rfl

/-- **C85**: `conv`, `xcorr` and `equal` reject every pair in which one array does not have exactly one dimension. -/
theorem C85_dimensions_partial (f : List Rat → List Rat → Except Fault β) {a b : Ndarray}
    (h : a.shape.length ≠ 1 ∨ b.shape.length ≠ 1) :
    exec2Int f a b = .error .exception ∧ equal a b = .error .exception := by
  unfold exec2Int equal
  rw [if_pos h, if_pos h]
  exact ⟨rfl, rfl⟩

/-- A table and a vector. -/
example (f : List Rat → List Rat → Except Fault Unit) :
    exec2Int f { block := [.real 1, .real 2], data := 0, shape := [1, 2], strides := [2, 1] } (pyArray [1])
      = .error .exception := (C85_dimensions_partial f (Or.inl (by decide))).1

theorem readReals_short {b : List Word} (n : Nat) (p : Nat) (h : b.length < p + n) (hp : p ≤ b.length)
    (hf : ∀ w ∈ b, ∃ x, w = .real x) : readReals b (p : Int) n = .error .outOfBounds := by
  induction n generalizing p with
  | zero => omega
  | succ n ih =>
    rw [readReals]
    by_cases e : p < b.length
    · obtain ⟨x, hx⟩ := hf _ (List.getElem_mem e)
      rw [py_cell (List.getElem?_eq_getElem e) _ rfl, hx]
      have := ih (p + 1) (by omega) (by omega)
      rw [show ((p + 1 : Nat) : Int) = (p : Int) + 1 by omega] at this
      simp only [asReal, bind, Except.bind, this]
    · have : cell b p = .error .outOfBounds := by
        unfold cell
        rw [if_neg (by omega), Int.toNat_natCast, List.getElem?_eq_none (by omega)]
      simp only [this, bind, Except.bind]

/-- **C85 is violated by a second array that is shorter than the first**: instead of rejecting the pair, every
function of two arrays (weighted centroid and spread, flux, slope, variation, conv, xcorr) reads behind the end
of the second one. -/
theorem C85_shorter_violates (f : List Rat → List Rat → Except Fault β) (x y : List Rat)
    (h : y.length < x.length) (hx : x.length < 2147483648) :
    exec2 f (pyArray x) (pyArray y) = .error .outOfBounds ∧
    exec2Int f (pyArray x) (pyArray y) = .error .outOfBounds := by
  have e1 := readReals_map x x.length (Nat.le_refl _)
  have e2 := readReals_short (b := y.map .real) x.length 0 (by rw [List.length_map]; omega) (Nat.zero_le _)
    (fun w hw => by
      obtain ⟨v, _, rfl⟩ := List.mem_map.mp hw
      exact ⟨v, rfl⟩)
  have e : exec2 f (pyArray x) (pyArray y) = .error .outOfBounds := by
    unfold exec2 pyArray
    rw [if_neg (by simp)]
    simp only [e1, bind, Except.bind]
    rw [show (0 : Int) = ((0 : Nat) : Int) from rfl]
    simp only [e2]
  exact ⟨e, by rw [exec2Int_small f rfl rfl hx]; exact e⟩

/-- **C85 is violated by a second array that is longer**: its additional elements are ignored silently. -/
theorem C85_longer_violates (f : List Rat → List Rat → Except Fault β) (x y z : List Rat)
    (h : y.length = x.length) : exec2 f (pyArray x) (pyArray (y ++ z)) = f x y := by
  have e1 := readReals_map x x.length (Nat.le_refl _)
  have e2 := readReals_map (y ++ z) x.length (by rw [List.length_append]; omega)
  rw [← h, List.take_left, h] at e2
  rw [List.take_length] at e1
  unfold exec2 pyArray
  rw [if_neg (by simp)]
  simp only [e1, e2, bind, Except.bind]

/-- **C85 is violated by arrays with several dimensions**: the features of two arrays accept one of them to have
any number of dimensions, and use its first numbers only: here a table of 2 times 2 numbers as the first
array. -/
theorem C85_rank_violates (f : List Rat → List Rat → Except Fault β) (a b c d u v : Rat) :
    exec2 f ⟨[.real a, .real b, .real c, .real d], 0, [2, 2], [2, 1]⟩ (pyArray [u, v]) = f [a, b] [u, v] ∧
    exec2 f (pyArray [u, v]) ⟨[.real a, .real b, .real c, .real d], 0, [2, 2], [2, 1]⟩ = f [u, v] [a, b] :=
  ⟨rfl, rfl⟩

/-- Two arrays that meet the conditions. -/
example : Elements (pyArray [1, 2]) [1, 2] ∧ Floats (pyArray [1, 2]) ∧ Contiguous (pyArray [1, 2]) := by
  refine ⟨⟨1, rfl, rfl, fun i v hv => ?_⟩, fun w hw => ?_, rfl⟩
  · match i, hv with
    | 0, hv => injection hv with hv; exact ⟨0, _, rfl, rfl, hv⟩
    | 1, hv => injection hv with hv; exact ⟨1, _, rfl, rfl, hv⟩
  · simp [pyArray] at hw
    rcases hw with rfl | rfl <;> exact ⟨_, rfl⟩

end Edsp.Props
