import Verif.Model.Span
import Verif.Spec.Segments

/-!
# C81: a span gives access to exactly the elements it was made for
-/

namespace Edsp.Props

open Edsp.SpanM Edsp.Spec

/-- The span `s` views exactly the cells `a, …, b-1` of a block. -/
def Views (s : Span) (a b : Nat) : Prop := s.data = a ∧ s.size = (b : Int) - a ∧ a ≤ b

/-- A span with a fixed extent has that size; one with a dynamic extent may have any. -/
def Sized (s : Span) : Prop := s.extent = dynamicExtent ∨ s.extent = s.size

private theorem cell_ok {α : Type} {m : List α} {p : Nat} (h : p < m.length) :
    Span.cell m (p : Int) = .ok m[p] := by
  unfold Span.cell
  rw [if_pos (by omega), Int.toNat_natCast]
  unfold Mem.read
  rw [List.getElem?_eq_getElem h]

/-- **C81, elements.** A span over the cells `a, …, b-1` of a block iterates over their values, delivers them
by index and at, and rejects every other index: `[]` terminates the program, `at` throws. -/
theorem C81_elements {α : Type} {m : List α} {s : Span} {a b : Nat} (hs : Views s a b) (hb : b ≤ m.length) :
    s.toList m = .ok (seg m a b) ∧
    (∀ i : Nat, ∀ v, (seg m a b)[i]? = some v → s.get m i = .ok v ∧ s.atPos m i = .ok v) ∧
    (∀ i : Int, (i < 0 ∨ (seg m a b).length ≤ i) →
      s.get m i = .error .assertion ∧ s.atPos m i = .error .exception) := by
  obtain ⟨h1, h2, h3⟩ := hs
  have hlen : (seg m a b).length = b - a := by
    unfold seg; rw [List.length_take, List.length_drop]; omega
  have hsz : s.size.toNat = b - a := by omega
  have hcell : ∀ i : Nat, ∀ v, (seg m a b)[i]? = some v → Span.cell m (s.data + i) = .ok v ∧ (i : Int) < s.size := by
    intro i v hv
    have hi : i < b - a := by
      have := (List.getElem?_eq_some_iff.mp hv).1; omega
    unfold seg at hv
    rw [List.getElem?_take, if_pos hi, List.getElem?_drop, List.getElem?_eq_getElem (by omega)] at hv
    injection hv with hv
    rw [h1, show (a : Int) + (i : Int) = ((a + i : Nat) : Int) by omega, cell_ok (show a + i < m.length by omega), hv]
    exact ⟨rfl, by omega⟩
  refine ⟨?_, ?_, ?_⟩
  · unfold Span.toList
    rw [hsz]
    have key : ∀ n, n ≤ b - a → (List.range n).mapM (fun i : Nat => Span.cell m (s.data + i)) =
        .ok ((seg m a b).take n) := by
      intro n
      induction n with
      | zero => intro _; rfl
      | succ n ih =>
        intro hn
        rw [List.range_succ, List.mapM_append, ih (by omega)]
        have hg : (seg m a b)[n]? = some (seg m a b)[n] := List.getElem?_eq_getElem (by omega)
        simp only [List.mapM_cons, List.mapM_nil, bind, Except.bind, (hcell n _ hg).1, pure, Except.pure]
        rw [List.take_add_one, hg]
        rfl
    rw [key _ (Nat.le_refl _), ← hlen, List.take_length]
  · intro i v hv
    have := hcell i v hv
    refine ⟨by unfold Span.get; rw [if_pos ⟨by omega, this.2⟩, this.1], ?_⟩
    unfold Span.atPos
    rw [if_neg (by omega), this.1]
  · intro i hi
    rw [hlen] at hi
    exact ⟨by unfold Span.get; rw [if_neg (by omega)], by unfold Span.atPos; rw [if_pos (by omega)]⟩

/-- **C81, construction.** A span made of two pointers into a block, or of a pointer and a size, views the cells between
them; a range that ends before it begins and a negative size terminate the program. -/
theorem C81_construction (e : Int) {a b : Nat} :
    (a ≤ b → (∃ s, ofRange e a b = .ok s ∧ Views s a b) ∧ (∃ s, ofPtr e a (b - a) = .ok s ∧ Views s a b)) ∧
    (b < a → ofRange e a b = .error .assertion ∧ ofPtr e a (b - a) = .error .assertion) := by
  constructor
  · intro h
    have h1 : (0 : Int) ≤ b - a := by omega
    exact ⟨⟨⟨e, a, b - a⟩, if_pos h1, rfl, rfl, h⟩, ⟨⟨e, a, b - a⟩, if_pos h1, rfl, rfl, h⟩⟩
  · intro h
    have h1 : ¬ (0 : Int) ≤ b - a := by omega
    exact ⟨if_neg h1, if_neg h1⟩

example : ofRange (-1) 2 5 = .ok ⟨-1, 2, 3⟩ ∧ ofRange (-1) 5 2 = .error .assertion := ⟨rfl, rfl⟩

private theorem iadd_ok {x y : Int} (h0 : -9223372036854775808 ≤ x + y) (h1 : x + y < 9223372036854775808) :
    iadd x y = .ok (x + y) := by
  unfold iadd
  rw [if_pos ⟨h0, h1⟩]

private theorem neg_bound : (-9223372036854775808 : Int) ≤ 0 := by simp

/-- **C81, first, last and subspan view the requested elements**, given that the request fits. -/
theorem C81_parts {s : Span} {a b : Nat} (hs : Views s a b) (hb : (b : Int) < 9223372036854775808) {k o : Nat}
    (hk : k ≤ b - a) (ho : o + k ≤ b - a) :
    (∃ r, s.first k = .ok r ∧ Views r a (a + k)) ∧ (∃ r, s.last k = .ok r ∧ Views r (b - k) b) ∧
    (∃ r, s.subspan o k = .ok r ∧ Views r (a + o) (a + o + k)) ∧
    (∃ r, s.subspan o dynamicExtent = .ok r ∧ Views r (a + o) b) ∧
    (∃ r, s.firstT k = .ok r ∧ Views r a (a + k) ∧ Sized r) ∧
    (∃ r, s.lastT k = .ok r ∧ Views r (b - k) b ∧ Sized r) ∧
    (∃ r, s.subspanT o k = .ok r ∧ Views r (a + o) (a + o + k) ∧ Sized r) ∧
    (Sized s → ∃ r, s.subspanT o dynamicExtent = .ok r ∧ Views r (a + o) b ∧ Sized r) := by
  obtain ⟨h1, h2, h3⟩ := hs
  have hadd : ∀ x y : Int, 0 ≤ x + y → x + y ≤ b → iadd x y = .ok (x + y) := fun x y h0 h1 =>
    iadd_ok (Int.le_trans neg_bound h0) (Int.lt_of_le_of_lt h1 hb)
  clear hb
  refine ⟨?_, ?_, ?_, ?_, ?_, ?_, ?_, ?_⟩
  · refine ⟨⟨dynamicExtent, s.data, k⟩, ?_, ?_⟩
    · unfold Span.first ofPtr; rw [if_pos (by omega), if_pos (by omega)]
    · exact ⟨h1, by dsimp only; omega, by omega⟩
  · refine ⟨⟨dynamicExtent, s.data + (s.size - k), k⟩, ?_, ?_⟩
    · unfold Span.last ofPtr; rw [if_pos (by omega), if_pos (by omega)]
    · exact ⟨by dsimp only; omega, by dsimp only; omega, by omega⟩
  · refine ⟨⟨dynamicExtent, s.data + o, k⟩, ?_, ?_⟩
    · unfold Span.subspan ofPtr
      rw [if_pos (by omega), if_neg (by unfold dynamicExtent; omega), if_pos (by omega)]
      rw [hadd o k (by omega) (by omega)]
      simp only [bind, Except.bind]
      rw [if_pos (by omega), if_pos (by omega)]
    · exact ⟨by dsimp only; omega, by dsimp only; omega, by omega⟩
  · refine ⟨⟨dynamicExtent, s.data + o, s.size - o⟩, ?_, ?_⟩
    · unfold Span.subspan ofPtr; rw [if_pos (by omega), if_pos rfl, if_pos (by omega)]
    · exact ⟨by dsimp only; omega, by dsimp only; omega, by omega⟩
  · refine ⟨⟨k, s.data, k⟩, ?_, ?_, Or.inr rfl⟩
    · unfold Span.firstT ofPtr; rw [if_pos (by omega), if_pos (by omega)]
    · exact ⟨h1, by dsimp only; omega, by omega⟩
  · refine ⟨⟨k, s.data + (s.size - k), k⟩, ?_, ?_, Or.inr rfl⟩
    · unfold Span.lastT ofPtr; rw [if_pos (by omega), if_pos (by omega)]
    · exact ⟨by dsimp only; omega, by dsimp only; omega, by omega⟩
  · refine ⟨⟨k, s.data + o, k⟩, ?_, ?_, Or.inr rfl⟩
    · unfold Span.subspanT ofPtr
      rw [if_pos (by omega), if_neg (by unfold dynamicExtent; omega), if_pos (by omega)]
      rw [hadd k o (by omega) (by omega)]
      simp only [bind, Except.bind]
      rw [if_pos (by omega), if_pos (by omega)]
    · exact ⟨by dsimp only; omega, by dsimp only; omega, by omega⟩
  · intro hz
    have e : (if s.extent ≠ dynamicExtent then s.extent - (o : Int) else s.size - o) = s.size - o := by
      rcases hz with hz | hz
      · rw [if_neg (by simp [hz])]
      · rw [hz]; simp
    refine ⟨⟨dynamicExtent, s.data + o, s.size - o⟩, ?_, ?_, Or.inl rfl⟩
    · unfold Span.subspanT ofPtr; rw [if_pos (by omega), if_pos rfl, e, if_pos (by omega)]
    · exact ⟨by dsimp only; omega, by dsimp only; omega, by omega⟩

/-- **C81, no chain of calls leaves the elements.** Whatever `first`, `last` and `subspan` are asked of a
span of the right size, in whatever order and with whatever numbers: every span that comes out views a part
of it; all other requests terminate the program. Missing: requests whose numbers overflow. -/
theorem C81_within_partial {s r : Span} {a b : Nat} (hs : Views s a b) (hz : Sized s) (cs : List Sub)
    (h : chain s cs = .ok r) : ∃ c d, Views r c d ∧ Sized r ∧ a ≤ c ∧ d ≤ b := by
  induction cs generalizing s a b with
  | nil =>
    injection h with h; subst h
    exact ⟨a, b, hs, hz, Nat.le_refl _, Nat.le_refl _⟩
  | cons op cs ih =>
    simp only [chain, bind, Except.bind] at h
    split at h
    · cases h
    rename_i t ht
    suffices ∃ c d, Views t c d ∧ Sized t ∧ a ≤ c ∧ d ≤ b by
      obtain ⟨c, d, h1, h2, h3, h4⟩ := this
      obtain ⟨c', d', g1, g2, g3, g4⟩ := ih h1 h2 h
      exact ⟨c', d', g1, g2, by omega, by omega⟩
    obtain ⟨h1, h2, h3⟩ := hs
    -- a span made of a pointer inside and a size that fits
    have mk : ∀ (e p n : Int) (t : Span), ofPtr e p n = .ok t → (a : Int) ≤ p → p + n ≤ b →
        (e = dynamicExtent ∨ e = n) → ∃ c d, Views t c d ∧ Sized t ∧ a ≤ c ∧ d ≤ b := by
      intro e p n t ht hp hn he
      unfold ofPtr at ht
      split at ht
      · injection ht with ht; subst ht
        exact ⟨p.toNat, (p + n).toNat, ⟨by dsimp only; omega, by dsimp only; omega, by omega⟩, he, by omega, by omega⟩
      · cases ht
    cases op with
    | firstT c =>
      simp only [Sub.apply, Span.firstT] at ht
      split at ht
      · exact mk _ _ _ _ ht (by omega) (by omega) (Or.inr rfl)
      · cases ht
    | lastT c =>
      simp only [Sub.apply, Span.lastT] at ht
      split at ht
      · exact mk _ _ _ _ ht (by omega) (by omega) (Or.inr rfl)
      · cases ht
    | first c =>
      simp only [Sub.apply, Span.first] at ht
      split at ht
      · exact mk _ _ _ _ ht (by omega) (by omega) (Or.inl rfl)
      · cases ht
    | last c =>
      simp only [Sub.apply, Span.last] at ht
      split at ht
      · exact mk _ _ _ _ ht (by omega) (by omega) (Or.inl rfl)
      · cases ht
    | subspan o c =>
      simp only [Sub.apply, Span.subspan] at ht
      split at ht
      · split at ht
        · exact mk _ _ _ _ ht (by omega) (by omega) (Or.inl rfl)
        · split at ht
          · unfold iadd at ht
            split at ht
            · simp only [bind, Except.bind] at ht
              split at ht
              · exact mk _ _ _ _ ht (by omega) (by omega) (Or.inl rfl)
              · cases ht
            · cases ht
          · cases ht
      · cases ht
    | subspanT o c =>
      simp only [Sub.apply, Span.subspanT] at ht
      split at ht
      · split at ht
        · rename_i hc
          have e : (if s.extent ≠ dynamicExtent then s.extent - o else s.size - o) = s.size - o := by
            rcases hz with hz | hz
            · rw [if_neg (by simp [hz])]
            · rw [hz]; simp
          rw [e] at ht
          exact mk _ _ _ _ ht (by omega) (by omega) (Or.inl hc)
        · split at ht
          · unfold iadd at ht
            split at ht
            · simp only [bind, Except.bind] at ht
              split at ht
              · exact mk _ _ _ _ ht (by omega) (by omega) (Or.inr rfl)
              · cases ht
            · cases ht
          · cases ht
      · cases ht

/-- **C81, the check of `subspan` is violated by large counts**: on every span with an element, an offset of
1 and the greatest count overflow in the check itself, instead of being rejected. -/
theorem C81_overflow_violates {s : Span} (hs : 1 ≤ s.size) :
    s.subspan 1 9223372036854775807 = .error .overflow := by
  unfold Span.subspan iadd dynamicExtent
  rw [if_pos (by omega), if_neg (by omega), if_pos (by omega), if_neg (by omega)]
  rfl

/-- **C81, the size of a span with a fixed extent is violated**: it may be made of fewer elements than its
extent, and `subspan<offset>()` then views cells that do not belong to it. -/
theorem C81_extent_violates (p : Int) {n k : Int} (hk : 0 ≤ k) (hn : k < n) :
    ∃ s r, ofPtr n p k = .ok s ∧ s.subspanT 0 dynamicExtent = .ok r ∧ r.data = s.data ∧ s.size < r.size := by
  refine ⟨⟨n, p, k⟩, ⟨dynamicExtent, p + 0, n - 0⟩, by unfold ofPtr; rw [if_pos hk], ?_, by dsimp only; omega,
    by dsimp only; omega⟩
  unfold Span.subspanT ofPtr
  dsimp only
  rw [if_pos (by omega), if_pos rfl, if_pos (show n ≠ dynamicExtent by unfold dynamicExtent; omega),
    if_pos (by omega)]

/-- A chain over five cells of a block of eight. -/
example : chain ⟨dynamicExtent, 2, 5⟩ [.first 4, .subspan 1 dynamicExtent, .lastT 2] = .ok ⟨2, 4, 2⟩ ∧
    Views ⟨dynamicExtent, 2, 5⟩ 2 7 ∧
    Span.toList [0, 1, 2, 3, 4, 5, 6, 7] ⟨2, 4, 2⟩ = .ok [4, 5] := by
  refine ⟨rfl, ⟨rfl, rfl, by omega⟩, rfl⟩

end Edsp.Props
