import Verif.Model.Memory
import Verif.Spec.Segments
import Mathlib.Data.List.TakeDrop

namespace Edsp.Mem

open Edsp.Spec

variable {α : Type}

theorem seg_length {m : List α} {a b : Nat} (hb : b ≤ m.length) : (seg m a b).length = b - a := by
  unfold seg
  simp only [List.length_take, List.length_drop]
  omega

theorem seg_getElem? (m : List α) (a b i : Nat) :
    (seg m a b)[i]? = if i < b - a then m[a + i]? else none := by
  unfold seg
  rw [List.getElem?_take]
  simp only [List.getElem?_drop]

theorem wrote_iff {m m' : List α} {d : Nat} {vs : List α} :
    Wrote m m' d vs ↔ d + vs.length ≤ m.length ∧ m'.length = m.length ∧
      (∀ i, i < vs.length → m'[d + i]? = vs[i]?) ∧
      (∀ j, j < d ∨ d + vs.length ≤ j → m'[j]? = m[j]?) := by
  unfold Wrote
  constructor
  · rintro ⟨h, rfl⟩
    refine ⟨h, ?_, ?_, ?_⟩
    · simp only [List.length_append, List.length_take, List.length_drop]; omega
    · intro i hi
      rw [List.getElem?_append_left (by simp; omega), List.getElem?_append_right (by simp; omega)]
      congr 1; simp; omega
    · intro j hj
      rcases hj with hj | hj
      · rw [List.getElem?_append_left (by simp; omega), List.getElem?_append_left (by simp; omega),
          List.getElem?_take, if_pos hj]
      · rw [List.getElem?_append_right (by simp; omega), List.getElem?_drop]
        congr 1; simp; omega
  · rintro ⟨h, hl, hin, hout⟩
    refine ⟨h, ?_⟩
    apply List.ext_getElem?
    intro j
    by_cases h1 : j < d
    · rw [hout j (Or.inl h1), List.getElem?_append_left (by simp; omega),
        List.getElem?_append_left (by simp; omega), List.getElem?_take, if_pos h1]
    · by_cases h2 : j < d + vs.length
      · obtain ⟨i, rfl⟩ : ∃ i, j = d + i := ⟨j - d, by omega⟩
        rw [hin i (by omega), List.getElem?_append_left (by simp; omega),
          List.getElem?_append_right (by simp; omega)]
        congr 1; simp; omega
      · rw [hout j (Or.inr (by omega)), List.getElem?_append_right (by simp; omega),
          List.getElem?_drop]
        congr 1; simp; omega

/-- Writing and then continuing one cell further. -/
theorem wrote_cons {m m' : List α} {d : Nat} {v : α} {vs : List α} (hd : d < m.length)
    (h : Wrote (m.set d v) m' (d + 1) vs) : Wrote m m' d (v :: vs) := by
  rw [wrote_iff] at h ⊢
  obtain ⟨h1, h2, h3, h4⟩ := h
  rw [List.length_set] at h1 h2
  refine ⟨by simp; omega, h2, ?_, ?_⟩
  · intro i hi
    cases i with
    | zero =>
      rw [Nat.add_zero, h4 d (Or.inl (by omega)), List.getElem?_set_self hd]; rfl
    | succ i =>
      rw [List.getElem?_cons_succ, ← h3 i (by simpa using hi)]
      congr 1; omega
  · intro j hj
    simp only [List.length_cons] at hj
    rw [h4 j (by omega), List.getElem?_set_ne (by omega)]

theorem wrote_nil (m : List α) {d : Nat} (hd : d ≤ m.length) : Wrote m m d [] := by
  refine ⟨by simpa using hd, ?_⟩
  simp

theorem distance_ok {a b : Nat} (h : a ≤ b) : distance a b = .ok (b - a) := by
  unfold distance; rw [if_pos h]

theorem read_ok {m : List α} {p : Nat} {v : α} (h : m[p]? = some v) : read m p = .ok v := by
  unfold read; rw [h]

theorem write_ok {m : List α} {p : Nat} (h : p < m.length) (v : α) : write m p v = .ok (m.set p v) := by
  unfold write; rw [if_pos h]

theorem seg_set_of_out {m : List α} {a b d : Nat} (v : α) (h : d < a ∨ b ≤ d) :
    seg (m.set d v) a b = seg m a b := by
  apply List.ext_getElem?
  intro i
  rw [seg_getElem?, seg_getElem?]
  split
  · rw [List.getElem?_set_ne (by omega)]
  · rfl

theorem seg_cons {m : List α} {a n : Nat} {v : α} (h : m[a]? = some v) :
    seg m a (a + (n + 1)) = v :: seg m (a + 1) (a + 1 + n) := by
  apply List.ext_getElem?
  intro i
  cases i with
  | zero => rw [seg_getElem?, if_pos (by omega), Nat.add_zero, h]; rfl
  | succ i =>
    rw [seg_getElem?, List.getElem?_cons_succ, seg_getElem?]
    by_cases hi : i < n
    · rw [if_pos (by omega), if_pos (by omega)]; congr 1; omega
    · rw [if_neg (by omega), if_neg (by omega)]

theorem transformN_ok (f : α → α) : ∀ (n : Nat) (m : List α) (s d : Nat), s + n ≤ m.length →
    d + n ≤ m.length → (d ≤ s ∨ s + n ≤ d) →
    ∃ m', transformN f n m s d = .ok m' ∧ Wrote m m' d ((seg m s (s + n)).map f)
  | 0, m, s, d, _, hd, _ => by
    refine ⟨m, rfl, ?_⟩
    have : seg m s (s + 0) = [] := by unfold seg; simp
    rw [this]
    exact wrote_nil m (by omega)
  | n + 1, m, s, d, hs, hd, ho => by
    have hv : m[s]? = some (m[s]'(by omega)) := List.getElem?_eq_getElem _
    obtain ⟨m', h1, h2⟩ := transformN_ok f n (m.set d (f (m[s]'(by omega)))) (s + 1) (d + 1)
      (by rw [List.length_set]; omega) (by rw [List.length_set]; omega) (by omega)
    refine ⟨m', ?_, ?_⟩
    · simp only [transformN, bind, Except.bind]
      rw [read_ok hv]
      simp only []
      rw [write_ok (by omega)]
      exact h1
    · rw [seg_cons hv, List.map_cons]
      refine wrote_cons (by omega) ?_
      rwa [seg_set_of_out _ (by omega)] at h2

/-- A range is walked from an earlier or equal place, or the ranges are disjoint. -/
theorem transform_ok (f : α → α) {m : List α} {a b d : Nat} (hab : a ≤ b) (hb : b ≤ m.length)
    (hd : d + (b - a) ≤ m.length) (ho : d ≤ a ∨ b ≤ d) :
    ∃ m', transform f m a b d = .ok m' ∧ Wrote m m' d ((seg m a b).map f) := by
  obtain ⟨m', h1, h2⟩ := transformN_ok f (b - a) m a d (by omega) hd (by omega)
  refine ⟨m', ?_, ?_⟩
  · unfold transform
    rw [distance_ok hab]
    exact h1
  · rwa [show a + (b - a) = b by omega] at h2

theorem transformN_fault (f : α → α) : ∀ (n : Nat) (m : List α) (s d : Nat), 
    m.length < d + n → d ≤ m.length → transformN f n m s d = .error .outOfBounds
  | 0, m, s, d, h, h' => by omega
  | n + 1, m, s, d, h, h' => by
    simp only [transformN, bind, Except.bind]
    cases hr : read m s with
    | error e =>
      unfold read at hr
      split at hr <;> simp_all
    | ok v =>
      simp only []
      unfold write
      by_cases hd : d < m.length
      · rw [if_pos hd]
        exact transformN_fault f n _ _ _ (by rw [List.length_set]; omega) (by rw [List.length_set]; omega)
      · rw [if_neg hd]

theorem copy_ok {m : List α} {a b d : Nat} (hab : a ≤ b) (hb : b ≤ m.length)
    (hd : d + (b - a) ≤ m.length) (ho : d ≤ a ∨ b ≤ d) :
    ∃ m', copy m a b d = .ok m' ∧ Wrote m m' d (seg m a b) := by
  obtain ⟨m', h1, h2⟩ := transform_ok id hab hb hd ho
  rw [List.map_id] at h2
  exact ⟨m', h1, h2⟩

theorem fillN_ok (v : α) : ∀ (n : Nat) (m : List α) (d : Nat), d + n ≤ m.length →
    ∃ m', fillN v n m d = .ok m' ∧ Wrote m m' d (List.replicate n v)
  | 0, m, d, h => ⟨m, rfl, wrote_nil m (by omega)⟩
  | n + 1, m, d, h => by
    obtain ⟨m', h1, h2⟩ := fillN_ok v n (m.set d v) (d + 1) (by rw [List.length_set]; omega)
    refine ⟨m', ?_, wrote_cons (by omega) h2⟩
    simp only [fillN, bind, Except.bind]
    rw [write_ok (by omega)]
    exact h1

theorem fill_ok (v : α) {m : List α} {a b : Nat} (hab : a ≤ b) (hb : b ≤ m.length) :
    ∃ m', fill v m a b = .ok m' ∧ Wrote m m' a (List.replicate (b - a) v) := by
  obtain ⟨m', h1, h2⟩ := fillN_ok v (b - a) m a (by omega)
  refine ⟨m', ?_, h2⟩
  unfold fill
  rw [distance_ok hab]
  exact h1

theorem readRange_ok {m : List α} {a b : Nat} (hab : a ≤ b) (hb : b ≤ m.length) :
    readRange m a b = .ok (seg m a b) := by
  unfold readRange
  rw [distance_ok hab]
  simp only [bind, Except.bind]
  rw [if_pos hb]
  rfl

/-- Two consecutive stores make one. -/
theorem wrote_append {m m1 m2 : List α} {d : Nat} {xs ys : List α} (h1 : Wrote m m1 d xs)
    (h2 : Wrote m1 m2 (d + xs.length) ys) : Wrote m m2 d (xs ++ ys) := by
  rw [wrote_iff] at *
  obtain ⟨a1, a2, a3, a4⟩ := h1
  obtain ⟨b1, b2, b3, b4⟩ := h2
  refine ⟨by simp; omega, by omega, ?_, ?_⟩
  · intro i hi
    by_cases h : i < xs.length
    · rw [b4 _ (by omega), a3 i h, List.getElem?_append_left h]
    · rw [List.getElem?_append_right (by omega), ← b3 (i - xs.length) (by simp at hi; omega)]
      congr 1; omega
  · intro j hj
    simp only [List.length_append] at hj
    rw [b4 j (by omega), a4 j (by omega)]

theorem wrote_seg {m m' : List α} {d : Nat} {vs : List α} (h : Wrote m m' d vs) :
    seg m' d (d + vs.length) = vs := by
  rw [wrote_iff] at h
  apply List.ext_getElem?
  intro i
  rw [seg_getElem?]
  split
  · exact h.2.2.1 i (by omega)
  · rw [List.getElem?_eq_none (by omega)]

theorem wrote_seg_out {m m' : List α} {d : Nat} {vs : List α} (h : Wrote m m' d vs) {a b : Nat}
    (ho : b ≤ d ∨ d + vs.length ≤ a) : seg m' a b = seg m a b := by
  rw [wrote_iff] at h
  apply List.ext_getElem?
  intro i
  rw [seg_getElem?, seg_getElem?]
  split
  · rw [h.2.2.2 _ (by omega)]
  · rfl

theorem wrote_unique {m m1 m2 : List α} {d : Nat} {vs : List α} (h1 : Wrote m m1 d vs)
    (h2 : Wrote m m2 d vs) : m1 = m2 := h1.2.trans h2.2.symm

theorem wrote_self {m : List α} {d : Nat} {e : Nat} (hde : d ≤ e) (he : e ≤ m.length) :
    Wrote m m d (seg m d e) := by
  rw [wrote_iff, seg_length he]
  refine ⟨by omega, rfl, ?_, fun _ _ => rfl⟩
  intro i hi
  rw [seg_getElem?, if_pos hi]

theorem wrote_length {m m' : List α} {d : Nat} {vs : List α} (h : Wrote m m' d vs) :
    m'.length = m.length := (wrote_iff.mp h).2.1

end Edsp.Mem
