import Verif.Model.Strings
import Verif.Spec.Strings
import Mathlib.Data.List.TakeWhile

/-!
# C27: splitting and joining strings
-/

namespace Edsp.C27
open Edsp.Str

/-- `getline` on a non-empty stream cuts off the first piece of `splitOn`. -/
theorem getline_none (d : Int) (s : List Int) : getline d s = none ↔ s = [] := by
  cases s with
  | nil => simp [getline]
  | cons c cs =>
    simp only [getline]
    split
    · simp
    · split <;> simp

theorem getline_splitOn (d : Int) (s seg rest : List Int) (h : getline d s = some (seg, rest)) :
    s.splitOn d = seg :: rest.splitOn d ∨ (s.splitOn d = [seg] ∧ rest = []) := by
  induction s generalizing seg rest with
  | nil => simp [getline] at h
  | cons c cs ih =>
    simp only [getline] at h
    rw [List.splitOn_cons_eq_if_modifyHead]
    split at h
    · rename_i hc
      simp only [Option.some.injEq, Prod.mk.injEq] at h
      left; simp [hc, ← h.1, ← h.2]
    · rename_i hc
      split at h
      · rename_i hg
        simp only [Option.some.injEq, Prod.mk.injEq] at h
        rw [getline_none] at hg
        right; simp [hc, hg, ← h.1, ← h.2]
      · rename_i seg' rest' hg
        simp only [Option.some.injEq, Prod.mk.injEq] at h
        rcases ih _ _ hg with h1 | ⟨h1, h2⟩
        · left; simp [hc, h1, ← h.1, ← h.2]
        · right; simp [hc, h1, ← h.1, ← h.2, h2]

/-- **C27 (what split returns).**  `split` returns the segments between the delimiters, in order, with
the empty ones dropped. -/
theorem C27_split (s : List Int) (d : Int) : split s d = (s.splitOn d).filter (fun p => p ≠ []) := by
  induction hn : s.length using Nat.strongRecOn generalizing s with
  | _ n ih =>
    rw [split]
    split
    · rename_i hg
      rw [getline_none] at hg
      simp [hg]
    · rename_i seg rest hg
      have ih' := ih rest.length (hn ▸ getline_lt d s seg rest hg) rest rfl
      rcases getline_splitOn d s seg rest hg with h1 | ⟨h1, h2⟩
      · rw [h1, List.filter_cons, ih']
        by_cases hs : seg = [] <;> simp [hs]
      · rw [h1, ih', h2]
        by_cases hs : seg = [] <;> simp [hs]

example : split [32, 97, 32, 32, 98, 99, 32] 32 = [[97], [98, 99]] := by rw [C27_split]; decide

/-- Flattening the segments gives the string without its delimiters. -/
theorem flatten_splitOn (s : List Int) (d : Int) : (s.splitOn d).flatten = s.filter (fun c => c ≠ d) := by
  induction s with
  | nil => simp
  | cons c cs ih =>
    rw [List.splitOn_cons_eq_if_modifyHead]
    by_cases hc : c = d
    · simp [hc, ih]
    · have hne := List.splitOn_ne_nil d cs
      generalize List.splitOn d cs = ls at *
      cases ls <;> simp_all

theorem mem_splitOn (s : List Int) (d : Int) (p : List Int) (h : p ∈ s.splitOn d) : d ∉ p := by
  induction s generalizing p with
  | nil => simp_all
  | cons c cs ih =>
    rw [List.splitOn_cons_eq_if_modifyHead] at h
    by_cases hc : c = d
    · simp only [hc, beq_self_eq_true, if_true, List.mem_cons] at h
      rcases h with h | h
      · simp [h]
      · exact ih p h
    · have hne := List.splitOn_ne_nil d cs
      generalize List.splitOn d cs = ls at *
      cases ls with
      | nil => simp_all
      | cons q qs =>
        simp only [beq_iff_eq, hc, if_false, List.modifyHead_cons, List.mem_cons] at h
        rcases h with h | h
        · rw [h]
          have := ih q (by simp)
          simp [this, Ne.symm hc]
        · exact ih p (by simp [h])

theorem flatten_filter_ne_nil (ls : List (List Int)) : (ls.filter (fun p => p ≠ [])).flatten = ls.flatten := by
  induction ls with
  | nil => rfl
  | cons p ps ih => by_cases hp : p = [] <;> simp_all

/-- **C27 (pieces).**  No piece is empty or contains the delimiter, and the pieces hold all other
characters of the string in order: nothing but delimiters is lost. -/
theorem C27_split_pieces (s : List Int) (d : Int) :
    (∀ p ∈ split s d, p ≠ [] ∧ d ∉ p) ∧ (split s d).flatten = s.filter (fun c => c ≠ d) := by
  rw [C27_split]
  refine ⟨fun p hp => ?_, ?_⟩
  · rw [List.mem_filter] at hp
    exact ⟨by simpa using hp.2, mem_splitOn s d p hp.1⟩
  · rw [flatten_filter_ne_nil, flatten_splitOn]

theorem joinStream_eq (d : Int) (ps : List (List Int)) : joinStream d ps = [d].intercalate ps := by
  induction ps with
  | nil => rfl
  | cons p qs ih =>
    cases qs with
    | nil => simp [joinStream]
    | cons q qs => rw [joinStream, ih]; simp [List.intercalate]

theorem takeWhile_self (s : List Int) (h : (0 : Int) ∉ s) : s.takeWhile (· ≠ 0) = s := by
  rw [List.takeWhile_eq_self_iff]
  intro a ha
  simp only [decide_not, Bool.not_eq_eq_eq_not, Bool.not_true, decide_eq_false_iff_not]
  exact fun h0 => h (h0 ▸ ha)

theorem mem_intercalate (d : Int) (ps : List (List Int)) (c : Int) (h : c ∈ [d].intercalate ps) :
    c = d ∨ ∃ p ∈ ps, c ∈ p := by
  rw [← joinStream_eq] at h
  induction ps with
  | nil => simp [joinStream] at h
  | cons p qs ih =>
    cases qs with
    | nil => right; exact ⟨p, by simp, by simpa [joinStream] using h⟩
    | cons q qs =>
      rw [joinStream, List.mem_append, List.mem_append] at h
      rcases h with (h | h) | h
      · exact .inr ⟨p, by simp, h⟩
      · exact .inl (by simpa using h)
      · rcases ih h with h | ⟨p', hp', hc⟩
        · exact .inl h
        · exact .inr ⟨p', List.mem_cons_of_mem _ hp', hc⟩

/-- **C27 (what join returns).**  For pieces and a delimiter without NUL characters `join` returns the
pieces with one delimiter between neighbours.  Missing for the full claim: strings with NUL characters,
which `join` cuts off (`C27_join_violates`). -/
theorem C27_join_partial (ps : List (List Int)) (d : Int) (hd : d ≠ 0) (h0 : ∀ p ∈ ps, (0 : Int) ∉ p) :
    join ps d = [d].intercalate ps := by
  rw [join, joinStream_eq]
  apply takeWhile_self
  intro hm
  rcases mem_intercalate d ps 0 hm with h | ⟨p, hp, hc⟩
  · exact hd h.symm
  · exact h0 p hp hc

example : join [[97, 98], [], [99]] 44 = [97, 98, 44, 44, 99] := by decide

/-- **C27 (join then split).**  Joining non-empty delimiter-free pieces and splitting the result gives
the pieces back (NUL-free strings). -/
theorem C27_join_split_partial (ps : List (List Int)) (d : Int) (hd : d ≠ 0)
    (hp : ∀ p ∈ ps, p ≠ [] ∧ d ∉ p ∧ (0 : Int) ∉ p) : split (join ps d) d = ps := by
  rw [C27_join_partial ps d hd (fun p h => (hp p h).2.2), C27_split]
  by_cases hps : ps = []
  · subst hps; simp
  · rw [List.splitOn_intercalate d (fun l h => (hp l h).2.1) hps, List.filter_eq_self]
    intro p h
    simpa using (hp p h).1

example : split (join [[97, 98], [99]] 32) 32 = [[97, 98], [99]] :=
  C27_join_split_partial _ _ (by decide) (by decide)

/-- **C27 (split, join, split).**  Joining the pieces of a NUL-free string and splitting again gives the
same pieces: exactly the empty segments are lost. -/
theorem C27_split_join_split_partial (s : List Int) (d : Int) (hd : d ≠ 0) (h0 : (0 : Int) ∉ s) :
    split (join (split s d) d) d = split s d := by
  apply C27_join_split_partial _ _ hd
  intro p hp
  obtain ⟨h1, h2⟩ := C27_split_pieces s d
  refine ⟨(h1 p hp).1, (h1 p hp).2, fun h => h0 ?_⟩
  have : (0 : Int) ∈ (split s d).flatten := List.mem_flatten.2 ⟨p, hp, h⟩
  rw [h2] at this
  exact (List.mem_filter.1 this).1

example : (0 : Int) ∉ [32, 97, 32, 32, 98] := by decide

/-- **C27 (NUL characters violate the round trip).**  Whenever a piece holds a NUL character, joining
cuts the text off there: the joined text never contains a NUL. -/
theorem C27_join_violates :
    (∀ (ps : List (List Int)) (d : Int), (0 : Int) ∉ join ps d) ∧
    ∃ (ps : List (List Int)) (d : Int), (∀ p ∈ ps, p ≠ [] ∧ d ∉ p) ∧ split (join ps d) d ≠ ps := by
  refine ⟨fun ps d h => ?_, [[97], [98, 0, 99], [100]], 32, by decide, ?_⟩
  · have := List.mem_takeWhile_imp h
    simp at this
  · rw [C27_split]; decide

end Edsp.C27
