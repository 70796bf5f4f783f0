import Verif.Lemmas.StringView

/-!
# C79: searching in a `string_view` finds what the standard says
-/

namespace Edsp.Props

open Edsp.SV Edsp.Spec Edsp.Mem

private theorem usub_one {n : Nat} (h0 : n ≠ 0) (h : n < npos) : usub n 1 = n - 1 := by
  unfold usub npos at *
  omega

/-- **C79, find, apart from one case.** The result is the first position from `pos` on at which the text of
`w` occurs, or `npos` if there is none. Missing: an empty text searched at the very end. -/
theorem C79_find_partial {v w : View} (hv : v.Valid) (hw : w.Valid) (pos : Nat)
    (hc : ¬ (w.size = 0 ∧ pos = v.size)) :
    ∃ r, v.find w pos = .ok r ∧ IsFirst (OccursAt v.text w.text) pos npos r := by
  have hn := hv.2
  unfold View.find
  by_cases hp : pos ≥ v.size
  · rw [if_pos hp]
    refine ⟨npos, rfl, Or.inl ⟨rfl, fun i hi ho => ?_⟩⟩
    obtain ⟨h1, h2⟩ := ho
    rw [hv.length] at h1
    have h3 := h2.length_le
    rw [List.length_drop, hv.length, hw.length] at h3
    omega
  · rw [if_neg hp]
    obtain ⟨r, hr, q1, q2, q3, q4⟩ := search_spec (h := v.mem) (first := v.data + pos)
      (last := v.data + v.size) hv.1 (by omega) hw
    simp only [bind, Except.bind, hr]
    refine ⟨_, rfl, ?_⟩
    unfold View.toPos
    by_cases e : r = v.data + v.size
    · rw [if_pos e]
      refine Or.inl ⟨rfl, fun i hi ho => ?_⟩
      obtain ⟨h1, h2⟩ := (occursAt_iff hv _ _).mp ho
      by_cases e2 : i = v.size
      · subst e2
        rw [seg_self, List.prefix_nil] at h2
        exact q3 (v.data + pos) (by omega) (by omega) (by rw [h2]; exact List.nil_prefix)
      · exact q3 (v.data + i) (by omega) (by omega) h2
    · rw [if_neg e]
      refine Or.inr ⟨by omega, by omega, (occursAt_iff hv _ _).mpr ⟨by omega, ?_⟩, fun i hi hir ho => ?_⟩
      · rw [show v.data + (r - v.data) = r by omega]; exact q4 (by omega)
      · exact q3 (v.data + i) (by omega) (by omega) ((occursAt_iff hv _ _).mp ho).2

/-- **C79, find, is violated by an empty text at the end**: it occurs there, but is not found. In
particular an empty view does not find itself. -/
theorem C79_find_violates {v w : View} (hv : v.Valid) (hw : w.size = 0) :
    v.find w v.size = .ok npos ∧ ¬ IsFirst (OccursAt v.text w.text) v.size npos npos := by
  refine ⟨by unfold View.find; rw [if_pos (Nat.le_refl _)], ?_⟩
  have ht : w.text = [] := by unfold View.text; rw [hw]; exact seg_self _ _
  rintro (⟨-, h⟩ | ⟨h, -⟩)
  · refine h v.size (Nat.le_refl _) ⟨by rw [hv.length]; exact Nat.le_refl _, ?_⟩
    rw [ht]; exact List.nil_prefix
  · exact h rfl

/-- **C79, rfind.** The result is the last position up to `pos` at which the text of `w` occurs, or `npos`
if there is none. -/
theorem C79_rfind {v w : View} (hv : v.Valid) (hw : w.Valid) (pos : Nat) :
    ∃ r, v.rfind w pos = .ok r ∧ IsLast (OccursAt v.text w.text) pos npos r := by
  have hn := hv.2
  have hlen : ∀ i, OccursAt v.text w.text i → i + w.size ≤ v.size := by
    rintro i ⟨h1, h2⟩
    have h3 := h2.length_le
    rw [List.length_drop, hv.length, hw.length] at h3
    rw [hv.length] at h1
    omega
  unfold View.rfind
  by_cases h1 : v.size < w.size
  · rw [if_pos h1]
    exact ⟨npos, rfl, Or.inl ⟨rfl, fun i _ ho => by have := hlen i ho; omega⟩⟩
  rw [if_neg h1]
  by_cases h2 : w.size = 0
  · rw [if_pos h2]
    have ht : w.text = [] := by unfold View.text; rw [h2]; exact seg_self _ _
    refine ⟨_, rfl, Or.inr ⟨by omega, by omega, ⟨by rw [hv.length]; omega, by rw [ht]; exact List.nil_prefix⟩,
      fun i hi hip ho => ?_⟩⟩
    have := hlen i ho
    omega
  rw [if_neg h2]
  obtain ⟨r, hr, q⟩ := findEnd_spec (h := v.mem) (first := v.data)
    (last := v.data + min (v.size - w.size) pos + w.size) (by have := hv.1; omega) (by omega) hw h2
  dsimp only
  simp only [bind, Except.bind, hr]
  refine ⟨_, rfl, ?_⟩
  have hiff : ∀ i, i ≤ min (v.size - w.size) pos →
      (OccursAt v.text w.text i ↔
        w.text <+: seg v.mem (v.data + i) (v.data + min (v.size - w.size) pos + w.size)) := by
    intro i hi
    rw [occursAt_iff hv]
    have e : seg v.mem (v.data + i) (v.data + min (v.size - w.size) pos + w.size) =
        (seg v.mem (v.data + i) (v.data + v.size)).take (min (v.size - w.size) pos + w.size - i) := by
      rw [seg_take]; congr 1; omega
    rw [e, List.prefix_take_iff, hw.length]
    constructor
    · rintro ⟨a, b⟩; exact ⟨b, by omega⟩
    · rintro ⟨a, b⟩; exact ⟨by omega, a⟩
  have hshort : ∀ j, v.data ≤ j → w.text <+: seg v.mem j (v.data + min (v.size - w.size) pos + w.size) →
      j - v.data ≤ min (v.size - w.size) pos := by
    intro j hj hp
    have := hp.length_le
    rw [hw.length, seg_length (by have := hv.1; omega)] at this
    omega
  rcases q with ⟨e, q⟩ | ⟨a, b, c, q⟩
  · rw [if_neg (by simpa using e)]
    refine Or.inl ⟨rfl, fun i hi ho => ?_⟩
    have := hlen i ho
    exact q (v.data + i) (by omega) (by omega) ((hiff i (by omega)).mp ho)
  · rw [if_pos (by omega)]
    have hb := hshort r a c
    refine Or.inr ⟨by omega, by omega, (hiff _ hb).mpr ?_, fun i hi hip ho => ?_⟩
    · rw [show v.data + (r - v.data) = r by omega]; exact c
    · have := hlen i ho
      exact q (v.data + i) (by omega) (by omega) ((hiff i (by omega)).mp ho)

private theorem first_gen {v : View} (hv : v.Valid) (p : Nat → Except Fault Bool) (P : Nat → Prop)
    (hp : ∀ c, ∃ b, p c = .ok b ∧ (b = true ↔ P c)) (pos : Nat) (hpos : pos < v.size) :
    ∃ r, findIfN v.mem p (v.size - pos) (v.data + pos) = .ok r ∧
      IsFirst (fun i => ∃ c, v.text[i]? = some c ∧ P c) pos npos (v.toPos r) := by
  have hn := hv.2
  have hv1 := hv.1
  obtain ⟨r, hr, q1, q2, q3, q4⟩ := findIfN_spec v.mem p P hp (v.size - pos) (v.data + pos) (by omega)
  refine ⟨r, hr, ?_⟩
  have hno : ∀ i, pos ≤ i → v.data + i < r → ¬ ∃ c, v.text[i]? = some c ∧ P c := by
    rintro i hi hir ⟨c, hc, hP⟩
    rw [text_getElem?] at hc
    split at hc
    · exact q3 (v.data + i) (by omega) hir c hc hP
    · cases hc
  unfold View.toPos
  by_cases e : r = v.data + v.size
  · rw [if_pos e]
    refine Or.inl ⟨rfl, fun i hi ho => ?_⟩
    by_cases h : i < v.size
    · exact hno i hi (by omega) ho
    · obtain ⟨c, hc, -⟩ := ho
      rw [text_getElem?, if_neg h] at hc
      cases hc
  · rw [if_neg e]
    obtain ⟨c, hc, hP⟩ := q4 (by omega)
    refine Or.inr ⟨by omega, by omega, ⟨c, ?_, hP⟩, fun i hi hir => hno i hi (by omega)⟩
    rw [text_getElem?, if_pos (by omega), show v.data + (r - v.data) = r by omega]
    exact hc

private theorem last_gen {v : View} (hv : v.Valid) (p : Nat → Except Fault Bool) (P : Nat → Prop)
    (hp : ∀ c, ∃ b, p c = .ok b ∧ (b = true ↔ P c)) (pos : Nat) (hpos : pos < v.size) :
    ∃ r, findIfRevN v.mem p (pos + 1) (v.data + pos + 1) = .ok r ∧
      IsLast (fun i => ∃ c, v.text[i]? = some c ∧ P c) pos npos (v.toPosRev r) := by
  have hn := hv.2
  have hv1 := hv.1
  obtain ⟨r, hr, q1, q2, q3, q4⟩ := findIfRevN_spec v.mem p P hp (pos + 1) (v.data + pos + 1) (by omega)
    (by omega)
  refine ⟨r, hr, ?_⟩
  have hno : ∀ i, i ≤ pos → r ≤ v.data + i → ¬ ∃ c, v.text[i]? = some c ∧ P c := by
    rintro i hi hir ⟨c, hc, hP⟩
    rw [text_getElem?, if_pos (by omega)] at hc
    exact q3 (v.data + i) hir (by omega) c hc hP
  unfold View.toPosRev
  by_cases e : r = v.data
  · rw [if_pos e]
    exact Or.inl ⟨rfl, fun i hi => hno i hi (by omega)⟩
  · rw [if_neg e]
    obtain ⟨c, hc, hP⟩ := q4 (by omega)
    refine Or.inr ⟨by omega, by omega, ⟨c, ?_, hP⟩, fun i hi hip => hno i hip (by omega)⟩
    rw [text_getElem?, if_pos (by omega), show v.data + (r - v.data - 1) = r - 1 by omega]
    exact hc

/-- **C79, find_first_of.** -/
theorem C79_find_first_of {v w : View} (hv : v.Valid) (hw : w.Valid) (pos : Nat) :
    ∃ r, v.findFirstOf w pos = .ok r ∧ IsFirst (InSetAt v.text w.text) pos npos r := by
  unfold View.findFirstOf
  by_cases hp : pos ≥ v.size
  · rw [if_pos hp]
    refine ⟨npos, rfl, Or.inl ⟨rfl, fun i hi => ?_⟩⟩
    rintro ⟨c, hc, -⟩
    rw [text_getElem?, if_neg (by omega)] at hc
    cases hc
  · rw [if_neg hp]
    obtain ⟨r, hr, q⟩ := first_gen hv _ (· ∈ w.text) (any_spec hw) pos (by omega)
    simp only [bind, Except.bind, hr]
    exact ⟨_, rfl, q⟩

private theorem notInView_spec {w : View} (hw : w.Valid) (c : Nat) :
    ∃ b, w.notInView c = .ok b ∧ (b = true ↔ c ∉ w.text) := by
  obtain ⟨r, hr, q⟩ := C79_find_first_of hw (ofChar_valid c) 0
  unfold View.notInView
  simp only [bind, Except.bind, hr]
  refine ⟨_, rfl, ?_⟩
  simp only [decide_eq_true_eq]
  have hmem : ∀ i, InSetAt w.text (ofChar c).text i → c ∈ w.text := by
    rintro i ⟨d, hd, hdc⟩
    rw [ofChar_text, List.mem_singleton] at hdc
    subst hdc
    exact List.mem_of_getElem? hd
  constructor
  · intro e hc
    obtain ⟨i, hi⟩ := List.getElem?_of_mem hc
    rcases q with ⟨-, h⟩ | ⟨h, -⟩
    · exact h i (by omega) ⟨c, hi, by rw [ofChar_text]; simp⟩
    · exact h e.symm
  · intro hc
    rcases q with ⟨h, -⟩ | ⟨-, -, h, -⟩
    · exact h.symm
    · exact absurd (hmem _ h) hc

/-- **C79, find_first_not_of.** -/
theorem C79_find_first_not_of {v w : View} (hv : v.Valid) (hw : w.Valid) (pos : Nat) :
    ∃ r, v.findFirstNotOf w pos = .ok r ∧ IsFirst (NotInSetAt v.text w.text) pos npos r := by
  unfold View.findFirstNotOf
  by_cases hp : pos ≥ v.size
  · rw [if_pos hp]
    refine ⟨npos, rfl, Or.inl ⟨rfl, fun i hi => ?_⟩⟩
    rintro ⟨c, hc, -⟩
    rw [text_getElem?, if_neg (by omega)] at hc
    cases hc
  · rw [if_neg hp]
    obtain ⟨r, hr, q⟩ := first_gen hv _ (· ∉ w.text) (notInView_spec hw) pos (by omega)
    simp only [bind, Except.bind, hr]
    exact ⟨_, rfl, q⟩

private theorem clamp {v : View} {P : Nat → Prop} {pos r : Nat} (hv : v.Valid) (h0 : v.size ≠ 0)
    (hp : pos ≥ v.size)
    (h : IsLast (fun i => ∃ c, v.text[i]? = some c ∧ P c) (v.size - 1) npos r) :
    IsLast (fun i => ∃ c, v.text[i]? = some c ∧ P c) pos npos r := by
  have hout : ∀ i, v.size ≤ i → ¬ ∃ c, v.text[i]? = some c ∧ P c := by
    rintro i hi ⟨c, hc, -⟩
    rw [text_getElem?, if_neg (by omega)] at hc
    cases hc
  rcases h with ⟨a, b⟩ | ⟨a, b, c, d⟩
  · refine Or.inl ⟨a, fun i _ => ?_⟩
    by_cases e : i ≤ v.size - 1
    · exact b i e
    · exact hout i (by omega)
  · refine Or.inr ⟨a, by omega, c, fun i hi _ => ?_⟩
    by_cases e : i ≤ v.size - 1
    · exact d i hi e
    · exact hout i (by omega)

/-- **C79, find_last_of, on a view that is not empty.** One nested call is enough. -/
theorem C79_find_last_of_partial {v w : View} (hv : v.Valid) (hw : w.Valid) (h0 : v.size ≠ 0) (pos calls : Nat) :
    ∃ r, v.findLastOf w (calls + 2) pos = some (.ok r) ∧ IsLast (InSetAt v.text w.text) pos npos r := by
  have main : ∀ calls pos, pos < v.size →
      ∃ r, v.findLastOf w (calls + 1) pos = some (.ok r) ∧ IsLast (InSetAt v.text w.text) pos npos r := by
    intro calls pos hp
    obtain ⟨r, hr, q⟩ := last_gen hv _ (· ∈ w.text) (any_spec hw) pos hp
    rw [View.findLastOf, if_neg (by omega)]
    simp only [bind, Except.bind, hr]
    exact ⟨_, rfl, q⟩
  by_cases hp : pos ≥ v.size
  · obtain ⟨r, hr, q⟩ := main calls (v.size - 1) (by omega)
    refine ⟨r, ?_, clamp hv h0 hp q⟩
    rw [View.findLastOf, if_pos hp, usub_one h0 hv.2, hr]
  · exact main (calls + 1) pos (by omega)

/-- **C79, find_last_not_of, on a view that is not empty.** -/
theorem C79_find_last_not_of_partial {v w : View} (hv : v.Valid) (hw : w.Valid) (h0 : v.size ≠ 0)
    (pos calls : Nat) :
    ∃ r, v.findLastNotOf w (calls + 2) pos = some (.ok r) ∧
      IsLast (NotInSetAt v.text w.text) pos npos r := by
  have main : ∀ calls pos, pos < v.size →
      ∃ r, v.findLastNotOf w (calls + 1) pos = some (.ok r) ∧
        IsLast (NotInSetAt v.text w.text) pos npos r := by
    intro calls pos hp
    obtain ⟨r, hr, q⟩ := last_gen hv _ (· ∉ w.text) (notInView_spec hw) pos hp
    rw [View.findLastNotOf, if_neg (by omega)]
    simp only [bind, Except.bind, hr]
    exact ⟨_, rfl, q⟩
  by_cases hp : pos ≥ v.size
  · obtain ⟨r, hr, q⟩ := main calls (v.size - 1) (by omega)
    refine ⟨r, ?_, clamp hv h0 hp q⟩
    rw [View.findLastNotOf, if_pos hp, usub_one h0 hv.2, hr]
  · exact main (calls + 1) pos (by omega)

/-- **C79, find_last_of and find_last_not_of are violated on an empty view**: instead of returning `npos`
they call themselves without end. -/
theorem C79_find_last_violates {v : View} (w : View) (h0 : v.size = 0) (pos calls : Nat) :
    v.findLastOf w calls pos = none ∧ v.findLastNotOf w calls pos = none := by
  induction calls generalizing pos with
  | zero => exact ⟨rfl, rfl⟩
  | succ n ih =>
    rw [View.findLastOf, View.findLastNotOf, if_pos (by omega), if_pos (by omega)]
    exact ih _

/-- "banana": the views used below refer to characters 1 to 6 of a longer block. -/
private def banana : View := ⟨[120, 98, 97, 110, 97, 110, 97, 120], 1, 6⟩

example : banana.Valid ∧ banana.text = [98, 97, 110, 97, 110, 97] := by
  simp [View.Valid, banana, npos, View.text, seg]

/-- Searching "ana". -/
example : banana.find ⟨[97, 110, 97], 0, 3⟩ 2 = .ok 3 ∧ banana.rfind ⟨[97, 110, 97], 0, 3⟩ npos = .ok 3 ∧
    banana.find ⟨[97, 110, 97], 0, 3⟩ 4 = .ok npos ∧ banana.findFirstNotOf ⟨[97, 98], 0, 2⟩ 0 = .ok 2 := by
  refine ⟨rfl, rfl, rfl, rfl⟩

end Edsp.Props
