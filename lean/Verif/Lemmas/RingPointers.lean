import Verif.Lemmas.RingBuffer
import Verif.Model.RingPointers

/-! Helper lemmas: where the elements of a ring buffer lie. -/

namespace Edsp.RingPointer

open Edsp.RingSpan Edsp.RingBuffer Edsp.Spec

variable {α β : Type}

theorem address_eq {rb : RingBuffer α} {l : List α} (h : Rep rb.span rb.buffer l) (hp : 0 < rb.span.cap) {k : Nat}
    (hk : k ≤ rb.span.size) : address rb k = .ok ((rb.span.front + k) % rb.span.cap) := by
  obtain ⟨hlen, hsmall, hzero, hlt, hle, hsize, hget⟩ := h
  have := hlt hp
  rw [address, atIdx, wadd_eq (by omega), normalize_ok hp]

theorem address_zero {rb : RingBuffer α} {l : List α} (h : Rep rb.span rb.buffer l) (hp : 0 < rb.span.cap) :
    rb.span.atIdx 0 = .ok rb.span.front := by
  have := address_eq h hp (Nat.zero_le _)
  rw [address] at this
  rw [this, Nat.add_zero, Nat.mod_eq_of_lt (h.lt hp)]

theorem array_eq {rb : RingBuffer α} {l : List α} (h : Rep rb.span rb.buffer l)
    (hw : rb.span.front + rb.span.size ≤ rb.span.cap) : (rb.buffer.drop rb.span.front).take rb.span.size = l := by
  obtain ⟨hlen, hsmall, hzero, hlt, hle, hsize, hget⟩ := h
  apply List.ext_getElem?
  intro i
  by_cases hi : i < rb.span.size
  · rw [List.getElem?_take_of_lt hi, List.getElem?_drop, ← hget i hi, Nat.mod_eq_of_lt (by omega)]
  · rw [List.getElem?_eq_none (by simp; omega), List.getElem?_eq_none (by omega)]

theorem input_ok (f : List α → β) {rb : RingBuffer α} {l : List α} (h : Rep rb.span rb.buffer l) (hp : 0 < rb.span.cap)
    (hw : rb.span.front + rb.span.size ≤ rb.span.cap) : input f rb = .ok (f l) := by
  have hl := h.len
  have ha : arrayAt rb.buffer rb.span.front rb.size = .ok l := by
    rw [RingBuffer.size, arrayAt, if_pos (by omega), array_eq h hw]
  simp only [input, address_zero h hp, bind, Except.bind, ha, pure, Except.pure]

theorem input_bad (f : List α → β) {rb : RingBuffer α} {l : List α} (h : Rep rb.span rb.buffer l) (hp : 0 < rb.span.cap)
    (hw : ¬ rb.span.front + rb.span.size ≤ rb.span.cap) : input f rb = .error .outOfBounds := by
  have hl := h.len
  have ha : arrayAt rb.buffer rb.span.front rb.size = .error .outOfBounds := by
    rw [RingBuffer.size, arrayAt, if_neg (by omega)]
  simp only [input, address_zero h hp, bind, Except.bind, ha]

theorem output_ok {rb : RingBuffer α} {d : Deque α} (h : Refines rb d) (hp : 0 < d.cap) {vs : List α}
    (hv : vs.length ≤ d.items.length) (hw : rb.span.front + vs.length ≤ rb.span.cap) :
    ∃ rb', output rb vs = .ok rb' ∧ Refines rb' { d with items := vs ++ d.items.drop vs.length } := by
  have hp' : 0 < rb.span.cap := by rw [h.2]; exact hp
  have h0 := address_zero h.1 hp'
  obtain ⟨⟨hlen, hsmall, hzero, hlt, hle, hsize, hget⟩, hc⟩ := h
  have hf := hlt hp'
  refine ⟨⟨rb.buffer.take rb.span.front ++ vs ++ rb.buffer.drop (rb.span.front + vs.length), rb.span⟩, ?_,
    ⟨?_, hsmall, hzero, hlt, hle, ?_, ?_⟩, hc⟩
  · simp only [output, h0, bind, Except.bind]
    rw [if_pos (by omega)]
    rfl
  · show (rb.buffer.take rb.span.front ++ vs ++ rb.buffer.drop (rb.span.front + vs.length)).length = rb.span.cap
    simp only [List.length_append, List.length_take, List.length_drop]
    omega
  · show (vs ++ d.items.drop vs.length).length = rb.span.size
    simp only [List.length_append, List.length_drop]
    omega
  · intro i hi
    replace hi : i < rb.span.size := hi
    show (rb.buffer.take rb.span.front ++ vs ++ rb.buffer.drop (rb.span.front + vs.length))[(rb.span.front + i) % rb.span.cap]? =
      (vs ++ d.items.drop vs.length)[i]?
    have hft : (rb.buffer.take rb.span.front).length = rb.span.front := by simp; omega
    by_cases hiv : i < vs.length
    · rw [Nat.mod_eq_of_lt (by omega), List.append_assoc, List.getElem?_append_right (by omega), hft, Nat.add_sub_cancel_left,
        List.getElem?_append_left hiv, List.getElem?_append_left hiv]
    · rw [List.getElem?_append_right (by omega : vs.length ≤ i), List.getElem?_drop,
        show vs.length + (i - vs.length) = i by omega, ← hget i hi]
      by_cases hr : rb.span.front + i < rb.span.cap
      · rw [Nat.mod_eq_of_lt hr, List.getElem?_append_right (by simp; omega), List.getElem?_drop]
        congr 1
        simp only [List.length_append, hft]
        omega
      · have hm : (rb.span.front + i) % rb.span.cap = rb.span.front + i - rb.span.cap := by
          rw [Nat.mod_eq_sub_mod (by omega), Nat.mod_eq_of_lt (by omega)]
        rw [hm, List.append_assoc, List.getElem?_append_left (by rw [hft]; omega), List.getElem?_take_of_lt (by omega)]

theorem pushBack_span {rb rb' : RingBuffer α} {v : α} (hp : 0 < rb.span.cap) (hs : rb.span.cap < 2 ^ 63)
    (hf : rb.span.front < rb.span.cap) (hle : rb.span.size ≤ rb.span.cap) (h : rb.pushBack v = .ok rb') :
    rb'.span = if rb.span.size = rb.span.cap then { rb.span with front := (rb.span.front + 1) % rb.span.cap }
      else { rb.span with size := rb.span.size + 1 } := by
  by_cases hfull : rb.span.size = rb.span.cap
  · rw [if_pos hfull]
    have hf' : rb.span.full = true := by simp [RingSpan.full, hfull]
    have hi : rb.span.incrementFrontAndBack = .ok { rb.span with front := (rb.span.front + 1) % rb.span.cap } := by
      simp only [incrementFrontAndBack, normalize_ok hp, wadd_eq (show rb.span.front + 1 < 2 ^ 64 by omega), bind, Except.bind,
        pure, Except.pure]
    simp only [RingBuffer.pushBack, RingSpan.pushBack, hf', if_true, hi, bind, Except.bind, pure, Except.pure] at h
    revert h
    cases backIdx { rb.span with front := (rb.span.front + 1) % rb.span.cap } with
    | error e => intro h; cases h
    | ok k =>
      dsimp only
      cases store rb.buffer k v with
      | error e => intro h; cases h
      | ok b => intro h; cases h; rfl
  · rw [if_neg hfull]
    have hf' : rb.span.full = false := by simp [RingSpan.full, hfull]
    have hi : rb.span.incrementBack = { rb.span with size := rb.span.size + 1 } := by
      simp only [incrementBack, wadd_eq (show rb.span.size + 1 < 2 ^ 64 by omega)]
    simp only [RingBuffer.pushBack, RingSpan.pushBack, hf', hi, bind, Except.bind, pure, Except.pure, Bool.false_eq_true,
      if_false] at h
    revert h
    cases backIdx { rb.span with size := rb.span.size + 1 } with
    | error e => intro h; cases h
    | ok k =>
      dsimp only
      cases store rb.buffer k v with
      | error e => intro h; cases h
      | ok b => intro h; cases h; rfl

/-- The span after pushing any number of values. -/
theorem pushes_span (dflt : α) (moved : α → α) (xs : List α) : ∀ {rb rb' : RingBuffer α}, 0 < rb.span.cap →
    rb.span.cap < 2 ^ 63 → rb.span.front < rb.span.cap → rb.span.size ≤ rb.span.cap →
    rb.run dflt moved (xs.map .pushBack) = .ok rb' →
    rb'.span = ⟨min (rb.span.size + xs.length) rb.span.cap, rb.span.cap,
      (rb.span.front + (rb.span.size + xs.length - rb.span.cap)) % rb.span.cap⟩ := by
  induction xs with
  | nil =>
    intro rb rb' hp hs hf hle h
    cases h
    simp only [List.length_nil, Nat.add_zero, Nat.sub_eq_zero_of_le hle, Nat.min_eq_left hle, Nat.mod_eq_of_lt hf]
  | cons v xs ih =>
    intro rb rb' hp hs hf hle h
    simp only [List.map_cons, RingBuffer.run, bind, Except.bind] at h
    split at h
    · cases h
    · rename_i rb1 h1
      have hsp := pushBack_span hp hs hf hle h1
      by_cases hfull : rb.span.size = rb.span.cap
      · rw [if_pos hfull] at hsp
        have := ih (rb := rb1) (by rw [hsp]; exact hp) (by rw [hsp]; exact hs) (by rw [hsp]; exact Nat.mod_lt _ hp)
          (by rw [hsp]; exact hle) h
        rw [this, hsp]
        simp only [List.length_cons, hfull]
        congr 1
        · omega
        · rw [Nat.mod_add_mod]; congr 1; omega
      · rw [if_neg hfull] at hsp
        have := ih (rb := rb1) (by rw [hsp]; exact hp) (by rw [hsp]; exact hs) (by rw [hsp]; exact hf)
          (by rw [hsp]; show rb.span.size + 1 ≤ rb.span.cap; omega) h
        rw [this, hsp]
        simp only [List.length_cons]
        congr 1
        · congr 1; omega
        · congr 2; omega

end Edsp.RingPointer
