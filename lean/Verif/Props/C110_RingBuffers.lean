import Verif.Lemmas.RingBuffers

/-!
# C110: ring buffers that are moved, assigned and destroyed

Full statement: in every program, whatever is done to a ring buffer changes no other one; a buffer that was moved from is a
buffer, too, that may be used.  That is false of the code; it holds for programs that give a buffer new contents (or a new
size) before using it again after a move.
-/

namespace Edsp.C110

open Edsp.Spec Edsp.RingBuffers

variable {α : Type}

/-- **C110, part.** In every careful program with any number of ring buffers, every buffer shows the deque of its
variable, untouched by what is done to the others, and a program fails exactly if its specification does. -/
theorem C110_values_partial (dflt : α) (moved : α → α) (as : List (Act α)) (hc : Slots.Careful Slots.empty as) :
    match World.empty.run dflt moved as, Slots.run Slots.empty as with
    | .ok w, .ok v => ∀ i q, v i = .holds q → w.view i >>= observe = .ok q.observe
    | .error f, .error g => f = g
    | _, _ => False := by
  have h := run_related dflt moved as (inv_empty (α := α)) hc
  revert h
  cases World.empty.run dflt moved as <;> cases Slots.run Slots.empty as <;> intro h
  · exact h
  · exact h.elim
  · exact h.elim
  · exact fun i q hv => view_holds h hv

/-- **C110, part.** A careful program leaks nothing: when no variable is alive, no block is. -/
theorem C110_no_leak_partial (dflt : α) (moved : α → α) (as : List (Act α)) (hc : Slots.Careful Slots.empty as)
    {w : World α} (hw : World.empty.run dflt moved as = .ok w) {v : Nat → Slot α}
    (hv : Slots.run Slots.empty as = .ok v) (hd : ∀ i, v i = .dead) (k : Nat) : w.mem k = none := by
  have h := run_related dflt moved as (inv_empty (α := α)) hc
  rw [hw, hv] at h
  by_contra hk
  obtain ⟨i, o, ho, -⟩ := Inv.owned h k hk
  have := Inv.alive h i o ho
  rw [hd i] at this
  exact this

/-- A careful program: make, fill, move, resize what was moved from, fill it, swap by moves. -/
example : Slots.Careful (Slots.empty : Nat → Slot Nat)
    [.construct 0 2, .call 0 (.pushBack 1), .moveConstruct 1 0, .call 0 (.resize 3), .call 0 (.pushBack 5),
      .moveConstruct 2 0, .moveAssign 0 1, .moveAssign 1 2, .destroy 2, .call 1 (.pushBack 6)] := by
  simp [Slots.Careful, Slots.Allowed, Slots.step, Slots.empty, put, SmallOp, Deque.step, Deque.pushBack, bind, Except.bind,
    pure, Except.pure]

example : (World.empty.run 0 id
    [.construct 0 2, .call 0 (.pushBack 1), .moveConstruct 1 0, .call 0 (.resize 3), .call 0 (.pushBack 5),
      .moveConstruct 2 0, .moveAssign 0 1, .moveAssign 1 2, .destroy 2, .call 1 (.pushBack 6)] >>=
      fun w => w.view 1 >>= fun rb => rb.forward) = .ok [5, 6] := by decide

/-- The world after a careful program is related to its specification. -/
theorem after {dflt : α} {moved : α → α} {as : List (Act α)} (hc : Slots.Careful Slots.empty as) {v : Nat → Slot α}
    (hv : Slots.run Slots.empty as = .ok v) : ∃ w, World.empty.run dflt moved as = .ok w ∧ Inv w v := by
  have h := run_related dflt moved as (inv_empty (α := α)) hc
  rw [hv] at h
  cases hw : World.empty.run dflt moved as with
  | error e => rw [hw] at h; exact h.elim
  | ok w => rw [hw] at h; exact ⟨w, rfl, h⟩

theorem run_append (dflt : α) (moved : α → α) (as bs : List (Act α)) (w : World α) :
    w.run dflt moved (as ++ bs) = w.run dflt moved as >>= fun w' => w'.run dflt moved bs := by
  induction as generalizing w with
  | nil => rfl
  | cons a as ih =>
    simp only [List.cons_append, World.run, bind, Except.bind] at ih ⊢
    cases w.step dflt moved a with
    | error e => rfl
    | ok w' => exact ih w'

/-- **C110 is violated** by a buffer that was moved from: after any careful program, when a full buffer is moved and then
pushed to, the value turns up in the destination, in place of its first element. -/
theorem C110_moved_from_violates (dflt : α) (moved : α → α) {as : List (Act α)} (hc : Slots.Careful Slots.empty as)
    {v : Nat → Slot α} (hv : Slots.run Slots.empty as = .ok v) {s d : Nat} (hd : v d = .dead) {q : Deque α}
    (hs : v s = .holds q) (hq : 0 < q.cap) (hf : q.items.length = q.cap) (x : α) :
    ∃ w, World.empty.run dflt moved (as ++ [.moveConstruct d s, .call s (.pushBack x)]) = .ok w ∧
      (w.view d >>= fun rb => rb.forward) = .ok (x :: q.items.tail) := by
  obtain ⟨w, hw, hi⟩ := after (dflt := dflt) (moved := moved) hc hv
  obtain ⟨o, ho⟩ := hi.get (i := s) (by rw [hs]; simp)
  have hsh := hi.alive s o ho
  rw [hs] at hsh
  obtain ⟨hb, b, hm, hr, hcap⟩ := hsh
  have hdn := hi.none hd
  have ne : d ≠ s := by rintro rfl; rw [hdn] at ho; cases ho
  have hlt := hi.fresh ho
  have hcap' : o.span.cap = q.cap := hcap
  obtain ⟨r', b', hp, hrep⟩ := alias_push (r := o.span) hr (by omega) (by omega) x
  rw [run_append, hw]
  simp only [bind, Except.bind, World.run, World.step, World.moveConstruct, hdn, ho, World.onSpan, World.handOver,
    put_other _ _ (Ne.symm ne), put_same, hb, put_other _ _ (Nat.ne_of_lt hlt), hm, RingBuffer.step, RingBuffer.pushBack,
    hp, pure, Except.pure]
  refine ⟨_, rfl, ?_⟩
  simp only [World.view, put_other _ _ ne, put_same, hb]
  exact RingSpan.forward_rep hrep

example : (World.empty.run 0 id [.construct 0 2, .call 0 (.pushBack 1), .call 0 (.pushBack 2), .moveConstruct 1 0,
    .call 0 (.pushBack 7)] >>= fun w => w.view 1 >>= fun rb => rb.forward) = .ok [7, 2] := by decide

/-- **C110 is violated** by a buffer that was moved from: it still claims to have its elements, and reading them when the
destination is gone is an access to memory given back. -/
theorem C110_dangling_violates (dflt : α) (moved : α → α) {as : List (Act α)} (hc : Slots.Careful Slots.empty as)
    {v : Nat → Slot α} (hv : Slots.run Slots.empty as = .ok v) {s d : Nat} (hd : v d = .dead) {q : Deque α}
    (hs : v s = .holds q) :
    ∃ w, World.empty.run dflt moved (as ++ [.moveConstruct d s, .destroy d]) = .ok w ∧
      w.view s = .error .dangling := by
  obtain ⟨w, hw, hi⟩ := after (dflt := dflt) (moved := moved) hc hv
  obtain ⟨o, ho⟩ := hi.get (i := s) (by rw [hs]; simp)
  have hsh := hi.alive s o ho
  rw [hs] at hsh
  obtain ⟨hb, b, hm, -⟩ := hsh
  have hdn := hi.none hd
  have ne : d ≠ s := by rintro rfl; rw [hdn] at ho; cases ho
  have hlt := hi.fresh ho
  rw [run_append, hw]
  simp only [bind, Except.bind, World.run, World.step, World.moveConstruct, hdn, ho, World.destroy, World.free,
    World.handOver, put_same, put_other _ _ (Nat.ne_of_lt hlt), hm, pure, Except.pure]
  refine ⟨_, rfl, ?_⟩
  simp only [World.view, put_other _ _ (Ne.symm ne), put_same, hb]

/-- **C110 is violated** by `x = std::move(x)`: the elements are given back, and the span still points at them. -/
theorem C110_self_violates (dflt : α) (moved : α → α) {as : List (Act α)} (hc : Slots.Careful Slots.empty as)
    {v : Nat → Slot α} (hv : Slots.run Slots.empty as = .ok v) {s : Nat} {q : Deque α} (hs : v s = .holds q) :
    ∃ w, World.empty.run dflt moved (as ++ [.moveAssign s s]) = .ok w ∧ w.view s = .error .dangling := by
  obtain ⟨w, hw, hi⟩ := after (dflt := dflt) (moved := moved) hc hv
  obtain ⟨o, ho⟩ := hi.get (i := s) (by rw [hs]; simp)
  have hsh := hi.alive s o ho
  rw [hs] at hsh
  obtain ⟨hb, b, hm, -⟩ := hsh
  have hlt := hi.fresh ho
  rw [run_append, hw]
  simp only [bind, Except.bind, World.run, World.step, World.moveAssign, ho, World.free, hm, pure, Except.pure, if_true]
  refine ⟨_, rfl, ?_⟩
  simp only [World.view, put_same, hb, put_other _ _ (Nat.ne_of_lt hlt)]

/-- **C110 is violated** by `clear()`: a buffer that was moved from and cleared has no room for an element, whatever
capacity it had: `push_back` divides by zero. -/
theorem C110_clear_violates (dflt : α) (moved : α → α) {as : List (Act α)} (hc : Slots.Careful Slots.empty as)
    {v : Nat → Slot α} (hv : Slots.run Slots.empty as = .ok v) {s d : Nat} (hd : v d = .dead) {q : Deque α}
    (hs : v s = .holds q) (x : α) :
    World.empty.run dflt moved (as ++ [.moveConstruct d s, .call s .clear, .call s (.pushBack x)]) = .error .divByZero := by
  obtain ⟨w, hw, hi⟩ := after (dflt := dflt) (moved := moved) hc hv
  have hsd : s ≠ d := by rintro rfl; rw [hd] at hs; cases hs
  have hcar : Slots.Careful v [.moveConstruct d s, .call s .clear, .call s (.pushBack x)] := by
    refine ⟨⟨hd, q, hs⟩, fun v1 h1 => ?_⟩
    cases h1
    refine ⟨⟨trivial, Or.inr ⟨by rw [put_other _ _ hsd, put_same], Or.inl rfl⟩⟩, fun v2 h2 => ?_⟩
    cases h2
    exact ⟨⟨trivial, Or.inl ⟨_, put_same _ _ _⟩⟩, fun _ _ => trivial⟩
  have h := run_related dflt moved _ hi hcar
  have hsp : Slots.run v [.moveConstruct d s, .call s .clear, .call s (.pushBack x)] = .error .divByZero := by
    simp only [Slots.run, Slots.step, bind, Except.bind, put_other _ _ hsd, put_same, Deque.step, pure, Except.pure,
      Deque.pushBack, if_true]
  rw [hsp] at h
  rw [run_append, hw]
  simp only [bind, Except.bind]
  revert h
  cases w.run dflt moved [.moveConstruct d s, .call s .clear, .call s (.pushBack x)] with
  | error e => intro h; exact congrArg _ h
  | ok w' => intro h; exact h.elim

end Edsp.C110
