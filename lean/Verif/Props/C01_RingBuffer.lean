import Verif.Lemmas.RingBuffer

/-!
# C01, C02, C03, C05: the ring buffer

All statements range over every element type `α`, every value-initialised element
`dflt`, every residue function `moved` (what moving out of a slot leaves in it), every
capacity up to `vector::max_size()` and every finite history.
-/

namespace Edsp.Props

open Edsp.Spec

variable {α : Type}

/-- **C01.** For every history of `push_back`, `emplace_back`, `emplace_front`,
`pop_front`, `pop_back`, `clear`, `resize` on a fresh `ring_buffer(n)`, what a client
observes (or the fault that stops the history) is what it observes of a bounded deque. -/
theorem C01_ring_buffer_is_bounded_deque (dflt : α) (moved : α → α) (n : Nat) (hn : n < 2 ^ 63)
    (ops : List (RingBuffer.Op α)) (hs : ∀ op ∈ ops, SmallOp op) :
    (RingBuffer.new dflt n).run dflt moved ops >>= observe
      = Deque.observe <$> Deque.run { cap := n, items := [] } ops :=
  RingBuffer.run_observe (RingBuffer.new_refines dflt hn) hs

/-- **C01** for a buffer constructed with a fill value, `ring_buffer(n, v)`. -/
theorem C01_filled_ring_buffer_is_bounded_deque (dflt : α) (moved : α → α) (n : Nat)
    (hn : n < 2 ^ 63) (v : α) (ops : List (RingBuffer.Op α)) (hs : ∀ op ∈ ops, SmallOp op) :
    (do let rb ← RingBuffer.newFilled dflt n v
        let rb' ← rb.run dflt moved ops
        observe rb')
      = Deque.observe <$> Deque.run { cap := n, items := List.replicate n v } ops := by
  obtain ⟨rb, h, href⟩ := RingBuffer.newFilled_refines dflt hn v
  rw [h]
  exact RingBuffer.run_observe href hs

/-- A non-trivial history: capacity 3, wrap-around in both directions. -/
example : (RingBuffer.new 0 3).run 0 id
      [.pushBack 1, .pushBack 2, .pushBack 3, .pushBack 4, .emplaceFront 9, .popBack] >>= observe
    = .ok { size := 2, capacity := 3, empty := false, full := false, forward := [9, 2],
            backward := [2, 9], front := some 9, back := some 2 } := by decide

/-- **C02.** After pushing any sequence on an empty buffer of capacity `n > 0`, iterating it
yields exactly the last `n` values pushed, oldest first. -/
theorem C02_last_n_values (dflt : α) (moved : α → α) (n : Nat) (h0 : 0 < n) (hn : n < 2 ^ 63)
    (xs : List α) :
    (RingBuffer.new dflt n).run dflt moved (xs.map .pushBack) >>= RingBuffer.forward
      = .ok (xs.drop (xs.length - n)) := by
  have h := RingBuffer.run_refines dflt moved (xs.map .pushBack) (RingBuffer.new_refines dflt hn)
    (by simp [SmallOp])
  rw [RingBuffer.pushBacks_run xs _ h0 (Nat.zero_le _)] at h
  revert h
  cases (RingBuffer.new dflt n).run dflt moved (xs.map .pushBack) with
  | error f => intro h; exact h.elim
  | ok rb => intro h; exact RingSpan.forward_rep h.1

/-- **C02** for a buffer constructed full of `v`: the last `n` entries of `n` copies of `v`
followed by the pushed values. -/
theorem C02_last_n_values_filled (dflt : α) (moved : α → α) (n : Nat) (h0 : 0 < n)
    (hn : n < 2 ^ 63) (v : α) (xs : List α) :
    (do let rb ← RingBuffer.newFilled dflt n v
        let rb' ← rb.run dflt moved (xs.map .pushBack)
        rb'.forward)
      = .ok ((List.replicate n v ++ xs).drop xs.length) := by
  obtain ⟨rb, hrb, href⟩ := RingBuffer.newFilled_refines dflt hn v
  rw [hrb]
  have h := RingBuffer.run_refines dflt moved (xs.map .pushBack) href (by simp [SmallOp])
  rw [RingBuffer.pushBacks_run xs _ h0 (by simp)] at h
  simp only [bind, Except.bind]
  revert h
  cases rb.run dflt moved (xs.map .pushBack) with
  | error f => intro h; exact h.elim
  | ok rb' =>
    intro h
    have := RingSpan.forward_rep h.1
    simpa [RingBuffer.forward] using this

example : (RingBuffer.new 0 3).run 0 id ([1, 2, 3, 4, 5].map .pushBack) >>= RingBuffer.forward
    = .ok [3, 4, 5] := by decide

/-- **C03.** In every reachable state the next call faults exactly when it is a pop on an empty
buffer (failed assert) or a push/emplace with capacity 0 (modulo by zero); it never
accesses storage out of range. -/
theorem C03_faults_exactly (dflt : α) (moved : α → α) (rb : RingBuffer α)
    (h : Reachable dflt moved rb) (op : RingBuffer.Op α) (hs : SmallOp op) (f : Fault) :
    rb.step dflt moved op = .error f ↔
      (f = .assertion ∧ rb.size = 0 ∧ (op = .popFront ∨ op = .popBack)) ∨
      (f = .divByZero ∧ rb.capacity = 0 ∧
        ∃ v, op = .pushBack v ∨ op = .emplaceBack v ∨ op = .emplaceFront v) := by
  obtain ⟨d, href⟩ := RingBuffer.reachable_refines h
  have hst := RingBuffer.step_refines dflt moved href op hs
  have hcap : rb.capacity = d.cap := href.2
  have hsz : rb.size = d.items.length := href.1.size.symm
  rw [hcap, hsz]
  have hst' : rb.step dflt moved op = .error f ↔ d.step op = .error f := by
    revert hst
    cases rb.step dflt moved op <;> cases d.step op <;> intro h1
    · simp only [RingBuffer.Related] at h1; subst h1; simp
    · exact h1.elim
    · exact h1.elim
    · simp
  rw [hst']
  cases op <;> simp only [Deque.step, Deque.pushBack, Deque.pushFront, Deque.popFront,
    Deque.popBack, reduceCtorEq, false_or, or_false, and_false, false_iff,
    RingBuffer.Op.pushBack.injEq, RingBuffer.Op.emplaceBack.injEq,
    RingBuffer.Op.emplaceFront.injEq, exists_eq', and_true, or_self]
  case clear => simp
  case resize => simp
  case pushBack v =>
    by_cases hc : d.cap = 0
    · simp [hc, eq_comm]
    · simp only [hc, if_false, and_false, iff_false]; split <;> simp
  case emplaceBack v =>
    by_cases hc : d.cap = 0
    · simp [hc, eq_comm]
    · simp only [hc, if_false, and_false, iff_false]; split <;> simp
  case emplaceFront v =>
    by_cases hc : d.cap = 0
    · simp [hc, eq_comm]
    · simp only [hc, if_false, and_false, iff_false]; split <;> simp
  case popFront =>
    by_cases hi : d.items = []
    · simp [hi, eq_comm]
    · simp [hi]
  case popBack =>
    by_cases hi : d.items = []
    · simp [hi, eq_comm]
    · simp [hi]

/-- **C03.** In every reachable state the contents fit the capacity, the capacity is the
size of the storage, the front slot is inside the storage, and with positive capacity no
read through the interface — `front()`, `back()`, or dereferencing an iterator with any
index whatever, even on an empty buffer — leaves the storage. -/
theorem C03_reads_stay_inside (dflt : α) (moved : α → α) (rb : RingBuffer α)
    (h : Reachable dflt moved rb) :
    rb.size ≤ rb.capacity ∧ rb.buffer.length = rb.capacity ∧
      (0 < rb.capacity → rb.span.front < rb.capacity ∧
        (∃ v ∈ rb.buffer, rb.front = .ok v) ∧ (∃ v ∈ rb.buffer, rb.back = .ok v) ∧
        ∀ idx, ∃ v ∈ rb.buffer, rb.span.deref rb.buffer idx = .ok v) := by
  obtain ⟨d, hr, hc⟩ := RingBuffer.reachable_refines h
  refine ⟨hr.le, hr.len, fun hpos => ?_⟩
  have key : ∀ idx, ∃ v ∈ rb.buffer, rb.span.deref rb.buffer idx = .ok v := by
    intro idx
    have hlt : wadd rb.span.front idx % rb.span.cap < rb.buffer.length := by
      rw [hr.len]; exact Nat.mod_lt _ hpos
    refine ⟨rb.buffer[wadd rb.span.front idx % rb.span.cap], List.getElem_mem hlt, ?_⟩
    simp only [RingSpan.deref, RingSpan.atIdx, RingSpan.normalize_ok hpos, bind, Except.bind]
    exact RingSpan.load_ok (List.getElem?_eq_getElem hlt)
  exact ⟨hr.lt hpos, key _, key _, key⟩

/-- **C03.** With capacity 0 (a default-constructed buffer) `front()` and `back()` fault. -/
theorem C03_capacity_zero (dflt : α) :
    (RingBuffer.default : RingBuffer α) = RingBuffer.new dflt 0 ∧
    (RingBuffer.default : RingBuffer α).front = .error .divByZero ∧
    (RingBuffer.default : RingBuffer α).back = .error .divByZero :=
  ⟨rfl, rfl, rfl⟩

example : Reachable 0 id ({ buffer := [3, 2], span := { size := 2, cap := 2, front := 1 } } : RingBuffer Nat) :=
  ⟨2, [.pushBack 1, .pushBack 2, .pushBack 3], by decide, by simp [SmallOp], .inl rfl⟩

/-- **C05.** After `clear()` in any reachable state, every later history is observed exactly as on
a fresh buffer of the same capacity. -/
theorem C05_clear_is_fresh (dflt : α) (moved : α → α) (rb : RingBuffer α)
    (h : Reachable dflt moved rb) (ops : List (RingBuffer.Op α)) (hs : ∀ op ∈ ops, SmallOp op) :
    rb.clear.run dflt moved ops >>= observe
      = (RingBuffer.new dflt rb.capacity).run dflt moved ops >>= observe := by
  obtain ⟨d, href⟩ := RingBuffer.reachable_refines h
  have hcl : RingBuffer.Refines rb.clear { d with items := [] } :=
    RingBuffer.step_refines dflt moved href .clear trivial
  have hnew := RingBuffer.new_refines dflt href.1.small
  have hcap : rb.span.cap = d.cap := href.2
  rw [RingBuffer.run_observe hcl hs]
  show _ = (RingBuffer.new dflt rb.span.cap).run dflt moved ops >>= observe
  rw [RingBuffer.run_observe hnew hs, hcap]

/-- **C05.** After `resize(m)` in any reachable state, every later history is observed exactly as
on a fresh buffer of capacity `m`. -/
theorem C05_resize_is_fresh (dflt : α) (moved : α → α) (rb : RingBuffer α)
    (h : Reachable dflt moved rb) (m : Nat) (hm : m < 2 ^ 63)
    (ops : List (RingBuffer.Op α)) (hs : ∀ op ∈ ops, SmallOp op) :
    (rb.resize dflt m).run dflt moved ops >>= observe
      = (RingBuffer.new dflt m).run dflt moved ops >>= observe := by
  obtain ⟨d, href⟩ := RingBuffer.reachable_refines h
  have hcl : RingBuffer.Refines (rb.resize dflt m) { cap := m, items := [] } :=
    RingBuffer.step_refines dflt moved href (.resize m) hm
  rw [RingBuffer.run_observe hcl hs, RingBuffer.run_observe (RingBuffer.new_refines dflt hm) hs]

/-- The stale contents exist but are not observable: a cleared buffer differs from a fresh one. -/
example : (RingBuffer.new 0 2).run 0 id [.pushBack 7, .clear]
    = .ok { buffer := [7, 0], span := { size := 0, cap := 2, front := 0 } } := rfl

end Edsp.Props
