import Verif.Lemmas.RingExceptions

/-!
# C125: ring buffers after exceptions and after pushing their own elements

All statements range over every element type `α`, every value-initialised element `dflt`,
every residue `moved` of a move and `broken` of a throwing assignment or move, every capacity
up to `vector::max_size()` and every finite history.
-/

namespace Edsp.Props

open Edsp.Spec

variable {α : Type}

/-- **C125.** Histories in which any call may throw: what a client observes in the end (or
the fault that stops the history) is what it observes of a bounded deque on which every
throwing push pushed some value, every throwing pop popped, and a throwing `resize` or a
throwing copy of an argument had no effect. -/
theorem C125_basic (dflt : α) (moved broken : α → α) (n : Nat) (hn : n < 2 ^ 63)
    (cs : List (RingBuffer.Call α)) (hs : ∀ c ∈ cs, SmallCall c) :
    ∃ o, AfterAll broken { cap := n, items := [] } cs o ∧
      (RingBuffer.new dflt n).calls dflt moved broken cs >>= observe = Deque.observe <$> o := by
  obtain ⟨o, h1, h2⟩ := RingBuffer.calls_after dflt moved broken cs
    (RingBuffer.new_refines dflt hn) hs
  exact ⟨o, h1, RingBuffer.related_observe h2⟩

/-- Capacity 2: a throwing push at the full buffer, a push of the front element, a throwing
pop, and the buffer is used on. -/
example : (RingBuffer.new 0 2).calls 0 id (fun _ => 77)
      [.returns (.pushBack 1), .returns (.pushBack 2), .pushBackThrows, .pushOwn 0,
        .popFrontThrows, .returns (.pushBack 5)] >>= observe
    = .ok { size := 2, capacity := 2, empty := false, full := true, forward := [2, 5],
            backward := [5, 2], front := some 2, back := some 5 } := by decide

/-- **C125.** From every state a history with exceptions leads to, no exception makes a
later call fault: a further call faults only where the deque's does, that is a push at
capacity 0 and a pop of an empty buffer. -/
theorem C125_faults (dflt : α) (moved broken : α → α) (n : Nat) (hn : n < 2 ^ 63)
    (cs : List (RingBuffer.Call α)) (hs : ∀ c ∈ cs, SmallCall c) (rb : RingBuffer α)
    (h : (RingBuffer.new dflt n).calls dflt moved broken cs = .ok rb)
    (c : RingBuffer.Call α) (hc : SmallCall c) (f : Fault)
    (hf : rb.call dflt moved broken c = .error f) :
    (f = .divByZero ∧ rb.capacity = 0) ∨ (f = .assertion ∧ rb.empty = true) := by
  obtain ⟨o, -, h2⟩ := RingBuffer.calls_after dflt moved broken cs
    (RingBuffer.new_refines dflt hn) hs
  rw [h] at h2
  cases o with
  | error g => exact h2.elim
  | ok d =>
    obtain ⟨o', h3, h4⟩ := RingBuffer.call_after dflt moved broken h2 c hc
    rw [hf] at h4
    cases o' with
    | ok d' => exact h4.elim
    | error g =>
      have hfg : f = g := h4
      subst hfg
      have hcap : rb.capacity = d.cap := h2.2
      have hsize : d.items.length = rb.span.size := h2.1.size
      have pb : ∀ w, Except.error f = d.pushBack w → f = .divByZero ∧ rb.capacity = 0 := by
        intro w e
        unfold Deque.pushBack at e
        split_ifs at e with h0
        · cases e; exact ⟨rfl, by rw [hcap, h0]⟩
      have pf : ∀ w, Except.error f = d.pushFront w → f = .divByZero ∧ rb.capacity = 0 := by
        intro w e
        unfold Deque.pushFront at e
        split_ifs at e with h0
        · cases e; exact ⟨rfl, by rw [hcap, h0]⟩
      have em : d.items = [] → rb.empty = true := by
        intro e
        rw [e] at hsize
        simp [RingBuffer.empty, RingSpan.empty, ← hsize]
      have qf : Except.error f = d.popFront → f = .assertion ∧ rb.empty = true := by
        intro e
        unfold Deque.popFront at e
        split_ifs at e with h0
        · cases e; exact ⟨rfl, em h0⟩
      have qb : Except.error f = d.popBack → f = .assertion ∧ rb.empty = true := by
        intro e
        unfold Deque.popBack at e
        split_ifs at e with h0
        · cases e; exact ⟨rfl, em h0⟩
      cases c with
      | returns op =>
        cases op with
        | pushBack v => exact Or.inl (pb v h3)
        | emplaceBack v => exact Or.inl (pb v h3)
        | emplaceFront v => exact Or.inl (pf v h3)
        | popFront => exact Or.inr (qf h3)
        | popBack => exact Or.inr (qb h3)
        | clear => cases h3
        | resize n => cases h3
      | pushOwn k => obtain ⟨w, e, -⟩ := h3; exact Or.inl (pb w e)
      | pushBackThrows => obtain ⟨w, e, -⟩ := h3; exact Or.inl (pb w e)
      | argumentThrows => cases h3
      | emplaceBackThrows => obtain ⟨w, e, -⟩ := h3; exact Or.inl (pb w e)
      | emplaceFrontThrows => obtain ⟨w, e, -⟩ := h3; exact Or.inl (pf w e)
      | popFrontThrows => exact Or.inr (qf h3)
      | popBackThrows => exact Or.inr (qb h3)
      | resizeThrows n => cases h3

/-- **C125.** Pushing an element of the buffer itself, `push_back(*(begin() + k))`, is pushing
a copy of it made before the call, also when the buffer is full and the push drops that very
element. -/
theorem C125_own (dflt : α) (moved : α → α) (rb : RingBuffer α)
    (h : Reachable dflt moved rb) (l : List α) (hl : rb.forward = .ok l) (k : Nat)
    (hk : k < l.length) :
    rb.pushOwn k >>= observe = rb.pushBack l[k] >>= observe := by
  obtain ⟨d, hd⟩ := RingBuffer.reachable_refines h
  have hfw : rb.forward = .ok d.items := RingSpan.forward_rep hd.1
  rw [hl] at hfw
  cases hfw
  obtain ⟨o, ⟨w, e, hw⟩, h2⟩ := RingBuffer.call_after dflt moved id hd (.pushOwn k) trivial
  have hw' : w = d.items[k] := hw _ (List.getElem?_eq_getElem hk)
  have h3 := RingBuffer.related_observe h2
  rw [e, hw'] at h3
  have h4 := RingBuffer.related_observe (RingBuffer.pushBack_related hd d.items[k])
  rw [h4]
  exact h3

/-- **C125.** In particular `push_back(front())` on a full buffer rotates it. -/
theorem C125_rotate (dflt : α) (moved : α → α) (rb : RingBuffer α)
    (h : Reachable dflt moved rb) (x : α) (l : List α) (hl : rb.forward = .ok (x :: l))
    (hfull : rb.full = true) :
    rb.pushOwn 0 >>= RingBuffer.forward = .ok (l ++ [x]) := by
  obtain ⟨d, hd⟩ := RingBuffer.reachable_refines h
  have hfw : rb.forward = .ok d.items := RingSpan.forward_rep hd.1
  rw [hl] at hfw
  have hit : d.items = x :: l := (Except.ok.inj hfw).symm
  have hlen : d.items.length = d.cap := by
    have h1 := hd.1.size
    have h2 : rb.span.size = rb.span.cap := by
      simpa [RingBuffer.full, RingSpan.full] using hfull
    rw [h1, h2]; exact hd.2
  have hcap : d.cap ≠ 0 := by rw [← hlen, hit]; simp
  obtain ⟨o, ⟨w, e, hw⟩, h2⟩ := RingBuffer.call_after dflt moved id hd (.pushOwn 0) trivial
  have hw' : w = x := hw _ (by rw [hit]; rfl)
  rw [e, hw'] at h2
  unfold Deque.pushBack at h2
  rw [if_neg hcap, if_pos hlen] at h2
  change RingBuffer.Related (rb.pushOwn 0) _ at h2
  revert h2
  cases rb.pushOwn 0 with
  | error f => intro h2; exact h2.elim
  | ok rb' =>
    intro h2
    have h3 : rb'.forward = .ok (d.items.tail ++ [x]) := RingSpan.forward_rep h2.1
    rw [hit] at h3
    exact h3

/-- A full buffer of capacity 3 whose contents wrap around. -/
example : (do
    let rb ← (RingBuffer.new 0 3).run 0 id
      [.pushBack 1, .pushBack 2, .pushBack 3, .pushBack 4]
    let rb' ← rb.pushOwn 0
    rb'.forward) = .ok [3, 4, 2] := by decide

/-- **C125**, where it holds: a throwing `resize` and a throwing copy of an argument change
nothing that can be observed; after a throwing pop the element is gone and the others are as
before.  The full claim is that no call that throws changes anything. -/
theorem C125_strong_partial (dflt : α) (moved broken : α → α) (rb : RingBuffer α)
    (h : Reachable dflt moved rb) :
    (∀ n, Strong dflt moved broken rb (.resizeThrows n)) ∧
    Strong dflt moved broken rb .argumentThrows ∧
    (∀ x l, rb.forward = .ok (x :: l) →
      rb.call dflt moved broken .popFrontThrows >>= RingBuffer.forward = .ok l) ∧
    (∀ x l, rb.forward = .ok (l ++ [x]) →
      rb.call dflt moved broken .popBackThrows >>= RingBuffer.forward = .ok l) := by
  obtain ⟨d, hd⟩ := RingBuffer.reachable_refines h
  have hfw : rb.forward = .ok d.items := RingSpan.forward_rep hd.1
  refine ⟨fun n _ => rfl, fun _ => rfl, ?_, ?_⟩
  · intro x l hl
    rw [hl] at hfw
    have hit : d.items = x :: l := (Except.ok.inj hfw).symm
    obtain ⟨o, e, h2⟩ := RingBuffer.call_after dflt moved broken hd .popFrontThrows trivial
    change o = d.popFront at e
    rw [e] at h2
    unfold Deque.popFront at h2
    rw [if_neg (by rw [hit]; simp), hit] at h2
    revert h2
    cases rb.call dflt moved broken .popFrontThrows with
    | error f => intro h2; exact h2.elim
    | ok rb' => intro h2; exact RingSpan.forward_rep h2.1
  · intro x l hl
    rw [hl] at hfw
    have hit : d.items = l ++ [x] := (Except.ok.inj hfw).symm
    obtain ⟨o, e, h2⟩ := RingBuffer.call_after dflt moved broken hd .popBackThrows trivial
    change o = d.popBack at e
    rw [e] at h2
    unfold Deque.popBack at h2
    rw [if_neg (by rw [hit]; simp), hit] at h2
    revert h2
    cases rb.call dflt moved broken .popBackThrows with
    | error f => intro h2; exact h2.elim
    | ok rb' =>
      intro h2
      have h3 : rb'.forward = .ok (l ++ [x]).dropLast := RingSpan.forward_rep h2.1
      rwa [List.dropLast_concat] at h3

/-- **C125 is violated.** A push that throws never leaves the buffer as it was, in any
reachable state with room: the size has grown by one, with a value nobody pushed at that end.
This also holds for elements whose own assignment has the strong guarantee
(`broken = id`), and for `emplace_back` and `emplace_front` when the constructor throws. -/
theorem C125_strong_violates (dflt : α) (moved broken : α → α) (rb : RingBuffer α)
    (h : Reachable dflt moved rb) (hroom : rb.size < rb.capacity) :
    ¬ Strong dflt moved broken rb .pushBackThrows ∧
    ¬ Strong dflt moved broken rb .emplaceBackThrows ∧
    ¬ Strong dflt moved broken rb .emplaceFrontThrows := by
  obtain ⟨d, hd⟩ := RingBuffer.reachable_refines h
  have hob := RingBuffer.observe_refines hd
  have hsz : d.items.length = rb.size := hd.1.size
  have hcp : rb.capacity = d.cap := hd.2
  have hcap : d.cap ≠ 0 := by omega
  have hne : d.items.length ≠ d.cap := by omega
  have grow : ∀ (c : RingBuffer.Call α) (l : List α), Throws c = true →
      l.length = d.items.length + 1 →
      RingBuffer.Related (rb.call dflt moved broken c) (.ok { d with items := l }) →
      ¬ Strong dflt moved broken rb c := by
    intro c l ht hl h2 hst
    have h3 := hst ht
    rw [RingBuffer.related_observe h2, hob] at h3
    have h4 := congrArg Obs.size (Except.ok.inj h3)
    simp only [Deque.observe] at h4
    omega
  refine ⟨?_, ?_, ?_⟩
  · obtain ⟨o, ⟨w, e, -⟩, h2⟩ := RingBuffer.call_after dflt moved broken hd .pushBackThrows trivial
    rw [e, Deque.pushBack, if_neg hcap, if_neg hne] at h2
    exact grow _ _ rfl (by simp) h2
  · obtain ⟨o, ⟨w, e, -⟩, h2⟩ :=
      RingBuffer.call_after dflt moved broken hd .emplaceBackThrows trivial
    rw [e, Deque.pushBack, if_neg hcap, if_neg hne] at h2
    exact grow _ _ rfl (by simp) h2
  · obtain ⟨o, ⟨w, e, -⟩, h2⟩ :=
      RingBuffer.call_after dflt moved broken hd .emplaceFrontThrows trivial
    rw [e, Deque.pushFront, if_neg hcap, if_neg hne] at h2
    exact grow _ _ rfl (by simp) h2

/-- **C125 is violated** at a full buffer too: the throwing call drops the oldest element and
puts what the throwing assignment left of it at the other end. -/
theorem C125_full_violates (dflt : α) (moved broken : α → α) (rb : RingBuffer α)
    (h : Reachable dflt moved rb) (x : α) (l : List α) (hl : rb.forward = .ok (x :: l))
    (hfull : rb.full = true) :
    rb.call dflt moved broken .pushBackThrows >>= RingBuffer.forward = .ok (l ++ [broken x]) ∧
    rb.call dflt moved broken .emplaceBackThrows >>= RingBuffer.forward = .ok (l ++ [x]) ∧
    rb.call dflt moved broken .emplaceFrontThrows >>= RingBuffer.forward
      = .ok ((x :: l).getLast (List.cons_ne_nil x l) :: (x :: l).dropLast) := by
  obtain ⟨d, hd⟩ := RingBuffer.reachable_refines h
  have hfw : rb.forward = .ok d.items := RingSpan.forward_rep hd.1
  rw [hl] at hfw
  have hit : d.items = x :: l := (Except.ok.inj hfw).symm
  have hlen : d.items.length = d.cap := by
    have h1 := hd.1.size
    have h2 : rb.span.size = rb.span.cap := by
      simpa [RingBuffer.full, RingSpan.full] using hfull
    rw [h1, h2]; exact hd.2
  have hcap : d.cap ≠ 0 := by rw [← hlen, hit]; simp
  have read : ∀ (c : RingBuffer.Call α) (m : List α),
      RingBuffer.Related (rb.call dflt moved broken c) (.ok { d with items := m }) →
      rb.call dflt moved broken c >>= RingBuffer.forward = .ok m := by
    intro c m h2
    revert h2
    cases rb.call dflt moved broken c with
    | error f => intro h2; exact h2.elim
    | ok rb' => intro h2; exact RingSpan.forward_rep h2.1
  refine ⟨?_, ?_, ?_⟩
  · obtain ⟨o, ⟨w, e, hw⟩, h2⟩ := RingBuffer.call_after dflt moved broken hd .pushBackThrows trivial
    rw [e, hw x hlen (by rw [hit]; rfl), Deque.pushBack, if_neg hcap, if_pos hlen, hit] at h2
    exact read _ _ h2
  · obtain ⟨o, ⟨w, e, hw⟩, h2⟩ :=
      RingBuffer.call_after dflt moved broken hd .emplaceBackThrows trivial
    rw [e, hw x hlen (by rw [hit]; rfl), Deque.pushBack, if_neg hcap, if_pos hlen, hit] at h2
    exact read _ _ h2
  · obtain ⟨o, ⟨w, e, hw⟩, h2⟩ :=
      RingBuffer.call_after dflt moved broken hd .emplaceFrontThrows trivial
    rw [e, hw _ hlen (by rw [hit]; exact List.getLast?_eq_some_getLast (List.cons_ne_nil x l)),
      Deque.pushFront, if_neg hcap, if_pos hlen, hit] at h2
    exact read _ _ h2

/-- Capacity 3, full, wrapped: after `push_back` threw, the oldest element is gone; with an
assignment that leaves the target as it was, it reappears as the newest. -/
example : (do
    let rb ← (RingBuffer.new 0 3).run 0 id [.pushBack 1, .pushBack 2, .pushBack 3, .pushBack 4]
    let rb' ← rb.call 0 id id .pushBackThrows
    rb'.forward) = .ok [3, 4, 2] := by decide

/-- Room for one more: a stale value is appended. -/
example : (do
    let rb ← (RingBuffer.new 0 3).run 0 id [.pushBack 1, .pushBack 2, .popBack]
    let rb' ← rb.call 0 id id .pushBackThrows
    rb'.forward) = .ok [1, 2] := by decide

end Edsp.Props
