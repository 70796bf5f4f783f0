import Verif.Lemmas.RingSpan
import Verif.Lemmas.RingBuffer
import Verif.Spec.FixedDeques

/-! Helper lemmas for the heap of fixed ring buffers. -/

namespace Edsp.FixedHeap

open Edsp.Spec Edsp.RingSpan

variable {α : Type}

/-- Every object is self-contained and represents its deque. -/
def Rel (h : FixedHeap α) (q : Deques α) : Prop :=
  ∀ i, match h i, q i with
    | none, none => True
    | some o, some d => o.base = i ∧ Rep o.span o.buffer d.items ∧ o.span.cap = d.cap
    | _, _ => False

def Related : Except Fault (FixedHeap α) → Except Fault (Deques α) → Prop
  | .ok h, .ok q => Rel h q
  | .error f, .error g => f = g
  | _, _ => False

theorem rel_set {h : FixedHeap α} {q : Deques α} (hr : Rel h q) (i : Nat) (o : FixedObj α)
    (d : Deque α) (hb : o.base = i) (hrep : Rep o.span o.buffer d.items) (hc : o.span.cap = d.cap) :
    Rel (h.set i (some o)) (q.set i (some d)) := by
  intro j
  by_cases hj : j = i
  · subst hj; simp only [set, Deques.set, if_true]; exact ⟨hb, hrep, hc⟩
  · have := hr j
    simp only [set, Deques.set, hj, if_false]; exact this

theorem onSpan_rel {h : FixedHeap α} {q : Deques α} (hr : Rel h q) (i : Nat)
    (f : RingSpan → List α → Except Fault (RingSpan × List α))
    (g : Deque α → Except Fault (Deque α))
    (hfg : ∀ r b d, Rep r b d.items → r.cap = d.cap →
      match f r b, g d with
      | .ok (r', b'), .ok d' => Rep r' b' d'.items ∧ r'.cap = d'.cap
      | .error e, .error e' => e = e'
      | _, _ => False) :
    Related (h.onSpan i f) (q.on i g) := by
  have hi := hr i
  unfold onSpan Deques.on
  revert hi
  cases ho : h i with
  | none =>
    cases hq : q i with
    | none => intro _; rfl
    | some d => intro h; exact h.elim
  | some o =>
    cases hq : q i with
    | none => intro h; exact h.elim
    | some d =>
      rintro ⟨hb, hrep, hc⟩
      subst hb
      simp only [ho]
      have := hfg o.span o.buffer d hrep hc
      revert this
      cases hf : f o.span o.buffer with
      | error e =>
        cases hg : g d with
        | error e' => intro he; exact he
        | ok d' => intro he; exact he.elim
      | ok rb =>
        cases hg : g d with
        | error e' => intro he; exact he.elim
        | ok d' =>
          rintro ⟨h1, h2⟩
          simp only [bind, Except.bind, pure, Except.pure, set, if_true, Related]
          intro j
          by_cases hj : j = o.base
          · subst hj; simp only [Deques.set, set, if_true]; exact ⟨trivial, h1, h2⟩
          · have := hr j
            simp only [Deques.set, set, hj, if_false]; exact this

theorem step_rel (dflt : α) {n : Nat} (hn : n < 2 ^ 63) (moved : α → α) {h : FixedHeap α}
    {q : Deques α} (hr : Rel h q) (a : Act α) (ha : ¬ IsMove a) :
    Related (h.step dflt n moved a) (q.step n a) := by
  have push : ∀ i v, Related (h.pushBack i v) (q.on i fun d => d.pushBack v) := by
    intro i v
    apply onSpan_rel hr
    intro r b d hrep hc
    have := RingBuffer.step_refines dflt moved (rb := ⟨b, r⟩) (d := d) ⟨hrep, hc⟩ (.pushBack v) trivial
    simp only [RingBuffer.step, RingBuffer.pushBack, bind, Except.bind, Deque.step] at this
    revert this
    cases RingSpan.pushBack r b v <;> cases d.pushBack v <;> intro h1 <;> exact h1
  cases a with
  | moveConstruct d s => exact (ha trivial).elim
  | moveAssign d s => exact (ha trivial).elim
  | construct i =>
    apply rel_set hr
    · rfl
    · have := rep_fresh (List.replicate n dflt) (by simpa using hn)
      simpa using this
    · rfl
  | destroy i =>
    intro j
    by_cases hj : j = i
    · subst hj; simp [destroy, set, Deques.set]
    · have := hr j
      simp only [destroy, set, Deques.set, hj, if_false]; exact this
  | pushBack i v => exact push i v
  | emplaceBack i v => exact push i v
  | emplaceFront i v =>
    simp only [step, Deques.step, emplaceFront]
    apply onSpan_rel hr
    intro r b d hrep hc
    have := RingBuffer.step_refines dflt moved (rb := ⟨b, r⟩) (d := d) ⟨hrep, hc⟩ (.emplaceFront v) trivial
    simp only [RingBuffer.step, RingBuffer.emplaceFront, bind, Except.bind, Deque.step] at this
    revert this
    cases RingSpan.pushFront r b v <;> cases d.pushFront v <;> intro h1 <;> exact h1
  | popFront i =>
    simp only [step, Deques.step, popFront]
    apply onSpan_rel hr
    intro r b d hrep hc
    have := RingBuffer.step_refines dflt moved (rb := ⟨b, r⟩) (d := d) ⟨hrep, hc⟩ .popFront trivial
    simp only [RingBuffer.step, RingBuffer.popFront, bind, Except.bind, Deque.step] at this ⊢
    revert this
    cases RingSpan.popFront moved r b <;> cases d.popFront <;> intro h1 <;> exact h1
  | popBack i =>
    simp only [step, Deques.step, popBack]
    apply onSpan_rel hr
    intro r b d hrep hc
    have := RingBuffer.step_refines dflt moved (rb := ⟨b, r⟩) (d := d) ⟨hrep, hc⟩ .popBack trivial
    simp only [RingBuffer.step, RingBuffer.popBack, bind, Except.bind, Deque.step] at this ⊢
    revert this
    cases RingSpan.popBack moved r b <;> cases d.popBack <;> intro h1 <;> exact h1
  | clear i =>
    have hi := hr i
    simp only [step, clear, Deques.step, Deques.on]
    revert hi
    cases ho : h i with
    | none =>
      cases hq : q i with
      | none => intro _; rfl
      | some d => intro h; exact h.elim
    | some o =>
      cases hq : q i with
      | none => intro h; exact h.elim
      | some d =>
        rintro ⟨hb, hrep, hc⟩
        simp only [bind, Except.bind, pure, Except.pure, Related]
        apply rel_set hr
        · rfl
        · exact rep_fresh o.buffer (by rw [hrep.len]; exact hrep.small)
        · show o.buffer.length = d.cap
          rw [hrep.len, hc]

theorem run_rel (dflt : α) {n : Nat} (hn : n < 2 ^ 63) (moved : α → α) (as : List (Act α)) :
    ∀ {h : FixedHeap α} {q : Deques α}, Rel h q → (∀ a ∈ as, ¬ IsMove a) →
    Related (h.run dflt n moved as) (q.run n as) := by
  induction as with
  | nil => intro h q hr _; exact hr
  | cons a as ih =>
    intro h q hr hm
    have h1 := step_rel dflt hn moved hr a (hm a (by simp))
    simp only [run, Deques.run, bind, Except.bind]
    revert h1
    cases h.step dflt n moved a <;> cases q.step n a <;> intro h1
    · exact h1
    · exact h1.elim
    · exact h1.elim
    · exact ih h1 (fun o ho => hm o (by simp [ho]))

theorem contents_rel {h : FixedHeap α} {q : Deques α} (hr : Rel h q) (i : Nat) :
    h.contents i = q.contents i := by
  have hi := hr i
  unfold contents Deques.contents
  revert hi
  cases ho : h i with
  | none =>
    cases hq : q i with
    | none => intro _; rfl
    | some d => intro h; exact h.elim
  | some o =>
    cases hq : q i with
    | none => intro h; exact h.elim
    | some d =>
      rintro ⟨hb, hrep, hc⟩
      subst hb
      simp only [ho]
      exact forward_rep hrep

end Edsp.FixedHeap
