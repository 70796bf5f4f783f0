import Verif.Lemmas.RingSpan
import Verif.Spec.Deque

/-! Helper lemmas: every ring-buffer call refines the bounded deque. -/

namespace Edsp.RingBuffer

open Edsp.RingSpan Edsp.Spec

variable {α : Type}

/-- The buffer `rb` represents the deque `d`. -/
def Refines (rb : RingBuffer α) (d : Deque α) : Prop :=
  Rep rb.span rb.buffer d.items ∧ rb.span.cap = d.cap

theorem vecResize_length (dflt : α) (l : List α) (n : Nat) : (vecResize dflt l n).length = n := by
  simp [vecResize]; omega

theorem pushBack_cap0 {r : RingSpan} {data : List α} (h : r.cap = 0) (v : α) :
    RingSpan.pushBack r data v = .error .divByZero := by
  unfold RingSpan.pushBack
  by_cases hf : r.full
  · simp [hf, incrementFrontAndBack, normalize, h, bind, Except.bind]
  · simp [hf, incrementBack, backIdx, normalize, h, bind, Except.bind, pure, Except.pure]

theorem pushFront_cap0 {r : RingSpan} {data : List α} (h : r.cap = 0) (v : α) :
    RingSpan.pushFront r data v = .error .divByZero := by
  unfold RingSpan.pushFront
  by_cases hf : r.full
  · simp [hf, decrementFrontAndBack, normalize, h, bind, Except.bind]
  · simp [hf, decrementFront, normalize, h, bind, Except.bind]

/-- Outcome relation: same fault, or related results. -/
def Related : Except Fault (RingBuffer α) → Except Fault (Deque α) → Prop
  | .ok rb, .ok d => Refines rb d
  | .error f, .error g => f = g
  | _, _ => False

/-- One call: defined exactly when the deque call is, with related results. -/
theorem step_refines (dflt : α) (moved : α → α) {rb : RingBuffer α} {d : Deque α}
    (h : Refines rb d) (op : Op α) (hs : SmallOp op) :
    Related (rb.step dflt moved op) (d.step op) := by
  obtain ⟨hr, hc⟩ := h
  have back : ∀ v, Related (rb.pushBack v) (d.pushBack v) := by
    intro v
    unfold Deque.pushBack
    by_cases h0 : d.cap = 0
    · simp [h0, pushBack, pushBack_cap0 (hc.trans h0), bind, Except.bind, Related]
    · obtain ⟨r', d', he, hcap, hrep⟩ := pushBack_rep hr (by omega) v
      rw [hc] at hrep
      simp only [h0, if_false, pushBack, he, bind, Except.bind, pure, Except.pure]
      by_cases hl : d.items.length = d.cap
      · simp only [hl, if_true] at hrep ⊢
        exact ⟨hrep, hcap.trans hc⟩
      · simp only [hl, if_false] at hrep ⊢
        exact ⟨hrep, hcap.trans hc⟩
  cases op with
  | pushBack v => exact back v
  | emplaceBack v => exact back v
  | emplaceFront v =>
    simp only [Deque.step, step, Deque.pushFront]
    by_cases h0 : d.cap = 0
    · simp [h0, emplaceFront, pushFront_cap0 (hc.trans h0), bind, Except.bind, Related]
    · obtain ⟨r', d', he, hcap, hrep⟩ := pushFront_rep hr (by omega) v
      rw [hc] at hrep
      simp only [h0, if_false, emplaceFront, he, bind, Except.bind, pure, Except.pure]
      by_cases hl : d.items.length = d.cap
      · simp only [hl, if_true] at hrep ⊢
        exact ⟨hrep, hcap.trans hc⟩
      · simp only [hl, if_false] at hrep ⊢
        exact ⟨hrep, hcap.trans hc⟩
  | popFront =>
    obtain ⟨cap, items⟩ := d
    cases items with
    | nil =>
      have h0 : rb.span.size = 0 := by have := hr.size; simpa using this.symm
      simp [step, Deque.step, Deque.popFront, popFront, RingSpan.popFront, RingSpan.empty, h0, bind,
        Except.bind, throw, throwThe, MonadExceptOf.throw, Related]
    | cons x l =>
      obtain ⟨r', d', he, hcap, hrep⟩ := popFront_rep moved hr
      simp only [step, Deque.step, Deque.popFront, popFront, he, bind, Except.bind, pure,
        Except.pure, reduceCtorEq, if_false, List.tail_cons]
      exact ⟨hrep, hcap.trans hc⟩
  | popBack =>
    obtain ⟨cap, items⟩ := d
    cases items with
    | nil =>
      have h0 : rb.span.size = 0 := by have := hr.size; simpa using this.symm
      simp [step, Deque.step, Deque.popBack, popBack, RingSpan.popBack, RingSpan.empty, h0, bind,
        Except.bind, throw, throwThe, MonadExceptOf.throw, Related]
    | cons x l =>
      obtain ⟨r', d', he, hcap, hrep⟩ := popBack_rep moved hr (by simp)
      simp only [step, Deque.step, Deque.popBack, popBack, he, bind, Except.bind, pure,
        Except.pure, reduceCtorEq, if_false]
      exact ⟨hrep, hcap.trans hc⟩
  | clear =>
    refine ⟨?_, ?_⟩
    · exact rep_fresh rb.buffer (by rw [hr.len]; exact hr.small)
    · show rb.buffer.length = d.cap
      rw [hr.len, hc]
  | resize n =>
    refine ⟨?_, vecResize_length _ _ _⟩
    exact rep_fresh (vecResize dflt rb.buffer n) (by rw [vecResize_length]; exact hs)

theorem run_refines (dflt : α) (moved : α → α) (ops : List (Op α)) :
    ∀ {rb : RingBuffer α} {d : Deque α}, Refines rb d → (∀ op ∈ ops, SmallOp op) →
    Related (rb.run dflt moved ops) (d.run ops) := by
  induction ops with
  | nil => intro rb d h _; exact h
  | cons op ops ih =>
    intro rb d h hs
    have h1 := step_refines dflt moved h op (hs op (by simp))
    simp only [run, Deque.run, bind, Except.bind]
    revert h1
    cases rb.step dflt moved op <;> cases d.step op <;> intro h1
    · exact h1
    · exact h1.elim
    · exact h1.elim
    · exact ih h1 (fun o ho => hs o (by simp [ho]))

theorem observe_refines {rb : RingBuffer α} {d : Deque α} (h : Refines rb d) :
    observe rb = .ok d.observe := by
  obtain ⟨hr, hc⟩ := h
  have hsz := hr.size
  have hfw : rb.forward = .ok d.items := forward_rep hr
  have hbw : rb.backward = .ok d.items.reverse := backward_rep hr
  have he : rb.empty = d.items.isEmpty := by
    simp only [empty, RingSpan.empty, ← hsz]
    cases d.items <;> simp
  have hf : rb.full = decide (d.items.length = d.cap) := by
    simp only [full, RingSpan.full, ← hsz, hc]
    rfl
  unfold observe Deque.observe
  rw [hfw, hbw, he, hf]
  cases hi : d.items with
  | nil =>
    simp [bind, Except.bind, pure, Except.pure, size, capacity, hc, ← hsz, hi]
  | cons x l =>
    have hne : d.items ≠ [] := by simp [hi]
    have hfr : rb.front = .ok x := by
      have : rb.front = .ok (d.items.head hne) := frontVal_rep hr hne
      simpa [hi] using this
    have hbk : rb.back = .ok (d.items.getLast hne) := backVal_rep hr hne
    have hgl : d.items.getLast hne = (x :: l).getLast (by simp) := by congr 1
    rw [hfr, hbk, hgl]
    simp [bind, Except.bind, pure, Except.pure, size, capacity, hc, ← hsz, hi, Functor.map,
      Except.map, List.getLast?_eq_some_getLast]

theorem run_observe {dflt : α} {moved : α → α} {ops : List (Op α)} {rb : RingBuffer α}
    {d : Deque α} (h : Refines rb d) (hs : ∀ op ∈ ops, SmallOp op) :
    rb.run dflt moved ops >>= observe = Deque.observe <$> d.run ops := by
  have := run_refines dflt moved ops h hs
  revert this
  cases rb.run dflt moved ops <;> cases d.run ops <;> intro h1
  · simp only [Related] at h1; subst h1; rfl
  · exact h1.elim
  · exact h1.elim
  · exact observe_refines h1

theorem new_refines (dflt : α) {n : Nat} (hn : n < 2 ^ 63) :
    Refines (new dflt n) { cap := n, items := [] } := by
  refine ⟨?_, vecResize_length _ _ _⟩
  exact rep_fresh (vecResize dflt [] n) (by rw [vecResize_length]; exact hn)

theorem newFilled_refines (dflt : α) {n : Nat} (hn : n < 2 ^ 63) (v : α) :
    ∃ rb, newFilled dflt n v = .ok rb ∧ Refines rb { cap := n, items := List.replicate n v } := by
  have hl := vecResize_length dflt [] n
  refine ⟨⟨List.replicate n v, mk4 n 0 n⟩, ?_, rep_filled n v hn, rfl⟩
  unfold newFilled
  simp only [hl]
  by_cases h0 : n = 0
  · subst h0
    simp [mk4, fillFrom, vecResize, bind, Except.bind, pure, Except.pure]
  · have := fillFrom_ok (r := mk4 n 0 n) (v := v) (by simpa [mk4] using Nat.pos_of_ne_zero h0) hn rfl n 0
      (vecResize dflt [] n) hl (by simp [mk4]) (by intro j hj; exact absurd hj (Nat.not_lt_zero _))
    simp only [mk4] at this ⊢
    simp [this, bind, Except.bind, pure, Except.pure]

theorem pushBacks_run (xs : List α) : ∀ (d : Deque α), 0 < d.cap → d.items.length ≤ d.cap →
    d.run (xs.map .pushBack) =
      .ok { d with items := (d.items ++ xs).drop ((d.items ++ xs).length - d.cap) } := by
  induction xs with
  | nil =>
    intro d hc hl
    simp [Deque.run, Nat.sub_eq_zero_of_le hl]
  | cons x xs ih =>
    intro d hc hl
    simp only [List.map_cons, Deque.run, Deque.step, Deque.pushBack, if_neg (Nat.pos_iff_ne_zero.mp hc)]
    by_cases hfull : d.items.length = d.cap
    · simp only [hfull, if_true, bind, Except.bind]
      rw [ih { cap := d.cap, items := d.items.tail ++ [x] } hc (by simp; omega)]
      congr 2
      cases hi : d.items with
      | nil => simp [hi] at hfull; omega
      | cons y l =>
        simp only [hi, List.length_cons] at hfull
        simp only [List.tail_cons, List.length_append, List.length_cons, List.length_nil]
        rw [show l.length + (0 + 1) + xs.length - d.cap = xs.length by omega,
          show l.length + 1 + (xs.length + 1) - d.cap = xs.length + 1 by omega]
        simp
    · simp only [hfull, if_false, bind, Except.bind]
      rw [ih { cap := d.cap, items := d.items ++ [x] } hc (by simp; omega)]
      congr 2
      simp

theorem reachable_refines {dflt : α} {moved : α → α} {rb : RingBuffer α}
    (h : Reachable dflt moved rb) : ∃ d, Refines rb d := by
  obtain ⟨n, ops, hn, hs, h | ⟨v, rb₀, h0, h⟩⟩ := h
  · have := run_refines dflt moved ops (new_refines dflt hn) hs
    rw [h] at this
    revert this
    cases Deque.run { cap := n, items := [] } ops with
    | error f => intro h; exact h.elim
    | ok d => intro h; exact ⟨d, h⟩
  · obtain ⟨rb₁, h1, href⟩ := newFilled_refines dflt hn v
    rw [h1] at h0; injection h0 with h0; subst h0
    have := run_refines dflt moved ops href hs
    rw [h] at this
    revert this
    cases Deque.run { cap := n, items := List.replicate n v } ops with
    | error f => intro h; exact h.elim
    | ok d => intro h; exact ⟨d, h⟩

end Edsp.RingBuffer
