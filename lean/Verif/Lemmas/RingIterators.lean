import Verif.Lemmas.RingBuffer
import Verif.Spec.RingIterators

/-! Helper lemmas: programs with iterators of a ring buffer. -/

namespace Edsp.RingIter

open Edsp.RingSpan Edsp.RingBuffer Edsp.Spec

variable {α β : Type}

theorem toInt_eq {n : Int} (h1 : - 2 ^ 31 ≤ n) (h2 : n < 2 ^ 31) : toInt n = n := by
  unfold toInt; omega

theorem shift_eq {i : Nat} {n : Int} (h1 : 0 ≤ (i : Int) + n) (h2 : (i : Int) + n < 2 ^ 64) :
    shift i n = ((i : Int) + n).toNat := by
  unfold shift; rw [Int.emod_eq_of_lt h1 h2]

theorem toPtrdiff_eq {i : Nat} (h : i < 2 ^ 63) : toPtrdiff i = i := by
  unfold toPtrdiff; rw [if_pos h]

theorem apply_eq {p q len : Nat} {m : Move} (hp : p < 2 ^ 31) (hl : len < 2 ^ 31) (h : moveTo len p m = .ok q) :
    m.apply p = q ∧ q ≤ len := by
  unfold moveTo at h
  split at h
  · rename_i hr
    cases h
    cases m with
    | inc =>
      simp only [target] at hr ⊢
      refine ⟨?_, by omega⟩
      rw [Move.apply, wadd_eq (by omega)]; omega
    | dec =>
      simp only [target] at hr ⊢
      refine ⟨?_, by omega⟩
      rw [Move.apply, wsub_eq (by omega) (by omega)]; omega
    | plus n =>
      simp only [target] at hr ⊢
      refine ⟨?_, by omega⟩
      rw [Move.apply, toInt_eq (by omega) (by omega), shift_eq (by omega) (by omega)]
    | minus n =>
      simp only [target] at hr ⊢
      refine ⟨?_, by omega⟩
      by_cases hn : n = - 2 ^ 31
      · omega
      · rw [Move.apply, toInt_eq (by omega) (by omega), shift_eq (by omega) (by omega)]
        omega
  · cases h

theorem assign_refines {rb : RingBuffer α} {d : Deque α} (h : Refines rb d) {i : Nat} (hi : i < d.items.length) (v : α) :
    ∃ rb', assign rb i v = .ok rb' ∧ Refines rb' { d with items := d.items.set i v } := by
  obtain ⟨⟨hlen, hsmall, hzero, hlt, hle, hsize, hget⟩, hc⟩ := h
  have hcap : 0 < rb.span.cap := by omega
  have hf := hlt hcap
  refine ⟨⟨rb.buffer.set ((rb.span.front + i) % rb.span.cap) v, rb.span⟩, ?_, ⟨?_, hsmall, hzero, hlt, hle, ?_, ?_⟩, hc⟩
  · simp only [assign, atIdx, normalize_ok hcap, wadd_eq (show rb.span.front + i < 2 ^ 64 by omega), bind, Except.bind,
      store_ok (show (rb.span.front + i) % rb.span.cap < rb.buffer.length by rw [hlen]; exact Nat.mod_lt _ hcap)]
    rfl
  · simpa using hlen
  · simpa using hsize
  · intro j hj
    replace hj : j < rb.span.size := hj
    show (rb.buffer.set _ v)[(rb.span.front + j) % rb.span.cap]? = _
    rw [get_set (by rw [hlen]; exact Nat.mod_lt _ hcap)]
    by_cases hij : i = j
    · subst hij; simp [hi]
    · rw [if_neg, hget j hj, List.getElem?_set_ne hij]
      intro e; exact hij (mod_inj (by omega) (by omega) e)

theorem cap_step {d d' : Deque α} {op : Op α} {lim : Nat} (hd : d.cap < lim) (hb : Below lim op = true)
    (h : d.step op = .ok d') : d'.cap < lim := by
  cases op <;> simp only [Deque.step, Deque.pushBack, Deque.pushFront, Deque.popFront, Deque.popBack] at h
  case resize n => cases h; simpa [Below] using hb
  case clear => cases h; exact hd
  all_goals
    split at h
    · cases h
    · first
        | (cases h; exact hd)
        | (split at h <;> (cases h; exact hd))

theorem run_cap {lim : Nat} (ops : List (Op α)) : ∀ {d d' : Deque α}, (∀ op ∈ ops, Below lim op = true) → d.cap < lim →
    d.run ops = .ok d' → d'.cap < lim := by
  induction ops with
  | nil => intro d d' _ hc h; cases h; exact hc
  | cons op ops ih =>
    intro d d' hs hc h
    simp only [Deque.run, bind, Except.bind] at h
    split at h
    · cases h
    · rename_i d1 h1
      exact ih (fun o ho => hs o (by simp [ho])) (cap_step hc (hs op (by simp)) h1) h

/-- A program that means something does what it means. -/
theorem run_meaning (dflt : α) (moved : α → α) (p : Prog α β) :
    ∀ {rb : RingBuffer α} {d : Deque α} {it : Nat → Nat}, Refines rb d → d.cap < 2 ^ 31 → (∀ i, it i < 2 ^ 31) →
    ∀ {b : β} {d' : Deque α}, meaning (2 ^ 31) p d it = .ok (b, d') →
    ∃ rb', p.run dflt moved rb it = .ok (b, rb') ∧ Refines rb' d' := by
  induction p with
  | ret b =>
    intro rb d it h hd hi b' d' hm
    cases hm; exact ⟨rb, rfl, h⟩
  | read i k ih =>
    intro rb d it h hd hi b' d' hm
    simp only [meaning] at hm
    split at hm
    · rename_i v hv
      obtain ⟨hlt, hv⟩ := List.getElem?_eq_some_iff.mp hv
      obtain ⟨rb', hr, hrf⟩ := ih v h hd hi hm
      refine ⟨rb', ?_, hrf⟩
      simp only [Prog.run, deref_rep h.1 hlt, hv, bind, Except.bind]
      exact hr
    · cases hm
  | write i v k ih =>
    intro rb d it h hd hi b' d' hm
    simp only [meaning] at hm
    split at hm
    · rename_i hlt
      obtain ⟨rb1, ha, h1⟩ := assign_refines h hlt v
      obtain ⟨rb', hr, hrf⟩ := ih h1 hd hi hm
      refine ⟨rb', ?_, hrf⟩
      simp only [Prog.run, ha, bind, Except.bind]
      exact hr
    · cases hm
  | move i m k ih =>
    intro rb d it h hd hi b' d' hm
    simp only [meaning, bind, Except.bind] at hm
    have hlen : d.items.length < 2 ^ 31 := by
      have h1 := h.1.size
      have h2 := h.1.le
      have h3 := h.2
      omega
    split at hm
    · cases hm
    · rename_i q hq
      obtain ⟨ha, hql⟩ := apply_eq (hi i) hlen hq
      simp only [Prog.run, ha]
      exact ih h hd (fun j => by unfold put; split <;> [omega; exact hi j]) hm
  | copy i j k ih =>
    intro rb d it h hd hi b' d' hm
    simp only [Prog.run]
    exact ih h hd (fun l => by unfold put; split <;> [exact hi j; exact hi l]) hm
  | first i k ih =>
    intro rb d it h hd hi b' d' hm
    simp only [Prog.run]
    exact ih h hd (fun l => by unfold put; split <;> [omega; exact hi l]) hm
  | last i k ih =>
    intro rb d it h hd hi b' d' hm
    have h1 := h.1.size
    have h2 := h.1.le
    have h3 := h.2
    simp only [Prog.run, RingBuffer.size, ← h1]
    exact ih h hd (fun l => by unfold put; split <;> [omega; exact hi l]) hm
  | diff i j k ih =>
    intro rb d it h hd hi b' d' hm
    simp only [meaning] at hm
    split at hm
    · obtain ⟨rb', hr, hrf⟩ := ih _ h hd hi hm
      refine ⟨rb', ?_, hrf⟩
      have h1 := hi i
      have h2 := hi j
      have : difference (it i) (it j) = .ok ((it i : Int) - it j) := by
        simp only [difference, toPtrdiff_eq (show it i < 2 ^ 63 by omega), toPtrdiff_eq (show it j < 2 ^ 63 by omega)]
        rw [if_pos (by omega)]
      simp only [Prog.run, this, bind, Except.bind]
      exact hr
    · cases hm
  | less i j k ih =>
    intro rb d it h hd hi b' d' hm
    simp only [meaning] at hm
    split at hm
    · exact ih _ h hd hi hm
    · cases hm
  | equal i j k ih =>
    intro rb d it h hd hi b' d' hm
    simp only [meaning] at hm
    split at hm
    · exact ih _ h hd hi hm
    · cases hm
  | call op k ih =>
    intro rb d it h hd hi b' d' hm
    simp only [meaning] at hm
    split at hm
    · rename_i hb
      have hs : SmallOp op := by
        cases op <;> simp only [SmallOp, Below, decide_eq_true_eq] at hb ⊢
        omega
      have h1 := step_refines dflt moved h op hs
      simp only [Prog.run, bind, Except.bind] at hm ⊢
      revert h1
      cases hst : rb.step dflt moved op <;> cases hdt : d.step op <;> intro h1
      · rw [hdt] at hm; cases hm
      · exact h1.elim
      · exact h1.elim
      · rw [hdt] at hm
        exact ih h1 (cap_step hd hb hdt) hi hm
    · cases hm

end Edsp.RingIter
