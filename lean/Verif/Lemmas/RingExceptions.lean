import Verif.Spec.DequeExceptions
import Verif.Lemmas.RingBuffer

/-! Helper lemmas: what a throwing call and a push of an own element amount to. -/

namespace Edsp.RingSpan

variable {α : Type}

/-- The change of the indices all pushes at the back begin with. -/
def grown (r : RingSpan) : Except Fault RingSpan :=
  if r.full then r.incrementFrontAndBack else pure r.incrementBack

theorem pushBack_grown (r : RingSpan) (data : List α) (v : α) :
    pushBack r data v = grown r >>= fun r' => r'.backIdx >>= fun i =>
      store data i v >>= fun d' => pure (r', d') := by
  unfold pushBack grown; by_cases h : r.full <;> simp only [h] <;> rfl

theorem pushBackThrows_grown (broken : α → α) (r : RingSpan) (data : List α) :
    pushBackThrows broken r data = grown r >>= fun r' => r'.backIdx >>= fun i =>
      load data i >>= fun v => store data i (broken v) >>= fun d' => pure (r', d') := by
  unfold pushBackThrows grown; by_cases h : r.full <;> simp only [h] <;> rfl

theorem pushBackSlot_grown (r : RingSpan) (data : List α) (j : Nat) :
    pushBackSlot r data j = grown r >>= fun r' => r'.backIdx >>= fun i =>
      load data j >>= fun v => store data i v >>= fun d' => pure (r', d') := by
  unfold pushBackSlot grown; by_cases h : r.full <;> simp only [h] <;> rfl

/-- Whether the value comes from `v` or from reading a slot, the push is the same. -/
theorem pushBack_parts {r : RingSpan} {data : List α} {v : α} {r' : RingSpan} {d' : List α}
    (h : pushBack r data v = .ok (r', d')) :
    ∃ i, grown r = .ok r' ∧
      r'.backIdx = .ok i ∧ i < data.length ∧ d' = data.set i v := by
  rw [pushBack_grown] at h
  cases h1 : grown r with
  | error f => rw [h1] at h; cases h
  | ok r1 =>
    rw [h1] at h
    cases h2 : r1.backIdx with
    | error f => simp [bind, Except.bind, h2] at h
    | ok i =>
      simp only [bind, Except.bind, h2, store, pure, Except.pure] at h
      by_cases h3 : i < data.length
      · rw [if_pos h3] at h
        simp only [Except.ok.injEq, Prod.mk.injEq] at h
        obtain ⟨rfl, rfl⟩ := h
        exact ⟨i, rfl, h2, h3, rfl⟩
      · rw [if_neg h3] at h; cases h

theorem pushBackThrows_rep (broken : α → α) {r : RingSpan} {data l : List α}
    (h : Rep r data l) (hc : 0 < r.cap) :
    ∃ w, pushBackThrows broken r data = pushBack r data w ∧
      ∀ v, l.length = r.cap → l.head? = some v → w = broken v := by
  have hl : 0 < data.length := by rw [h.len]; exact hc
  obtain ⟨r', d', hp, -, -⟩ := pushBack_rep h hc data[0]
  obtain ⟨i, h1, h2, h3, -⟩ := pushBack_parts hp
  refine ⟨broken data[i], ?_, ?_⟩
  · rw [pushBackThrows_grown, pushBack_grown, h1]
    simp only [bind, Except.bind, h2, load_ok (List.getElem?_eq_getElem h3)]
  · intro v hfull hv
    have hsz := h.size
    have hf := h.lt hc
    have hsm := h.small
    have hfl : r.full = true := by simp [full]; omega
    rw [grown, if_pos hfl] at h1
    simp only [incrementFrontAndBack, normalize_ok hc,
      wadd_eq (show r.front + 1 < 2 ^ 64 by omega), bind, Except.bind, pure, Except.pure,
      Except.ok.injEq] at h1
    have hb := backIdx_ok (r := { r with front := (r.front + 1) % r.cap }) hc hsm
      (Nat.mod_lt _ hc) (show 0 < r.size by omega) h.le
    rw [h1, h2] at hb
    simp only [← h1, Except.ok.injEq] at hb
    have hi : i = r.front := by
      rw [hb, mod_mod_add, show 1 + (r.size - 1) = r.cap by omega, Nat.add_mod_right,
        Nat.mod_eq_of_lt hf]
    have hg := h.get 0 (by omega)
    rw [Nat.add_zero, Nat.mod_eq_of_lt hf, ← hi, List.getElem?_eq_getElem h3,
      ← List.head?_eq_getElem?, hv] at hg
    rw [Option.some.inj hg]

theorem pushBackThrows_cap0 (broken : α → α) {r : RingSpan} {data : List α} (h : r.cap = 0) :
    pushBackThrows broken r data = .error .divByZero := by
  unfold pushBackThrows
  by_cases hf : r.full
  · simp [hf, incrementFrontAndBack, normalize, h, bind, Except.bind]
  · simp [hf, incrementBack, backIdx, normalize, h, bind, Except.bind, pure, Except.pure]

theorem pushFrontThrows_rep (broken : α → α) {r : RingSpan} {data l : List α}
    (h : Rep r data l) (hc : 0 < r.cap) :
    ∃ w, pushFrontThrows broken r data = pushFront r data w ∧
      ∀ v, l.length = r.cap → l.getLast? = some v → w = broken v := by
  have hf := h.lt hc
  have hsm := h.small
  have hsz := h.size
  have hle := h.le
  have hw : wsub (wadd r.front r.cap) 1 = r.front + (r.cap - 1) := by
    rw [wadd_eq (by omega), wsub_eq (by omega) (by omega)]; omega
  have hlt : (r.front + (r.cap - 1)) % r.cap < data.length := by
    rw [h.len]; exact Nat.mod_lt _ hc
  refine ⟨broken data[(r.front + (r.cap - 1)) % r.cap], ?_, ?_⟩
  · unfold pushFrontThrows pushFront
    by_cases hfl : r.full
    · simp only [hfl, if_true, decrementFrontAndBack, normalize_ok hc, hw, bind, Except.bind, pure,
        Except.pure, load_ok (List.getElem?_eq_getElem hlt)]
    · simp only [hfl, decrementFront, normalize_ok hc, hw, bind, Except.bind, pure,
        Except.pure, load_ok (List.getElem?_eq_getElem hlt), Bool.false_eq_true, if_false]
  · intro v hfull hv
    have hg := h.get (r.cap - 1) (by omega)
    rw [List.getElem?_eq_getElem hlt, show l[r.cap - 1]? = some v by
      rw [← hv, List.getLast?_eq_getElem?, hfull]] at hg
    rw [Option.some.inj hg]

theorem pushFrontThrows_cap0 (broken : α → α) {r : RingSpan} {data : List α} (h : r.cap = 0) :
    pushFrontThrows broken r data = .error .divByZero := by
  unfold pushFrontThrows
  by_cases hf : r.full
  · simp [hf, decrementFrontAndBack, normalize, h, bind, Except.bind]
  · simp [hf, decrementFront, normalize, h, bind, Except.bind]

/-- The slot named before the call still holds its value when it is read. -/
theorem pushOwn_rep {r : RingSpan} {data l : List α} (h : Rep r data l) (hc : 0 < r.cap) (k : Nat) :
    ∃ w, (r.atIdx k >>= fun j => pushBackSlot r data j) = pushBack r data w ∧
      ∀ v, l[k]? = some v → w = v := by
  have hl : 0 < data.length := by rw [h.len]; exact hc
  obtain ⟨r', d', hp, -, -⟩ := pushBack_rep h hc data[0]
  obtain ⟨i, h1, h2, h3, -⟩ := pushBack_parts hp
  have hj : wadd r.front k % r.cap < data.length := by rw [h.len]; exact Nat.mod_lt _ hc
  refine ⟨data[wadd r.front k % r.cap], ?_, ?_⟩
  · simp only [atIdx, normalize_ok hc, pushBackSlot_grown, pushBack_grown, h1, bind, Except.bind, h2,
      load_ok (List.getElem?_eq_getElem hj)]
  · intro v hv
    have hk : k < l.length := (List.getElem?_eq_some_iff.mp hv).1
    have hsz := h.size
    have hle := h.le
    have hsm := h.small
    have hf := h.lt hc
    have hg := h.get k (by omega)
    rw [← wadd_eq (show r.front + k < 2 ^ 64 by omega), List.getElem?_eq_getElem hj, hv] at hg
    exact Option.some.inj hg

end Edsp.RingSpan

namespace Edsp.RingBuffer

open Edsp.Spec RingSpan

variable {α : Type}

theorem pushBack_related {rb : RingBuffer α} {d : Deque α} (h : Refines rb d) (v : α) :
    Related (rb.pushBack v) (d.pushBack v) :=
  step_refines v id h (.pushBack v) trivial

theorem pushFront_related {rb : RingBuffer α} {d : Deque α} (h : Refines rb d) (v : α) :
    Related (rb.emplaceFront v) (d.pushFront v) :=
  step_refines v id h (.emplaceFront v) trivial

theorem wrap_pushBack (rb : RingBuffer α) (w : α) {x : Except Fault (RingSpan × List α)}
    (h : x = rb.span.pushBack rb.buffer w) :
    (do let (r, b) ← x
        return ({ buffer := b, span := r } : RingBuffer α)) = rb.pushBack w := by
  rw [h]; rfl

theorem related_cap0 {d : Deque α} (h0 : d.cap = 0)
    (w : α) : Related (.error .divByZero : Except Fault (RingBuffer α)) (d.pushBack w) ∧
      Related (.error .divByZero : Except Fault (RingBuffer α)) (d.pushFront w) := by
  simp [Deque.pushBack, Deque.pushFront, h0, Related]

/-- One call has an outcome the specification allows. -/
theorem call_after (dflt : α) (moved broken : α → α) {rb : RingBuffer α} {d : Deque α}
    (h : Refines rb d) (c : Call α) (hs : SmallCall c) :
    ∃ o, After broken d o c ∧ Related (rb.call dflt moved broken c) o := by
  obtain ⟨hr, hcap⟩ := h
  have back : ∀ g : α → α, ∃ w, Related (do
        let (r, b) ← rb.span.pushBackThrows g rb.buffer
        return ({ buffer := b, span := r } : RingBuffer α)) (d.pushBack w) ∧
      ∀ v, d.items.length = d.cap → d.items.head? = some v → w = g v := by
    intro g
    rcases Nat.eq_zero_or_pos rb.span.cap with h0 | hc
    · refine ⟨dflt, ?_, ?_⟩
      · rw [pushBackThrows_cap0 g h0]
        exact (related_cap0 (by omega) dflt).1
      · intro v hl hv
        rw [← hcap, h0] at hl
        rw [List.length_eq_zero_iff.mp hl] at hv; cases hv
    · obtain ⟨w, e, hw⟩ := pushBackThrows_rep g hr hc
      refine ⟨w, ?_, by rw [← hcap]; exact hw⟩
      rw [wrap_pushBack rb w e]
      exact pushBack_related ⟨hr, hcap⟩ w
  cases c with
  | returns op => exact ⟨_, rfl, step_refines dflt moved ⟨hr, hcap⟩ op hs⟩
  | pushOwn k =>
    rcases Nat.eq_zero_or_pos rb.span.cap with h0 | hc
    · refine ⟨_, ⟨dflt, rfl, ?_⟩, ?_⟩
      · intro v hv
        have hk : k < d.items.length := (List.getElem?_eq_some_iff.mp hv).1
        have := hr.size
        have := hr.le
        omega
      · have : rb.call dflt moved broken (.pushOwn k) = .error .divByZero := by
          simp [call, pushOwn, atIdx, normalize, h0, bind, Except.bind]
        rw [this]
        exact (related_cap0 (by omega) dflt).1
    · obtain ⟨w, e, hw⟩ := pushOwn_rep hr hc k
      refine ⟨_, ⟨w, rfl, hw⟩, ?_⟩
      have : rb.call dflt moved broken (.pushOwn k) = rb.pushBack w := by
        rw [← wrap_pushBack rb w e]
        simp only [call, pushOwn, bind_assoc]
      rw [this]
      exact pushBack_related ⟨hr, hcap⟩ w
  | pushBackThrows =>
    obtain ⟨w, h1, h2⟩ := back broken
    exact ⟨_, ⟨w, rfl, h2⟩, h1⟩
  | argumentThrows => exact ⟨_, rfl, hr, hcap⟩
  | emplaceBackThrows =>
    obtain ⟨w, h1, h2⟩ := back id
    exact ⟨_, ⟨w, rfl, h2⟩, h1⟩
  | emplaceFrontThrows =>
    rcases Nat.eq_zero_or_pos rb.span.cap with h0 | hc
    · refine ⟨_, ⟨dflt, rfl, ?_⟩, ?_⟩
      · intro v hl hv
        rw [← hcap, h0] at hl
        rw [List.length_eq_zero_iff.mp hl] at hv; cases hv
      · simp only [call, pushFrontThrows_cap0 id h0]
        exact (related_cap0 (by omega) dflt).2
    · obtain ⟨w, e, hw⟩ := pushFrontThrows_rep id hr hc
      refine ⟨_, ⟨w, rfl, by rw [← hcap]; exact hw⟩, ?_⟩
      have : rb.call dflt moved broken .emplaceFrontThrows = rb.emplaceFront w := by
        simp only [call, e]; rfl
      rw [this]
      exact pushFront_related ⟨hr, hcap⟩ w
  | popFrontThrows => exact ⟨_, rfl, step_refines dflt broken ⟨hr, hcap⟩ .popFront trivial⟩
  | popBackThrows => exact ⟨_, rfl, step_refines dflt broken ⟨hr, hcap⟩ .popBack trivial⟩
  | resizeThrows n => exact ⟨_, rfl, hr, hcap⟩

theorem calls_after (dflt : α) (moved broken : α → α) (cs : List (Call α)) :
    ∀ {rb : RingBuffer α} {d : Deque α}, Refines rb d → (∀ c ∈ cs, SmallCall c) →
    ∃ o, AfterAll broken d cs o ∧ Related (rb.calls dflt moved broken cs) o := by
  induction cs with
  | nil => intro rb d h _; exact ⟨.ok d, rfl, h⟩
  | cons c cs ih =>
    intro rb d h hs
    obtain ⟨o, ho, hrel⟩ := call_after dflt moved broken h c (hs c List.mem_cons_self)
    revert hrel
    cases e : rb.call dflt moved broken c with
    | error f =>
      cases o with
      | ok d' => intro hrel; exact hrel.elim
      | error g =>
        intro hrel
        refine ⟨.error g, Or.inr ⟨g, ho, rfl⟩, ?_⟩
        simp only [calls, e, bind, Except.bind]
        exact hrel
    | ok rb' =>
      cases o with
      | error g => intro hrel; exact hrel.elim
      | ok d' =>
        intro hrel
        obtain ⟨o', h1, h2⟩ := ih hrel (fun c hc => hs c (List.mem_cons_of_mem _ hc))
        refine ⟨o', Or.inl ⟨d', ho, h1⟩, ?_⟩
        simp only [calls, e, bind, Except.bind]
        exact h2

theorem related_observe {x : Except Fault (RingBuffer α)} {o : Except Fault (Deque α)}
    (h : Related x o) : x >>= observe = Deque.observe <$> o := by
  cases x <;> cases o
  · simp only [Related] at h; subst h; rfl
  · exact h.elim
  · exact h.elim
  · exact observe_refines h

end Edsp.RingBuffer
