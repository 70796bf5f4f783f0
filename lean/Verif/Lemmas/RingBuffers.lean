import Verif.Lemmas.RingBuffer
import Verif.Spec.RingBuffers

/-! Helper lemmas for programs with several ring buffers. -/

namespace Edsp.RingBuffers

open Edsp.Spec Edsp.RingSpan

variable {α : Type}

theorem put_same {β : Type} (f : Nat → β) (i : Nat) (x : β) : put f i x i = x := if_pos rfl

theorem put_other {β : Type} (f : Nat → β) {i j : Nat} (x : β) (h : j ≠ i) : put f i x j = f j := if_neg h

/-- An object is what its variable says; `some b` is the block it owns. -/
def Shows (w : World α) (o : Obj) : Slot α → Prop
  | .dead => False
  | .movedFrom => w.mem o.own = some []
  | .holds q => o.base = o.own ∧ ∃ b, w.mem o.own = some b ∧ RingBuffer.Refines ⟨b, o.span⟩ q

/-- Every object is what its variable says, owns a block of its own, and there are no other blocks. -/
structure Inv (w : World α) (v : Nat → Slot α) : Prop where
  dead : ∀ i, w.obj i = none → v i = .dead
  alive : ∀ i o, w.obj i = some o → Shows w o (v i)
  inj : ∀ i j o p, w.obj i = some o → w.obj j = some p → o.own = p.own → i = j
  old : ∀ k, w.mem k ≠ none → k < w.next
  owned : ∀ k, w.mem k ≠ none → ∃ i o, w.obj i = some o ∧ o.own = k

theorem inv_empty : Inv (World.empty : World α) Slots.empty :=
  ⟨fun _ _ => rfl, fun _ _ h => by simp [World.empty] at h, fun _ _ _ _ h => by simp [World.empty] at h,
    fun _ h => (h rfl).elim, fun _ h => (h rfl).elim⟩

theorem Inv.block {w : World α} {v : Nat → Slot α} (h : Inv w v) {i : Nat} {o : Obj} (ho : w.obj i = some o) :
    ∃ b, w.mem o.own = some b := by
  have := h.alive i o ho
  cases hv : v i with
  | dead => rw [hv] at this; exact this.elim
  | movedFrom => rw [hv] at this; exact ⟨_, this⟩
  | holds q => rw [hv] at this; obtain ⟨-, b, hb, -⟩ := this; exact ⟨b, hb⟩

theorem Inv.get {w : World α} {v : Nat → Slot α} (h : Inv w v) {i : Nat} (hv : v i ≠ .dead) :
    ∃ o, w.obj i = some o := by
  cases ho : w.obj i with
  | none => exact absurd (h.dead i ho) hv
  | some o => exact ⟨o, rfl⟩

theorem Inv.none {w : World α} {v : Nat → Slot α} (h : Inv w v) {i : Nat} (hv : v i = .dead) : w.obj i = none := by
  cases ho : w.obj i with
  | none => rfl
  | some o => have := h.alive i o ho; rw [hv] at this; exact this.elim

theorem Inv.fresh {w : World α} {v : Nat → Slot α} (h : Inv w v) {i : Nat} {o : Obj} (ho : w.obj i = some o) :
    o.own < w.next := by
  obtain ⟨b, hb⟩ := h.block ho
  exact h.old _ (by rw [hb]; simp)

theorem shows_mem {w w' : World α} {o : Obj} {s : Slot α} (h : Shows w o s) (hm : w'.mem o.own = w.mem o.own) :
    Shows w' o s := by
  cases s with
  | dead => exact h
  | movedFrom => exact hm.trans h
  | holds q => obtain ⟨h1, b, h2, h3⟩ := h; exact ⟨h1, b, hm.trans h2, h3⟩

/-- A new object with a new block. -/
theorem inv_new {w : World α} {v : Nat → Slot α} (h : Inv w v) {i : Nat} (hi : w.obj i = none) (b : List α) (o : Obj)
    (s : Slot α) (ho : o.own = w.next) (hs : ∀ w' : World α, w'.mem o.own = some b → Shows w' o s) :
    Inv ⟨put w.mem w.next (some b), put w.obj i (some o), w.next + 1⟩ (put v i s) where
  dead j hj := by
    by_cases e : j = i
    · subst e; simp [put_same] at hj
    · rw [put_other _ _ e]; exact h.dead j (by simpa [put_other _ _ e] using hj)
  alive j p hj := by
    by_cases e : j = i
    · subst e
      simp only [put_same, Option.some.injEq] at hj
      subst hj
      rw [put_same]
      exact hs _ (by rw [ho]; exact put_same _ _ _)
    · have hj' : w.obj j = some p := by simpa [put_other _ _ e] using hj
      rw [put_other _ _ e]
      exact shows_mem (h.alive j p hj') (put_other _ _ (Nat.ne_of_lt (h.fresh hj')))
  inj j k p q hj hk e := by
    dsimp only at hj hk
    by_cases e1 : j = i <;> by_cases e2 : k = i
    · rw [e1, e2]
    · subst e1
      simp only [put_same, Option.some.injEq] at hj
      rw [put_other _ _ e2] at hk
      have := h.fresh hk
      subst hj; omega
    · subst e2
      simp only [put_same, Option.some.injEq] at hk
      rw [put_other _ _ e1] at hj
      have := h.fresh hj
      subst hk; omega
    · rw [put_other _ _ e1] at hj
      rw [put_other _ _ e2] at hk
      exact h.inj j k p q hj hk e
  old k hk := by
    dsimp only at hk ⊢
    by_cases e : k = w.next
    · omega
    · rw [put_other _ _ e] at hk
      have := h.old k hk
      omega
  owned k hk := by
    dsimp only at hk ⊢
    by_cases e : k = w.next
    · exact ⟨i, o, put_same _ _ _, ho.trans e.symm⟩
    · rw [put_other _ _ e] at hk
      obtain ⟨j, p, hj, e'⟩ := h.owned k hk
      have ne : j ≠ i := by rintro rfl; rw [hi] at hj; cases hj
      exact ⟨j, p, by rw [put_other _ _ ne]; exact hj, e'⟩

/-- An object and its block are given up. -/
theorem inv_free {w : World α} {v : Nat → Slot α} (h : Inv w v) {i : Nat} {o : Obj} (hi : w.obj i = some o) :
    Inv ⟨put w.mem o.own none, put w.obj i none, w.next⟩ (put v i .dead) where
  dead j hj := by
    by_cases e : j = i
    · rw [e, put_same]
    · rw [put_other _ _ e]; exact h.dead j (by simpa [put_other _ _ e] using hj)
  alive j p hj := by
    by_cases e : j = i
    · subst e; simp [put_same] at hj
    · have hj' : w.obj j = some p := by simpa [put_other _ _ e] using hj
      rw [put_other _ _ e]
      exact shows_mem (h.alive j p hj') (put_other _ _ fun e' => e (h.inj j i p o hj' hi e'))
  inj j k p q hj hk e := by
    dsimp only at hj hk
    by_cases e1 : j = i
    · subst e1; simp [put_same] at hj
    · by_cases e2 : k = i
      · subst e2; simp [put_same] at hk
      · rw [put_other _ _ e1] at hj
        rw [put_other _ _ e2] at hk
        exact h.inj j k p q hj hk e
  old k hk := by
    dsimp only at hk ⊢
    by_cases e : k = o.own
    · subst e; simp [put_same] at hk
    · rw [put_other _ _ e] at hk; exact h.old k hk
  owned k hk := by
    dsimp only at hk ⊢
    by_cases e : k = o.own
    · subst e; simp [put_same] at hk
    · rw [put_other _ _ e] at hk
      obtain ⟨j, p, hj, e'⟩ := h.owned k hk
      have ne : j ≠ i := by
        rintro rfl
        rw [hi] at hj
        cases hj
        exact e e'.symm
      exact ⟨j, p, by rw [put_other _ _ ne]; exact hj, e'⟩

/-- An object keeps its block, with other contents. -/
theorem inv_set {w : World α} {v : Nat → Slot α} (h : Inv w v) {i : Nat} {o : Obj} (hi : w.obj i = some o) (b : List α)
    (p : Obj) (hp : p.own = o.own) (s : Slot α) (hs : ∀ w' : World α, w'.mem p.own = some b → Shows w' p s) :
    Inv ⟨put w.mem o.own (some b), put w.obj i (some p), w.next⟩ (put v i s) where
  dead j hj := by
    by_cases e : j = i
    · subst e; simp [put_same] at hj
    · rw [put_other _ _ e]; exact h.dead j (by simpa [put_other _ _ e] using hj)
  alive j q hj := by
    by_cases e : j = i
    · subst e
      simp only [put_same, Option.some.injEq] at hj
      subst hj
      rw [put_same]
      exact hs _ (by rw [hp]; exact put_same _ _ _)
    · have hj' : w.obj j = some q := by simpa [put_other _ _ e] using hj
      rw [put_other _ _ e]
      exact shows_mem (h.alive j q hj') (put_other _ _ fun e' => e (h.inj j i q o hj' hi e'))
  inj j k q r hj hk e := by
    dsimp only at hj hk
    by_cases e1 : j = i <;> by_cases e2 : k = i
    · rw [e1, e2]
    · subst e1
      simp only [put_same, Option.some.injEq] at hj
      rw [put_other _ _ e2] at hk
      subst hj
      exact h.inj _ _ o r hi hk (hp.symm.trans e)
    · subst e2
      simp only [put_same, Option.some.injEq] at hk
      rw [put_other _ _ e1] at hj
      subst hk
      exact h.inj _ _ q o hj hi (e.trans hp)
    · rw [put_other _ _ e1] at hj
      rw [put_other _ _ e2] at hk
      exact h.inj j k q r hj hk e
  old k hk := by
    dsimp only at hk ⊢
    by_cases e : k = o.own
    · subst e; exact h.fresh hi
    · rw [put_other _ _ e] at hk; exact h.old k hk
  owned k hk := by
    dsimp only at hk ⊢
    by_cases e : k = o.own
    · exact ⟨i, p, put_same _ _ _, hp.trans e.symm⟩
    · rw [put_other _ _ e] at hk
      obtain ⟨j, q, hj, e'⟩ := h.owned k hk
      have ne : j ≠ i := by
        rintro rfl
        rw [hi] at hj
        cases hj
        exact e e'.symm
      exact ⟨j, q, by rw [put_other _ _ ne]; exact hj, e'⟩

/-- A move to a variable that is not alive. -/
theorem inv_handOver {w : World α} {v : Nat → Slot α} (h : Inv w v) {d s : Nat} (hd : w.obj d = none) {o : Obj}
    (ho : w.obj s = some o) : Inv (w.handOver d s o) (put (put v s .movedFrom) d (v s)) := by
  have ne : d ≠ s := by rintro rfl; rw [hd] at ho; cases ho
  have hlt := h.fresh ho
  have objd : (w.handOver d s o).obj d = some o := put_same _ _ _
  have objs : (w.handOver d s o).obj s = some { o with own := w.next } := by
    show put (put w.obj s _) d _ s = _
    rw [put_other _ _ (Ne.symm ne), put_same]
  have objx : ∀ j, j ≠ d → j ≠ s → (w.handOver d s o).obj j = w.obj j := by
    intro j h1 h2
    show put (put w.obj s _) d _ j = _
    rw [put_other _ _ h1, put_other _ _ h2]
  have mem' : ∀ k, k ≠ w.next → (w.handOver d s o).mem k = w.mem k := fun k hk => put_other _ _ hk
  have memn : (w.handOver d s o).mem w.next = some [] := put_same _ _ _
  have cases' : ∀ j, j = d ∨ j = s ∨ j ≠ d ∧ j ≠ s := by intro j; by_cases j = d <;> by_cases j = s <;> simp [*]
  refine ⟨?_, ?_, ?_, ?_, ?_⟩
  · intro j hj
    rcases cases' j with rfl | rfl | ⟨h1, h2⟩
    · rw [objd] at hj; cases hj
    · rw [objs] at hj; cases hj
    · rw [objx j h1 h2] at hj
      rw [put_other _ _ h1, put_other _ _ h2]
      exact h.dead j hj
  · intro j p hj
    rcases cases' j with rfl | rfl | ⟨h1, h2⟩
    · rw [objd] at hj
      cases hj
      rw [put_same]
      exact shows_mem (h.alive s o ho) (mem' _ (Nat.ne_of_lt hlt))
    · rw [objs] at hj
      cases hj
      rw [put_other _ _ (Ne.symm ne), put_same]
      exact memn
    · rw [objx j h1 h2] at hj
      rw [put_other _ _ h1, put_other _ _ h2]
      exact shows_mem (h.alive j p hj) (mem' _ (Nat.ne_of_lt (h.fresh hj)))
  · have key : ∀ j p, (w.handOver d s o).obj j = some p →
        (j = s ∧ p.own = w.next) ∨ (j ≠ s ∧ ∃ i q, w.obj i = some q ∧ q.own = p.own ∧ (i = if j = d then s else j)) := by
      intro j p hj
      rcases cases' j with rfl | rfl | ⟨h1, h2⟩
      · rw [objd] at hj
        cases hj
        exact Or.inr ⟨ne, s, o, ho, rfl, by simp⟩
      · rw [objs] at hj
        cases hj
        exact Or.inl ⟨rfl, rfl⟩
      · rw [objx j h1 h2] at hj
        exact Or.inr ⟨h2, j, p, hj, rfl, by simp [h1]⟩
    intro j k p q hj hk e
    rcases key j p hj with ⟨e1, n1⟩ | ⟨n1, i1, q1, w1, o1, f1⟩ <;>
      rcases key k q hk with ⟨e2, n2⟩ | ⟨n2, i2, q2, w2, o2, f2⟩
    · rw [e1, e2]
    · have := h.fresh w2; omega
    · have := h.fresh w1; omega
    · have := h.inj i1 i2 q1 q2 w1 w2 (by omega)
      rw [f1, f2] at this
      by_cases a : j = d <;> by_cases b : k = d <;> simp only [a, b, if_true, if_false] at this ⊢
      · exact absurd this.symm n2
      · exact absurd this n1
      · exact this
  · intro k hk
    by_cases e : k = w.next
    · subst e; exact Nat.lt_succ_self _
    · rw [mem' k e] at hk
      exact Nat.lt_succ_of_lt (h.old k hk)
  · intro k hk
    by_cases e : k = w.next
    · exact ⟨s, _, objs, e.symm⟩
    · rw [mem' k e] at hk
      obtain ⟨j, p, hj, e'⟩ := h.owned k hk
      by_cases e1 : j = s
      · subst e1
        rw [ho] at hj
        cases hj
        exact ⟨d, _, objd, e'⟩
      · have e2 : j ≠ d := by rintro rfl; rw [hd] at hj; cases hj
        exact ⟨j, p, (objx j e2 e1).trans hj, e'⟩

/-- Outcome relation: same fault, or related states. -/
def Related : Except Fault (World α) → Except Fault (Nat → Slot α) → Prop
  | .ok w, .ok v => Inv w v
  | .error f, .error g => f = g
  | _, _ => False

theorem put_put {β : Type} (f : Nat → β) (i : Nat) (x y : β) : put (put f i x) i y = put f i y := by
  funext j
  by_cases e : j = i
  · subst e; rw [put_same, put_same]
  · rw [put_other _ _ e, put_other _ _ e, put_other _ _ e]

theorem put_comm {β : Type} (f : Nat → β) {i j : Nat} (h : i ≠ j) (x y : β) :
    put (put f i x) j y = put (put f j y) i x := by
  funext k
  by_cases e : k = i <;> by_cases e' : k = j
  · exact absurd (e.symm.trans e') h
  · subst e; rw [put_other _ _ e', put_same, put_same]
  · subst e'; rw [put_same, put_other _ _ e, put_same]
  · rw [put_other _ _ e', put_other _ _ e, put_other _ _ e, put_other _ _ e']

theorem onSpan_related (dflt : α) (moved : α → α) {w : World α} {v : Nat → Slot α} (h : Inv w v) {i : Nat}
    {q : Deque α} (hv : v i = .holds q) (op : RingBuffer.Op α) (hs : SmallOp op) :
    Related (w.onSpan dflt moved i op) (Slots.step v (.call i op)) := by
  obtain ⟨o, ho⟩ := h.get (i := i) (by rw [hv]; simp)
  have hsh := h.alive i o ho
  rw [hv] at hsh
  obtain ⟨hb, b, hm, hr⟩ := hsh
  have hst := RingBuffer.step_refines dflt moved hr op hs
  simp only [World.onSpan, ho, hb, hm, Slots.step, hv, bind, Except.bind]
  revert hst
  cases RingBuffer.step dflt moved ⟨b, o.span⟩ op with
  | error e => cases Deque.step q op <;> exact fun hst => hst
  | ok rb =>
    cases hq : Deque.step q op with
    | error e => exact fun hst => hst.elim
    | ok q' =>
      intro hst
      refine inv_set h ho rb.buffer { o with base := o.own, span := rb.span } rfl (.holds q') ?_
      intro w' hw
      exact ⟨rfl, _, hw, hst⟩

theorem onVector_related (dflt : α) (moved : α → α) {w : World α} {v : Nat → Slot α} (h : Inv w v) {i : Nat}
    (op : RingBuffer.Op α) (hs : SmallOp op) (hop : op = .clear ∨ ∃ n, op = .resize n) (hv : v i ≠ .dead) :
    Related (w.onVector dflt moved i op) (Slots.step v (.call i op)) := by
  obtain ⟨o, ho⟩ := h.get hv
  obtain ⟨b, hm⟩ := h.block ho
  -- the specification
  obtain ⟨q, hq, hc⟩ : ∃ q, Slots.step v (.call i op) = .ok (put v i (.holds q)) ∧
      ∃ rb, RingBuffer.step dflt moved ⟨b, o.span⟩ op = .ok rb ∧ RingBuffer.Refines rb q := by
    have hsh := h.alive i o ho
    rcases hop with rfl | ⟨n, rfl⟩
    · cases hvi : v i with
      | dead => exact absurd hvi hv
      | movedFrom =>
        rw [hvi] at hsh
        have hb : b = [] := by have := hm.symm.trans hsh; simpa using this
        subst hb
        refine ⟨⟨0, []⟩, by simp [Slots.step, hvi, Deque.step, bind, Except.bind, pure, Except.pure], _, rfl, ?_⟩
        exact ⟨rep_fresh [] (by simp), rfl⟩
      | holds q =>
        rw [hvi] at hsh
        obtain ⟨-, b', hm', hr⟩ := hsh
        have hb : b' = b := by have := hm'.symm.trans hm; simpa using this
        subst hb
        have hst := RingBuffer.step_refines dflt moved hr .clear trivial
        exact ⟨_, by simp [Slots.step, hvi, Deque.step, bind, Except.bind, pure, Except.pure], _, rfl, hst⟩
    · refine ⟨⟨n, []⟩, by simp [Slots.step, Deque.step, bind, Except.bind, pure, Except.pure], _, rfl, ?_⟩
      refine ⟨?_, RingBuffer.vecResize_length _ _ _⟩
      exact rep_fresh (RingBuffer.vecResize dflt b n) (by rw [RingBuffer.vecResize_length]; exact hs)
  obtain ⟨rb, hst, hr⟩ := hc
  rw [hq]
  simp only [World.onVector, ho, hm, hst, bind, Except.bind]
  split
  · refine inv_set h ho rb.buffer ⟨o.own, o.own, rb.span⟩ rfl (.holds q) ?_
    intro w' hw
    exact ⟨rfl, _, hw, hr⟩
  · simp only [World.free, hm]
    have h1 := inv_free h ho
    have h2 := inv_new h1 (i := i) (put_same _ _ _) rb.buffer ⟨w.next, w.next, rb.span⟩ (.holds q) rfl
      (fun w' hw => ⟨rfl, _, hw, hr⟩)
    simp only [put_put] at h2
    exact h2

theorem step_related (dflt : α) (moved : α → α) {w : World α} {v : Nat → Slot α} (h : Inv w v) (a : Act α)
    (ha : Slots.Allowed v a) : Related (w.step dflt moved a) (Slots.step v a) := by
  cases a with
  | construct i n =>
    obtain ⟨hd, hn⟩ := ha
    have hi := h.none hd
    simp only [World.step, World.construct, hi]
    refine inv_new h hi _ ⟨w.next, w.next, _⟩ _ rfl fun w' hw => ⟨rfl, _, hw, ?_, ?_⟩
    · exact rep_fresh (RingBuffer.vecResize dflt [] n) (by rw [RingBuffer.vecResize_length]; exact hn)
    · exact RingBuffer.vecResize_length _ _ _
  | destroy i =>
    obtain ⟨o, ho⟩ := h.get (show v i ≠ .dead from ha)
    obtain ⟨b, hb⟩ := h.block ho
    simp only [World.step, World.destroy, ho, World.free, hb, bind, Except.bind]
    exact inv_free h ho
  | moveConstruct d s =>
    obtain ⟨hd, q, hq⟩ := ha
    obtain ⟨o, ho⟩ := h.get (i := s) (by rw [hq]; simp)
    simp only [World.step, World.moveConstruct, h.none hd, ho]
    exact inv_handOver h (h.none hd) ho
  | moveAssign d s =>
    obtain ⟨ne, hd, q, hq⟩ := ha
    obtain ⟨o, ho⟩ := h.get (i := s) (by rw [hq]; simp)
    obtain ⟨p, hp⟩ := h.get hd
    obtain ⟨b, hb⟩ := h.block hp
    simp only [World.step, World.moveAssign, ho, hp, World.free, hb, bind, Except.bind, if_neg ne]
    have h1 := inv_free h hp
    have h2 := inv_handOver h1 (d := d) (s := s) (put_same _ _ _) (o := o)
      (by show put w.obj d none s = _; rw [put_other _ _ (Ne.symm ne)]; exact ho)
    rw [put_other _ _ (Ne.symm ne)] at h2
    have e1 : put (put (put v d .dead) s .movedFrom) d (v s) = put (put v s .movedFrom) d (v s) := by
      rw [put_comm v ne, put_put]
    rw [e1] at h2
    have e2 : (World.handOver ⟨put w.mem p.own none, put w.obj d none, w.next⟩ d s o) =
        World.handOver ⟨put w.mem p.own none, w.obj, w.next⟩ d s o := by
      simp only [World.handOver]
      rw [put_comm w.obj ne, put_put]
    rw [e2] at h2
    exact h2
  | call i op =>
    obtain ⟨hs, hv⟩ := ha
    rcases hv with ⟨q, hq⟩ | ⟨hv, hop⟩
    · cases op with
      | clear => exact onVector_related dflt moved h _ hs (Or.inl rfl) (by rw [hq]; simp)
      | resize n => exact onVector_related dflt moved h _ hs (Or.inr ⟨n, rfl⟩) (by rw [hq]; simp)
      | pushBack x => exact onSpan_related dflt moved h hq _ hs
      | emplaceBack x => exact onSpan_related dflt moved h hq _ hs
      | emplaceFront x => exact onSpan_related dflt moved h hq _ hs
      | popFront => exact onSpan_related dflt moved h hq _ hs
      | popBack => exact onSpan_related dflt moved h hq _ hs
    · have hv' : v i ≠ .dead := by rw [hv]; simp
      rcases hop with rfl | ⟨n, rfl⟩
      · exact onVector_related dflt moved h _ hs (Or.inl rfl) hv'
      · exact onVector_related dflt moved h _ hs (Or.inr ⟨n, rfl⟩) hv'

theorem run_related (dflt : α) (moved : α → α) (as : List (Act α)) : ∀ {w : World α} {v : Nat → Slot α}, Inv w v →
    Slots.Careful v as → Related (w.run dflt moved as) (Slots.run v as) := by
  induction as with
  | nil => intro w v h _; exact h
  | cons a as ih =>
    intro w v h hc
    have h1 := step_related dflt moved h a hc.1
    simp only [World.run, Slots.run, bind, Except.bind]
    have hc2 := hc.2
    revert h1 hc2
    cases w.step dflt moved a with
    | error e =>
      cases Slots.step v a with
      | error e' => intro h1 _; exact h1
      | ok v' => intro h1 _; exact h1.elim
    | ok w' =>
      cases Slots.step v a with
      | error e => intro h1 _; exact h1.elim
      | ok v' => intro h1 hc2; exact ih h1 (hc2 v' rfl)

theorem view_holds {w : World α} {v : Nat → Slot α} (h : Inv w v) {i : Nat} {q : Deque α} (hv : v i = .holds q) :
    w.view i >>= observe = .ok q.observe := by
  obtain ⟨o, ho⟩ := h.get (i := i) (by rw [hv]; simp)
  have hsh := h.alive i o ho
  rw [hv] at hsh
  obtain ⟨hb, b, hm, hr⟩ := hsh
  simp only [World.view, ho, hb, hm, bind, Except.bind]
  exact RingBuffer.observe_refines hr

/-- Pushing onto a full span overwrites the first element of another span at the same place. -/
theorem alias_push {r : RingSpan} {b l : List α} (h : Rep r b l) (hc : 0 < r.cap) (hf : l.length = r.cap) (v : α) :
    ∃ r' b', RingSpan.pushBack r b v = .ok (r', b') ∧ Rep r b' (v :: l.tail) := by
  obtain ⟨hlen, hsmall, hzero, hlt, hle, hsize, hget⟩ := h
  have hfr := hlt hc
  have hfull : r.size = r.cap := by omega
  have key : ((r.front + 1) % r.cap + (r.cap - 1)) % r.cap = r.front := by
    rw [mod_mod_add, show r.front + (1 + (r.cap - 1)) = r.front + r.cap by omega, Nat.add_mod_right,
      Nat.mod_eq_of_lt hfr]
  refine ⟨{ r with front := (r.front + 1) % r.cap }, b.set r.front v, ?_, ?_⟩
  · have hb := backIdx_ok (r := { r with front := (r.front + 1) % r.cap }) hc hsmall (Nat.mod_lt _ hc)
      (by simpa using (by omega : 0 < r.size)) hle
    simp only [RingSpan.pushBack, full, hfull, beq_self_eq_true, if_true, incrementFrontAndBack, normalize_ok hc,
      wadd_eq (show r.front + 1 < 2 ^ 64 by omega)]
    simp only [hfull, key] at hb
    simp only [bind, Except.bind, pure, Except.pure, hb]
    rw [store_ok (by rw [hlen]; exact hfr)]
  · refine ⟨by simpa using hlen, hsmall, hzero, hlt, hle, by simp; omega, ?_⟩
    intro i hi
    rw [get_set (by rw [hlen]; exact hfr)]
    cases i with
    | zero => rw [if_pos (by rw [Nat.add_zero, Nat.mod_eq_of_lt hfr])]; rfl
    | succ i =>
      rw [if_neg, hget _ hi]
      · simp
      · intro e
        have e' : (r.front + 0) % r.cap = (r.front + (i + 1)) % r.cap := by
          rw [Nat.add_zero, Nat.mod_eq_of_lt hfr]; exact e
        have := mod_inj hc (by omega) e'
        omega

end Edsp.RingBuffers
