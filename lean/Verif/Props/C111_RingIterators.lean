import Verif.Lemmas.RingIterators

/-!
# C111: iterators of a ring buffer are positions in a deque

Full statement: a program that uses a ring buffer through its calls and through iterators (moving, comparing, subtracting,
reading and writing through them) does what it would do on a deque with positions for iterators; positions survive calls of
the buffer.  That is false of the code for buffers of `2^31` elements and more (`operator+=` takes an `int`); it holds for
smaller buffers.
-/

namespace Edsp.C111

open Edsp.Spec Edsp.RingIter Edsp.RingBuffer

variable {α β : Type}

/-- **C111, part.** Let `ops` be any history on a fresh buffer, all capacities below `2^31`, and `p` any program with
iterators (which start as `begin()`).  If the program means something on the deque, the buffer yields its result and then
shows the deque the program leaves, whatever is called next. -/
theorem C111_programs_partial (dflt : α) (moved : α → α) {c : Nat} (hc : c < 2 ^ 31) (ops : List (Op α))
    (hs : ∀ op ∈ ops, Below (2 ^ 31) op = true) {rb : RingBuffer α} {d : Deque α}
    (hr : (RingBuffer.new dflt c).run dflt moved ops = .ok rb) (hd : Deque.run ⟨c, []⟩ ops = .ok d)
    (p : Prog α β) {b : β} {d' : Deque α} (hm : meaning (2 ^ 31) p d (fun _ => 0) = .ok (b, d')) (next : List (Op α))
    (hn : ∀ op ∈ next, SmallOp op) :
    ∃ rb', p.run dflt moved rb (fun _ => 0) = .ok (b, rb') ∧
      rb'.run dflt moved next >>= observe = Deque.observe <$> d'.run next := by
  have hs' : ∀ op ∈ ops, SmallOp op := by
    intro op ho
    have := hs op ho
    cases op <;> simp only [SmallOp, Below, decide_eq_true_eq] at this ⊢
    omega
  have h := run_refines dflt moved ops (new_refines dflt (show c < 2 ^ 63 by omega)) hs'
  rw [hr, hd] at h
  have hcap : d.cap < 2 ^ 31 := run_cap ops hs hc hd
  obtain ⟨rb', h1, h2⟩ := run_meaning dflt moved p h hcap (fun _ => by omega) hm
  exact ⟨rb', h1, run_observe h2 hn⟩

/-- `std::transform(begin(), end(), begin(), f)`: register 0 is the iterator, register 1 the end. -/
def transform (f : α → α) : Nat → Prog α Unit
  | 0 => .ret ()
  | n + 1 => .equal 0 1 fun e => if e then .ret () else
      .read 0 fun v => .write 0 (f v) (.move 0 .inc (transform f n))

/-- What `transform` means. -/
theorem transform_meaning (lim : Nat) (f : α → α) (n : Nat) : ∀ (c : Nat) (l r : List α) (q : Nat → Nat), r.length < n →
    q 0 = l.length → q 1 = l.length + r.length →
    meaning lim (transform f n) ⟨c, l ++ r⟩ q = .ok ((), ⟨c, l ++ r.map f⟩) := by
  induction n with
  | zero => intro c l r q h; omega
  | succ n ih =>
    intro c l r q h h0 h1
    simp only [transform, meaning, h0, h1, List.length_append]
    rw [if_pos (by omega)]
    cases r with
    | nil => simp [meaning]
    | cons x r =>
      rw [if_neg (by simp), meaning]
      have hx : (l ++ x :: r)[q 0]? = some x := by rw [h0]; simp
      have hset : (l ++ x :: r).set (q 0) (f x) = (l ++ [f x]) ++ r := by rw [h0]; simp
      simp only [hx, meaning, hset]
      rw [if_pos (by rw [h0]; simp)]
      have hmv : moveTo ((l ++ [f x]) ++ r).length (q 0) .inc = .ok (l.length + 1) := by
        unfold moveTo target
        rw [if_pos (by rw [h0]; simp only [List.length_append, List.length_cons, List.length_nil]; omega), h0]
        congr 1
      simp only [hmv, bind, Except.bind]
      have := ih c (l ++ [f x]) r (put q 0 (l.length + 1)) (by simp only [List.length_cons] at h; omega) (by simp [put])
        (by simp [put, h1]; omega)
      simpa using this

/-- **C111, part.** `std::transform` over the iterators of a buffer maps its contents, after every history. -/
theorem C111_transform_partial (dflt : α) (moved : α → α) {c : Nat} (hc : c < 2 ^ 31) (ops : List (Op α))
    (hs : ∀ op ∈ ops, Below (2 ^ 31) op = true) {rb : RingBuffer α} {d : Deque α}
    (hr : (RingBuffer.new dflt c).run dflt moved ops = .ok rb) (hd : Deque.run ⟨c, []⟩ ops = .ok d) (f : α → α) :
    ∃ rb', (Prog.last 1 (transform f (d.items.length + 1))).run dflt moved rb (fun _ => 0) = .ok ((), rb') ∧
      observe rb' = .ok (Deque.observe ⟨d.cap, d.items.map f⟩) := by
  have hm : meaning (2 ^ 31) (Prog.last 1 (transform f (d.items.length + 1))) d (fun _ => 0) =
      .ok ((), ⟨d.cap, d.items.map f⟩) := by
    have := transform_meaning (2 ^ 31) f (d.items.length + 1) d.cap [] d.items (put (fun _ => 0) 1 d.items.length)
      (by omega) (by simp [put]) (by simp [put])
    simpa [meaning] using this
  obtain ⟨rb', h1, h2⟩ := C111_programs_partial dflt moved hc ops hs hr hd _ hm [] (by simp)
  exact ⟨rb', h1, by simpa [RingBuffer.run, Deque.run, bind, Except.bind, Functor.map, Except.map] using h2⟩

/-- A buffer of three that has wrapped; its contents are doubled. -/
example : ((RingBuffer.new 0 3).run 0 id [.pushBack 1, .pushBack 2, .pushBack 3, .pushBack 4] >>= fun rb =>
    (Prog.last 1 (transform (fun x => 2 * x) 4)).run 0 id rb (fun _ => 0) >>= fun r => r.2.forward) = .ok [4, 6, 8] := by
  decide

/-- An iterator keeps its position, not its element, when the buffer drops its front. -/
example : ((RingBuffer.new 0 3).run 0 id [.pushBack 1, .pushBack 2, .pushBack 3] >>= fun rb =>
    (Prog.move 0 (.plus 1) (.call (.pushBack 4) (.read 0 (.ret ·)))).run 0 id rb (fun _ => 0) >>= fun r => .ok r.1) = .ok 3 ∧
    meaning (2 ^ 31) (Prog.move 0 (.plus 1) (.call (.pushBack 4) (.read 0 (.ret ·)))) ⟨3, [1, 2, 3]⟩ (fun _ => 0) =
      .ok (3, ⟨3, [2, 3, 4]⟩) := by
  constructor <;> rfl

/-- `begin() + (end() - begin()) == end()`. -/
def roundTrip : Prog α Bool := .last 1 (.diff 1 0 fun n => .move 0 (.plus n) (.equal 0 1 (.ret ·)))

/-- **C111 violated.** In every buffer of `2^31` or more elements, after any history, `begin() + (end() - begin())` is not
`end()`, though it means just that. -/
theorem C111_size_violates (dflt : α) (moved : α → α) {c : Nat} (hc : c < 2 ^ 63) (ops : List (Op α))
    (hs : ∀ op ∈ ops, SmallOp op) {rb : RingBuffer α} {d : Deque α}
    (hr : (RingBuffer.new dflt c).run dflt moved ops = .ok rb) (hd : Deque.run ⟨c, []⟩ ops = .ok d)
    (hbig : 2 ^ 31 ≤ d.items.length) :
    meaning (2 ^ 63) roundTrip d (fun _ => 0) = .ok (true, d) ∧
      roundTrip.run dflt moved rb (fun _ => 0) = .ok (false, rb) := by
  have h := run_refines dflt moved ops (new_refines dflt hc) hs
  rw [hr, hd] at h
  have h1 := h.1.size
  have h2 := h.1.le
  have h3 := h.1.small
  constructor
  · simp [roundTrip, meaning, put, moveTo, target, bind, Except.bind]
  · have hdiff : difference rb.size 0 = .ok (rb.size : Int) := by
      have : rb.size = d.items.length := h1.symm
      simp only [difference, toPtrdiff_eq (show rb.size < 2 ^ 63 by omega), toPtrdiff_eq (show 0 < 2 ^ 63 by omega)]
      rw [if_pos (by omega)]
      simp
    have hne : shift 0 (toInt (rb.size : Int)) ≠ rb.size := by
      have hsz : rb.size = d.items.length := h1.symm
      unfold shift toInt
      omega
    simp [roundTrip, Prog.run, put, hdiff, bind, Except.bind, Move.apply, hne]

/-- **C111 violated.** In every buffer of more than `2^32` elements, `*(begin() + 2^32)` is the first element. -/
theorem C111_read_violates (dflt : α) (moved : α → α) {c : Nat} (hc : c < 2 ^ 63) (ops : List (Op α))
    (hs : ∀ op ∈ ops, SmallOp op) {rb : RingBuffer α} {d : Deque α}
    (hr : (RingBuffer.new dflt c).run dflt moved ops = .ok rb) (hd : Deque.run ⟨c, []⟩ ops = .ok d)
    (hbig : 2 ^ 32 < d.items.length) :
    (Prog.move 0 (.plus (2 ^ 32)) (.read 0 (.ret ·))).run dflt moved rb (fun _ => 0) = .ok (d.items[0], rb) := by
  have h := run_refines dflt moved ops (new_refines dflt hc) hs
  rw [hr, hd] at h
  have hz : shift 0 (toInt 4294967296) = 0 := by unfold shift toInt; omega
  simp [Prog.run, put, Move.apply, hz, bind, Except.bind, RingSpan.deref_rep h.1 (show 0 < d.items.length by omega)]

/-- There are such buffers: `n` values pushed into a buffer of that capacity. -/
example (dflt : α) (moved : α → α) {n : Nat} (h0 : 2 ^ 31 ≤ n) (h1 : n < 2 ^ 63) :
    ∃ (ops : List (Op α)) (rb : RingBuffer α) (d : Deque α), (∀ op ∈ ops, SmallOp op) ∧
      (RingBuffer.new dflt n).run dflt moved ops = .ok rb ∧ Deque.run ⟨n, []⟩ ops = .ok d ∧ n ≤ d.items.length := by
  have hs : ∀ op ∈ (List.replicate n dflt).map (Op.pushBack (α := α)), SmallOp op := by
    intro op ho
    obtain ⟨x, -, rfl⟩ := List.mem_map.mp ho
    trivial
  have hp := pushBacks_run (List.replicate n dflt) ⟨n, []⟩ (by show 0 < n; omega) (by simp)
  have h := run_refines dflt moved _ (new_refines dflt h1) hs
  rw [hp] at h
  revert h
  cases hr : (RingBuffer.new dflt n).run dflt moved ((List.replicate n dflt).map .pushBack) with
  | error e => intro h; exact h.elim
  | ok rb => intro h; exact ⟨_, rb, _, hs, hr, hp, by simp⟩

end Edsp.C111
