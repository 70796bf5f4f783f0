import Verif.Model.Fault
import Verif.Model.RingBuffer

/-!
# Specification: a bounded double-ended queue

The contents are a list, front element first; nothing here refers to slots, indices
or wrap-around.  A call outside the contract yields the kind of fault it causes.
-/

namespace Edsp.Spec

/-- A bounded deque: its capacity and its contents, front first. -/
structure Deque (α : Type) where
  cap   : Nat
  items : List α
  deriving DecidableEq, Repr

namespace Deque

variable {α : Type}

/-- Append at the back; a full deque first drops its front element. -/
def pushBack (d : Deque α) (v : α) : Except Fault (Deque α) :=
  if d.cap = 0 then .error .divByZero
  else if d.items.length = d.cap then .ok { d with items := d.items.tail ++ [v] }
  else .ok { d with items := d.items ++ [v] }

/-- Prepend at the front; a full deque first drops its back element. -/
def pushFront (d : Deque α) (v : α) : Except Fault (Deque α) :=
  if d.cap = 0 then .error .divByZero
  else if d.items.length = d.cap then .ok { d with items := v :: d.items.dropLast }
  else .ok { d with items := v :: d.items }

/-- Remove the front element; the deque must not be empty. -/
def popFront (d : Deque α) : Except Fault (Deque α) :=
  if d.items = [] then .error .assertion else .ok { d with items := d.items.tail }

/-- Remove the back element; the deque must not be empty. -/
def popBack (d : Deque α) : Except Fault (Deque α) :=
  if d.items = [] then .error .assertion else .ok { d with items := d.items.dropLast }

/-- The deque call corresponding to a ring-buffer call; `clear` empties, `resize n`
empties and sets the capacity. -/
def step (d : Deque α) : RingBuffer.Op α → Except Fault (Deque α)
  | .pushBack v => d.pushBack v
  | .emplaceBack v => d.pushBack v
  | .emplaceFront v => d.pushFront v
  | .popFront => d.popFront
  | .popBack => d.popBack
  | .clear => .ok { d with items := [] }
  | .resize n => .ok { cap := n, items := [] }

/-- A history of calls, stopped by the first fault. -/
def run (d : Deque α) : List (RingBuffer.Op α) → Except Fault (Deque α)
  | [] => .ok d
  | op :: ops => do
    let d' ← d.step op
    run d' ops

end Deque

/-- Everything a client can observe of a container. -/
structure Obs (α : Type) where
  size     : Nat
  capacity : Nat
  empty    : Bool
  full     : Bool
  /-- the values met from `begin()` to `end()` -/
  forward  : List α
  /-- the values met from `rbegin()` to `rend()` -/
  backward : List α
  /-- `front()`, when there is one -/
  front    : Option α
  /-- `back()`, when there is one -/
  back     : Option α
  deriving DecidableEq, Repr

/-- What is observed of a deque. -/
def Deque.observe {α : Type} (d : Deque α) : Obs α :=
  { size := d.items.length
    capacity := d.cap
    empty := d.items.isEmpty
    full := decide (d.items.length = d.cap)
    forward := d.items
    backward := d.items.reverse
    front := d.items.head?
    back := d.items.getLast? }

/-- What is observed of a ring buffer through its public interface; `front()` and
`back()` are only called on a non-empty buffer. -/
def observe {α : Type} (rb : RingBuffer α) : Except Fault (Obs α) := do
  let fw ← rb.forward
  let bw ← rb.backward
  let fr ← if rb.empty then pure none else some <$> rb.front
  let bk ← if rb.empty then pure none else some <$> rb.back
  return { size := rb.size, capacity := rb.capacity, empty := rb.empty, full := rb.full,
           forward := fw, backward := bw, front := fr, back := bk }

/-- `vector::max_size()` bounds every requested capacity. -/
def SmallOp {α : Type} : RingBuffer.Op α → Prop
  | .resize n => n < 2 ^ 63
  | _ => True

/-- `rb` is the state after some history on a fresh or a filled buffer. -/
def Reachable {α : Type} (dflt : α) (moved : α → α) (rb : RingBuffer α) : Prop :=
  ∃ n ops, n < 2 ^ 63 ∧ (∀ op ∈ ops, SmallOp op) ∧
    ((RingBuffer.new dflt n).run dflt moved ops = .ok rb ∨
      ∃ v rb₀, RingBuffer.newFilled dflt n v = .ok rb₀ ∧ rb₀.run dflt moved ops = .ok rb)

end Edsp.Spec
