import Verif.Model.RingSpan

/-!
# Model of `edsp::ring_buffer` (include/edsp/types/ring_buffer.hpp)

The object is the vector `buffer_` together with the span `ring_` over it.  Copying
is impossible (the span is move-only), moving keeps the vector's heap storage, so
`ring_` always points at `buffer_`'s own storage.  `operator[]`/`at` (306-353)
delegate to members that `ring_span` does not have publicly and cannot be
instantiated; they are not modelled.
-/

namespace Edsp

/-- ring_buffer.hpp 471-472. -/
structure RingBuffer (α : Type) where
  buffer : List α
  span   : RingSpan

namespace RingBuffer

variable {α : Type}

/-- `std::vector<T>::resize(n)`: keeps the first elements, appends value-initialised
ones (`dflt`). -/
def vecResize (dflt : α) (l : List α) (n : Nat) : List α :=
  l.take n ++ List.replicate (n - l.length) dflt

/-- ring_buffer.hpp 65 with 471-472: default construction (capacity 0). -/
def default : RingBuffer α := { buffer := [], span := RingSpan.mk2 0 }

/-- ring_buffer.hpp 78-81. -/
def new (dflt : α) (n : Nat) : RingBuffer α :=
  let b := vecResize dflt [] n
  { buffer := b, span := RingSpan.mk2 b.length }

/-- ring_buffer.hpp 89-93. -/
def newFilled (dflt : α) (n : Nat) (v : α) : Except Fault (RingBuffer α) := do
  let b := vecResize dflt [] n
  let r := RingSpan.mk4 b.length 0 n
  let b' ← r.fillFrom v b 0 r.size
  return { buffer := b', span := r }

/-- ring_buffer.hpp 109-112. -/
def resize (dflt : α) (rb : RingBuffer α) (n : Nat) : RingBuffer α :=
  let b := vecResize dflt rb.buffer n
  { buffer := b, span := RingSpan.mk2 b.length }

/-- ring_buffer.hpp 120-122. -/
def clear (rb : RingBuffer α) : RingBuffer α :=
  { rb with span := RingSpan.mk4 rb.buffer.length 0 0 }

/-- ring_buffer.hpp 424-426. -/
def pushBack (rb : RingBuffer α) (v : α) : Except Fault (RingBuffer α) := do
  let (r, b) ← rb.span.pushBack rb.buffer v
  return { buffer := b, span := r }

/-- ring_buffer.hpp 411-414. -/
def emplaceBack (rb : RingBuffer α) (v : α) : Except Fault (RingBuffer α) := do
  let (r, b) ← rb.span.pushBack rb.buffer v
  return { buffer := b, span := r }

/-- ring_buffer.hpp 399-402. -/
def emplaceFront (rb : RingBuffer α) (v : α) : Except Fault (RingBuffer α) := do
  let (r, b) ← rb.span.pushFront rb.buffer v
  return { buffer := b, span := r }

/-- ring_buffer.hpp 437-439 (the popped value is discarded). -/
def popFront (moved : α → α) (rb : RingBuffer α) : Except Fault (RingBuffer α) := do
  let (r, b, _) ← rb.span.popFront moved rb.buffer
  return { buffer := b, span := r }

/-- ring_buffer.hpp 450-452 (the popped value is discarded). -/
def popBack (moved : α → α) (rb : RingBuffer α) : Except Fault (RingBuffer α) := do
  let (r, b, _) ← rb.span.popBack moved rb.buffer
  return { buffer := b, span := r }

/-- ring_buffer.hpp 259-261. -/
def size (rb : RingBuffer α) : Nat := rb.span.size
/-- ring_buffer.hpp 291-293. -/
def capacity (rb : RingBuffer α) : Nat := rb.span.cap
/-- ring_buffer.hpp 275-277. -/
def empty (rb : RingBuffer α) : Bool := rb.span.empty
/-- ring_buffer.hpp 283-285. -/
def full (rb : RingBuffer α) : Bool := rb.span.full
/-- ring_buffer.hpp 360-371. -/
def front (rb : RingBuffer α) : Except Fault α := rb.span.frontVal rb.buffer
/-- ring_buffer.hpp 378-389. -/
def back (rb : RingBuffer α) : Except Fault α := rb.span.backVal rb.buffer
/-- Traversal from `begin()` to `end()`, ring_buffer.hpp 131-166. -/
def forward (rb : RingBuffer α) : Except Fault (List α) := rb.span.forward rb.buffer
/-- Traversal from `rbegin()` to `rend()`, ring_buffer.hpp 174-209. -/
def backward (rb : RingBuffer α) : Except Fault (List α) := rb.span.backward rb.buffer

/-- The mutating calls a client can make. -/
inductive Op (α : Type) where
  | pushBack (v : α)
  | emplaceBack (v : α)
  | emplaceFront (v : α)
  | popFront
  | popBack
  | clear
  | resize (n : Nat)

/-- One call.  `dflt` is the value-initialised element, `moved` the residue left in a
slot by moving out of it. -/
def step (dflt : α) (moved : α → α) (rb : RingBuffer α) : Op α → Except Fault (RingBuffer α)
  | .pushBack v => rb.pushBack v
  | .emplaceBack v => rb.emplaceBack v
  | .emplaceFront v => rb.emplaceFront v
  | .popFront => rb.popFront moved
  | .popBack => rb.popBack moved
  | .clear => .ok rb.clear
  | .resize n => .ok (rb.resize dflt n)

/-- A history of calls; stops at the first fault. -/
def run (dflt : α) (moved : α → α) (rb : RingBuffer α) : List (Op α) → Except Fault (RingBuffer α)
  | [] => .ok rb
  | op :: ops => do
    let rb' ← rb.step dflt moved op
    run dflt moved rb' ops

end RingBuffer
end Edsp
