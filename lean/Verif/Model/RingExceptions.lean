import Verif.Model.RingBuffer

/-!
# Model of ring buffers whose elements throw, and of pushes of their own elements

`edsp::ring_buffer` (include/edsp/types/ring_buffer.hpp) over `nonstd::ring_span`
(include/edsp/thirdparty/nonstd/ring_span.hpp), for element types whose copy, move or
constructor may throw.  The exception leaves the call, the client catches it and goes on
using the buffer.  `broken v` is what an assignment to, or a move from, an element holding
`v` leaves in it when it throws; it is the identity for an element with the strong
guarantee.

`edsp::fixed_ring_buffer` calls the same members of the span over an array.  The exceptions
of the constructors leave no object and are not modelled.
-/

namespace Edsp
namespace RingSpan

variable {α : Type}

/-- ring_span.hpp 492-503 (`push_back`), 507-514 (`push_back` of an rvalue), 517-525
(`emplace_back`) when the assignment `back_() = value` throws: the indices have been changed
before, the slot assigned to is left as `broken` says. -/
def pushBackThrows (broken : α → α) (r : RingSpan) (data : List α) :
    Except Fault (RingSpan × List α) := do
  let r' ← if r.full then r.incrementFrontAndBack else pure r.incrementBack
  let i ← r'.backIdx
  let v ← load data i
  let data' ← store data i (broken v)
  return (r', data')

/-- ring_span.hpp 532-565 (`push_front`, `emplace_front`) when the assignment to `front_()`
throws. -/
def pushFrontThrows (broken : α → α) (r : RingSpan) (data : List α) :
    Except Fault (RingSpan × List α) := do
  let r' ← if r.full then r.decrementFrontAndBack else r.decrementFront
  let v ← load data r'.front
  let data' ← store data r'.front (broken v)
  return (r', data')

/-- ring_span.hpp 492-503 when `value` refers to the slot `j` of the storage itself: the
indices are changed first, the slot is read afterwards. -/
def pushBackSlot (r : RingSpan) (data : List α) (j : Nat) : Except Fault (RingSpan × List α) := do
  let r' ← if r.full then r.incrementFrontAndBack else pure r.incrementBack
  let i ← r'.backIdx
  let v ← load data j
  let data' ← store data i v
  return (r', data')

end RingSpan

namespace RingBuffer

variable {α : Type}

/-- The calls a client can make on a buffer of throwing elements. -/
inductive Call (α : Type) where
  /-- a call that returns -/
  | returns (op : Op α)
  /-- `push_back(*(begin() + k))`: the argument refers to an element of the buffer -/
  | pushOwn (k : Nat)
  /-- `push_back(v)` and the assignment throws -/
  | pushBackThrows
  /-- `emplace_back(args...)` and a copy of an argument throws -/
  | argumentThrows
  /-- `emplace_back(args...)` and the constructor of the element throws -/
  | emplaceBackThrows
  /-- `emplace_front(args...)` and the constructor of the element throws -/
  | emplaceFrontThrows
  /-- `pop_front()` and moving the element out throws -/
  | popFrontThrows
  /-- `pop_back()` and moving the element out throws -/
  | popBackThrows
  /-- `resize(n)` and the vector throws -/
  | resizeThrows (n : Nat)

/-- ring_buffer.hpp 424-426 with `item` a reference to the `k`-th element, which
`*(begin() + k)` finds before the call (ring_span.hpp 589-595, 697-699). -/
def pushOwn (rb : RingBuffer α) (k : Nat) : Except Fault (RingBuffer α) := do
  let j ← rb.span.atIdx k
  let (r, b) ← rb.span.pushBackSlot rb.buffer j
  return { buffer := b, span := r }

/-- One call; a call that throws leaves the buffer it returns here to the handler.

* ring_buffer.hpp 424-426: `push_back` with a throwing assignment.
* ring_buffer.hpp 411-414: the arguments of `emplace_back` are taken by value, so a throwing
  copy of one happens before the buffer is touched.
* ring_buffer.hpp 411-414, 399-402 with ring_span.hpp 517-525, 557-565: `T(args...)` throws,
  nothing is assigned and the slot keeps its value.
* ring_buffer.hpp 437-439, 450-452 with ring_span.hpp 470-487: the indices are changed before
  the popper moves the element out.
* ring_buffer.hpp 109-112: `buffer_.resize(n)` throws before `ring_` is assigned; elements
  that can be copied or moved without exceptions in growing give the vector the strong
  guarantee. -/
def call (dflt : α) (moved broken : α → α) (rb : RingBuffer α) :
    Call α → Except Fault (RingBuffer α)
  | .returns op => rb.step dflt moved op
  | .pushOwn k => rb.pushOwn k
  | .pushBackThrows => do
    let (r, b) ← rb.span.pushBackThrows broken rb.buffer
    return { buffer := b, span := r }
  | .argumentThrows => .ok rb
  | .emplaceBackThrows => do
    let (r, b) ← rb.span.pushBackThrows id rb.buffer
    return { buffer := b, span := r }
  | .emplaceFrontThrows => do
    let (r, b) ← rb.span.pushFrontThrows id rb.buffer
    return { buffer := b, span := r }
  | .popFrontThrows => rb.popFront broken
  | .popBackThrows => rb.popBack broken
  | .resizeThrows _ => .ok rb

/-- A history of calls, stopped by the first fault (not by an exception). -/
def calls (dflt : α) (moved broken : α → α) (rb : RingBuffer α) :
    List (Call α) → Except Fault (RingBuffer α)
  | [] => .ok rb
  | c :: cs => do
    let rb' ← rb.call dflt moved broken c
    calls dflt moved broken rb' cs

end RingBuffer
end Edsp
