import Verif.Model.Fault

/-!
# Model of `nonstd::ring_span` (include/edsp/thirdparty/nonstd/ring_span.hpp)

`size_type` is `std::size_t`: 64-bit, arithmetic modulo `2^64` (`wadd`, `wsub`).
The pointer `m_data` is modelled by passing the storage it points to (a list of
slots) to every operation; operations that write return the new storage.
-/

namespace Edsp

/-- Number of values of `std::size_t` on the 64-bit targets of the library. -/
def sizeMod : Nat := 2 ^ 64

/-- `a + b` on `std::size_t`. -/
def wadd (a b : Nat) : Nat := (a + b) % sizeMod

/-- `a - b` on `std::size_t`. -/
def wsub (a b : Nat) : Nat := (a + (sizeMod - b % sizeMod)) % sizeMod

/-- ring_span.hpp 640-643: the data members other than the pointer and the popper. -/
structure RingSpan where
  size  : Nat
  cap   : Nat
  front : Nat
  deriving DecidableEq, Repr

namespace RingSpan

variable {α : Type}

/-- ring_span.hpp 352-358: `ring_span(begin, end)`; `n = end - begin`. -/
def mk2 (n : Nat) : RingSpan := { size := 0, cap := n, front := 0 }

/-- ring_span.hpp 360-366: `ring_span(begin, end, first, size)`;
`n = end - begin`, `first` the offset of the third argument. -/
def mk4 (n first size : Nat) : RingSpan := { size := size, cap := n, front := first }

/-- ring_span.hpp 381-383. -/
def empty (r : RingSpan) : Bool := r.size == 0

/-- ring_span.hpp 385-387. -/
def full (r : RingSpan) : Bool := r.size == r.cap

/-- ring_span.hpp 585-587: `idx % m_capacity`; modulo by zero is a fault. -/
def normalize (r : RingSpan) (idx : Nat) : Except Fault Nat :=
  if r.cap = 0 then .error .divByZero else .ok (idx % r.cap)

/-- Reading `m_data[i]`. -/
def load (data : List α) (i : Nat) : Except Fault α :=
  match data[i]? with
  | some v => .ok v
  | none => .error .outOfBounds

/-- Writing `m_data[i] = v`. -/
def store (data : List α) (i : Nat) (v : α) : Except Fault (List α) :=
  if i < data.length then .ok (data.set i v) else .error .outOfBounds

/-- Slot index used by `at(idx)`, ring_span.hpp 589-595. -/
def atIdx (r : RingSpan) (idx : Nat) : Except Fault Nat :=
  r.normalize (wadd r.front idx)

/-- Slot index used by `back_()`, ring_span.hpp 605-611
(`m_front_idx + m_size - 1`, evaluated left to right). -/
def backIdx (r : RingSpan) : Except Fault Nat :=
  r.normalize (wsub (wadd r.front r.size) 1)

/-- ring_span.hpp 613-616. -/
def incrementFront (r : RingSpan) : Except Fault RingSpan := do
  let f ← r.normalize (wadd r.front 1)
  return { r with front := f, size := wsub r.size 1 }

/-- ring_span.hpp 618-621. -/
def decrementFront (r : RingSpan) : Except Fault RingSpan := do
  let f ← r.normalize (wsub (wadd r.front r.cap) 1)
  return { r with front := f, size := wadd r.size 1 }

/-- ring_span.hpp 623-625. -/
def incrementBack (r : RingSpan) : RingSpan := { r with size := wadd r.size 1 }

/-- ring_span.hpp 627-629. -/
def decrementBack (r : RingSpan) : RingSpan := { r with size := wsub r.size 1 }

/-- ring_span.hpp 631-633. -/
def incrementFrontAndBack (r : RingSpan) : Except Fault RingSpan := do
  let f ← r.normalize (wadd r.front 1)
  return { r with front := f }

/-- ring_span.hpp 635-637. -/
def decrementFrontAndBack (r : RingSpan) : Except Fault RingSpan := do
  let f ← r.normalize (wsub (wadd r.front r.cap) 1)
  return { r with front := f }

/-- ring_span.hpp 492-503 (`push_back`), 507-514 and 517-525 (`emplace_back`):
the three bodies are the same but for how the value is built. -/
def pushBack (r : RingSpan) (data : List α) (v : α) : Except Fault (RingSpan × List α) := do
  let r' ← if r.full then r.incrementFrontAndBack else pure r.incrementBack
  let i ← r'.backIdx
  let data' ← store data i v
  return (r', data')

/-- ring_span.hpp 532-543 (`push_front`), 547-554 and 557-565 (`emplace_front`).
`front_()` is `*(m_data + m_front_idx)`, ring_span.hpp 597-603. -/
def pushFront (r : RingSpan) (data : List α) (v : α) : Except Fault (RingSpan × List α) := do
  let r' ← if r.full then r.decrementFrontAndBack else r.decrementFront
  let data' ← store data r'.front v
  return (r', data')

/-- ring_span.hpp 470-477.  `moved v` is what moving from a slot holding `v` (the
default popper, ring_span.hpp `default_popper`) leaves in the slot; it is the identity for
numbers. -/
def popFront (moved : α → α) (r : RingSpan) (data : List α) :
    Except Fault (RingSpan × List α × α) := do
  if r.empty then throw .assertion
  let i := r.front
  let v ← load data i
  let r' ← r.incrementFront
  let data' ← store data i (moved v)
  return (r', data', v)

/-- ring_span.hpp 480-487. -/
def popBack (moved : α → α) (r : RingSpan) (data : List α) :
    Except Fault (RingSpan × List α × α) := do
  if r.empty then throw .assertion
  let i ← r.backIdx
  let v ← load data i
  let r' := r.decrementBack
  let data' ← store data i (moved v)
  return (r', data', v)

/-- `*it` for an iterator with index `idx`, ring_span.hpp 697-699. -/
def deref (r : RingSpan) (data : List α) (idx : Nat) : Except Fault α := do
  let i ← r.atIdx idx
  load data i

/-- ring_span.hpp 399-405: `front()` is `*begin()`, `begin()` has index 0 (417-427). -/
def frontVal (r : RingSpan) (data : List α) : Except Fault α := r.deref data 0

/-- ring_span.hpp 407-413: `back()` is `*(--end())`, `end()` has index `size()` (429-439). -/
def backVal (r : RingSpan) (data : List α) : Except Fault α := r.deref data (wsub r.size 1)

/-- The loop `for (; it != end; ++it) visit(*it)` started at index `idx` with `n`
increments left before `it == end` (iterator increment and comparison:
ring_span.hpp 703-706, 761-771). -/
def walk (r : RingSpan) (data : List α) : Nat → Nat → Except Fault (List α)
  | _, 0 => .ok []
  | idx, n + 1 => do
    let v ← r.deref data idx
    let vs ← walk r data (wadd idx 1) n
    return v :: vs

/-- Everything seen from `begin()` to `end()` (ring_span.hpp 417-439). -/
def forward (r : RingSpan) (data : List α) : Except Fault (List α) := r.walk data 0 r.size

/-- The loop over a `std::reverse_iterator` whose base has index `n`:
each dereference reads `*(--tmp)` with `tmp` a copy of the base. -/
def rwalk (r : RingSpan) (data : List α) : Nat → Except Fault (List α)
  | 0 => .ok []
  | n + 1 => do
    let v ← r.deref data (wsub (n + 1) 1)
    let vs ← rwalk r data n
    return v :: vs

/-- Everything seen from `rbegin()` to `rend()` (ring_span.hpp 443-465). -/
def backward (r : RingSpan) (data : List α) : Except Fault (List α) := r.rwalk data r.size

/-- `std::fill(begin(), end(), v)` through ring iterators: `n` assignments left,
starting with index `idx`. -/
def fillFrom (r : RingSpan) (v : α) : List α → Nat → Nat → Except Fault (List α)
  | data, _, 0 => .ok data
  | data, idx, n + 1 => do
    let i ← r.atIdx idx
    let data' ← store data i v
    fillFrom r v data' (wadd idx 1) n

end RingSpan
end Edsp
