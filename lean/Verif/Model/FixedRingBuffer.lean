import Verif.Model.RingSpan

/-!
# Model of `edsp::fixed_ring_buffer` (include/edsp/types/fixed_ring_buffer.hpp)

The slots live inside the object (`std::array`), so the pointer inside `ring_` names an
object.  The model is a heap of objects; each object has its own array, a span, and the
identity `base` of the object whose array the span points at.
-/

namespace Edsp

/-- fixed_ring_buffer.hpp 434-435: array, span, and the object `ring_.m_data` points into. -/
structure FixedObj (α : Type) where
  buffer : List α
  base   : Nat
  span   : RingSpan

/-- The live objects. -/
def FixedHeap (α : Type) := Nat → Option (FixedObj α)

namespace FixedHeap

variable {α : Type}

/-- No live object. -/
def empty : FixedHeap α := fun _ => none

/-- Replace (or remove) one object. -/
def set (h : FixedHeap α) (i : Nat) (o : Option (FixedObj α)) : FixedHeap α :=
  fun j => if j = i then o else h j

/-- fixed_ring_buffer.hpp 61 with 434-435: default construction with `MaxSize = n`. -/
def construct (dflt : α) (n : Nat) (h : FixedHeap α) (i : Nat) : FixedHeap α :=
  h.set i (some { buffer := List.replicate n dflt, base := i, span := RingSpan.mk2 n })

/-- fixed_ring_buffer.hpp 74. -/
def destroy (h : FixedHeap α) (i : Nat) : FixedHeap α := h.set i none

/-- fixed_ring_buffer.hpp 63: the defaulted move constructor moves the array element by
element and the span member by member (ring_span.hpp 369), so the new span still points
at the array of the *source* span. -/
def moveConstruct (moved : α → α) (h : FixedHeap α) (dst src : Nat) :
    Except Fault (FixedHeap α) :=
  match h src with
  | none => .error .dangling
  | some o =>
    let h1 := h.set src (some { o with buffer := o.buffer.map moved })
    .ok (h1.set dst (some { buffer := o.buffer, base := o.base, span := o.span }))

/-- fixed_ring_buffer.hpp 65: the defaulted move assignment, to another live object. -/
def moveAssign (moved : α → α) (h : FixedHeap α) (dst src : Nat) :
    Except Fault (FixedHeap α) :=
  match h dst with
  | none => .error .dangling
  | some _ => h.moveConstruct moved dst src

/-- A call on object `i` that acts on the span and on the array the span points at. -/
def onSpan (h : FixedHeap α) (i : Nat)
    (f : RingSpan → List α → Except Fault (RingSpan × List α)) : Except Fault (FixedHeap α) :=
  match h i with
  | none => .error .dangling
  | some o =>
    match h o.base with
    | none => .error .dangling
    | some t => do
      let (r, d) ← f o.span t.buffer
      let h1 := h.set o.base (some { t with buffer := d })
      match h1 i with
      | none => .error .dangling
      | some o1 => return h1.set i (some { o1 with span := r })

/-- fixed_ring_buffer.hpp 387-389 (and 374-377, `emplace_back`). -/
def pushBack (h : FixedHeap α) (i : Nat) (v : α) : Except Fault (FixedHeap α) :=
  h.onSpan i fun r d => r.pushBack d v

/-- fixed_ring_buffer.hpp 361-364. -/
def emplaceFront (h : FixedHeap α) (i : Nat) (v : α) : Except Fault (FixedHeap α) :=
  h.onSpan i fun r d => r.pushFront d v

/-- fixed_ring_buffer.hpp 400-402. -/
def popFront (moved : α → α) (h : FixedHeap α) (i : Nat) : Except Fault (FixedHeap α) :=
  h.onSpan i fun r d => do
    let (r', d', _) ← r.popFront moved d
    return (r', d')

/-- fixed_ring_buffer.hpp 413-415. -/
def popBack (moved : α → α) (h : FixedHeap α) (i : Nat) : Except Fault (FixedHeap α) :=
  h.onSpan i fun r d => do
    let (r', d', _) ← r.popBack moved d
    return (r', d')

/-- fixed_ring_buffer.hpp 82-84: the span is rebuilt over the object's own array. -/
def clear (h : FixedHeap α) (i : Nat) : Except Fault (FixedHeap α) :=
  match h i with
  | none => .error .dangling
  | some o => .ok (h.set i (some { o with base := i, span := RingSpan.mk2 o.buffer.length }))

/-- Traversal of object `i` from `begin()` to `end()`, fixed_ring_buffer.hpp 93-128. -/
def contents (h : FixedHeap α) (i : Nat) : Except Fault (List α) :=
  match h i with
  | none => .error .dangling
  | some o =>
    match h o.base with
    | none => .error .dangling
    | some t => o.span.forward t.buffer

/-- Client actions on a heap of `fixed_ring_buffer<T, n>`. -/
inductive Act (α : Type) where
  | construct (i : Nat)
  | destroy (i : Nat)
  | moveConstruct (dst src : Nat)
  | moveAssign (dst src : Nat)
  | pushBack (i : Nat) (v : α)
  | emplaceBack (i : Nat) (v : α)
  | emplaceFront (i : Nat) (v : α)
  | popFront (i : Nat)
  | popBack (i : Nat)
  | clear (i : Nat)

/-- One action. -/
def step (dflt : α) (n : Nat) (moved : α → α) (h : FixedHeap α) : Act α → Except Fault (FixedHeap α)
  | .construct i => .ok (h.construct dflt n i)
  | .destroy i => .ok (h.destroy i)
  | .moveConstruct d s => h.moveConstruct moved d s
  | .moveAssign d s => h.moveAssign moved d s
  | .pushBack i v => h.pushBack i v
  | .emplaceBack i v => h.pushBack i v
  | .emplaceFront i v => h.emplaceFront i v
  | .popFront i => h.popFront moved i
  | .popBack i => h.popBack moved i
  | .clear i => h.clear i

/-- A history of actions. -/
def run (dflt : α) (n : Nat) (moved : α → α) (h : FixedHeap α) :
    List (Act α) → Except Fault (FixedHeap α)
  | [] => .ok h
  | a :: as => do
    let h' ← h.step dflt n moved a
    run dflt n moved h' as

end FixedHeap
end Edsp
