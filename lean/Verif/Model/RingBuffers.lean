import Verif.Model.RingBuffer

/-!
# Programs with several `edsp::ring_buffer`s (include/edsp/types/ring_buffer.hpp), moves included

`Verif.Model.RingBuffer` is one object that is never moved.  Here the elements live in blocks of memory: the vector
`buffer_` of an object owns a block, and the span `ring_` points at a block, which after a move need not be its own.
-/

namespace Edsp.RingBuffers

variable {α : Type}

/-- ring_buffer.hpp 471-472: the block of `buffer_`, the block `ring_.m_data` points at, and the rest of `ring_`. -/
structure Obj where
  own  : Nat
  base : Nat
  span : RingSpan

/-- The blocks, the objects that are alive, and the number of the next block. -/
structure World (α : Type) where
  mem  : Nat → Option (List α)
  obj  : Nat → Option Obj
  next : Nat

/-- Replace one entry. -/
def put {β : Type} (f : Nat → β) (i : Nat) (x : β) : Nat → β := fun j => if j = i then x else f j

namespace World

/-- Nothing yet. -/
def empty : World α := ⟨fun _ => none, fun _ => none, 0⟩

/-- The vector gives its block back; giving back a block twice is a fault. -/
def free (w : World α) (k : Nat) : Except Fault (World α) :=
  match w.mem k with
  | none => .error .badHandle
  | some _ => .ok { w with mem := put w.mem k none }

/-- The declaration `ring_buffer<T> x(n)`, ring_buffer.hpp 78-81. -/
def construct (dflt : α) (w : World α) (i n : Nat) : Except Fault (World α) :=
  match w.obj i with
  | some _ => .error .badHandle
  | none =>
    let b := RingBuffer.vecResize dflt [] n
    .ok ⟨put w.mem w.next (some b), put w.obj i (some ⟨w.next, w.next, RingSpan.mk2 b.length⟩), w.next + 1⟩

/-- The destructor, ring_buffer.hpp 102: the vector gives its block back. -/
def destroy (w : World α) (i : Nat) : Except Fault (World α) :=
  match w.obj i with
  | none => .error .dangling
  | some o => do
    let w1 ← w.free o.own
    return { w1 with obj := put w1.obj i none }

/-- What a move leaves and takes: the vector of the source is left empty (its block, of no elements, is a new one here),
that of the destination has the block of the source; both spans are the one of the source (ring_span.hpp 369-370). -/
def handOver (w : World α) (d s : Nat) (o : Obj) : World α :=
  ⟨put w.mem w.next (some []), put (put w.obj s (some { o with own := w.next })) d (some o), w.next + 1⟩

/-- ring_buffer.hpp 67: the defaulted move constructor. -/
def moveConstruct (w : World α) (d s : Nat) : Except Fault (World α) :=
  match w.obj d, w.obj s with
  | none, some o => .ok (w.handOver d s o)
  | some _, _ => .error .badHandle
  | none, none => .error .dangling

/-- ring_buffer.hpp 69: the defaulted move assignment.  The vector of the destination gives its block back.  A vector
assigned to itself is left empty (libstdc++ and libc++), its span as it was. -/
def moveAssign (w : World α) (d s : Nat) : Except Fault (World α) :=
  match w.obj d, w.obj s with
  | some p, some o => do
    let w1 ← w.free p.own
    if d = s then
      return ⟨put w1.mem w1.next (some []), put w1.obj d (some { o with own := w1.next }), w1.next + 1⟩
    else
      return w1.handOver d s o
  | _, _ => .error .dangling

/-- A call that works on the block the span points at: `push_back`, `emplace_…`, `pop_…` (ring_buffer.hpp 399-452). -/
def onSpan (dflt : α) (moved : α → α) (w : World α) (i : Nat) (op : RingBuffer.Op α) : Except Fault (World α) :=
  match w.obj i with
  | none => .error .dangling
  | some o =>
    match w.mem o.base with
    | none => .error .dangling
    | some b => do
      let rb ← RingBuffer.step dflt moved ⟨b, o.span⟩ op
      return { w with mem := put w.mem o.base (some rb.buffer), obj := put w.obj i (some { o with span := rb.span }) }

/-- A call that makes the span anew over the own vector: `clear` (120-122), `resize` (109-112).  A vector that grows moves
to a new block (where it has room to spare it stays; that is not distinguished). -/
def onVector (dflt : α) (moved : α → α) (w : World α) (i : Nat) (op : RingBuffer.Op α) : Except Fault (World α) :=
  match w.obj i with
  | none => .error .dangling
  | some o =>
    match w.mem o.own with
    | none => .error .dangling
    | some b => do
      let rb ← RingBuffer.step dflt moved ⟨b, o.span⟩ op
      if rb.buffer.length ≤ b.length then
        return { w with mem := put w.mem o.own (some rb.buffer), obj := put w.obj i (some ⟨o.own, o.own, rb.span⟩) }
      else do
        let w1 ← w.free o.own
        return ⟨put w1.mem w1.next (some rb.buffer), put w1.obj i (some ⟨w1.next, w1.next, rb.span⟩), w1.next + 1⟩

/-- What a client sees of object `i`: the elements are those of the block its span points at. -/
def view (w : World α) (i : Nat) : Except Fault (RingBuffer α) :=
  match w.obj i with
  | none => .error .dangling
  | some o =>
    match w.mem o.base with
    | none => .error .dangling
    | some b => .ok ⟨b, o.span⟩

end World

/-- What a program does. -/
inductive Act (α : Type) where
  | construct (i n : Nat)
  | destroy (i : Nat)
  | moveConstruct (d s : Nat)
  | moveAssign (d s : Nat)
  | call (i : Nat) (op : RingBuffer.Op α)

namespace World

/-- One action. -/
def step (dflt : α) (moved : α → α) (w : World α) : Act α → Except Fault (World α)
  | .construct i n => w.construct dflt i n
  | .destroy i => w.destroy i
  | .moveConstruct d s => w.moveConstruct d s
  | .moveAssign d s => w.moveAssign d s
  | .call i .clear => w.onVector dflt moved i .clear
  | .call i (.resize n) => w.onVector dflt moved i (.resize n)
  | .call i op => w.onSpan dflt moved i op

/-- A program, stopped by the first fault. -/
def run (dflt : α) (moved : α → α) (w : World α) : List (Act α) → Except Fault (World α)
  | [] => .ok w
  | a :: as => do
    let w' ← w.step dflt moved a
    run dflt moved w' as

end World
end Edsp.RingBuffers
