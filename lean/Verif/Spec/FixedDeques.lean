import Verif.Model.FixedRingBuffer
import Verif.Spec.Deque

/-!
# Specification: a family of independent bounded deques

Each live object owns a deque; an action changes the deque of the object it names and no
other.  A move gives the destination the contents of the source; what remains in the source
is not specified further than that it stays a container of its own (here: unchanged).
-/

namespace Edsp.Spec

/-- The deque of each live object. -/
def Deques (α : Type) := Nat → Option (Deque α)

namespace Deques

variable {α : Type}

/-- No object. -/
def empty : Deques α := fun _ => none

/-- Replace one object. -/
def set (h : Deques α) (i : Nat) (o : Option (Deque α)) : Deques α :=
  fun j => if j = i then o else h j

/-- A deque call on object `i`. -/
def on (h : Deques α) (i : Nat) (f : Deque α → Except Fault (Deque α)) :
    Except Fault (Deques α) :=
  match h i with
  | none => .error .dangling
  | some d => do
    let d' ← f d
    return h.set i (some d')

/-- One action. -/
def step (n : Nat) (h : Deques α) : FixedHeap.Act α → Except Fault (Deques α)
  | .construct i => .ok (h.set i (some { cap := n, items := [] }))
  | .destroy i => .ok (h.set i none)
  | .moveConstruct d s =>
    match h s with
    | none => .error .dangling
    | some q => .ok (h.set d (some q))
  | .moveAssign d s =>
    match h d, h s with
    | some _, some q => .ok (h.set d (some q))
    | _, _ => .error .dangling
  | .pushBack i v => h.on i fun q => q.pushBack v
  | .emplaceBack i v => h.on i fun q => q.pushBack v
  | .emplaceFront i v => h.on i fun q => q.pushFront v
  | .popFront i => h.on i fun q => q.popFront
  | .popBack i => h.on i fun q => q.popBack
  | .clear i => h.on i fun q => .ok { q with items := [] }

/-- A history of actions. -/
def run (n : Nat) (h : Deques α) : List (FixedHeap.Act α) → Except Fault (Deques α)
  | [] => .ok h
  | a :: as => do
    let h' ← h.step n a
    run n h' as

/-- Contents of object `i`. -/
def contents (h : Deques α) (i : Nat) : Except Fault (List α) :=
  match h i with
  | none => .error .dangling
  | some d => .ok d.items

end Deques

/-- The action moves one object into another. -/
def IsMove {α : Type} : FixedHeap.Act α → Prop
  | .moveConstruct _ _ => True
  | .moveAssign _ _ => True
  | _ => False

end Edsp.Spec
