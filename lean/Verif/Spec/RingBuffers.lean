import Verif.Model.RingBuffers
import Verif.Spec.Deque

/-!
# Specification: variables that hold bounded deques

A move gives the destination the deque of the source.  As with the containers of the standard library, the contents of the
source are not specified then; it may be given new contents, resized, cleared, or destroyed.
-/

namespace Edsp.Spec

open Edsp.RingBuffers

/-- A variable: not alive, alive with unspecified contents, or alive with a deque. -/
inductive Slot (α : Type) where
  | dead
  | movedFrom
  | holds (q : Deque α)

namespace Slots

variable {α : Type}

/-- No variable is alive. -/
def empty : Nat → Slot α := fun _ => .dead

/-- What a program may do. -/
def Allowed (v : Nat → Slot α) : Act α → Prop
  | .construct i n => v i = .dead ∧ n < 2 ^ 63
  | .destroy i => v i ≠ .dead
  | .moveConstruct d s => v d = .dead ∧ ∃ q, v s = .holds q
  | .moveAssign d s => d ≠ s ∧ v d ≠ .dead ∧ ∃ q, v s = .holds q
  | .call i op => SmallOp op ∧ ((∃ q, v i = .holds q) ∨ v i = .movedFrom ∧ (op = .clear ∨ ∃ n, op = .resize n))

/-- One action: only the variables named change.  A variable that was moved from has capacity 0 when it is cleared. -/
def step (v : Nat → Slot α) : Act α → Except Fault (Nat → Slot α)
  | .construct i n => .ok (put v i (.holds ⟨n, []⟩))
  | .destroy i => .ok (put v i .dead)
  | .moveConstruct d s => .ok (put (put v s .movedFrom) d (v s))
  | .moveAssign d s => .ok (put (put v s .movedFrom) d (v s))
  | .call i op => do
    let q ← Deque.step (match v i with | .holds q => q | _ => ⟨0, []⟩) op
    return put v i (.holds q)

/-- A program, stopped by the first fault. -/
def run (v : Nat → Slot α) : List (Act α) → Except Fault (Nat → Slot α)
  | [] => .ok v
  | a :: as => do
    let v' ← step v a
    run v' as

/-- Every action of the program is allowed when it is made. -/
def Careful (v : Nat → Slot α) : List (Act α) → Prop
  | [] => True
  | a :: as => Allowed v a ∧ ∀ v', step v a = .ok v' → Careful v' as

end Slots
end Edsp.Spec
