import Verif.Model.RingIterators
import Verif.Spec.Deque

/-!
# Specification: a deque and positions in it

An iterator is a position, a number from 0 to the number of elements.  Leaving that range, reading or writing at its end
and comparing positions that no longer exist are errors of the program.
-/

namespace Edsp.Spec

open Edsp.RingIter

variable {α β : Type}

/-- Where a move leads from position `p`, before it is checked. -/
def target (p : Nat) : Move → Int
  | .inc => p + 1
  | .dec => p - 1
  | .plus n => p + n
  | .minus n => p - n

/-- The new position in a deque of `len` elements. -/
def moveTo (len p : Nat) (m : Move) : Except Fault Nat :=
  if 0 ≤ target p m ∧ target p m ≤ len then .ok (target p m).toNat else .error .outOfBounds

/-- Capacities asked for stay below `lim`. -/
def Below {α : Type} (lim : Nat) : RingBuffer.Op α → Bool
  | .resize n => decide (n < lim)
  | _ => true

/-- What a program means: the deque and the positions of its iterators.  A call of the container leaves positions alone.
Programs that ask for a capacity of `lim` or more have no meaning. -/
def meaning (lim : Nat) : Prog α β → Deque α → (Nat → Nat) → Except Fault (β × Deque α)
  | .ret b, d, _ => .ok (b, d)
  | .read i k, d, p =>
    match d.items[p i]? with
    | some v => meaning lim (k v) d p
    | none => .error .outOfBounds
  | .write i v k, d, p =>
    if p i < d.items.length then meaning lim k { d with items := d.items.set (p i) v } p else .error .outOfBounds
  | .move i m k, d, p => do
    let q ← moveTo d.items.length (p i) m
    meaning lim k d (put p i q)
  | .copy i j k, d, p => meaning lim k d (put p i (p j))
  | .first i k, d, p => meaning lim k d (put p i 0)
  | .last i k, d, p => meaning lim k d (put p i d.items.length)
  | .diff i j k, d, p =>
    if p i ≤ d.items.length ∧ p j ≤ d.items.length then meaning lim (k ((p i : Int) - p j)) d p else .error .outOfBounds
  | .less i j k, d, p =>
    if p i ≤ d.items.length ∧ p j ≤ d.items.length then meaning lim (k (decide (p i < p j))) d p else .error .outOfBounds
  | .equal i j k, d, p =>
    if p i ≤ d.items.length ∧ p j ≤ d.items.length then meaning lim (k (decide (p i = p j))) d p else .error .outOfBounds
  | .call op k, d, p => if Below lim op then do
      let d ← d.step op
      meaning lim k d p
    else .error .domain

end Edsp.Spec
