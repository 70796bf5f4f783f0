import Verif.Model.Fault
import Verif.Spec.Boxes

/-!
# Model of `edsp::any`

types/any.hpp makes it an alias of the class in thirdparty/nonstd/any.hpp (active in C++14).  An object of it is a
pointer to a holder on the heap, or null.  Holders are cells of a heap; a freed cell is `none`, and using one is the
fault `dangling`.  Temporary objects are pushed behind the objects of the program and popped again.  An exception
that reaches the border of a `noexcept` function ends the program, here the fault `exception`; moving a value is
taken not to throw.  `any_cast` of a const object casts the pointer to a holder of the const type, which the
standard leaves undefined; the model takes it to be the same holder.
-/

namespace Edsp.Box

open Edsp.Spec (AnyOp)

variable {β τ : Type}

/-- The heap of holders (any.hpp 475-502), the objects of class `any` (any.hpp 504: the pointer `content`; `none` if
destroyed), and the variables of the caller. -/
structure World (β : Type) where
  heap : List (Option β)
  obj : List (Option (Option Nat))
  var : List β

namespace World

/-- The pointer of an object that exists. -/
def ptr (w : World β) (i : Nat) : Except Fault (Option Nat) :=
  match w.obj[i]? with
  | some (some p) => .ok p
  | _ => .error .dangling

/-- The value in a holder. -/
def held (w : World β) (p : Nat) : Except Fault β :=
  match w.heap[p]? with
  | some (some x) => .ok x
  | _ => .error .dangling

/-- `any()` (any.hpp 366). -/
def mkEmpty (w : World β) : World β := { w with obj := w.obj ++ [some none] }

/-- `content(new holder<T>(…))` (any.hpp 376-390). -/
def mkHolder (w : World β) (x : β) : World β :=
  { w with heap := w.heap ++ [some x], obj := w.obj ++ [some (some w.heap.length)] }

/-- `any(ValueType&& value)` of variable `k` (any.hpp 376-378): `std::move(value)` is a const rvalue if the variable is
const, and then `holder(ValueType const&)` copies (any.hpp 487); else the variable is moved from (any.hpp 490).  The
constructor is noexcept. -/
def mkLvalue (mv : β → β) (w : World β) (k : Nat) (const throws : Bool) : Except Fault (World β) :=
  match w.var[k]? with
  | none => .error .dangling
  | some x =>
    if const then if throws then .error .exception else .ok (w.mkHolder x)
    else .ok { w.mkHolder x with var := w.var.set k (mv x) }

/-- `any(any const& other)` (any.hpp 368) with `clone` (any.hpp 497-499); `true` if it throws. -/
def mkCopy (w : World β) (i : Nat) (throws : Bool) : Except Fault (World β × Bool) := do
  match ← w.ptr i with
  | none => return (w.mkEmpty, false)
  | some p => let x ← w.held p; if throws then return (w, true) else return (w.mkHolder x, false)

/-- `any(any&& other)` (any.hpp 372-374). -/
def mkMove (w : World β) (i : Nat) : Except Fault (World β) := do
  let p ← w.ptr i
  return { w with obj := w.obj.set i (some none) ++ [some p] }

/-- `reset` (any.hpp 443-446): `delete content; content = nullptr`. -/
def reset (w : World β) (i : Nat) : Except Fault (World β) := do
  match ← w.ptr i with
  | none => return { w with obj := w.obj.set i (some none) }
  | some p =>
    let _ ← w.held p
    return { w with heap := w.heap.set p none, obj := w.obj.set i (some none) }

/-- `~any` (any.hpp 398-400). -/
def destroy (w : World β) (i : Nat) : Except Fault (World β) := do
  let w ← w.reset i
  return { w with obj := w.obj.set i none }

/-- `swap` (any.hpp 448-450). -/
def swap (w : World β) (i j : Nat) : Except Fault (World β) := do
  let p ← w.ptr i
  let q ← w.ptr j
  return { w with obj := (w.obj.set i (some q)).set j (some p) }

/-- `any(…).swap(*this);` (any.hpp 403, 410, 417, 423, 430): the temporary object is the last of `w`. -/
def swapTemporary (w : World β) (i : Nat) : Except Fault (World β) := do
  let t := w.obj.length - 1
  let w ← w.swap t i
  let w ← w.destroy t
  return { w with obj := w.obj.dropLast }

/-- One operation; `true` if it throws. -/
def step (mv : β → β) (w : World β) : AnyOp β → Except Fault (World β × Bool)
  | .newEmpty => .ok (w.mkEmpty, false)
  | .newValue x => .ok (w.mkHolder x, false)
  | .newLvalue k const throws => do return (← w.mkLvalue mv k const throws, false)
  | .newCopy i throws => w.mkCopy i throws
  | .newMove i => do return (← w.mkMove i, false)
  | .destroy i => do return (← w.destroy i, false)
  | .reset i => do return (← w.reset i, false)
  -- any.hpp 402-405
  | .copyAssign i j throws => do
    let _ ← w.ptr i
    let (w, t) ← w.mkCopy j throws
    if t then return (w, true) else return (← w.swapTemporary i, false)
  -- any.hpp 409-412
  | .moveAssign i j => do
    let _ ← w.ptr i
    let w ← w.mkMove j
    return (← w.swapTemporary i, false)
  -- any.hpp 414-419
  | .assignValue i x => do
    let _ ← w.ptr i
    return (← (w.mkHolder x).swapTemporary i, false)
  | .assignLvalue i k const throws => do
    let _ ← w.ptr i
    let w ← w.mkLvalue mv k const throws
    return (← w.swapTemporary i, false)
  -- any.hpp 421-431: the value is made first
  | .emplace i x throws => do
    let _ ← w.ptr i
    if throws then return (w, true) else return (← (w.mkHolder x).swapTemporary i, false)
  | .swap i j => do return (← w.swap i j, false)

/-- A program. -/
def run (mv : β → β) (w : World β) : List (AnyOp β) → Except Fault (World β × List Bool)
  | [] => .ok (w, [])
  | op :: ops => do
    let (w, t) ← w.step mv op
    let (w, ts) ← w.run mv ops
    return (w, t :: ts)

/-- `has_value` (any.hpp 452-454). -/
def hasValue (w : World β) (i : Nat) : Except Fault Bool := do return (← w.ptr i).isSome

/-- `type` (any.hpp 456-458); `ty` is the type of a value, `none` stands for `void`. -/
def type (ty : β → τ) (w : World β) (i : Nat) : Except Fault (Option τ) := do
  match ← w.ptr i with
  | none => return none
  | some p => return some (ty (← w.held p))

/-- `any_cast<T>(any*)` (any.hpp 582-592) with `to_ptr` (any.hpp 464-472): the value pointed to, `none` for a null
pointer. -/
def castPtr [DecidableEq τ] (ty : β → τ) (w : World β) (i : Nat) (t : τ) : Except Fault (Option β) := do
  if (← w.type ty i) = some t then
    match ← w.ptr i with
    | none => throw .dangling
    | some p => return some (← w.held p)
  else return none

/-- `any_cast<T>(any const&)` (any.hpp 525-578): throws `bad_any_cast`. -/
def cast [DecidableEq τ] (ty : β → τ) (w : World β) (i : Nat) (t : τ) : Except Fault β := do
  match ← w.castPtr ty i t with
  | none => throw .exception
  | some x => return x

end World

end Edsp.Box
