/-!
# Specification: a box for one value of any type

A table of boxes, each destroyed, empty or holding one value, and a table of variables of the caller.  Values of
type `β` carry their type; `mv x` is what a moved-from `x` is left as.
-/

namespace Edsp.Spec

/-- What a program can do with boxes; `throws` tells that making the copy, or the new value, throws. -/
inductive AnyOp (β : Type) where
  | newEmpty
  | newValue (x : β)
  /-- from variable `k` of the caller, const or not -/
  | newLvalue (k : Nat) (const throws : Bool)
  | newCopy (i : Nat) (throws : Bool)
  | newMove (i : Nat)
  | destroy (i : Nat)
  | reset (i : Nat)
  | copyAssign (i j : Nat) (throws : Bool)
  | moveAssign (i j : Nat)
  | assignValue (i : Nat) (x : β)
  | assignLvalue (i k : Nat) (const throws : Bool)
  | emplace (i : Nat) (x : β) (throws : Bool)
  | swap (i j : Nat)

/-- The boxes and the variables. -/
structure Boxes (β : Type) where
  box : List (Option (Option β))
  var : List β

variable {β : Type}

/-- The content of a box that exists. -/
def Boxes.content (s : Boxes β) (i : Nat) : Option (Option β) := (s.box[i]?).join

/-- One operation: what it leaves, and whether it throws; `none` if it names something that does not exist.
Storing a variable leaves the variable alone.  An operation that throws leaves everything alone. -/
def Boxes.step (s : Boxes β) : AnyOp β → Option (Boxes β × Bool)
  | .newEmpty => some ({ s with box := s.box ++ [some none] }, false)
  | .newValue x => some ({ s with box := s.box ++ [some (some x)] }, false)
  | .newLvalue k _ throws => do
    let x ← s.var[k]?
    if throws then some (s, true) else some ({ s with box := s.box ++ [some (some x)] }, false)
  | .newCopy i throws => do
    let c ← s.content i
    if throws && c.isSome then some (s, true) else some ({ s with box := s.box ++ [some c] }, false)
  | .newMove i => do
    let c ← s.content i
    some ({ s with box := s.box.set i (some none) ++ [some c] }, false)
  | .destroy i => do
    let _ ← s.content i
    some ({ s with box := s.box.set i none }, false)
  | .reset i => do
    let _ ← s.content i
    some ({ s with box := s.box.set i (some none) }, false)
  | .copyAssign i j throws => do
    let _ ← s.content i
    let c ← s.content j
    if throws && c.isSome then some (s, true) else some ({ s with box := s.box.set i (some c) }, false)
  | .moveAssign i j => do
    let _ ← s.content i
    let c ← s.content j
    some ({ s with box := (s.box.set j (some none)).set i (some c) }, false)
  | .assignValue i x => do
    let _ ← s.content i
    some ({ s with box := s.box.set i (some (some x)) }, false)
  | .assignLvalue i k _ throws => do
    let _ ← s.content i
    let x ← s.var[k]?
    if throws then some (s, true) else some ({ s with box := s.box.set i (some (some x)) }, false)
  | .emplace i x throws => do
    let _ ← s.content i
    if throws then some (s, true) else some ({ s with box := s.box.set i (some (some x)) }, false)
  | .swap i j => do
    let a ← s.content i
    let b ← s.content j
    some ({ s with box := (s.box.set i (some b)).set j (some a) }, false)

/-- A program: what it leaves, and which of its operations threw. -/
def Boxes.run (s : Boxes β) : List (AnyOp β) → Option (Boxes β × List Bool)
  | [] => some (s, [])
  | op :: ops => do
    let (s, t) ← s.step op
    let (s, ts) ← s.run ops
    some (s, t :: ts)

/-- Stores a variable of the caller without changing it: copying it does not throw, and it is const or a move
leaves its value as it was. -/
def AnyOp.Mild (mv : β → β) : AnyOp β → Prop
  | .newLvalue _ c t | .assignLvalue _ _ c t => t = false ∧ (c = true ∨ ∀ x, mv x = x)
  | _ => True

end Edsp.Spec
