/-!
# Specification of optional and expected objects

The objects of a program, numbered in the order of their creation, seen as plain values: an optional is an
`Option`, an expected is a value or an error (`Except`).  `none` as a table entry is an object that has been
destroyed.  Written from the C++ standard ([optional.optional], [expected.expected]), independent of the
model; a step is `none` if the program uses an object that does not exist.
-/

namespace Edsp.Spec

variable {α ε β : Type}

/-- What a program does with optionals. `throws` tells that the constructor of the contained type throws;
`left` is the value that an assignment of the contained type leaves behind when it throws. -/
inductive OptOp (α : Type) where
  | newEmpty
  | newValue (v : α)
  | newCopy (i : Nat) (throws : Bool)
  | newMove (i : Nat)
  | destroy (i : Nat)
  | reset (i : Nat)
  | copyAssign (i j : Nat) (left : Option α)
  | moveAssign (i j : Nat)
  | assignValue (i : Nat) (v : α) (left : Option α)
  | emplace (i : Nat) (v : α) (throws : Bool)
  | swap (i j : Nat)

/-- The object with number `i`, if it exists. -/
def live (w : List (Option β)) (i : Nat) : Option β := w[i]?.join

/-- The effect of an operation on the values, and whether an exception leaves it. A moved-from value `v`
becomes `mv v`. -/
def optStep (mv : α → α) (w : List (Option (Option α))) : OptOp α → Option (List (Option (Option α)) × Bool)
  | .newEmpty => some (w ++ [some none], false)
  | .newValue v => some (w ++ [some (some v)], false)
  | .newCopy i throws => do
    let o ← live w i
    if throws && o.isSome then return (w, true) else return (w ++ [some o], false)
  | .newMove i => do
    let o ← live w i
    return (w.set i (some (o.map mv)) ++ [some o], false)
  | .destroy i => do
    let _ ← live w i
    return (w.set i none, false)
  | .reset i => do
    let _ ← live w i
    return (w.set i (some none), false)
  | .copyAssign i j left => do
    let a ← live w i
    match ← live w j, left with
    | none, _ => return (w.set i (some none), false)
    | some v, none => return (w.set i (some (some v)), false)
    | some _, some r => return (w.set i (some (a.map fun _ => r)), true)
  | .moveAssign i j => do
    let _ ← live w i
    let b ← live w j
    return ((w.set i (some b)).set j (some (b.map mv)), false)
  | .assignValue i v left => do
    let a ← live w i
    match left with
    | none => return (w.set i (some (some v)), false)
    | some r => return (w.set i (some (a.map fun _ => r)), true)
  | .emplace i v throws => do
    let _ ← live w i
    return (w.set i (some (if throws then none else some v)), throws)
  | .swap i j => do
    let a ← live w i
    let b ← live w j
    return ((w.set i (some b)).set j (some a), false)

/-- A whole program; the flags tell which operations threw. -/
def optRun (mv : α → α) (w : List (Option (Option α))) :
    List (OptOp α) → Option (List (Option (Option α)) × List Bool)
  | [] => some (w, [])
  | op :: ops => do
    let (w1, t) ← optStep mv w op
    let (w2, ts) ← optRun mv w1 ops
    return (w2, t :: ts)

/-- A copy assignment during which the contained type throws. -/
def OptOp.ThrowingCopy : OptOp α → Prop
  | .copyAssign _ _ (some _) => True
  | _ => False

/-- What a program does with expecteds. `throws` tells that the construction of the new or temporary object
throws. `assignValue` is also `emplace`. -/
inductive ExpOp (α ε : Type) where
  | newValue (v : α)
  | newError (e : ε)
  | newCopy (i : Nat) (throws : Bool)
  | newMove (i : Nat)
  | destroy (i : Nat)
  | copyAssign (i j : Nat) (throws : Bool)
  | moveAssign (i j : Nat)
  | assignValue (i : Nat) (v : α) (throws : Bool)
  | assignError (i : Nat) (e : ε) (throws : Bool)
  | swap (i j : Nat)

/-- What is left of a moved-from content. -/
def movedFrom (mvT : α → α) (mvE : ε → ε) : Except ε α → Except ε α
  | .ok v => .ok (mvT v)
  | .error e => .error (mvE e)

/-- The effect of an operation on the contents. -/
def expStep (mvT : α → α) (mvE : ε → ε) (w : List (Option (Except ε α))) :
    ExpOp α ε → Option (List (Option (Except ε α)) × Bool)
  | .newValue v => some (w ++ [some (.ok v)], false)
  | .newError e => some (w ++ [some (.error e)], false)
  | .newCopy i throws => do
    let o ← live w i
    if throws then return (w, true) else return (w ++ [some o], false)
  | .newMove i => do
    let o ← live w i
    return (w.set i (some (movedFrom mvT mvE o)) ++ [some o], false)
  | .destroy i => do
    let _ ← live w i
    return (w.set i none, false)
  | .copyAssign i j throws => do
    let _ ← live w i
    let b ← live w j
    if throws then return (w, true) else return (w.set i (some b), false)
  | .moveAssign i j => do
    let _ ← live w i
    let b ← live w j
    return ((w.set j (some (movedFrom mvT mvE b))).set i (some b), false)
  | .assignValue i v throws => do
    let _ ← live w i
    if throws then return (w, true) else return (w.set i (some (.ok v)), false)
  | .assignError i e throws => do
    let _ ← live w i
    if throws then return (w, true) else return (w.set i (some (.error e)), false)
  | .swap i j => do
    let a ← live w i
    let b ← live w j
    return ((w.set i (some b)).set j (some a), false)

/-- A whole program. -/
def expRun (mvT : α → α) (mvE : ε → ε) (w : List (Option (Except ε α))) :
    List (ExpOp α ε) → Option (List (Option (Except ε α)) × List Bool)
  | [] => some (w, [])
  | op :: ops => do
    let (w1, t) ← expStep mvT mvE w op
    let (w2, ts) ← expRun mvT mvE w1 ops
    return (w2, t :: ts)

end Edsp.Spec
