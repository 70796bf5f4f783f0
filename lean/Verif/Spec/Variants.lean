/-!
# Specification: one value of one of several alternatives

A table of objects, each destroyed, without a value, or holding a value of one numbered alternative.  `mv x` is what
a moved-from `x` is left as.
-/

namespace Edsp.Spec

/-- What a program can do with such objects; alternatives are numbered by their position.  `throws` tells that
making the copy, or the new value, throws; in `copyAssign` and `assignCopy` `left` is then what the assignment of the
contained type leaves in its target. -/
inductive VarOp (β : Type) where
  | newAt (k : Nat) (x : β) (throws : Bool)
  | newCopy (i : Nat) (throws : Bool)
  | newMove (i : Nat)
  | destroy (i : Nat)
  | copyAssign (i j : Nat) (left : Option β)
  | moveAssign (i j : Nat)
  /-- a temporary value of alternative `k` -/
  | assignValue (i k : Nat) (x : β)
  /-- a variable of the caller of the type of alternative `k` -/
  | assignCopy (i k : Nat) (x : β) (left : Option β)
  | emplace (i k : Nat) (x : β) (throws : Bool)
  | swap (i j : Nat)

variable {β : Type}

/-- Destroyed; without a value; or the alternative and its value. -/
abbrev Variants (β : Type) := List (Option (Option (Nat × β)))

/-- What an object that exists contains. -/
def Variants.content (s : Variants β) (i : Nat) : Option (Option (Nat × β)) := (s[i]?).join

/-- An assignment that copies `(k, x)` to an object that contains `c`. -/
def assigned (c : Option (Nat × β)) (k : Nat) (x : β) (left : Option β) : Option (Nat × β) × Bool :=
  match left with
  | none => (some (k, x), false)
  | some r => (if c.map Prod.fst = some k then some (k, r) else c, true)

/-- One operation: what it leaves and whether it throws; `none` if it names an object that does not exist. -/
def Variants.step (mv : β → β) (s : Variants β) : VarOp β → Option (Variants β × Bool)
  | .newAt k x throws => if throws then some (s, true) else some (s ++ [some (some (k, x))], false)
  | .newCopy i throws => do
    let c ← s.content i
    if throws && c.isSome then some (s, true) else some (s ++ [some c], false)
  | .newMove i => do
    let c ← s.content i
    some (s.set i (some (c.map fun (k, x) => (k, mv x))) ++ [some c], false)
  | .destroy i => do
    let _ ← s.content i
    some (s.set i none, false)
  | .copyAssign i j left => do
    let a ← s.content i
    match ← s.content j with
    | none => some (s.set i (some none), false)
    | some (k, x) => some (s.set i (some (assigned a k x left).1), (assigned a k x left).2)
  | .moveAssign i j => do
    let _ ← s.content i
    match ← s.content j with
    | none => some (s.set i (some none), false)
    | some (k, x) => some ((s.set j (some (some (k, mv x)))).set i (some (some (k, x))), false)
  | .assignValue i k x => do
    let _ ← s.content i
    some (s.set i (some (some (k, x))), false)
  | .assignCopy i k x left => do
    let a ← s.content i
    some (s.set i (some (assigned a k x left).1), (assigned a k x left).2)
  | .emplace i k x throws => do
    let _ ← s.content i
    if throws then some (s.set i (some none), true) else some (s.set i (some (some (k, x))), false)
  | .swap i j => do
    let a ← s.content i
    let b ← s.content j
    some ((s.set i (some b)).set j (some a), false)

/-- A program: what it leaves, and which of its operations threw. -/
def Variants.run (mv : β → β) (s : Variants β) : List (VarOp β) → Option (Variants β × List Bool)
  | [] => some (s, [])
  | op :: ops => do
    let (s, t) ← s.step mv op
    let (s, ts) ← Variants.run mv s ops
    some (s, t :: ts)

/-- Every operation of a program satisfies `ok` in the state in which it is done. -/
def Variants.All (mv : β → β) (ok : Variants β → VarOp β → Prop) (s : Variants β) : List (VarOp β) → Prop
  | [] => True
  | op :: ops => ok s op ∧ ∀ s' t, s.step mv op = some (s', t) → Variants.All mv ok s' ops

end Edsp.Spec
