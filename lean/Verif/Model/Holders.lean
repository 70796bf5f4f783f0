import Verif.Model.Fault
import Verif.Spec.Holders

/-!
# Model of `edsp::optional` and `edsp::expected`

types/optional.hpp and types/expected.hpp make them aliases of the classes in thirdparty/nonstd (active in
C++14).  Both keep raw storage and a flag.  The model keeps what the storage really contains apart from the
flag: constructing an object where one lives already, or leaving one behind, is a leak (fault `badHandle`);
reading or destroying an object that is not there is the fault `dangling`.  `mv v` is what a moved-from `v`
is left as.  A constructor or assignment of the contained type may throw.
-/

namespace Edsp.Holder

open Edsp.Spec (OptOp ExpOp)

variable {α ε : Type}

/-! ## optional -/

/-- optional.hpp 1163-1166: the flag `has_value_` and the storage `contained`, `none` if raw. -/
structure Opt (α : Type) where
  has : Bool
  cell : Option α

namespace Opt

/-- `construct_value`, `emplace` of the storage (optional.hpp 590-613). -/
def construct (c : Option α) (v : α) : Except Fault (Option α) :=
  match c with
  | none => .ok (some v)
  | some _ => .error .badHandle

/-- `destruct_value` (optional.hpp 616-619). -/
def destruct (c : Option α) : Except Fault (Option α) :=
  match c with
  | some _ => .ok none
  | none => .error .dangling

/-- `contained.value()` (optional.hpp 629-635). -/
def value (c : Option α) : Except Fault α :=
  match c with
  | some v => .ok v
  | none => .error .dangling

/-- Assignment to `contained.value()`. -/
def store (c : Option α) (v : α) : Except Fault (Option α) :=
  match c with
  | some _ => .ok (some v)
  | none => .error .dangling

/-- optional.hpp 732, 735. -/
def empty : Opt α := ⟨false, none⟩

/-- optional.hpp 825-871, constructors 6 to 8: a value is put in place. -/
def ofValue (v : α) : Except Fault (Opt α) := do return ⟨true, ← construct none v⟩

/-- optional.hpp 738-746. -/
def copyOf (o : Opt α) : Except Fault (Opt α) :=
  if o.has then do return ⟨o.has, ← construct none (← value o.cell)⟩ else .ok ⟨o.has, none⟩

/-- optional.hpp 751-756: the new object and the one moved from. -/
def moveOf (mv : α → α) (o : Opt α) : Except Fault (Opt α × Opt α) :=
  if o.has then do
    let v ← value o.cell
    return (⟨o.has, ← construct none v⟩, { o with cell := ← store o.cell (mv v) })
  else .ok (⟨o.has, none⟩, o)

/-- optional.hpp 1136-1141. -/
def reset (o : Opt α) : Except Fault (Opt α) :=
  if o.has then do return ⟨false, ← destruct o.cell⟩ else .ok ⟨false, o.cell⟩

/-- optional.hpp 1146-1159: `assert(!has_value())`, then construct. -/
def init (dbg : Bool) (o : Opt α) (v : α) : Except Fault (Opt α) :=
  if dbg && o.has then .error .assertion else do return ⟨true, ← construct o.cell v⟩

/-- `operator*` (optional.hpp 1053-1059): asserts that there is a value. -/
def deref (dbg : Bool) (o : Opt α) : Except Fault α :=
  if dbg && !o.has then .error .assertion else value o.cell

/-- `value()` (optional.hpp 1087-1099): throws `bad_optional_access`. -/
def valueChecked (o : Opt α) : Except Fault α := if !o.has then .error .exception else value o.cell

/-- `value_or` (optional.hpp 1116-1118). -/
def valueOr (o : Opt α) (d : α) : Except Fault α := if o.has then value o.cell else .ok d

/-- `operator==` (optional.hpp 1170-1173), `eq` being that of the contained types. -/
def eq (dbg : Bool) (e : α → α → Bool) (x y : Opt α) : Except Fault Bool :=
  if x.has != y.has then .ok false else if !x.has then .ok true
  else do return e (← x.deref dbg) (← y.deref dbg)

/-- `operator<` (optional.hpp 1180-1183); `>`, `<=` and `>=` are defined by it. -/
def lt (dbg : Bool) (l : α → α → Bool) (x y : Opt α) : Except Fault Bool :=
  if !y.has then .ok false else if !x.has then .ok true
  else do return l (← x.deref dbg) (← y.deref dbg)

/-- optional.hpp 876-879: the storage after the destructor; what still lives there is lost. -/
def destroy (o : Opt α) : Except Fault Unit := do
  let c ← if o.has then destruct o.cell else .ok o.cell
  match c with
  | none => return ()
  | some _ => throw .badHandle

end Opt

/-- The objects made so far; `none` if destroyed or never completed. -/
abbrev OptWorld (α : Type) := List (Option (Opt α))

/-- The object a number names. -/
def obj {β : Type} (w : List (Option β)) (i : Nat) : Except Fault β :=
  match w[i]? with
  | some (some o) => .ok o
  | _ => .error .dangling

/-- One operation; `true` if it throws. An exception that reaches the border of a `noexcept` function ends the
program, here the fault `exception`. `nt` tells that the moves of the contained type are declared noexcept; they
and the swap of the contained type are assumed not to throw. `dbg` tells that `assert` is active. -/
def OptWorld.step (dbg nt : Bool) (mv : α → α) (w : OptWorld α) : OptOp α → Except Fault (OptWorld α × Bool)
  | .newEmpty => .ok (w ++ [some Opt.empty], false)
  | .newValue v => do return (w ++ [some (← Opt.ofValue v)], false)
  -- optional.hpp 738-746: an exception of `construct_value` leaves the constructor
  | .newCopy i throws => do
    let o ← obj w i
    if throws && o.has then return (w, true) else return (w ++ [some (← o.copyOf)], false)
  | .newMove i => do
    let (n, o) ← (← obj w i).moveOf mv
    return (w.set i (some o) ++ [some n], false)
  | .destroy i => do
    (← obj w i).destroy
    return (w.set i none, false)
  | .reset i => do return (w.set i (some (← (← obj w i).reset)), false)
  -- optional.hpp 895-908; declared noexcept by the *moves* of the contained type (`nt`)
  | .copyAssign i j left => do
    let a ← obj w i
    let b ← obj w j
    if nt && b.has && left.isSome then throw .exception
    else if a.has && !b.has then return (w.set i (some (← a.reset)), false)
    else if !a.has && b.has then
      if left.isSome then return (w, true)
      else return (w.set i (some (← a.init dbg (← Opt.value b.cell))), false)
    else if a.has && b.has then
      let v ← Opt.value b.cell
      return (w.set i (some { a with cell := ← Opt.store a.cell (left.getD v) }), left.isSome)
    else return (w, false)
  -- optional.hpp 917-925
  | .moveAssign i j => do
    let a ← obj w i
    let b ← obj w j
    if a.has && !b.has then return (w.set i (some (← a.reset)), false)
    else if !a.has && b.has then
      let v ← Opt.value b.cell
      let a' ← a.init dbg v
      return ((w.set i (some a')).set j (some { b with cell := ← Opt.store b.cell (mv v) }), false)
    else if a.has && b.has then
      let v ← Opt.value b.cell
      let a' := { a with cell := ← Opt.store a.cell v }
      return ((w.set i (some a')).set j (some { b with cell := ← Opt.store b.cell (mv v) }), false)
    else return (w, false)
  -- optional.hpp 935-941
  | .assignValue i v left => do
    let a ← obj w i
    if a.has then return (w.set i (some { a with cell := ← Opt.store a.cell (left.getD v) }), left.isSome)
    else if left.isSome then return (w, true)
    else return (w.set i (some (← a.init dbg v)), false)
  -- optional.hpp 1004-1009: empties first, then constructs, then sets the flag
  | .emplace i v throws => do
    let a ← (← obj w i).reset
    if throws then return (w.set i (some a), true)
    else return (w.set i (some ⟨true, ← Opt.construct a.cell v⟩), false)
  -- optional.hpp 1025-1041
  | .swap i j => do
    let a ← obj w i
    let b ← obj w j
    if a.has && b.has then
      let x ← Opt.value a.cell
      let y ← Opt.value b.cell
      let a' := { a with cell := ← Opt.store a.cell y }
      let b' := { b with cell := ← Opt.store b.cell x }
      return ((w.set i (some a')).set j (some b'), false)
    else if !a.has && b.has then
      let v ← Opt.value b.cell
      let a' ← a.init dbg v
      return ((w.set i (some a')).set j (some (← b.reset)), false)
    else if a.has && !b.has then
      let v ← Opt.value a.cell
      let b' ← b.init dbg v
      return ((w.set j (some b')).set i (some (← a.reset)), false)
    else return (w, false)

/-- A program; the flags tell which operations threw. -/
def OptWorld.run (dbg nt : Bool) (mv : α → α) (w : OptWorld α) :
    List (OptOp α) → Except Fault (OptWorld α × List Bool)
  | [] => .ok (w, [])
  | op :: ops => do
    let (w1, t) ← w.step dbg nt mv op
    let (w2, ts) ← OptWorld.run dbg nt mv w1 ops
    return (w2, t :: ts)

/-! ## expected -/

/-- What the storage of an `expected` really contains. -/
inductive Cell (α ε : Type) where
  | raw
  | val (v : α)
  | err (e : ε)

/-- expected.hpp 1142-1144. -/
structure Exp (α ε : Type) where
  has : Bool
  cell : Cell α ε

namespace Exp

/-- expected.hpp 305-311. -/
def constructValue (c : Cell α ε) (v : α) : Except Fault (Cell α ε) :=
  match c with
  | .raw => .ok (.val v)
  | _ => .error .badHandle

/-- expected.hpp 317-323. -/
def constructError (c : Cell α ε) (e : ε) : Except Fault (Cell α ε) :=
  match c with
  | .raw => .ok (.err e)
  | _ => .error .badHandle

/-- expected.hpp 313-315. -/
def destructValue (c : Cell α ε) : Except Fault (Cell α ε) :=
  match c with
  | .val _ => .ok .raw
  | _ => .error .dangling

/-- expected.hpp 325-327. -/
def destructError (c : Cell α ε) : Except Fault (Cell α ε) :=
  match c with
  | .err _ => .ok .raw
  | _ => .error .dangling

/-- expected.hpp 329-335. -/
def getValue (c : Cell α ε) : Except Fault α :=
  match c with
  | .val v => .ok v
  | _ => .error .dangling

/-- expected.hpp 353-359. -/
def getError (c : Cell α ε) : Except Fault ε :=
  match c with
  | .err e => .ok e
  | _ => .error .dangling

/-- expected.hpp 826-860. -/
def ofValue (v : α) : Except Fault (Exp α ε) := do return ⟨true, ← constructValue .raw v⟩

/-- expected.hpp 872-899. -/
def ofError (e : ε) : Except Fault (Exp α ε) := do return ⟨false, ← constructError .raw e⟩

/-- expected.hpp 725-736. -/
def copyOf (o : Exp α ε) : Except Fault (Exp α ε) :=
  if o.has then do return ⟨o.has, ← constructValue .raw (← getValue o.cell)⟩
  else do return ⟨o.has, ← constructError .raw (← getError o.cell)⟩

/-- expected.hpp 738-750: the new object and the one moved from. -/
def moveOf (mvT : α → α) (mvE : ε → ε) (o : Exp α ε) : Except Fault (Exp α ε × Exp α ε) :=
  if o.has then do
    let v ← getValue o.cell
    return (⟨o.has, ← constructValue .raw v⟩, ⟨o.has, .val (mvT v)⟩)
  else do
    let e ← getError o.cell
    return (⟨o.has, ← constructError .raw e⟩, ⟨o.has, .err (mvE e)⟩)

/-- expected.hpp 914-919: the storage after the destructor. -/
def destroyed (o : Exp α ε) : Except Fault (Cell α ε) :=
  if o.has then destructValue o.cell else destructError o.cell

/-- The end of the life of an object: its destructor has to leave its storage empty. -/
def destroy (o : Exp α ε) : Except Fault Unit := do
  let c ← o.destroyed
  match c with
  | .raw => return ()
  | _ => throw .badHandle

/-- expected.hpp 1005-1011, the third branch: `a` has a value and `b` an error. `throws` tells that the move
construction of the value (line 1008) throws; the two objects are then left as they are. -/
def swapMixed (throws : Bool) (a b : Exp α ε) : Except Fault (Exp α ε × Exp α ε × Bool) := do
  let t ← getError b.cell
  let cb ← destructError b.cell
  if throws then return (a, { b with cell := cb }, true)
  else
    let v ← getValue a.cell
    let cb' ← constructValue cb v
    let ca ← destructValue a.cell
    let ca' ← constructError ca t
    return (⟨b.has, ca'⟩, ⟨a.has, cb'⟩, false)

/-- expected.hpp 988-1016: `a.swap(b)`. -/
def swap (throws : Bool) (a b : Exp α ε) : Except Fault (Exp α ε × Exp α ε × Bool) :=
  if a.has && b.has then do
    let x ← getValue a.cell
    let y ← getValue b.cell
    return (⟨a.has, .val y⟩, ⟨b.has, .val x⟩, false)
  else if !a.has && !b.has then do
    let x ← getError a.cell
    let y ← getError b.cell
    return (⟨a.has, .err y⟩, ⟨b.has, .err x⟩, false)
  else if a.has && !b.has then swapMixed throws a b
  else do
    let (b', a', t) ← swapMixed throws b a
    return (a', b', t)

/-- The assignments and `emplace` (expected.hpp 929-981): a temporary is swapped with the object and
destroyed, also when the swap throws. Second component: what the temporary leaves in its storage. -/
def assignLeaving (throws : Bool) (tmp o : Exp α ε) : Except Fault (Exp α ε × Cell α ε × Bool) := do
  let (tmp', o', t) ← swap throws tmp o
  let c ← tmp'.destroyed
  return (o', c, t)

/-- The object after an assignment. -/
def assign (throws : Bool) (tmp o : Exp α ε) : Except Fault (Exp α ε × Bool) := do
  let (o', _, t) ← assignLeaving throws tmp o
  return (o', t)

end Exp

/-- The objects made so far. -/
abbrev ExpWorld (α ε : Type) := List (Option (Exp α ε))

/-- One operation, for contained types whose moves do not throw; `true` if it throws. -/
def ExpWorld.step (mvT : α → α) (mvE : ε → ε) (w : ExpWorld α ε) :
    ExpOp α ε → Except Fault (ExpWorld α ε × Bool)
  | .newValue v => do return (w ++ [some (← Exp.ofValue v)], false)
  | .newError e => do return (w ++ [some (← Exp.ofError e)], false)
  | .newCopy i throws => do
    let o ← obj w i
    if throws then return (w, true) else return (w ++ [some (← o.copyOf)], false)
  | .newMove i => do
    let (n, o) ← (← obj w i).moveOf mvT mvE
    return (w.set i (some o) ++ [some n], false)
  | .destroy i => do
    (← obj w i).destroy
    return (w.set i none, false)
  -- expected.hpp 929-932
  | .copyAssign i j throws => do
    let b ← obj w j
    let a ← obj w i
    if throws then return (w, true)
    else
      let (a', _) ← Exp.assign false (← b.copyOf) a
      return (w.set i (some a'), false)
  -- expected.hpp 940-945
  | .moveAssign i j => do
    let (tmp, b') ← (← obj w j).moveOf mvT mvE
    let w1 := w.set j (some b')
    let (a', _) ← Exp.assign false tmp (← obj w1 i)
    return (w1.set i (some a'), false)
  -- expected.hpp 947-951
  | .assignValue i v throws => do
    let a ← obj w i
    if throws then return (w, true)
    else
      let (a', _) ← Exp.assign false (← Exp.ofValue v) a
      return (w.set i (some a'), false)
  -- expected.hpp 957-969
  | .assignError i e throws => do
    let a ← obj w i
    if throws then return (w, true)
    else
      let (a', _) ← Exp.assign false (← Exp.ofError e) a
      return (w.set i (some a'), false)
  | .swap i j => do
    let a ← obj w i
    let b ← obj w j
    let (a', b', t) ← Exp.swap false a b
    return ((w.set i (some a')).set j (some b'), t)

/-- A program. -/
def ExpWorld.run (mvT : α → α) (mvE : ε → ε) (w : ExpWorld α ε) :
    List (ExpOp α ε) → Except Fault (ExpWorld α ε × List Bool)
  | [] => .ok (w, [])
  | op :: ops => do
    let (w1, t) ← w.step mvT mvE op
    let (w2, ts) ← ExpWorld.run mvT mvE w1 ops
    return (w2, t :: ts)

/-- The expression `(x_i = x_j) = x_k`: expected.hpp 929 returns a copy of the object, which is what the
second assignment changes and which is then destroyed. -/
def ExpWorld.chainAssign (w : ExpWorld α ε) (i j k : Nat) : Except Fault (ExpWorld α ε) := do
  let (a', _) ← Exp.assign false (← (← obj w j).copyOf) (← obj w i)
  let w1 := w.set i (some a')
  let tmp ← a'.copyOf
  let (tmp', _) ← Exp.assign false (← (← obj w1 k).copyOf) tmp
  let ret ← tmp'.copyOf
  ret.destroy
  tmp'.destroy
  return w1

end Edsp.Holder
