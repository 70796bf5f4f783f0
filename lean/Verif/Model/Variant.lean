import Verif.Model.Fault
import Verif.Spec.Variants

/-!
# Model of `edsp::variant`

types/variant.hpp makes it an alias of the class in thirdparty/nonstd/variant.hpp (active in C++14).  An object is a
storage, in which an object of one of the alternatives may live, and a number `type_index`, -1 (here `none`) for no
value.  The model keeps what really lives in the storage apart from the number: destroying or reading what is not
there is the fault `dangling`; a value whose storage is used again without its destructor having run is `lost`, if its
type has a destructor that does something.  An exception that reaches the border of a `noexcept` function ends the
program, here the fault `exception`; moving and assigning a temporary is taken not to throw.
-/

namespace Edsp.Variant

open Edsp.Spec (VarOp)

variable {β τ ρ : Type}

/-- The alternatives: their types in order, the size of a type, and whether its destructor does nothing. -/
structure Alts (β τ : Type) where
  types : List τ
  ty : β → τ
  size : τ → Nat
  trivial : τ → Bool

/-- `data_size` (variant.hpp 1772, `typelist_max` 625-647); the unused parameters of the template have size 1. -/
def Alts.dataSize (a : Alts β τ) : Nat := (a.types.map a.size).foldr max 1

/-- `typelist_index_of` (variant.hpp 754-775); `none` for -1. -/
def Alts.indexOf [DecidableEq τ] (a : Alts β τ) (t : τ) : Option Nat := a.types.findIdx? (· = t)

/-- The members `data` and `type_index` (variant.hpp 1779, 1804). -/
structure Obj (β : Type) where
  index : Option Nat
  cell : Option β

/-- The objects made so far, and the values lost. -/
structure World (β : Type) where
  obj : List (Option (Obj β))
  lost : List β

/-- Placement new: what lived in the storage before is lost. -/
def Alts.construct (a : Alts β τ) (o : Obj β) (x : β) : Obj β × List β :=
  ({ o with cell := some x }, match o.cell with | some y => if a.trivial (a.ty y) then [] else [y] | none => [])

/-- `helper::destroy` (variant.hpp 955-1006): nothing for -1. -/
def destroyCell (o : Obj β) : Except Fault (Obj β) :=
  match o.index with
  | none => .ok o
  | some _ => match o.cell with
    | some _ => .ok { o with cell := none }
    | none => .error .dangling

/-- The value that lives in the storage. -/
def Obj.value (o : Obj β) : Except Fault β :=
  match o.cell with
  | some x => .ok x
  | none => .error .dangling

namespace World

/-- The object with number `i`. -/
def get (w : World β) (i : Nat) : Except Fault (Obj β) :=
  match w.obj[i]? with
  | some (some o) => .ok o
  | _ => .error .dangling

def set (w : World β) (i : Nat) (o : Obj β) (l : List β) : World β :=
  { obj := w.obj.set i (some o), lost := w.lost ++ l }

/-- A new object. -/
def push (w : World β) (o : Obj β) : World β := { w with obj := w.obj ++ [some o] }

end World

/-- `variant(variant const& other)` (variant.hpp 1347-1349, `helper::copy` 1080-1134); `none` if it throws. -/
def copyOf (o : Obj β) (throws : Bool) : Except Fault (Option (Obj β)) :=
  match o.index with
  | none => .ok (some ⟨none, none⟩)
  | some k => do
    let x ← o.value
    return if throws then none else some ⟨some k, some x⟩

/-- `variant(variant&& other)` (variant.hpp 1353-1366, `helper::move` 1025-1077): the new object and the other. -/
def moveOf (mv : β → β) (o : Obj β) : Except Fault (Obj β × Obj β) :=
  match o.index with
  | none => .ok (⟨none, none⟩, o)
  | some k => do
    let x ← o.value
    return (⟨some k, some x⟩, { o with cell := some (mv x) })

/-- `copy_assign` (variant.hpp 1648-1669).  With equal numbers the copy is constructed in the storage of the old value;
if that throws the old value is gone and the number stays.  Else a copy is made first. `self` tells that both are the
same object. -/
def Alts.copyAssign (a : Alts β τ) (self : Bool) (o p : Obj β) (throws : Bool) :
    Except Fault (Obj β × List β × Bool) :=
  match o.index, p.index with
  | none, none => .ok (o, [], false)
  | some _, none => do return ({ (← destroyCell o) with index := none }, [], false)
  | oi, some k =>
    if oi = some k then do
      let x ← p.value
      if self && !a.trivial (a.ty x) then throw .dangling
      let (o', l) := a.construct o x
      if throws then return ({ o' with cell := none }, l, true) else return ({ o' with index := some k }, l, false)
    else do
      let x ← p.value
      if throws then return (o, [], true)
      let o ← destroyCell o
      let (o, l) := a.construct { o with index := none } x
      return ({ o with index := some k }, l, false)

/-- `move_assign` (variant.hpp 1673-1687): the target, the other and what is lost. -/
def Alts.moveAssign (a : Alts β τ) (mv : β → β) (self : Bool) (o p : Obj β) :
    Except Fault (Obj β × Obj β × List β) :=
  match o.index, p.index with
  | none, none => .ok (o, p, [])
  | some _, none => do return ({ (← destroyCell o) with index := none }, p, [])
  | oi, some k =>
    if oi = some k then do
      let x ← p.value
      if self && !a.trivial (a.ty x) then throw .dangling
      let (o, l) := a.construct o x
      return ({ o with index := some k }, { p with cell := some (mv x) }, l)
    else do
      let x ← p.value
      let o ← destroyCell o
      let (o, l) := a.construct { o with index := none } x
      return ({ o with index := some k }, { p with cell := some (mv x) }, l)

/-- `move_assign_value` (variant.hpp 1689-1700). -/
def Alts.assignValue (a : Alts β τ) (o : Obj β) (k : Nat) (x : β) : Except Fault (Obj β × List β) :=
  if o.index = some k then do
    let _ ← o.value
    return ({ o with cell := some x }, [])
  else do
    let o ← destroyCell o
    let (o, l) := a.construct { o with index := none } x
    return ({ o with index := some k }, l)

/-- `get<T>()` of the class (variant.hpp 1587-1607) for the type of alternative `k` (1609-1617): throws
`bad_variant_access` if the number of the type is not the number of the object, or is `max_index()`, which is
`data_size` (1640-1642). -/
def Alts.getType [DecidableEq τ] (a : Alts β τ) (o : Obj β) (t : τ) : Except Fault β :=
  if a.indexOf t ≠ o.index ∨ a.indexOf t = some a.dataSize then .error .exception else o.value

/-- `get<K>(v)` (variant.hpp 1828-1852). -/
def Alts.getAt [DecidableEq τ] (a : Alts β τ) (o : Obj β) (k : Nat) : Except Fault β :=
  if some k ≠ o.index then .error .exception
  else match a.types[k]? with
    | none => .error .exception
    | some t => a.getType o t

/-- `holds_alternative<T>(v)` (variant.hpp 1807-1812). -/
def Alts.holds [DecidableEq τ] (a : Alts β τ) (o : Obj β) (t : τ) : Bool := o.index = a.indexOf t

/-- `get_if<T>(&v)` (variant.hpp 1854-1868). -/
def Alts.getIf [DecidableEq τ] (a : Alts β τ) (o : Obj β) (t : τ) : Except Fault (Option β) :=
  if o.index = a.indexOf t then do return some (← a.getType o t) else .ok none

/-- `get_if<K>(&v)` (variant.hpp 1870-1886). -/
def Alts.getIfAt [DecidableEq τ] (a : Alts β τ) (o : Obj β) (k : Nat) : Except Fault (Option β) :=
  if o.index = some k then do return some (← a.getAt o k) else .ok none

/-- `swap` (variant.hpp 1566-1576, `swap_value` 1717-1769), declared noexcept.  Copies are taken not to throw. -/
def Alts.swap [DecidableEq τ] (a : Alts β τ) (o p : Obj β) : Except Fault (Obj β × Obj β × List β) :=
  match o.index, p.index with
  | none, none => .ok (o, p, [])
  | oi, pi =>
    if oi = pi then
      match oi with
      | none => .ok (o, p, [])
      | some k => do
        let x ← a.getAt o k
        let y ← a.getAt p k
        return ({ o with cell := some y }, { p with cell := some x }, [])
    else do
      match ← copyOf o false with
      | none => throw .exception
      | some tmp =>
        let (o, l1, _) ← a.copyAssign false o p false
        let (p, l2, _) ← a.copyAssign false p tmp false
        let _ ← destroyCell tmp
        return (o, p, l1 ++ l2)

/-- One operation; `true` if it throws. -/
def World.step [DecidableEq τ] (a : Alts β τ) (mv : β → β) (w : World β) : VarOp β → Except Fault (World β × Bool)
  -- variant.hpp 1242-1345 and 1368-1398: the number is the position
  | .newAt k x throws => if throws then .ok (w, true) else .ok (w.push ⟨some k, some x⟩, false)
  | .newCopy i throws => do
    match ← copyOf (← w.get i) throws with
    | none => return (w, true)
    | some o => return (w.push o, false)
  | .newMove i => do
    let (n, o) ← moveOf mv (← w.get i)
    return ((w.set i o []).push n, false)
  -- variant.hpp 1402-1404
  | .destroy i => do
    let _ ← destroyCell (← w.get i)
    return ({ w with obj := w.obj.set i none }, false)
  | .copyAssign i j left => do
    let (o, l, t) ← a.copyAssign (i = j) (← w.get i) (← w.get j) left.isSome
    return (w.set i o l, t)
  | .moveAssign i j => do
    let (o, p, l) ← a.moveAssign mv (i = j) (← w.get i) (← w.get j)
    return ((w.set j p []).set i o l, false)
  | .assignValue i k x => do
    let (o, l) ← a.assignValue (← w.get i) k x
    return (w.set i o l, false)
  -- in C++11 and later `operator=` takes only temporary values (1426-1473): a variable becomes a temporary variant, which
  -- is moved from and destroyed
  | .assignCopy i k x left => do
    let o ← w.get i
    if left.isSome then return (w, true)
    let (o, p, l) ← a.moveAssign mv false o ⟨some k, some x⟩
    let _ ← destroyCell p
    return (w.set i o l, false)
  -- variant.hpp 1536-1562: by number goes by the type of the alternative; the number becomes that of the type
  | .emplace i k x throws => do
    let o ← destroyCell (← w.get i)
    let o := { o with index := none }
    if throws then return (w.set i o [], true)
    match a.types[k]? with
    | none => throw .exception
    | some t =>
      let (o, l) := a.construct o x
      return (w.set i { o with index := a.indexOf t } l, false)
  | .swap i j => do
    let (o, p, l) ← a.swap (← w.get i) (← w.get j)
    return ((w.set i o l).set j p [], false)

/-- A program. -/
def World.run [DecidableEq τ] (a : Alts β τ) (mv : β → β) (w : World β) :
    List (VarOp β) → Except Fault (World β × List Bool)
  | [] => .ok (w, [])
  | op :: ops => do
    let (w, t) ← w.step a mv op
    let (w, ts) ← w.run a mv ops
    return (w, t :: ts)

/-- `operator==` (variant.hpp 2280-2289, `Comparator::equal` 2195-2233); `e` compares values of one type. -/
def Alts.eq [DecidableEq τ] (a : Alts β τ) (e : β → β → Bool) (o p : Obj β) : Except Fault Bool :=
  if o.index ≠ p.index then .ok false
  else match o.index with
    | none => .ok true
    | some k => do return e (← a.getAt o k) (← a.getAt p k)

/-- `operator<` (variant.hpp 2300-2313, `Comparator::less_than` 2235-2273). -/
def Alts.lt [DecidableEq τ] (a : Alts β τ) (l : β → β → Bool) (o p : Obj β) : Except Fault Bool :=
  match o.index, p.index with
  | _, none => .ok false
  | none, some _ => .ok true
  | some i, some j =>
    if i < j then .ok true else if i > j then .ok false
    else do return l (← a.getAt o i) (← a.getAt p i)

/-- `visit` (variant.hpp 2155-2160) with `VisitorApplicator::apply` (2050-2115), `VisitorUnwrapper` (2011-2047) and
`TypedVisitorUnwrapper` (1930-2008): the visitor gets the values, or numbers and values; `dflt` is `R()`. -/
def Alts.visit [DecidableEq τ] (a : Alts β τ) (dflt : ρ) (v : List (Nat × β) → Except Fault ρ) :
    List (Obj β) → Except Fault ρ
  | [] => v []
  | [o] =>
    match o.index with
    | none => .ok dflt
    | some k => do v [(k, ← a.getAt o k)]
  | o :: p :: os =>
    a.visit dflt (fun xs =>
      match o.index with
      | none => .ok dflt
      | some k => do v ((k, ← a.getAt o k) :: xs)) (p :: os)

/-! ## hash -/

/-- The bytes of an object of the class: the storage, the number, and the padding behind it. -/
structure Raw where
  data : List UInt8
  index : UInt8
  pad : List UInt8

/-- Placement new of a value with bytes `b`: the bytes behind stay as they are. -/
def Raw.put (r : Raw) (k : UInt8) (b : List UInt8) : Raw := { r with data := b ++ r.data.drop b.length, index := k }

/-- `detail::hash` (variant.hpp 918-931), called by `std::hash` (2355-2363): over all bytes of the object. -/
def Raw.hash (r : Raw) : UInt32 :=
  (r.data ++ [r.index] ++ r.pad).foldl (fun h s => (h * 54059) ^^^ (s.toUInt32 * 76963)) 37

end Edsp.Variant
