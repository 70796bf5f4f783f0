import Verif.Model.Memory

/-!
# Model of `edsp::string_view`

types/string_view.hpp makes `edsp::string_view` an alias of `nonstd::string_view`
(thirdparty/nonstd/string_view.hpp); the project is compiled as C++14, so that the implementation of that
file is the active one.  A character is its value as an `unsigned char`, which is what
`std::char_traits<char>` compares.  A view is a pointer into one block of characters with a size; a
`size_type` has 64 bits.  Functions of the standard library are modelled by their loops.
-/

namespace Edsp.SV

open Edsp.Mem

/-- `npos` (string_view.hpp 778-784). -/
def npos : Nat := 2 ^ 64 - 1

/-- Subtraction of the type `size_type`. -/
def usub (a b : Nat) : Nat := (a + (2 ^ 64 - b % 2 ^ 64)) % 2 ^ 64

/-- string_view.hpp 813-815: `data_` points to the cell `data` of the block `mem`. -/
structure View where
  mem : List Nat
  data : Nat
  size : Nat

/-- `basic_string_view(&c, 1)`, the view the overloads for one character search for (e.g. 636, 691). -/
def ofChar (c : Nat) : View := ⟨[c], 0, 1⟩

/-- `Traits::length(s)`: the distance to the first NUL. -/
def strlenN (mem : List Nat) : Nat → Nat → Except Fault Nat
  | 0, _ => .error .outOfBounds
  | k + 1, p => do
    let c ← read mem p
    if c = 0 then return 0 else return (← strlenN mem k (p + 1)) + 1

/-- string_view.hpp 428: the view of a C string. -/
def ofCString (mem : List Nat) (p : Nat) : Except Fault View := do
  return ⟨mem, p, ← strlenN mem (mem.length + 1) p⟩

/-- How the comparison at one position of `std::search` ends. -/
inductive Cmp where
  | found | exhausted | differ

/-- The inner loop of `std::search`, `n` characters of the needle left. -/
def inner (h : List Nat) (last : Nat) (w : List Nat) : Nat → Nat → Nat → Except Fault Cmp
  | 0, _, _ => .ok .found
  | n + 1, it, s =>
    if it = last then .ok .exhausted
    else do
      let a ← read h it
      let b ← read w s
      if a = b then inner h last w n (it + 1) (s + 1) else .ok .differ

/-- The outer loop of `std::search(first, last, s, s + n)`; `k` bounds the number of further positions. -/
def searchN (h : List Nat) (last : Nat) (w : List Nat) (s n : Nat) : Nat → Nat → Except Fault Nat
  | 0, first => do
    match ← inner h last w n first s with
    | .found => return first
    | .exhausted => return last
    | .differ => throw .outOfBounds
  | k + 1, first => do
    match ← inner h last w n first s with
    | .found => return first
    | .exhausted => return last
    | .differ => searchN h last w s n k (first + 1)

/-- `std::search(first, last, w.cbegin(), w.cend())`. -/
def search (h : List Nat) (first last : Nat) (w : View) : Except Fault Nat :=
  searchN h last w.mem w.data w.size (last - first) first

/-- The loop of `std::find_end` for a needle that is not empty; `result` is the last position found. -/
def findEndN (h : List Nat) (last : Nat) (w : View) : Nat → Nat → Nat → Except Fault Nat
  | 0, _, result => .ok result
  | k + 1, first, result => do
    let r ← search h first last w
    if r = last then return result else findEndN h last w k (r + 1) r

/-- `std::find_end(first, last, w.cbegin(), w.cend())`. -/
def findEnd (h : List Nat) (first last : Nat) (w : View) : Except Fault Nat :=
  if w.size = 0 then .ok last else findEndN h last w (last - first + 1) first last

/-- `std::find_if` on `k` cells from `first` on. -/
def findIfN (h : List Nat) (p : Nat → Except Fault Bool) : Nat → Nat → Except Fault Nat
  | 0, first => .ok first
  | k + 1, first => do
    let c ← read h first
    if ← p c then return first else findIfN h p k (first + 1)

/-- `std::find_if` on reverse iterators: the iterator with base `base` refers to the cell `base - 1`;
`k` cells are left. -/
def findIfRevN (h : List Nat) (p : Nat → Except Fault Bool) : Nat → Nat → Except Fault Nat
  | 0, base => .ok base
  | k + 1, base => do
    let c ← read h (base - 1)
    if ← p c then return base else findIfRevN h p k (base - 1)

/-- The inner loop of `std::find_first_of`: is `c` one of `n` cells from `s` on? -/
def anyN (w : List Nat) (c : Nat) : Nat → Nat → Except Fault Bool
  | 0, _ => .ok false
  | n + 1, s => do
    let d ← read w s
    if c = d then return true else anyN w c n (s + 1)

namespace View

/-- string_view.hpp 797-799. -/
def toPos (v : View) (it : Nat) : Nat := if it = v.data + v.size then npos else it - v.data

/-- string_view.hpp 801-803; `it` is the base of the reverse iterator. -/
def toPosRev (v : View) (it : Nat) : Nat := if it = v.data then npos else it - v.data - 1

/-- string_view.hpp 805-811. -/
def dataAt (dbg : Bool) (v : View) (pos : Nat) : Except Fault Nat :=
  if dbg && !(decide (pos < v.size)) then .error .assertion else read v.mem (v.data + pos)

/-- string_view.hpp 491-493. -/
def get (dbg : Bool) (v : View) (pos : Nat) : Except Fault Nat := v.dataAt dbg pos

/-- string_view.hpp 495-501. -/
def atPos (dbg : Bool) (v : View) (pos : Nat) : Except Fault Nat :=
  if pos < v.size then v.dataAt dbg pos else .error .exception

/-- string_view.hpp 503-505. -/
def front (dbg : Bool) (v : View) : Except Fault Nat := v.dataAt dbg 0

/-- string_view.hpp 506-508. -/
def back (dbg : Bool) (v : View) : Except Fault Nat := v.dataAt dbg (usub v.size 1)

/-- string_view.hpp 516-520. -/
def removePrefix (dbg : Bool) (v : View) (n : Nat) : Except Fault View :=
  if dbg && !(decide (n ≤ v.size)) then .error .assertion
  else .ok { v with data := v.data + n, size := usub v.size n }

/-- string_view.hpp 522-525. -/
def removeSuffix (dbg : Bool) (v : View) (n : Nat) : Except Fault View :=
  if dbg && !(decide (n ≤ v.size)) then .error .assertion
  else .ok { v with size := usub v.size n }

/-- The loop of `Traits::copy(dest, src, n)` into another block. -/
def copyN (src : List Nat) : Nat → Nat → List Nat → Nat → Except Fault (List Nat)
  | 0, _, dst, _ => .ok dst
  | n + 1, p, dst, d => do
    let c ← read src p
    let dst' ← write dst d c
    copyN src n (p + 1) dst' (d + 1)

/-- string_view.hpp 535-544: the block written to and the number of characters returned. -/
def copyTo (v : View) (dst : List Nat) (d n pos : Nat) : Except Fault (List Nat × Nat) :=
  if pos > v.size then .error .exception
  else do
    let rlen := min n (v.size - pos)
    return (← copyN v.mem rlen (v.data + pos) dst d, rlen)

/-- string_view.hpp 546-551. -/
def substr (v : View) (pos n : Nat) : Except Fault View :=
  if pos > v.size then .error .exception
  else .ok { v with data := v.data + pos, size := min n (v.size - pos) }

/-- `Traits::compare(p, q, n)`. -/
def compareN (a b : List Nat) : Nat → Nat → Nat → Except Fault Int
  | 0, _, _ => .ok 0
  | n + 1, p, q => do
    let x ← read a p
    let y ← read b q
    if x < y then return -1 else if y < x then return 1 else compareN a b n (p + 1) (q + 1)

/-- string_view.hpp 555-561. -/
def compare (v w : View) : Except Fault Int := do
  let r ← compareN v.mem w.mem (min v.size w.size) v.data w.data
  if r ≠ 0 then return r
  else return if v.size = w.size then 0 else if v.size < w.size then -1 else 1

/-- string_view.hpp 563-566. -/
def compareAt (v : View) (pos1 n1 : Nat) (w : View) : Except Fault Int := do
  compare (← v.substr pos1 n1) w

/-- string_view.hpp 568-572. -/
def compareAt2 (v : View) (pos1 n1 : Nat) (w : View) (pos2 n2 : Nat) : Except Fault Int := do
  compare (← v.substr pos1 n1) (← w.substr pos2 n2)

/-- string_view.hpp 593-596 (`noexcept`). -/
def startsWith (v w : View) : Except Fault Bool :=
  if v.size ≥ w.size then do return (← v.compareAt 0 w.size w) = 0 else .ok false

/-- string_view.hpp 610-613 (`noexcept`). -/
def endsWith (v w : View) : Except Fault Bool :=
  if v.size ≥ w.size then do return (← v.compareAt (v.size - w.size) npos w) = 0 else .ok false

/-- string_view.hpp 627-632. -/
def find (v w : View) (pos : Nat) : Except Fault Nat :=
  if pos ≥ v.size then .ok npos
  else do return v.toPos (← search v.mem (v.data + pos) (v.data + v.size) w)

/-- string_view.hpp 651-663. -/
def rfind (v w : View) (pos : Nat) : Except Fault Nat :=
  if v.size < w.size then .ok npos
  else if w.size = 0 then .ok (min v.size pos)
  else do
    let last := v.data + min (v.size - w.size) pos + w.size
    let r ← findEnd v.mem v.data last w
    return if r ≠ last then r - v.data else npos

/-- string_view.hpp 682-687. -/
def findFirstOf (v w : View) (pos : Nat) : Except Fault Nat :=
  if pos ≥ v.size then .ok npos
  else do return v.toPos (← findIfN v.mem (fun c => anyN w.mem c w.size w.data) (v.size - pos) (v.data + pos))

/-- string_view.hpp 706-711: the call may call itself; `none` if it has not returned after the given
number of nested calls. -/
def findLastOf (v w : View) : Nat → Nat → Option (Except Fault Nat)
  | 0, _ => none
  | calls + 1, pos =>
    if pos ≥ v.size then findLastOf v w calls (usub v.size 1)
    else some do
      return v.toPosRev (← findIfRevN v.mem (fun c => anyN w.mem c w.size w.data) (pos + 1) (v.data + pos + 1))

/-- string_view.hpp 787-795. -/
def notInView (w : View) (c : Nat) : Except Fault Bool := do return npos = (← w.findFirstOf (ofChar c) 0)

/-- string_view.hpp 730-734. -/
def findFirstNotOf (v w : View) (pos : Nat) : Except Fault Nat :=
  if pos ≥ v.size then .ok npos
  else do return v.toPos (← findIfN v.mem w.notInView (v.size - pos) (v.data + pos))

/-- string_view.hpp 753-759. -/
def findLastNotOf (v w : View) : Nat → Nat → Option (Except Fault Nat)
  | 0, _ => none
  | calls + 1, pos =>
    if pos ≥ v.size then findLastNotOf v w calls (usub v.size 1)
    else some do return v.toPosRev (← findIfRevN v.mem w.notInView (pos + 1) (v.data + pos + 1))

end View

/-- The `adjustfield` flags of a stream; a fresh stream has none of them set. -/
inductive Adjust where
  | none | left | right | internal
  deriving DecidableEq

/-- What string_view.hpp 1014-1039 uses of a stream in good state. -/
structure Stream where
  out : List Nat
  width : Nat
  fill : Nat
  adjust : Adjust

/-- string_view.hpp 1008-1011. -/
def Stream.pad (os : Stream) (n : Nat) : Stream := { os with out := os.out ++ List.replicate n os.fill }

/-- string_view.hpp 1014-1039. -/
def Stream.insert (os : Stream) (v : View) : Except Fault Stream := do
  let pad : Bool := v.size < os.width
  let leftPad : Bool := pad && os.adjust = .right
  let o1 := if leftPad then os.pad (os.width - v.size) else os
  let chars ← readRange v.mem v.data (v.data + v.size)
  let o2 := { o1 with out := o1.out ++ chars }
  let o3 := if pad && !leftPad then o2.pad (os.width - v.size) else o2
  return { o3 with width := 0 }

end Edsp.SV
