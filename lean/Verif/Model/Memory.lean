import Verif.Model.Fault

/-!
# Iterator ranges over one memory block

The sequence algorithms of include/edsp/algorithm work on iterator pairs.  A pointer is an index into
one memory block (a list of cells), so an input and an output range may overlap; a read or write outside
the block is a fault.  The loops of the standard library used by eDSP are modelled element by element.
-/

namespace Edsp.Mem

variable {α : Type}

/-- `std::distance(first, last)` of a range to be walked; walking from `first` to an earlier `last` runs
out of every block. -/
def distance (first last : Nat) : Except Fault Nat :=
  if first ≤ last then .ok (last - first) else .error .outOfBounds

/-- `*p`. -/
def read (m : List α) (p : Nat) : Except Fault α :=
  match m[p]? with
  | some v => .ok v
  | none => .error .outOfBounds

/-- `*p = v`. -/
def write (m : List α) (p : Nat) (v : α) : Except Fault (List α) :=
  if p < m.length then .ok (m.set p v) else .error .outOfBounds

/-- The loop of `std::transform(first, first + n, d, f)`. -/
def transformN (f : α → α) : Nat → List α → Nat → Nat → Except Fault (List α)
  | 0, m, _, _ => .ok m
  | n + 1, m, s, d => do
    let v ← read m s
    let m' ← write m d (f v)
    transformN f n m' (s + 1) (d + 1)

/-- `std::transform(first, last, d, f)`. -/
def transform (f : α → α) (m : List α) (first last d : Nat) : Except Fault (List α) := do
  transformN f (← distance first last) m first d

/-- `std::copy(first, last, d)`. -/
def copy (m : List α) (first last d : Nat) : Except Fault (List α) := transform id m first last d

/-- The loop of `std::fill(d, d + n, v)`. -/
def fillN (v : α) : Nat → List α → Nat → Except Fault (List α)
  | 0, m, _ => .ok m
  | n + 1, m, d => do
    let m' ← write m d v
    fillN v n m' (d + 1)

/-- `std::fill(first, last, v)`. -/
def fill (v : α) (m : List α) (first last : Nat) : Except Fault (List α) := do
  fillN v (← distance first last) m first

/-- The values of the range `[first, last)`, for the loops that only read. -/
def readRange (m : List α) (first last : Nat) : Except Fault (List α) := do
  let n ← distance first last
  if last ≤ m.length then return (m.drop first).take n else throw .outOfBounds

/-- The loop of `std::adjacent_difference` after the first element: `val` is the previous value. -/
def adjDiffN [Sub α] : Nat → α → List α → Nat → Nat → Except Fault (List α)
  | 0, _, m, _, _ => .ok m
  | n + 1, val, m, s, d => do
    let tmp ← read m s
    let m' ← write m d (tmp - val)
    adjDiffN n tmp m' (s + 1) (d + 1)

/-- `std::adjacent_difference(first, last, d)`. -/
def adjacentDifference [Sub α] (m : List α) (first last d : Nat) : Except Fault (List α) := do
  match ← distance first last with
  | 0 => return m
  | n + 1 =>
    let v ← read m first
    let m' ← write m d v
    adjDiffN n v m' (first + 1) (d + 1)

end Edsp.Mem
