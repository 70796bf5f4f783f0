import Verif.Model.Memory

/-!
# Model of `edsp::span`

types/span.hpp makes `edsp::span` an alias of `nonstd::span` (thirdparty/nonstd/span.hpp, active in C++14).
An `index_type` is a signed 64-bit integer.  A failed `span_EXPECTS` terminates the program (the default
configuration, lines 87-110 and 592-595): the fault `assertion`.  A span refers to one block; its data
pointer is a position in or around the block (an integer, so that a pointer may leave it).
-/

namespace Edsp.SpanM

/-- span.hpp 446. -/
def dynamicExtent : Int := -1

/-- A sum of two values of type `index_type`; signed overflow is undefined. -/
def iadd (a b : Int) : Except Fault Int :=
  if -9223372036854775808 ≤ a + b ∧ a + b < 9223372036854775808 then .ok (a + b) else .error .overflow

/-- span.hpp 953-954 with the template argument `Extent` (line 632). -/
structure Span where
  extent : Int
  data : Int
  size : Int
  deriving DecidableEq, Repr

/-- span.hpp 667-669 for a pointer that is not null. -/
def ofPtr (extent ptr count : Int) : Except Fault Span :=
  if 0 ≤ count then .ok ⟨extent, ptr, count⟩ else .error .assertion

/-- span.hpp 671-675. -/
def ofRange (extent first last : Int) : Except Fault Span :=
  if 0 ≤ last - first then .ok ⟨extent, first, last - first⟩ else .error .assertion

namespace Span

/-- span.hpp 781-786. -/
def firstT (s : Span) (count : Int) : Except Fault Span :=
  if 0 ≤ count ∧ count ≤ s.size then ofPtr count s.data count else .error .assertion

/-- span.hpp 788-793. -/
def lastT (s : Span) (count : Int) : Except Fault Span :=
  if 0 ≤ count ∧ count ≤ s.size then ofPtr count (s.data + (s.size - count)) count else .error .assertion

/-- span.hpp 800-807. -/
def subspanT (s : Span) (offset count : Int) : Except Fault Span :=
  if 0 ≤ offset ∧ offset ≤ s.size then
    if count = dynamicExtent then
      ofPtr count (s.data + offset)
        (if s.extent ≠ dynamicExtent then s.extent - offset else s.size - offset)
    else if 0 ≤ count then do
      let e ← iadd count offset
      if e ≤ s.size then ofPtr count (s.data + offset) count else throw .assertion
    else .error .assertion
  else .error .assertion

/-- span.hpp 809-813. -/
def first (s : Span) (count : Int) : Except Fault Span :=
  if 0 ≤ count ∧ count ≤ s.size then ofPtr dynamicExtent s.data count else .error .assertion

/-- span.hpp 815-819. -/
def last (s : Span) (count : Int) : Except Fault Span :=
  if 0 ≤ count ∧ count ≤ s.size then ofPtr dynamicExtent (s.data + (s.size - count)) count
  else .error .assertion

/-- span.hpp 821-828. -/
def subspan (s : Span) (offset count : Int) : Except Fault Span :=
  if 0 ≤ offset ∧ offset ≤ s.size then
    if count = dynamicExtent then ofPtr dynamicExtent (s.data + offset) (s.size - offset)
    else if 0 ≤ count then do
      let e ← iadd offset count
      if e ≤ s.size then ofPtr dynamicExtent (s.data + offset) count else throw .assertion
    else .error .assertion
  else .error .assertion

/-- The cell an iterator or index refers to. -/
def cell {α : Type} (m : List α) (p : Int) : Except Fault α :=
  if 0 ≤ p then Mem.read m p.toNat else .error .outOfBounds

/-- span.hpp 846-850 (and 852-856). -/
def get {α : Type} (m : List α) (s : Span) (idx : Int) : Except Fault α :=
  if 0 ≤ idx ∧ idx < s.size then cell m (s.data + idx) else .error .assertion

/-- span.hpp 859-868. -/
def atPos {α : Type} (m : List α) (s : Span) (idx : Int) : Except Fault α :=
  if idx < 0 ∨ s.size ≤ idx then .error .exception else cell m (s.data + idx)

/-- The values from `begin()` to `end()` (span.hpp 904-918). -/
def toList {α : Type} (m : List α) (s : Span) : Except Fault (List α) :=
  (List.range s.size.toNat).mapM fun i : Nat => cell m (s.data + i)

end Span

/-- The calls that make a span of another one. -/
inductive Sub where
  | firstT (count : Int)
  | lastT (count : Int)
  | subspanT (offset count : Int)
  | first (count : Int)
  | last (count : Int)
  | subspan (offset count : Int)

/-- One call. -/
def Sub.apply (s : Span) : Sub → Except Fault Span
  | .firstT c => s.firstT c
  | .lastT c => s.lastT c
  | .subspanT o c => s.subspanT o c
  | .first c => s.first c
  | .last c => s.last c
  | .subspan o c => s.subspan o c

/-- A chain of calls. -/
def chain (s : Span) : List Sub → Except Fault Span
  | [] => .ok s
  | c :: cs => do chain (← c.apply s) cs

end Edsp.SpanM
