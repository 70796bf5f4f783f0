import Verif.Model.RingBuffer

/-!
# Model of the iterators of `edsp::ring_buffer` (include/edsp/thirdparty/nonstd/ring_span.hpp 656-817)

An iterator is an index (`size_type m_idx`, counted from the front of the buffer) and a pointer to the span of its buffer.
All iterators here are iterators of one buffer; comparing iterators of two buffers, which the code only asserts against, is
not modelled.  Iterators to constant elements have the same members and differ in what may be assigned only.

A program uses the buffer through its calls and through iterators kept in registers.  It is a tree, as what it does next may
depend on what it reads: the loops of the standard algorithms are such trees for every input.
-/

namespace Edsp.RingIter

open Edsp.RingBuffer

variable {α β : Type}

/-- The ways to move an iterator: `++it`, `--it`, `it += n`, `it -= n` (also `it + n`, `it - n`, `std::advance`,
`std::next`); `n` is a `difference_type`, that is `std::ptrdiff_t`. -/
inductive Move where
  | inc
  | dec
  | plus (n : Int)
  | minus (n : Int)
  deriving DecidableEq

/-- `std::ptrdiff_t` to `int`, the type of the parameter of `operator+=` and `operator-=` (ring_span.hpp 730, 735, 807, 813):
modulo `2^32` on the compilers the library supports. -/
def toInt (n : Int) : Int := (n + 2 ^ 31) % 2 ^ 32 - 2 ^ 31

/-- `int` to `std::size_t` and addition on `std::size_t`. -/
def shift (idx : Nat) (n : Int) : Nat := (((idx : Int) + n) % 2 ^ 64).toNat

/-- ring_span.hpp 703-706 (`++`), 714-717 (`--`), 730-733 (`+=`), 735-738 (`-=`). -/
def Move.apply (idx : Nat) : Move → Nat
  | .inc => wadd idx 1
  | .dec => wsub idx 1
  | .plus n => shift idx (toInt n)
  | .minus n => shift idx (- toInt n)

/-- `static_cast<std::ptrdiff_t>` of a `std::size_t`. -/
def toPtrdiff (i : Nat) : Int := if i < 2 ^ 63 then (i : Int) else (i : Int) - 2 ^ 64

/-- ring_span.hpp 746-749: `a - b`; overflow of the signed subtraction is a fault. -/
def difference (a b : Nat) : Except Fault Int :=
  let d := toPtrdiff a - toPtrdiff b
  if - 2 ^ 63 ≤ d ∧ d < 2 ^ 63 then .ok d else .error .overflow

/-- `*it = v`, ring_span.hpp 697-699 with 589-595. -/
def assign (rb : RingBuffer α) (idx : Nat) (v : α) : Except Fault (RingBuffer α) := do
  let i ← rb.span.atIdx idx
  let b ← RingSpan.store rb.buffer i v
  return { rb with buffer := b }

/-- A program with one ring buffer and iterators of it in registers. -/
inductive Prog (α β : Type) where
  /-- the program ends with a result -/
  | ret (b : β)
  /-- `*it` -/
  | read (i : Nat) (k : α → Prog α β)
  /-- `*it = v` -/
  | write (i : Nat) (v : α) (k : Prog α β)
  /-- an iterator is moved -/
  | move (i : Nat) (m : Move) (k : Prog α β)
  /-- `i = j` -/
  | copy (i j : Nat) (k : Prog α β)
  /-- `i = buffer.begin()` -/
  | first (i : Nat) (k : Prog α β)
  /-- `i = buffer.end()` -/
  | last (i : Nat) (k : Prog α β)
  /-- `i - j`, also `std::distance(j, i)` -/
  | diff (i j : Nat) (k : Int → Prog α β)
  /-- `i < j`; `>`, `<=` and `>=` are made of it (ring_span.hpp 766-786) -/
  | less (i j : Nat) (k : Bool → Prog α β)
  /-- `i == j`; `!=` is its negation -/
  | equal (i j : Nat) (k : Bool → Prog α β)
  /-- a call of the buffer -/
  | call (op : Op α) (k : Prog α β)

/-- Write a register. -/
def put {γ : Type} (f : Nat → γ) (i : Nat) (v : γ) : Nat → γ := fun j => if j = i then v else f j

/-- Running a program.  `begin()` has index 0, `end()` index `size()` (ring_span.hpp 417-439); calls of the buffer leave
iterators alone (they hold an index and the address of the span, which stays).  Comparisons: ring_span.hpp 754-764. -/
def Prog.run (dflt : α) (moved : α → α) : Prog α β → RingBuffer α → (Nat → Nat) → Except Fault (β × RingBuffer α)
  | .ret b, rb, _ => .ok (b, rb)
  | .read i k, rb, it => do
    let v ← rb.span.deref rb.buffer (it i)
    (k v).run dflt moved rb it
  | .write i v k, rb, it => do
    let rb ← assign rb (it i) v
    k.run dflt moved rb it
  | .move i m k, rb, it => k.run dflt moved rb (put it i (m.apply (it i)))
  | .copy i j k, rb, it => k.run dflt moved rb (put it i (it j))
  | .first i k, rb, it => k.run dflt moved rb (put it i 0)
  | .last i k, rb, it => k.run dflt moved rb (put it i rb.size)
  | .diff i j k, rb, it => do
    let d ← difference (it i) (it j)
    (k d).run dflt moved rb it
  | .less i j k, rb, it => (k (decide (it i < it j))).run dflt moved rb it
  | .equal i j k, rb, it => (k (decide (it i = it j))).run dflt moved rb it
  | .call op k, rb, it => do
    let rb ← rb.step dflt moved op
    k.run dflt moved rb it

end Edsp.RingIter
