import Verif.Model.RingBuffer

/-!
# Model of functions that turn iterators of a ring buffer into pointers

Several functions of the library take iterators but work on `&(*first)` as an array: `amdf` and `asdf`
(feature/temporal/amdf.hpp 54, asdf.hpp 68), `dft`, `idft`, `cdft`, `cidft` (spectral/dft.hpp 52, 76-77, 98, 119-120), `dct`,
`idct` (spectral/dct.hpp 48, 71-72), `hartley` (spectral/hartley.hpp 51), `hilbert` (spectral/hilbert.hpp 75-76), `resample`
(io/internal/resampler/libsamplerate_impl.hpp 59-60), `encoder::write`
(io/internal/encoder/libsndfile_encoder_impl.hpp 144).  All of them use every element of the array of
`std::distance(first, last)` elements that begins there; what they compute from it is an arbitrary function here.
-/

namespace Edsp.RingPointer

variable {α β : Type}

/-- The elements `p[0], …, p[n-1]` where `p` points at slot `i`. -/
def arrayAt (data : List α) (i n : Nat) : Except Fault (List α) :=
  if i + n ≤ data.length then .ok ((data.drop i).take n) else .error .outOfBounds

/-- `f(begin(), end())` for a function `f` that reads the array at `&(*first)`; `&(*begin())` is slot `at(0)`
(ring_span.hpp 589-591, 697-699), `std::distance` is `size()` (ring_span.hpp 746-749). -/
def input (f : List α → β) (rb : RingBuffer α) : Except Fault β := do
  let i ← rb.span.atIdx 0
  let xs ← arrayAt rb.buffer i rb.size
  return f xs

/-- A function that writes its results `vs` to the array at `&(*d_first)` with `d_first = begin()`. -/
def output (rb : RingBuffer α) (vs : List α) : Except Fault (RingBuffer α) := do
  let i ← rb.span.atIdx 0
  if i + vs.length ≤ rb.buffer.length then
    return { rb with buffer := rb.buffer.take i ++ vs ++ rb.buffer.drop (i + vs.length) }
  else throw .outOfBounds

/-- The address of element `k`, as an offset from the address of the first slot of `buffer()`. -/
def address (rb : RingBuffer α) (k : Nat) : Except Fault Nat := rb.span.atIdx k

end Edsp.RingPointer
