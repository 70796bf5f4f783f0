import Verif.Model.Fault
import Mathlib.Algebra.Order.Archimedean.Real.Basic

/-!
# Model of `edsp::io::resampler` with libresample

io/resampler.hpp and io/internal/resampler/libresample_impl.hpp, the class a build with `USE_LIBRESAMPLE` uses
(resampler_impl.hpp 28, 37).  libresample itself is not modelled: it is an arbitrary stream processor for one channel, of
which `Lrs.Conforms` and the other predicates state the documented contract.  Samples are exact numbers.  The implicit copy
constructor copies the handle as in the class for libsamplerate (`Verif.Model.Resampler`, `SrcWorld`).
-/

namespace Edsp

/-- A converter (`resample_open`, `resample_process`): its state, and for a call with the samples `xs` and room for `o` samples
the new state, the samples used (`*inBufferUsed`) and the samples stored from `outBuffer` on. -/
structure Lrs where
  State : Type
  init : State
  process : State → (xs : List ℝ) → (o : ℕ) → State × ℕ × List ℝ

/-- A call uses no more samples than it is given and stores no more than it has room for. -/
def Lrs.Conforms (L : Lrs) : Prop :=
  ∀ s xs o, (L.process s xs o).2.1 ≤ xs.length ∧ (L.process s xs o).2.2.length ≤ o

/-- A call stops only at the end of the input or when there is no room left. -/
def Lrs.Eager (L : Lrs) : Prop :=
  ∀ s xs o, (L.process s xs o).2.1 = xs.length ∨ (L.process s xs o).2.2.length = o

/-- Several calls: the state, the samples used and the samples stored, in all. -/
def Lrs.run (L : Lrs) : L.State → List (List ℝ × ℕ) → L.State × ℕ × ℕ
  | s, [] => (s, 0, 0)
  | s, (xs, o) :: calls =>
    let (s, used, out) := L.process s xs o
    let (s, used', n) := L.run s calls
    (s, used + used', out.length + n)

/-- The converter changes the rate by `factor`: however it is called, what it has stored is `factor` times what it has used,
up to the `K` samples it holds back or anticipates. -/
def Lrs.Balanced (L : Lrs) (factor K : ℝ) : Prop :=
  ∀ calls, |((L.run L.init calls).2.2 : ℝ) - factor * (L.run L.init calls).2.1| ≤ K

/-- libresample_impl.hpp 98-102: the members. `handle` is `none` for a null pointer. -/
structure LibResample (L : Lrs) where
  channels : ℤ
  factor : ℝ
  quality : ℤ
  handle : Option L.State
  error : ℤ

namespace LibResample

variable {L : Lrs}

/-- libresample_impl.hpp 40-46. `resample_open` returns a null pointer if the factors are not positive; nothing sets
`error_`. -/
noncomputable def new (L : Lrs) (channels quality : ℤ) (factor : ℝ) : LibResample L :=
  ⟨channels, factor, quality, if 0 < factor then some L.init else none, 0⟩

/-- libresample_impl.hpp 52-60 (and resampler.hpp 87-90): the object, the pair returned, the destination after the call, and
besides, known to the library only, the number of samples it has used (`sr_used`). A length that an `int` does not hold is
outside the contract of the library, like a null handle. -/
def process (r : LibResample L) (input dst : List ℝ) : Except Fault (LibResample L × (ℕ × ℕ) × List ℝ × ℕ) :=
  let size := input.length
  if 2 ^ 31 ≤ size then .error .domain
  else
    match r.handle with
    | none => .error .badHandle
    | some s =>
      let (s, used, out) := L.process s input size
      if out.length ≤ dst.length then
        .ok ({ r with handle := some s }, (size, out.length), out ++ dst.drop out.length, used)
      else .error .outOfBounds

/-- libresample_impl.hpp 70-73: the object and the value returned. -/
def reset (r : LibResample L) : LibResample L × ℤ := (r, r.error)

/-- libresample_impl.hpp 84-86. -/
def validRatio (_ : ℝ) : Bool := true

/-- A stream, a program of the user: one call per block into a destination as long as the block, the samples stored
collected. Returned: the object, the sum of the first and of the second numbers returned, the samples, and the samples the
library has used. -/
def stream (r : LibResample L) : List (List ℝ) → Except Fault (LibResample L × ℕ × ℕ × List ℝ × ℕ)
  | [] => .ok (r, 0, 0, [], 0)
  | b :: bs => do
    let (r, (read, written), dst, used) ← r.process b (List.replicate b.length 0)
    let (r, read', written', out, used') ← r.stream bs
    return (r, read + read', written + written', dst.take written ++ out, used + used')

end LibResample

end Edsp
