import Verif.Model.Fault
import Mathlib.Algebra.Order.Archimedean.Real.Basic

/-!
# Model of `edsp::io::resampler` with libsamplerate

io/resampler.hpp and io/internal/resampler/libsamplerate_impl.hpp. libsamplerate itself is not modelled:
it is an arbitrary stream processor, of which `Src.Conforms` states the documented contract (it never uses
more input frames and never generates more output frames than it is given, and a frame has one sample per
channel). Samples are exact numbers. Only calls on which the library reports no error are modelled.
-/

namespace Edsp

/-- A sample rate converter (`src_new`, `src_process`): its state, and for a call the new state, the
input frames used (`input_frames_used`), the output frames generated (`output_frames_gen`) and the samples
stored from `data_out` on. -/
structure Src where
  State : Type
  init : State
  process : State → (samples : List ℝ) → (inputFrames outputFrames : ℕ) → (ratio : ℝ) → State × ℕ × ℕ × List ℝ

/-- The documented contract of `src_process` for `channels` channels. -/
def Src.Conforms (L : Src) (channels : ℕ) : Prop :=
  ∀ s xs i o r, (L.process s xs i o r).2.1 ≤ i ∧ (L.process s xs i o r).2.2.1 ≤ o ∧
    (L.process s xs i o r).2.2.2.length = (L.process s xs i o r).2.2.1 * channels

/-- libsamplerate_impl.hpp 105-110: the members the functions below read. -/
structure Resampler (L : Src) where
  channels : ℕ
  ratio : ℝ
  state : L.State

namespace Resampler

variable {L : Src}

/-- libsamplerate_impl.hpp 40-46 (and resampler.hpp 60). -/
def new (L : Src) (channels : ℕ) (factor : ℝ) : Resampler L := ⟨channels, factor, L.init⟩

/-- libsamplerate_impl.hpp 56: the conversion of a negative product to an unsigned type is undefined. -/
noncomputable def outputFrames (ratio : ℝ) (inputFrames : ℕ) : Except Fault ℕ :=
  if ratio * inputFrames < 0 then .error .domain else .ok ⌊ratio * inputFrames⌋₊

/-- libsamplerate_impl.hpp 52-66 (and resampler.hpp 87-90): the new object, the pair returned and the
destination after the call. The destination is the storage the caller owns from `d_first` on. The iterators
are pointers, so that `&(*first)` (lines 59, 60) is `first` also for an empty range. -/
noncomputable def process (r : Resampler L) (input dst : List ℝ) :
    Except Fault (Resampler L × (ℕ × ℕ) × List ℝ) := do
  if r.channels = 0 then .error .divByZero
  else
    let inputFrames := input.length / r.channels
    let outFrames ← outputFrames r.ratio inputFrames
    let (s, used, gen, out) := L.process r.state input inputFrames outFrames r.ratio
    if out.length ≤ dst.length then
      .ok ({ r with state := s }, (used, gen), out ++ dst.drop out.length)
    else .error .outOfBounds

/-- A stream: one call per block, into a fresh destination of the given size each time; the pairs
returned. -/
noncomputable def stream (r : Resampler L) (size : ℕ) : List (List ℝ) → Except Fault (List (ℕ × ℕ))
  | [] => .ok []
  | b :: bs => do
    let (r', p, _) ← r.process b (List.replicate size 0)
    let ps ← r'.stream size bs
    return p :: ps

end Resampler

/-! ## Ownership of the library handle (libsamplerate_impl.hpp 40-50, the implicit copy constructor) -/

/-- What a program does with resamplers: objects are numbered in the order of their construction. -/
inductive SrcOp where
  | construct
  | copy (i : ℕ)
  | destroy (i : ℕ)

/-- The handle each object holds (`none`: destroyed), the handles not yet released, the next handle. -/
structure SrcWorld where
  objects : List (Option ℕ)
  live : List ℕ
  next : ℕ

/-- One operation: `src_new` (44), the implicit copy constructor (the class declares a destructor but no
copy constructor, so the pointer is copied), `src_delete` (49). -/
def SrcWorld.step (w : SrcWorld) : SrcOp → Except Fault SrcWorld
  | .construct => .ok { objects := w.objects ++ [some w.next], live := w.next :: w.live, next := w.next + 1 }
  | .copy i =>
    match w.objects[i]? with
    | some (some h) => .ok { w with objects := w.objects ++ [some h] }
    | _ => .error .dangling
  | .destroy i =>
    match w.objects[i]? with
    | some (some h) =>
      if h ∈ w.live then .ok { w with objects := w.objects.set i none, live := w.live.erase h }
      else .error .badHandle
    | _ => .error .dangling

/-- A program. -/
def SrcWorld.run (w : SrcWorld) : List SrcOp → Except Fault SrcWorld
  | [] => .ok w
  | op :: ops => do (← w.step op).run ops

/-- No object, no handle. -/
def SrcWorld.empty : SrcWorld := ⟨[], [], 0⟩

/-! ## The Python binding -/

/-- bindings/python/src/io.cpp 59-80, `resampler_process_wrapper`, on a one-dimensional array of 32 bit
floats: the samples of the array returned. Line 65-67: a buffer of `size * ratio` samples. Line 73-75:
`final_shape` has two entries but the array is created with one dimension, that is `gen` elements. Line 77
copies `gen * channels` elements into it. (`empty` arrays are filled with 0 here.) -/
noncomputable def pyResample {L : Src} (r : Resampler L) (input : List ℝ) :
    Except Fault (Resampler L × List ℝ × ℕ) := do
  let (r', (used, gen), buf) ← r.process input (List.replicate ⌊input.length * r.ratio⌋₊ 0)
  let final := List.replicate gen (0 : ℝ)
  if gen * r.channels ≤ final.length ∧ gen * r.channels ≤ buf.length then
    .ok (r', buf.take (gen * r.channels) ++ final.drop (gen * r.channels), used)
  else .error .outOfBounds

end Edsp
