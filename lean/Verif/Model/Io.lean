import Verif.Model.Memory

/-!
# Model of include/edsp/io

The audio libraries (libsndfile, libaudiofile) are not part of the code.  They are modelled by the contract the code relies
on: an open may fail; a handle may be closed once and used only while open; a null handle is refused without effect; a read
or write of n items transfers at most n items, in order.
-/

namespace Edsp.Io

/-! ### Handles -/

/-- Calls received by the library. -/
inductive Event
  | opened (h : Nat)
  | closed (h : Nat)
  deriving DecidableEq

/-- The library: the handles open, the next handle, and the log of its calls. -/
structure Lib where
  live : List Nat
  next : Nat
  log : List Event

/-- No handle has been opened. -/
def Lib.empty : Lib := ⟨[], 0, []⟩

/-- `sf_open` / `afOpenFile`; `ok` tells whether the file can be opened. -/
def Lib.openFile (l : Lib) (ok : Bool) : Option Nat × Lib :=
  if ok then (some l.next, ⟨l.next :: l.live, l.next + 1, l.log ++ [.opened l.next]⟩) else (none, l)

/-- `sf_close` / `afCloseFile`: a handle that is not open is a use after free. -/
def Lib.closeFile (l : Lib) (h : Nat) : Except Fault Lib :=
  if h ∈ l.live then .ok ⟨l.live.erase h, l.next, l.log ++ [.closed h]⟩ else .error .badHandle

/-- Any other call of the library with a handle: null is refused, a closed handle is a use after free. -/
def Lib.use (l : Lib) : Option Nat → Except Fault Unit
  | none => .ok ()
  | some h => if h ∈ l.live then .ok () else .error .badHandle

/-- Which implementation is compiled in: decoder_impl.hpp 33-41, encoder_impl.hpp. -/
inductive Impl
  | sndfileDecoder
  | sndfileEncoder
  | audiofileDecoder
  deriving DecidableEq

/-- The member `file_`: libsndfile_decoder_impl.hpp 166, libsndfile_encoder_impl.hpp 152,
libaudiofile_decoder_impl.hpp 153. -/
abbrev File := Option Nat

/-- `is_open`: libsndfile_decoder_impl.hpp 98-100, libsndfile_encoder_impl.hpp 114-116,
libaudiofile_decoder_impl.hpp 73-75. -/
def isOpen (f : File) : Bool := f.isSome

/-- `close`: libsndfile_decoder_impl.hpp 102-108, libsndfile_encoder_impl.hpp 118-124 (the pointer is kept),
libaudiofile_decoder_impl.hpp 92-103 (the pointer is reset). -/
def close (i : Impl) (f : File) (l : Lib) : Except Fault (File × Lib) :=
  match f with
  | none => .ok (none, l)
  | some h => do
    let l ← l.closeFile h
    match i with
    | .sndfileDecoder => return (some h, l)
    | .sndfileEncoder => return (some h, l)
    | .audiofileDecoder => return (none, l)

/-- `open`: libsndfile_decoder_impl.hpp 88-96, libsndfile_encoder_impl.hpp 104-112, libaudiofile_decoder_impl.hpp 77-90;
the result is that of `is_open`. -/
def openPath (i : Impl) (f : File) (l : Lib) (ok : Bool) : Except Fault (Bool × File × Lib) := do
  let (_, l) ← close i f l
  let (f, l) := l.openFile ok
  return (isOpen f, f, l)

/-- The destructor: libsndfile_decoder_impl.hpp 84-86, libsndfile_encoder_impl.hpp 100-102,
libaudiofile_decoder_impl.hpp 45-47. -/
def destroy (i : Impl) (f : File) (l : Lib) : Except Fault Lib := do
  let (_, l) ← close i f l
  return l

/-- The calls of a user; `use` stands for `seek`, `current`, `read`, `write`. -/
inductive Op
  | openPath (ok : Bool)
  | close
  | use
  deriving DecidableEq

/-- One call. -/
def step (i : Impl) (f : File) (l : Lib) : Op → Except Fault (File × Lib)
  | .openPath ok => do
    let (_, f, l) ← openPath i f l ok
    return (f, l)
  | .close => close i f l
  | .use => do
    l.use f
    return (f, l)

/-- The calls of a user on one object. -/
def run (i : Impl) : File → Lib → List Op → Except Fault (File × Lib)
  | f, l, [] => .ok (f, l)
  | f, l, op :: ops => do
    let (f, l) ← step i f l op
    run i f l ops

/-- The life of one object: default construction (`file_{nullptr}`), calls, destruction. -/
def life (i : Impl) (l : Lib) (ops : List Op) : Except Fault Lib := do
  let (f, l) ← run i none l ops
  destroy i f l

/-! ### Reading -/

variable {α : Type}

/-- An open file: its samples and the position of the next one. -/
structure Source (α : Type) where
  data : List α
  pos : Nat

/-- `sf_read_*(file, buffer, counter)` (libsndfile_decoder_impl.hpp 46-72): at most `counter` samples, no more than the file
has left, and possibly fewer (`limit` is the library's choice).  The buffer must hold `counter` samples. -/
def sfRead (limit : Nat) (s : Source α) (buffer : List α) (counter : Nat) :
    Except Fault (Nat × Source α × List α) :=
  if counter > buffer.length then .error .outOfBounds
  else
    let r := min limit (min counter (s.data.length - s.pos))
    .ok (r, { s with pos := s.pos + r }, ((s.data.drop s.pos).take r) ++ buffer.drop r)

/-- `std::copy` from the buffer, another block, to the memory at `d`. -/
def copyOut : List α → List α → Nat → Except Fault (List α)
  | [], m, _ => .ok m
  | v :: vs, m, d => do
    let m ← Mem.write m d v
    copyOut vs m (d + 1)

/-- `std::copy(std::cbegin(buffer_), std::cbegin(buffer_) + n, first)`. -/
def copyBuffer (buffer : List α) (n : Nat) (m : List α) (first : Nat) : Except Fault (List α) :=
  if n ≤ buffer.length then copyOut (buffer.take n) m first else .error .outOfBounds

/-- The loop of libsndfile_decoder_impl.hpp 150-155; `limit i` is the choice of the library at its `i`-th call.  The
subtraction stays non-negative because the library reads at most `counter` samples. -/
def readLoop (N : Nat) (limit : Nat → Nat) (i : Nat) (s : Source α) (buffer : List α) (m : List α) (first remaining : Nat) :
    Except Fault (Nat × Source α × List α × List α) :=
  let counter := if remaining > N then N else remaining
  match sfRead (limit i) s buffer counter with
  | .error e => .error e
  | .ok (r, s', buffer') =>
    match copyBuffer buffer' r m first with
    | .error e => .error e
    | .ok m' =>
      if _h : remaining - r > 0 ∧ r > 0 then readLoop N limit (i + 1) s' buffer' m' (first + r) (remaining - r)
      else .ok (remaining - r, s', buffer', m')
  termination_by remaining

/-- `read`, libsndfile_decoder_impl.hpp 142-157: the count returned, the file, the member `buffer_` and the memory.  `N` is
the size of `buffer_`. -/
def read (limit : Nat → Nat) (s : Source α) (buffer : List α) (m : List α) (first last : Nat) :
    Except Fault (Nat × Source α × List α × List α) := do
  let total ← Mem.distance first last
  let (remaining, s, buffer, m) ← readLoop buffer.length limit 0 s buffer m first total
  return (total - remaining, s, buffer, m)

/-- `afReadFrames(file, track, buffer, counter)`: `counter` frames of `channels` samples each. -/
def afRead (channels : Nat) (s : Source α) (buffer : List α) (counter : Nat) : Except Fault (Nat × Source α × List α) :=
  let r := min counter ((s.data.length - s.pos) / channels)
  if r * channels > buffer.length then .error .outOfBounds
  else .ok (r, { s with pos := s.pos + r * channels }, ((s.data.drop s.pos).take (r * channels)) ++ buffer.drop (r * channels))

/-- The loop of libaudiofile_decoder_impl.hpp 113-118 (`samples_read` counts frames).  The library is taken to read all the
frames it can. -/
def afReadLoop (N channels : Nat) (s : Source α) (buffer : List α) (m : List α) (first remaining : Nat) :
    Except Fault (Nat × Source α × List α × List α) :=
  let counter := if remaining > N then N else remaining
  match afRead channels s buffer counter with
  | .error e => .error e
  | .ok (r, s', buffer') =>
    match copyBuffer buffer' r m first with
    | .error e => .error e
    | .ok m' =>
      if _h : remaining - r > 0 ∧ r > 0 then afReadLoop N channels s' buffer' m' (first + r) (remaining - r)
      else .ok (remaining - r, s', buffer', m')
  termination_by remaining

/-- `read`, libaudiofile_decoder_impl.hpp 105-120. -/
def afReadAll (channels : Nat) (s : Source α) (buffer : List α) (m : List α) (first last : Nat) :
    Except Fault (Nat × Source α × List α × List α) := do
  let total ← Mem.distance first last
  let (remaining, s, buffer, m) ← afReadLoop buffer.length channels s buffer m first total
  return (total - remaining, s, buffer, m)

/-! ### Writing -/

/-- `write`, libsndfile_encoder_impl.hpp 138-146 with `writer::write` (49-81): the length becomes an `int`; the library
stores that many samples (none for a negative length).  `&(*first)` dereferences `first`, also for an empty range. -/
def write (out : List α) (m : List α) (first last : Nat) : Except Fault (List α) := do
  let length ← Mem.distance first last
  let _ ← Mem.read m first
  let n := (BitVec.ofNat 32 length).toInt.toNat
  if first + n ≤ m.length then return out ++ (m.drop first).take n else throw .outOfBounds

end Edsp.Io
