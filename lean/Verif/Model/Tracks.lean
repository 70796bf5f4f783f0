import Verif.Model.Io

/-!
# Files with several channels

The samples of a file with `channels` channels are interleaved: a frame is `channels` consecutive samples.  Contract of
libsndfile, besides that of `Verif.Model.Io`: the number of items of `sf_read_*` and `sf_write_*` must be a multiple of the
number of channels, otherwise the call is an error, transfers nothing and returns 0; a request for whole frames is met as
far as the file reaches; `sf_seek` counts frames, and refuses with -1 a position outside the file.
-/

namespace Edsp.Tracks

open Edsp.Io

variable {α : Type}

/-- An open file: the number of channels, the samples and the position of the next one. -/
structure Track (α : Type) where
  channels : Nat
  data : List α
  pos : Nat

/-- `sf_read_*(file, buffer, counter)`, called in libsndfile_decoder_impl.hpp 46-72. The buffer must hold `counter` samples. -/
def sfRead (t : Track α) (buffer : List α) (counter : Nat) : Except Fault (Nat × Track α × List α) :=
  if counter > buffer.length then .error .outOfBounds
  else if counter % t.channels ≠ 0 then .ok (0, t, buffer)
  else
    let r := min counter (t.data.length - t.pos)
    .ok (r, { t with pos := t.pos + r }, ((t.data.drop t.pos).take r) ++ buffer.drop r)

/-- `seek`, libsndfile_decoder_impl.hpp 130-132 (`sf_seek(file_, position, SEEK_SET)`). -/
def seek (t : Track α) (position : Int) : Int × Track α :=
  if 0 ≤ position ∧ position ≤ (t.data.length / t.channels : Nat) then
    (position, { t with pos := position.toNat * t.channels })
  else (-1, t)

/-- `current`, libsndfile_decoder_impl.hpp 134-136 (`sf_seek(file_, 0, SEEK_CUR)`). -/
def current (t : Track α) : Int := (t.pos / t.channels : Nat)

/-- `frames`, libsndfile_decoder_impl.hpp 118-120. -/
def frames (t : Track α) : Int := (t.data.length / t.channels : Nat)

/-- `samples`, libsndfile_decoder_impl.hpp 114-116. -/
def samples (t : Track α) : Int := t.channels * frames t

/-- The loop of libsndfile_decoder_impl.hpp 150-155; `N` is the size of `buffer_`. -/
def readLoop (N : Nat) (t : Track α) (buffer : List α) (m : List α) (first remaining : Nat) :
    Except Fault (Nat × Track α × List α × List α) :=
  let counter := if remaining > N then N else remaining
  match sfRead t buffer counter with
  | .error e => .error e
  | .ok (r, t', buffer') =>
    match copyBuffer buffer' r m first with
    | .error e => .error e
    | .ok m' =>
      if _h : remaining - r > 0 ∧ r > 0 then readLoop N t' buffer' m' (first + r) (remaining - r)
      else .ok (remaining - r, t', buffer', m')
  termination_by remaining

/-- `read`, libsndfile_decoder_impl.hpp 142-157: the count returned, the file, the member `buffer_` and the memory. -/
def read (t : Track α) (buffer : List α) (m : List α) (first last : Nat) :
    Except Fault (Nat × Track α × List α × List α) := do
  let total ← Mem.distance first last
  let (remaining, t, buffer, m) ← readLoop buffer.length t buffer m first total
  return (total - remaining, t, buffer, m)

/-- `write`, libsndfile_encoder_impl.hpp 138-146 with `writer::write` (49-81): the count returned and the samples stored in
the file. The length becomes an `int`. -/
def write (channels : Nat) (out : List α) (m : List α) (first last : Nat) : Except Fault (Nat × List α) := do
  let length ← Mem.distance first last
  let _ ← Mem.read m first
  let n := (BitVec.ofNat 32 length).toInt.toNat
  if n % channels ≠ 0 then return (0, out)
  if first + n ≤ m.length then return (n, out ++ (m.drop first).take n) else throw .outOfBounds

/-- A program of the user, not of /repo: `count` calls of `read` into the same `block`, the samples delivered collected. -/
def blocks : Nat → Track α → List α → List α → Except Fault (List α × Track α)
  | 0, t, _, _ => .ok ([], t)
  | count + 1, t, buffer, block => do
    let (got, t, buffer, block) ← read t buffer block 0 block.length
    let (rest, t) ← blocks count t buffer block
    return (block.take got ++ rest, t)

end Edsp.Tracks
