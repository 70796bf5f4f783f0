import Verif.Model.InPlace
import Verif.Model.Io

/-!
# Processing a file block by block

The loop a program writes around the library:
`while ((n = decoder.read(b.begin(), b.end())) > 0) { f.filter(b.begin(), b.begin() + n, b.begin()); encoder.write(b.begin(), b.begin() + n); }`
with `read` of libsndfile_decoder_impl.hpp 142-157, a filter or envelope working in place (biquad.hpp 319-323 and the others
of `Verif.Model.InPlace`) and `write` of libsndfile_encoder_impl.hpp 138-146.
-/

namespace Edsp.Pipeline

open Edsp.Io Edsp.InPlace

variable {σ α : Type}

/-- At most `fuel` rounds of the loop; `limit i` are the choices of the audio library during round `i`, `buffer` the
internal buffer of the decoder, `block` the array of the program, `out` the samples stored so far.  A loop that is not
finished after `fuel` rounds has no result. -/
def loop (f : σ → α → Except Fault (σ × α)) (limit : Nat → Nat → Nat) :
    (fuel i : Nat) → σ → Source α → (buffer block out : List α) → Except Fault (Option (σ × List α))
  | 0, _, _, _, _, _, _ => .ok none
  | fuel + 1, i, st, src, buffer, block, out => do
    let (n, src, buffer, block) ← Io.read (limit i) src buffer block 0 block.length
    if n = 0 then return some (st, out)
    let (st, block) ← runN f n st block 0 0
    let out ← Io.write out block 0 n
    loop f limit fuel (i + 1) st src buffer block out

end Edsp.Pipeline
