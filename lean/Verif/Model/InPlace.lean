import Verif.Model.Memory
import Verif.Model.Biquad
import Verif.Model.MovingFilters
import Verif.Model.Envelopes

/-!
# Filters and envelopes on ranges of one memory block

The models of the filters and envelopes take the samples as a list.  Here the same calls read and write cells of one
memory block, so that the input and the output range may overlap.  `std::transform` calls its function in order.
-/

namespace Edsp.InPlace

open Edsp.Mem Edsp.Env

variable {σ α : Type}

/-- The loop `for (; first != last; ++first, ++d_first) *d_first = f(*first)` of biquad.hpp 320-322 and
biquad_cascade.hpp 219-221, and the loop of `std::transform(first, last, d_first, std::ref(f))`, with an object `s` that
every call changes. -/
def runN (f : σ → α → Except Fault (σ × α)) : Nat → σ → List α → Nat → Nat → Except Fault (σ × List α)
  | 0, s, m, _, _ => .ok (s, m)
  | n + 1, s, m, p, d => do
    let v ← read m p
    let (s, y) ← f s v
    let m ← write m d y
    runN f n s m (p + 1) (d + 1)

/-- biquad.hpp 319-323. -/
def biquadFilter {K : Type} [Field K] (F : Biquad K) (m : List K) (first last d : Nat) : Except Fault (Biquad K × List K) := do
  runN (fun F x => .ok (F.tick x)) (← distance first last) F m first d

/-- biquad_cascade.hpp 218-222. -/
def cascadeFilter {K : Type} [Field K] (C : Cascade K) (m : List K) (first last d : Nat) :
    Except Fault (Cascade K × List K) := do
  runN (fun C x => .ok (C.tick x)) (← distance first last) C m first d

/-- moving_average_filter.hpp 113-115. -/
def averageFilter {K : Type} [Field K] (A : MovingAverage K) (m : List K) (first last d : Nat) :
    Except Fault (MovingAverage K × List K) := do
  runN (fun A x => A.tick x) (← distance first last) A m first d

/-- moving_rms_filter.hpp 114-116. -/
noncomputable def rmsFilter (A : MovingRms) (m : List ℝ) (first last d : Nat) : Except Fault (MovingRms × List ℝ) := do
  runN (fun A x => A.tick x) (← distance first last) A m first d

/-- `apply`, experimental/envelope/adsr.hpp 195-198. -/
noncomputable def adsrApply (S : Adsr.State) (m : List ℝ) (first last d : Nat) : Except Fault (Adsr.State × List ℝ) := do
  runN (fun S x => .ok ((Adsr.call S x).2, (Adsr.call S x).1)) (← distance first last) S m first d

/-- `apply`, experimental/envelope/ar.hpp 206-210. -/
noncomputable def arApply (tiny : ℝ) (S : Ar.State) (m : List ℝ) (first last d : Nat) : Except Fault (Ar.State × List ℝ) := do
  runN (fun S x => .ok ((Ar.call tiny S x).2, (Ar.call tiny S x).1)) (← distance first last) S m first d

end Edsp.InPlace
