import Verif.Model.Memory
import Verif.Model.Statistics
import Verif.Model.Converters

/-!
# Model of include/edsp/feature

A range is a pair of pointers into one block of memory (`Model/Memory.lean`), so that a call with two ranges may have
them anywhere; a function of one range that only reads is given the list of its elements.  Real numbers in exact
arithmetic; a division by zero and a function outside its domain is a fault.  The forwarding functions of
feature/spectral (centroid, crest, decrease, flatness, flux, kurtosis, rolloff, skewness, slope, spread, variation)
are the functions they call.
-/

namespace Edsp.Feature

open Mem Stat

/-- `for (; first1 != last1; ++first1, ++first2) state = f(state, *first1, *first2);` -/
def loop2 {S : Type} (f : S → ℝ → ℝ → S) : S → List ℝ → List ℝ → S
  | s, x :: xs, y :: ys => loop2 f (f s x y) xs ys
  | s, _, _ => s

/-- The elements the loop above reads: the range `[first1, last1)` and as many elements from `first2` on. -/
def ranges (m : List ℝ) (first1 last1 first2 : Nat) : Except Fault (List ℝ × List ℝ) := do
  let x ← readRange m first1 last1
  let y ← readRange m first2 (first2 + x.length)
  return (x, y)

/-- The loop with a counter: `for (T i = i0; first != last; ++first, ++i) state = f(state, i, *first);` -/
def loopI {S : Type} (f : S → ℝ → ℝ → S) : ℝ → S → List ℝ → S
  | _, s, [] => s
  | i, s, x :: xs => loopI f (i + 1) (f s i x) xs

/-- feature/statistics/centroid.hpp 43-52. -/
noncomputable def centroid (l : List ℝ) : Except Fault ℝ :=
  let s := loopI (fun (s : ℝ × ℝ) i x => (s.1 + i * x, s.2 + x)) 0 (0, 0) l
  fdiv s.1 s.2

/-- feature/statistics/centroid.hpp 69-78. -/
noncomputable def weightedCentroid (m : List ℝ) (first1 last1 first2 : Nat) : Except Fault ℝ := do
  let (x, f) ← ranges m first1 last1 first2
  let s := loop2 (fun (s : ℝ × ℝ) x f => (s.1 + f * x, s.2 + x)) (0, 0) x f
  fdiv s.1 s.2

/-- feature/statistics/spread.hpp 53-64. -/
noncomputable def spread (l : List ℝ) : Except Fault ℝ := do
  let c ← centroid l
  let s := loopI (fun (s : ℝ × ℝ) i x => (s.1 + ((i - c) * (i - c)) * x, s.2 + x)) 0 (0, 0) l
  fsqrt (← fdiv s.1 s.2)

/-- feature/statistics/spread.hpp 73-84. -/
noncomputable def weightedSpread (m : List ℝ) (first1 last1 first2 : Nat) : Except Fault ℝ := do
  let c ← weightedCentroid m first1 last1 first2
  let (x, f) ← ranges m first1 last1 first2
  let s := loop2 (fun (s : ℝ × ℝ) x f => (s.1 + ((f - c) * (f - c)) * x, s.2 + x)) (0, 0) x f
  fsqrt (← fdiv s.1 s.2)

/-- feature/statistics/crest.hpp 38-45. -/
noncomputable def crest (l : List ℝ) : Except Fault ℝ := do
  let acc := accumulate (fun x => |x|) 0 l
  let mx ← Seq.maxabs l
  fdiv mx acc

/-- feature/statistics/flatness.hpp 44-48. -/
noncomputable def flatness (l : List ℝ) : Except Fault ℝ := do
  let g ← geometricMean l
  let a ← mean l
  fdiv g a

/-- `std::log2`. -/
noncomputable def flog2 (x : ℝ) : Except Fault ℝ :=
  if x ≤ 0 then .error .domain else .ok (Real.log x / Real.log 2)

/-- feature/statistics/entropy.hpp 51-59. -/
noncomputable def entropy (l : List ℝ) : Except Fault ℝ := do
  let acc ← accumulateM (fun x => do return (← flog2 x) * x) 0 l
  fdiv (-acc) (← flog2 (l.length : ℝ))

/-- feature/spectral/spectral_entropy.hpp 56-66. -/
noncomputable def spectralEntropy (l : List ℝ) : Except Fault ℝ := do
  let sum := accumulate id 0 l
  let acc ← accumulateM (fun x => do
    let n ← fdiv x sum
    return (← flog2 n) * n) 0 l
  fdiv (-acc) (← flog2 (l.length : ℝ))

/-- The loop of feature/statistics/rolloff.hpp 50-53: the number of steps made. -/
noncomputable def rolloffLoop (limit : ℝ) : ℝ → List ℝ → Nat
  | _, [] => 0
  | acc, x :: xs => if acc ≤ limit then rolloffLoop limit (acc + x * x) xs + 1 else 0

/-- feature/statistics/rolloff.hpp 44-55. -/
noncomputable def rolloff (l : List ℝ) (percentage : ℝ) : Except Fault ℝ :=
  let limit := percentage * Seq.energy l
  fdiv (((rolloffLoop limit 0 l : ℤ) - 1 : ℤ) : ℝ) (l.length : ℝ)

/-- The loop of feature/statistics/decrease.hpp 54-57; the counter starts at 0. -/
noncomputable def decreaseLoop (initial : ℝ) : ℝ → ℝ × ℝ → List ℝ → Except Fault (ℝ × ℝ)
  | _, s, [] => .ok s
  | i, s, x :: xs => do
    let q ← fdiv (x - initial) i
    decreaseLoop initial (i + 1) (s.1 + q, s.2 + x) xs

/-- feature/statistics/decrease.hpp 50-59 (`*first` of an empty range is a read out of bounds). -/
noncomputable def decrease (l : List ℝ) : Except Fault ℝ := do
  match l with
  | [] => .error .outOfBounds
  | x0 :: _ =>
    let s ← decreaseLoop x0 0 (0, 0) l
    fdiv s.1 s.2

/-- The sums of feature/statistics/slope.hpp 64-73: `m_sum`, `f_sum`, `mf_sum`, `ff_sum`. -/
def slopeStep (s : ℝ × ℝ × ℝ × ℝ) (x f : ℝ) : ℝ × ℝ × ℝ × ℝ :=
  (s.1 + x, s.2.1 + f, s.2.2.1 + x * f, s.2.2.2 + f * f)

/-- feature/statistics/slope.hpp 62-76: the loop has moved `first1` to `last1` when `N` is computed. -/
noncomputable def slope (m : List ℝ) (first1 last1 first2 : Nat) : Except Fault ℝ := do
  let (x, f) ← ranges m first1 last1 first2
  let s := loop2 slopeStep (0, 0, 0, 0) x f
  let first1 := last1
  let N : ℝ := ((← distance first1 last1) : ℝ)
  let r ← fdiv 1 s.1
  fdiv (r * (N * s.2.2.1 - s.2.1 * s.1)) (N * s.2.2.2 - s.2.1 * s.2.1)

/-- math/numeric.hpp 280. -/
inductive Distance | manhattan | euclidean | logarithmic

/-- math/numeric.hpp 287-310. -/
noncomputable def dist : Distance → ℝ → ℝ → Except Fault ℝ
  | .manhattan, x, y => .ok (x - y)
  | .euclidean, x, y => .ok ((x - y) * (x - y))
  | .logarithmic, x, y => do flog (← fdiv |x| |y|)

/-- The loop of feature/statistics/flux.hpp 53-56. -/
noncomputable def fluxLoop (d : Distance) (cur prev : ℝ) : ℝ → List ℝ → List ℝ → Except Fault ℝ
  | acc, x :: xs, y :: ys => do
    let a ← fdiv x cur
    let b ← fdiv y prev
    fluxLoop d cur prev (acc + (← dist d a b)) xs ys
  | acc, _, _ => .ok acc

/-- feature/statistics/flux.hpp 48-58: `previous_sum` runs from `first1` to the end of the second range. -/
noncomputable def flux (d : Distance) (m : List ℝ) (first1 last1 first2 : Nat) : Except Fault ℝ := do
  let size ← distance first1 last1
  let x ← readRange m first1 last1
  let cur := accumulate id 0 x
  let prev := accumulate id 0 (← readRange m first1 (first2 + size))
  let y ← readRange m first2 (first2 + size)
  fluxLoop d cur prev 0 x y

/-- feature/statistics/variation.hpp 58-69: `sum_x12` is computed and not used. -/
noncomputable def variation (m : List ℝ) (first1 last1 first2 : Nat) : Except Fault ℝ := do
  let (x, y) ← ranges m first1 last1 first2
  let s := loop2 (fun (s : ℝ × ℝ × ℝ) x y => (s.1 + x, s.2.1 + y, s.2.2 + x * y)) (0, 0, 0) x y
  let r1 ← fsqrt s.1
  let r2 ← fsqrt s.2.1
  return 1 - (← fdiv s.2.1 (r1 * r2))

/-- The loop of feature/spectral/spectral_irregularity.hpp 54-58; `(*first + 1) - (*first)` adds one to the element,
not to the iterator. -/
def irregularityLoop : ℝ × ℝ → List ℝ → ℝ × ℝ
  | s, [] => s
  | s, x :: xs =>
    let diff := (x + 1) - x
    irregularityLoop (s.1 + diff * diff, s.2 + x * x) xs

/-- feature/spectral/spectral_irregularity.hpp 50-60 (an empty range starts behind `last - 1`). -/
noncomputable def irregularity (l : List ℝ) : Except Fault ℝ :=
  match l with
  | [] => .error .outOfBounds
  | _ :: _ =>
    let s := irregularityLoop (0, 0) (l.dropLast)
    fdiv s.1 s.2

/-- feature/temporal/snr.hpp 52-62: the reference variance is that of `[first1, first2)`. -/
noncomputable def snr (dbg : Bool) (m : List ℝ) (first1 last1 first2 : Nat) : Except Fault ℝ := do
  let (x, y) ← ranges m first1 last1 first2
  let noise := List.zipWith (fun a b => a - b) x y
  let varRef ← variance (← readRange m first1 first2)
  let varNoise ← variance noise
  Conv.pow2db dbg (← fdiv varRef varNoise)

/-- The inner loop of feature/temporal/amdf.hpp 57-59 and asdf.hpp 71-73, `g` the difference measure:
`for (; j < j + c; ++j) *d += g(array[j] - array[j + i])`. -/
def differenceInner (g : ℝ → ℝ) (first i d : Nat) : Nat → Nat → List ℝ → Except Fault (List ℝ)
  | 0, _, m => .ok m
  | c + 1, j, m => do
    let a ← read m (first + j)
    let b ← read m (first + (j + i))
    let v ← read m d
    let m ← write m d (v + g (a - b))
    differenceInner g first i d c (j + 1) m

/-- The outer loop of feature/temporal/amdf.hpp 55-61 and asdf.hpp 69-75. -/
noncomputable def differenceOuter (g : ℝ → ℝ) (N first : Nat) : Nat → Nat → Nat → List ℝ → Except Fault (List ℝ)
  | 0, _, _, m => .ok m
  | c + 1, i, d, m => do
    let m ← write m d 0
    let m ← differenceInner g first i d (N - i) 0 m
    let v ← read m d
    let m ← write m d (← fdiv v (N : ℝ))
    differenceOuter g N first c (i + 1) (d + 1) m

/-- feature/temporal/amdf.hpp 51-62 (`&(*first)` needs an element at `first`). -/
noncomputable def amdf (m : List ℝ) (first last d : Nat) : Except Fault (List ℝ) := do
  let N ← distance first last
  let _ ← read m first
  differenceOuter (fun x => |x|) N first N 0 d m

/-- feature/temporal/asdf.hpp 65-76. -/
noncomputable def asdf (m : List ℝ) (first last d : Nat) : Except Fault (List ℝ) := do
  let N ← distance first last
  let _ ← read m first
  differenceOuter (fun x => x * x) N first N 0 d m

/-- math/numeric.hpp 155-157. -/
noncomputable def sign (x : ℝ) : ℝ := if x < 0 then -1 else 1

/-- The loop of feature/temporal/azcr.hpp 56-58: `prev` is the element before the range. -/
noncomputable def azcrLoop : ℝ → ℝ → List ℝ → ℝ
  | acc, _, [] => acc
  | acc, prev, x :: xs => azcrLoop (acc + if sign x ≠ sign prev then 1 else 0) x xs

/-- feature/temporal/azcr.hpp 52-60 (an empty range is left behind by `std::next(first)`). -/
noncomputable def azcr (l : List ℝ) : Except Fault ℝ :=
  match l with
  | [] => .error .outOfBounds
  | x :: xs => fdiv (azcrLoop 0 x xs) (((l.length : ℤ) - 1 : ℤ) : ℝ)

/-- feature/temporal/duration.hpp 42-45. -/
noncomputable def duration (l : List ℝ) (sampleRate : ℝ) : Except Fault ℝ := fdiv (l.length : ℝ) sampleRate

/-- feature/temporal/duration.hpp 60-66. -/
noncomputable def effectiveDuration (l : List ℝ) (sampleRate threshold : ℝ) : Except Fault ℝ := do
  let limit := threshold * (← Seq.maxabs l)
  let samples := l.countP fun x => |x| > limit
  fdiv (samples : ℝ) sampleRate

/-- feature/temporal/leq.hpp 43-46. -/
noncomputable def leq (dbg : Bool) (l : List ℝ) : Except Fault ℝ := do
  let e ← Seq.power l
  Conv.pow2db dbg e

/-- feature/perceptual/loudness.hpp 59-62. -/
noncomputable def loudness (l : List ℝ) : Except Fault ℝ := fpow (Seq.energy l) (67 / 100)

end Edsp.Feature
