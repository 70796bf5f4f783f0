import Verif.Model.Memory
import Verif.Model.Numeric
import Mathlib.Analysis.SpecialFunctions.Trigonometric.Basic

/-!
# Model of include/edsp/windowing

The output range is a part of a memory block; `first`, `last` are cell numbers.  Exact real arithmetic; the
division by `size - 1 = 0` is a fault (the C++ value stored is not a number).
-/

namespace Edsp.Win

/-- Floating point division. -/
noncomputable def div (a b : ℝ) : Except Fault ℝ := if b = 0 then .error .divByZero else .ok (a / b)

/-- The loop `for (i = i0; i < i0 + n; ++i, ++first) *first = w(i)`. -/
def loop {α : Type} (w : Nat → α) : Nat → Nat → List α → Nat → Except Fault (List α)
  | 0, _, m, _ => .ok m
  | n + 1, i, m, p => do
    let m' ← Mem.write m p (w i)
    loop w n (i + 1) m' (p + 1)

/-- The shape shared by blackman.hpp 53-58, blackman_harris.hpp 53-58, blackman_nuttall.hpp 52-57, flattop.hpp
54-59, hamming.hpp 52-57 and hanning.hpp 51-56: `w` is the expression stored, a function of `tmp`.  For an empty range
the factor is `two_pi / -1` and the loop does not run. -/
noncomputable def cosLoop (w : ℝ → ℝ) (m : List ℝ) (first last : Nat) : Except Fault (List ℝ) := do
  let size ← Mem.distance first last
  let factor ← div (2 * Real.pi) ((size : ℝ) - 1)
  loop (fun i : Nat => w (factor * i)) size 0 m first

/-- blackman.hpp 47-59. -/
noncomputable def blackman : List ℝ → Nat → Nat → Except Fault (List ℝ) :=
  cosLoop fun tmp => 0.42 - 0.50 * Real.cos tmp + 0.08 * Real.cos (2 * tmp)

/-- blackman_harris.hpp 46-59. -/
noncomputable def blackmanHarris : List ℝ → Nat → Nat → Except Fault (List ℝ) :=
  cosLoop fun tmp =>
    0.35875 - 0.48829 * Real.cos tmp + 0.14128 * Real.cos (2 * tmp) - 0.01168 * Real.cos (3 * tmp)

/-- blackman_nuttall.hpp 45-58. -/
noncomputable def blackmanNuttall : List ℝ → Nat → Nat → Except Fault (List ℝ) :=
  cosLoop fun tmp =>
    0.3635819 - 0.4891775 * Real.cos tmp + 0.1365995 * Real.cos (2 * tmp) - 0.0106411 * Real.cos (3 * tmp)

/-- flattop.hpp 46-60. -/
noncomputable def flattop : List ℝ → Nat → Nat → Except Fault (List ℝ) :=
  cosLoop fun tmp =>
    0.21557895 - 0.41663158 * Real.cos tmp + 0.277263158 * Real.cos (2 * tmp) - 0.083578947 * Real.cos (3 * tmp)
      + 0.006947368 * Real.cos (4 * tmp)

/-- hamming.hpp 47-58. -/
noncomputable def hamming : List ℝ → Nat → Nat → Except Fault (List ℝ) :=
  cosLoop fun tmp => 0.54 - 0.46 * Real.cos tmp

/-- hanning.hpp 46-57. -/
noncomputable def hanning : List ℝ → Nat → Nat → Except Fault (List ℝ) :=
  cosLoop fun tmp => 0.5 - 0.5 * Real.cos tmp

/-- boxcar.hpp 43-50. -/
noncomputable def boxcar (m : List ℝ) (first last : Nat) : Except Fault (List ℝ) := do
  let size ← Mem.distance first last
  loop (fun _ => 1) size 0 m first

/-- rectangular.hpp 44-51. -/
noncomputable def rectangular (m : List ℝ) (first last : Nat) : Except Fault (List ℝ) := do
  let size ← Mem.distance first last
  loop (fun _ => 1) size 0 m first

/-- bartlett.hpp 36-48; `math::inv` of numeric.hpp 208-210. -/
noncomputable def bartlett (m : List ℝ) (first last : Nat) : Except Fault (List ℝ) := do
  let size ← Mem.distance first last
  let middle := if Num.isEven size then size / 2 else (size + 1) / 2
  let factor ← Num.inv ((size : ℝ) - 1)
  let m' ← loop (fun i : Nat => 2 * (i : ℝ) * factor) middle 0 m first
  loop (fun i : Nat => 2 - 2 * (i : ℝ) * factor) (size - middle) middle m' (first + middle)

/-- `std::remainder(size, 2)`: size minus twice the integer nearest to size/2, ties to the even one. -/
def remainder2 (size : Nat) : Int :=
  if size % 2 = 0 then 0 else if size % 4 = 1 then 1 else -1

/-- The loop of triangular.hpp 50-53. -/
noncomputable def triLoop (rem : ℝ) : Nat → ℝ → List ℝ → Nat → Except Fault (List ℝ)
  | 0, _, m, _ => .ok m
  | n + 1, initial, m, p => do
    let q ← div initial rem
    let m' ← Mem.write m p (1 - |q|)
    triLoop rem n (initial + 2) m' (p + 1)

/-- triangular.hpp 44-54. -/
noncomputable def triangular (m : List ℝ) (first last : Nat) : Except Fault (List ℝ) := do
  let size ← Mem.distance first last
  triLoop ((size : ℝ) + (remainder2 size : ℝ)) size (-((size : ℝ) - 1)) m first

/-- The loop of welch.hpp 49-51. -/
noncomputable def welchLoop (L : ℝ) : Nat → Nat → List ℝ → Nat → Except Fault (List ℝ)
  | 0, _, m, _ => .ok m
  | n + 1, i, m, p => do
    let q ← div ((i : ℝ) - L) L
    let m' ← Mem.write m p (1 - Num.square q)
    welchLoop L n (i + 1) m' (p + 1)

/-- welch.hpp 44-52; `size / 2` is an integer division. -/
noncomputable def welch (m : List ℝ) (first last : Nat) : Except Fault (List ℝ) := do
  let size ← Mem.distance first last
  welchLoop ((size / 2 : Nat) : ℝ) size 0 m first

end Edsp.Win
