import Verif.Model.Windows
import Verif.Spec.Float
import Verif.Spec.Windows

/-!
# Model of include/edsp/windowing in floating point arithmetic

The elements are numbers with `p` bits (24: `float`, 53: `double`), every operation is rounded, no fused operations, no
overflow and no underflow.  Sizes and indices are 64-bit integers that are rounded where they are converted.  `std::cos`
is a parameter `c`; boxcar.hpp and rectangular.hpp have no arithmetic.  The memory is that of `Verif.Model.Windows`.
-/

namespace Edsp.RndWin

open Edsp.Spec

/-- `static_cast<value_type>(x)` of a literal, which is a `double` first. -/
noncomputable def lit (p : ℕ) (x : ℝ) : ℝ := rnd p (rnd 53 x)

/-- A quotient; a zero divisor is a fault (the C++ value is not a number). -/
noncomputable def div (p : ℕ) (a b : ℝ) : Except Fault ℝ := do return rnd p (← Win.div a b)

/-- math/constant.hpp 48. -/
noncomputable def twoPi (p : ℕ) : ℝ := lit p 6.283185307179586476925286766559005768

/-- The shape shared by blackman.hpp 53-58, blackman_harris.hpp 53-58, blackman_nuttall.hpp 52-57, flattop.hpp 54-59,
hamming.hpp 52-57 and hanning.hpp 51-56: `w` is the expression stored, a function of `tmp`. -/
noncomputable def cosLoop (p : ℕ) (w : ℝ → ℝ) (m : List ℝ) (first last : ℕ) : Except Fault (List ℝ) := do
  let size ← Mem.distance first last
  let factor ← div p (twoPi p) (rnd p ((size : ℝ) - 1))
  Win.loop (fun i : ℕ => w (rnd p (factor * rnd p (i : ℝ)))) size 0 m first

/-- `s - a * std::cos(t)`. -/
noncomputable def minus (p : ℕ) (c : ℝ → ℝ) (s a t : ℝ) : ℝ := rnd p (s - rnd p (lit p a * c t))

/-- `s + a * std::cos(t)`. -/
noncomputable def plus (p : ℕ) (c : ℝ → ℝ) (s a t : ℝ) : ℝ := rnd p (s + rnd p (lit p a * c t))

/-- blackman.hpp 57. -/
noncomputable def blackmanAt (p : ℕ) (c : ℝ → ℝ) (tmp : ℝ) : ℝ :=
  plus p c (minus p c (lit p 0.42) 0.50 tmp) 0.08 (rnd p (2 * tmp))

/-- blackman.hpp 47-59. -/
noncomputable def blackman (p : ℕ) (c : ℝ → ℝ) : List ℝ → ℕ → ℕ → Except Fault (List ℝ) := cosLoop p (blackmanAt p c)

/-- blackman_harris.hpp 57. -/
noncomputable def blackmanHarrisAt (p : ℕ) (c : ℝ → ℝ) (tmp : ℝ) : ℝ :=
  minus p c (plus p c (minus p c (lit p 0.35875) 0.48829 tmp) 0.14128 (rnd p (2 * tmp))) 0.01168 (rnd p (3 * tmp))

/-- blackman_harris.hpp 46-59. -/
noncomputable def blackmanHarris (p : ℕ) (c : ℝ → ℝ) : List ℝ → ℕ → ℕ → Except Fault (List ℝ) :=
  cosLoop p (blackmanHarrisAt p c)

/-- blackman_nuttall.hpp 56. -/
noncomputable def blackmanNuttallAt (p : ℕ) (c : ℝ → ℝ) (tmp : ℝ) : ℝ :=
  minus p c (plus p c (minus p c (lit p 0.3635819) 0.4891775 tmp) 0.1365995 (rnd p (2 * tmp))) 0.0106411
    (rnd p (3 * tmp))

/-- blackman_nuttall.hpp 45-58. -/
noncomputable def blackmanNuttall (p : ℕ) (c : ℝ → ℝ) : List ℝ → ℕ → ℕ → Except Fault (List ℝ) :=
  cosLoop p (blackmanNuttallAt p c)

/-- flattop.hpp 58. -/
noncomputable def flattopAt (p : ℕ) (c : ℝ → ℝ) (tmp : ℝ) : ℝ :=
  plus p c
    (minus p c (plus p c (minus p c (lit p 0.21557895) 0.41663158 tmp) 0.277263158 (rnd p (2 * tmp))) 0.083578947
      (rnd p (3 * tmp)))
    0.006947368 (rnd p (4 * tmp))

/-- flattop.hpp 46-60. -/
noncomputable def flattop (p : ℕ) (c : ℝ → ℝ) : List ℝ → ℕ → ℕ → Except Fault (List ℝ) := cosLoop p (flattopAt p c)

/-- hamming.hpp 56. -/
noncomputable def hammingAt (p : ℕ) (c : ℝ → ℝ) (tmp : ℝ) : ℝ := minus p c (lit p 0.54) 0.46 tmp

/-- hamming.hpp 47-58. -/
noncomputable def hamming (p : ℕ) (c : ℝ → ℝ) : List ℝ → ℕ → ℕ → Except Fault (List ℝ) := cosLoop p (hammingAt p c)

/-- hanning.hpp 55. -/
noncomputable def hanningAt (p : ℕ) (c : ℝ → ℝ) (tmp : ℝ) : ℝ := minus p c (lit p 0.5) 0.5 tmp

/-- hanning.hpp 46-57. -/
noncomputable def hanning (p : ℕ) (c : ℝ → ℝ) : List ℝ → ℕ → ℕ → Except Fault (List ℝ) := cosLoop p (hanningAt p c)

/-- bartlett.hpp 36-48; `2 * i` is a product of integers, `math::inv` is numeric.hpp 208-210. -/
noncomputable def bartlett (p : ℕ) (m : List ℝ) (first last : ℕ) : Except Fault (List ℝ) := do
  let size ← Mem.distance first last
  let middle := if Num.isEven size then size / 2 else (size + 1) / 2
  let factor ← div p 1 (rnd p ((size : ℝ) - 1))
  let m' ← Win.loop (fun i : ℕ => rnd p (rnd p ((2 * i : ℕ) : ℝ) * factor)) middle 0 m first
  Win.loop (fun i : ℕ => rnd p (2 - rnd p (rnd p ((2 * i : ℕ) : ℝ) * factor))) (size - middle) middle m'
    (first + middle)

/-- The loop of triangular.hpp 50-53. -/
noncomputable def triLoop (p : ℕ) (rem : ℝ) : ℕ → ℝ → List ℝ → ℕ → Except Fault (List ℝ)
  | 0, _, m, _ => .ok m
  | n + 1, initial, m, a => do
    let q ← div p initial rem
    let m' ← Mem.write m a (rnd p (1 - |q|))
    triLoop p rem n (rnd p (initial + 2)) m' (a + 1)

/-- triangular.hpp 48: `std::remainder` takes and returns `double`, and so does the sum before it is converted.  A size
above 2^53 is an even number when converted, its remainder is 0. -/
noncomputable def rem (p size : ℕ) : ℝ :=
  rnd p (rnd 53 (rnd 53 (size : ℝ) + (if size ≤ 2 ^ 53 then (Win.remainder2 size : ℝ) else 0)))

/-- triangular.hpp 44-54. -/
noncomputable def triangular (p : ℕ) (m : List ℝ) (first last : ℕ) : Except Fault (List ℝ) := do
  let size ← Mem.distance first last
  triLoop p (rem p size) size (rnd p (-((size : ℝ) - 1))) m first

/-- The loop of welch.hpp 49-51; `math::square` is numeric.hpp 187-190. -/
noncomputable def welchLoop (p : ℕ) (L : ℝ) : ℕ → ℕ → List ℝ → ℕ → Except Fault (List ℝ)
  | 0, _, m, _ => .ok m
  | n + 1, i, m, a => do
    let q ← div p (rnd p (rnd p (i : ℝ) - L)) L
    let m' ← Mem.write m a (rnd p (1 - rnd p (q * q)))
    welchLoop p L n (i + 1) m' (a + 1)

/-- welch.hpp 44-52; `size / 2` is an integer division. -/
noncomputable def welch (p : ℕ) (m : List ℝ) (first last : ℕ) : Except Fault (List ℝ) := do
  let size ← Mem.distance first last
  welchLoop p (rnd p ((size / 2 : ℕ) : ℝ)) size 0 m first

/-- The function of the library for each window. -/
noncomputable def fn (p : ℕ) (c : ℝ → ℝ) : Window → List ℝ → ℕ → ℕ → Except Fault (List ℝ)
  | .bartlett => bartlett p
  | .blackman => blackman p c
  | .blackmanHarris => blackmanHarris p c
  | .blackmanNuttall => blackmanNuttall p c
  | .flattop => flattop p c
  | .hamming => hamming p c
  | .hanning => hanning p c
  | .boxcar => Win.boxcar
  | .rectangular => Win.rectangular
  | .triangular => triangular p
  | .welch => welch p

end Edsp.RndWin
