import Verif.Model.Spectral
import Verif.Model.PySpectral

/-!
# Model of the functions of the C package on complex arrays

bindings/c/src/converter.cpp 57-71 and bindings/c/src/spectral.c 61-94.  A pointer is an index into one block of
real cells; a `complex_t` is two cells (`complex_t` is `real_t[2]`, bindings/c/include/cedsp/types.h 32), and the
`reinterpret_cast` to `std::complex<real_t>*` looks at the same cells.
-/

namespace Edsp.CArrays

/-- `data + size` as the end of a range: from a negative size the loop `first != last` runs out of every block. -/
def count (size : Int) : Except Fault Nat := if size < 0 then .error .outOfBounds else .ok size.toNat

/-- `*d = {x, y}` for a `std::complex` at the cell `d`. -/
def writeC (m : List ℝ) (d : Nat) (x y : ℝ) : Except Fault (List ℝ) := do
  let m' ← Mem.write m d x
  Mem.write m' (d + 1) y

/-- The loop of converter/real2complex.hpp 43 (`std::transform`). -/
def real2complexN : Nat → List ℝ → Nat → Nat → Except Fault (List ℝ)
  | 0, m, _, _ => .ok m
  | n + 1, m, s, d => do
    let x ← Mem.read m s
    let m' ← writeC m d x 0
    real2complexN n m' (s + 1) (d + 2)

/-- converter.cpp 57-60 with converter/real2complex.hpp 41-44. -/
def real2complex (m : List ℝ) (real : Nat) (size : Int) (complex : Nat) : Except Fault (List ℝ) := do
  real2complexN (← count size) m real complex

/-- The loop of converter/real2complex.hpp 59-61 (`std::transform` of two ranges). -/
def ri2complexN : Nat → List ℝ → Nat → Nat → Nat → Except Fault (List ℝ)
  | 0, m, _, _, _ => .ok m
  | n + 1, m, s1, s2, d => do
    let x ← Mem.read m s1
    let y ← Mem.read m s2
    let m' ← writeC m d x y
    ri2complexN n m' (s1 + 1) (s2 + 1) (d + 2)

/-- converter.cpp 67-70 with converter/real2complex.hpp 56-62. -/
def ri2complex (m : List ℝ) (real imag : Nat) (size : Int) (complex : Nat) : Except Fault (List ℝ) := do
  ri2complexN (← count size) m real imag complex

/-- The loop of converter/complex2real.hpp 45-48; the real part is stored before the imaginary part is read. -/
def complex2realN : Nat → List ℝ → Nat → Nat → Nat → Except Fault (List ℝ)
  | 0, m, _, _, _ => .ok m
  | n + 1, m, s, d1, d2 => do
    let x ← Mem.read m s
    let m1 ← Mem.write m d1 x
    let y ← Mem.read m1 (s + 1)
    let m2 ← Mem.write m1 d2 y
    complex2realN n m2 (s + 2) (d1 + 1) (d2 + 1)

/-- converter.cpp 62-65 with converter/complex2real.hpp 44-49. -/
def complex2real (m : List ℝ) (complex : Nat) (size : Int) (real imag : Nat) : Except Fault (List ℝ) := do
  complex2realN (← count size) m complex real imag

/-- The cells of complex numbers. -/
def cells : List ℂ → List ℝ
  | [] => []
  | z :: l => z.re :: z.im :: cells l

/-- The memory from the cell `d` on looked at as complex numbers. -/
def view (m : List ℝ) (d : Nat) : List ℂ := PySpectral.asComplex (m.drop d)

/-- The memory after the complex numbers from the cell `d` on became `X`. -/
def putBack (m : List ℝ) (d : Nat) (X : List ℂ) : List ℝ := m.take d ++ cells X ++ m.drop (d + 2 * X.length)

/-- FFTW transforms an array of `k` cells at `a` into an array of `l` cells at `d` if they are the same array or do
not overlap; the manual defines nothing else, which is a fault. -/
def apart (a k d l : Nat) : Except Fault Unit :=
  if a = d ∨ a + k ≤ d ∨ d + l ≤ a then .ok () else .error .domain

/-- spectral.c 74-77. -/
noncomputable def fft (m : List ℝ) (input : Nat) (size : Int) (output : Nat) : Except Fault (List ℝ) := do
  let n ← count size
  apart input n output (2 * (n / 2 + 1))
  return putBack m output (← Spectral.dft m input (input + n) (view m output) 0)

/-- spectral.c 79-82; `size` is the number of bins. -/
noncomputable def ifft (m : List ℝ) (input : Nat) (size : Int) (output : Nat) : Except Fault (List ℝ) := do
  let n ← count size
  apart input (2 * n) output (2 * (n - 1))
  Spectral.idft (view m input) 0 n m output

/-- spectral.c 84-88. -/
noncomputable def complexFft (m : List ℝ) (input : Nat) (size : Int) (output : Nat) : Except Fault (List ℝ) := do
  let n ← count size
  apart input (2 * n) output (2 * n)
  return putBack m output (← Spectral.cdft (view m input) 0 n (view m output) 0)

/-- spectral.c 90-94. -/
noncomputable def complexIfft (m : List ℝ) (input : Nat) (size : Int) (output : Nat) : Except Fault (List ℝ) := do
  let n ← count size
  apart input (2 * n) output (2 * n)
  return putBack m output (← Spectral.cidft (view m input) 0 n (view m output) 0)

/-- spectral.c 69-72; the samples are copied before anything is stored (spectral/hilbert.hpp 57-59). -/
noncomputable def hilbert (m : List ℝ) (data : Nat) (size : Int) (output : Nat) : Except Fault (List ℝ) := do
  let n ← count size
  return putBack m output (← Spectral.hilbert m data (data + n) (view m output) 0)

end Edsp.CArrays
