import Verif.Model.Spectral
import Verif.Model.PyBindings
import Verif.Spec.NumpySpectral

/-!
# Model of the spectral functions of the Python package

bindings/python/src/spectral.cpp and the functions of bindings/c/src/spectral.c called there.  The wrappers take
the address of the first element and the number of elements; the type of the elements is not looked at.  The
arrays are contiguous (`C84` has the strides) and of one dimension.  The result is a fresh array of zeros.
-/

namespace Edsp.PySpectral

open Edsp.Spec (Nums floats complexes)

/-- `input.shape(0)` (e.g. spectral.cpp 50), converted to `int` at the call of the C function. A negative size makes
the end of the range an address before the array. -/
def size (a : Nums) : Except Fault Nat :=
  let n := if a.cplx then a.cells.length / 2 else a.cells.length
  if Py.toInt32 n < 0 then .error .outOfBounds else .ok (Py.toInt32 n).toNat

/-- `reinterpret_cast<complex_t*>(input.get_data())` (spectral.cpp 118, 135): two cells are one number. -/
def asComplex : List ℝ → List ℂ
  | x :: y :: l => ⟨x, y⟩ :: asComplex l
  | _ => []

/-- The array with the given dimension, or the `ValueError` for a negative one (`bn::zeros`). -/
def zeros {α : Type} [Zero α] (k : Int) : Except Fault (List α) :=
  if k < 0 then .error .exception else .ok (List.replicate k.toNat 0)

/-- spectral.cpp 44-58 with bindings/c/src/spectral.c 45-55 (`dct`, `idct`, `hartley`). -/
def r2r (f : List ℝ → Nat → Nat → List ℝ → Nat → Except Fault (List ℝ)) (a : Nums) : Except Fault Nums := do
  let n ← size a
  let r ← zeros n
  return floats (← f a.cells 0 n r 0)

/-- The same for the functions modelled on one block of memory, for a result of `k` numbers (`cepstrum`, spectral.cpp
44-58 and spectral.c 33-35; `spectrum`, spectral.cpp 60-74 and spectral.c 57-59). The result array follows the input
array in the block. -/
def r2rBlock (f : List ℝ → Nat → Nat → Nat → Except Fault (List ℝ)) (k : Nat → Int) (a : Nums) :
    Except Fault Nums := do
  let n ← size a
  let r ← zeros (k n)
  let m ← f (a.cells ++ r) 0 n a.cells.length
  return floats (m.drop a.cells.length)

/-- spectral.cpp 76-106 with spectral.c 69-77 (`hilbert`, `fft`): `k n` complex numbers. -/
def r2c (f : List ℝ → Nat → Nat → List ℂ → Nat → Except Fault (List ℂ)) (k : Nat → Int) (a : Nums) :
    Except Fault Nums := do
  let n ← size a
  let r ← zeros (k n)
  return complexes (← f a.cells 0 n r 0)

/-- spectral.cpp 108-122 with spectral.c 61-67 and 79-82 (`ifft`). -/
def c2r (f : List ℂ → Nat → Nat → List ℝ → Nat → Except Fault (List ℝ)) (a : Nums) : Except Fault Nums := do
  let n ← size a
  let r ← zeros (Spectral.makeIfftSize n)
  return floats (← f (asComplex a.cells) 0 n r 0)

/-- spectral.cpp 124-138 with spectral.c 84-94 (`complex_fft`, `complex_ifft`). -/
def c2c (f : List ℂ → Nat → Nat → List ℂ → Nat → Except Fault (List ℂ)) (a : Nums) : Except Fault Nums := do
  let n ← size a
  let r ← zeros n
  return complexes (← f (asComplex a.cells) 0 n r 0)

/-- spectral.cpp 27-42 with spectral.c 37-43 (`conv`, `xcorr`); the arrays are put one behind the other in the block,
reading the second one beyond its end is out of bounds. -/
def pair (f : List ℝ → Nat → Nat → Nat → Nat → Except Fault (List ℝ)) (a b : Nums) : Except Fault Nums := do
  let n ← size a
  let r ← zeros n
  if b.cells.length < n then throw .outOfBounds
  let m ← f (a.cells ++ b.cells ++ r) 0 n a.cells.length (a.cells.length + b.cells.length)
  return floats (m.drop (a.cells.length + b.cells.length))

/-- `spectral.rfft` (spectral.cpp 172-174). -/
noncomputable def rfft : Nums → Except Fault Nums := r2c Spectral.dft (fun n => Spectral.makeFftSize n)

/-- `spectral.irfft` (spectral.cpp 176-178). -/
noncomputable def irfft : Nums → Except Fault Nums := c2r Spectral.idft

/-- `spectral.fft` (spectral.cpp 180-182). -/
noncomputable def fft : Nums → Except Fault Nums := c2c Spectral.cdft

/-- `spectral.ifft` (spectral.cpp 184-186). -/
noncomputable def ifft : Nums → Except Fault Nums := c2c Spectral.cidft

/-- `spectral.dct` (spectral.cpp 152-154). -/
noncomputable def dct : Nums → Except Fault Nums := r2r Spectral.dct

/-- `spectral.idct` (spectral.cpp 156-158). -/
noncomputable def idct : Nums → Except Fault Nums := r2r Spectral.idct

/-- `spectral.hartley` (spectral.cpp 164-166). -/
noncomputable def hartley : Nums → Except Fault Nums := r2r Spectral.hartley

/-- `spectral.hilbert` (spectral.cpp 168-170). -/
noncomputable def hilbert : Nums → Except Fault Nums := r2c Spectral.hilbert (fun n => n)

/-- `spectral.spectrum` (spectral.cpp 160-162). -/
noncomputable def spectrum : Nums → Except Fault Nums :=
  r2rBlock Spectral.spectrum (fun n => Spectral.makeFftSize n)

/-- `spectral.cepstrum` (spectral.cpp 148-150). -/
noncomputable def cepstrum : Nums → Except Fault Nums := r2rBlock Spectral.cepstrum (fun n => n)

/-- `spectral.conv` (spectral.cpp 140-142). -/
noncomputable def conv : Nums → Nums → Except Fault Nums := pair Spectral.conv

/-- `spectral.xcorr` (spectral.cpp 144-146; the scale option is the default one, spectral/correlation.hpp 103-105). -/
noncomputable def xcorr : Nums → Nums → Except Fault Nums :=
  pair fun m f1 l1 f2 d => Spectral.xcorr m f1 l1 f2 d .none

end Edsp.PySpectral
