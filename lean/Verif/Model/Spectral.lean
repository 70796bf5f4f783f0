import Verif.Model.Memory
import Mathlib.Analysis.SpecialFunctions.Trigonometric.Basic
import Mathlib.Analysis.SpecialFunctions.Log.Basic
import Mathlib.Algebra.BigOperators.Group.Finset.Basic

/-!
# Fourier engine and the spectral functions

The engine of the default build wraps FFTW (internal/libfftw_impl.hpp); the float and the double
specialisation (lines 56-148 and 151-240) are the same code and are modelled once, over ℝ and ℂ.  FFTW itself
is a contract: `forward`, `backward`, `r2c`, `c2r`, `dht`, `redft10` and `redft01` are the unnormalised sums
of the FFTW manual.  Sources and destinations of the engine are two blocks of memory.
-/

namespace Edsp.Spectral

open Complex Finset

/-- The FFTW plans created by the engine. -/
inductive Kind where
  | forward | backward | r2c | c2r | dht | redft10 | redft01
deriving DecidableEq, Repr

/-- Contract of `fftw_plan_dft_1d(n, …, FFTW_FORWARD, …)`. -/
noncomputable def forward (n : Nat) (x : List ℂ) : List ℂ :=
  (List.range n).map fun k : Nat => ∑ j ∈ range n, x.getD j 0 * exp (-(2 * Real.pi * I * j * k / n))

/-- Contract of `fftw_plan_dft_1d(n, …, FFTW_BACKWARD, …)`. -/
noncomputable def backward (n : Nat) (x : List ℂ) : List ℂ :=
  (List.range n).map fun j : Nat => ∑ k ∈ range n, x.getD k 0 * exp (2 * Real.pi * I * j * k / n)

/-- Contract of `fftw_plan_dft_r2c_1d(n, …)`: the first `n/2 + 1` bins of the forward transform. -/
noncomputable def r2c (n : Nat) (x : List ℝ) : List ℂ :=
  (List.range (n / 2 + 1)).map fun k : Nat =>
    ∑ j ∈ range n, ((x.getD j 0 : ℝ) : ℂ) * exp (-(2 * Real.pi * I * j * k / n))

/-- The Hermitian array of `n` bins that FFTW reads from the `n/2 + 1` given ones; the imaginary part of
the bin 0, and of the bin n/2 of an even `n`, is ignored. -/
noncomputable def hermitian (n : Nat) (x : List ℂ) (k : Nat) : ℂ :=
  if k = 0 ∨ 2 * k = n then ((x.getD k 0).re : ℂ)
  else if 2 * k < n then x.getD k 0
  else (starRingEnd ℂ) (x.getD (n - k) 0)

/-- Contract of `fftw_plan_dft_c2r_1d(n, …)`: the (real) backward transform of the Hermitian array. -/
noncomputable def c2r (n : Nat) (x : List ℂ) : List ℝ :=
  (List.range n).map fun j : Nat => (∑ k ∈ range n, hermitian n x k * exp (2 * Real.pi * I * j * k / n)).re

/-- Contract of `fftw_plan_r2r_1d(n, …, FFTW_DHT, …)`. -/
noncomputable def dhtSum (n : Nat) (x : List ℝ) : List ℝ :=
  (List.range n).map fun k : Nat => ∑ j ∈ range n,
    x.getD j 0 * (Real.cos (2 * Real.pi * j * k / n) + Real.sin (2 * Real.pi * j * k / n))

/-- Contract of `fftw_plan_r2r_1d(n, …, FFTW_REDFT10, …)` (DCT-II). -/
noncomputable def redft10 (n : Nat) (x : List ℝ) : List ℝ :=
  (List.range n).map fun k : Nat => 2 * ∑ j ∈ range n, x.getD j 0 * Real.cos (Real.pi * (j + 1 / 2) * k / n)

/-- Contract of `fftw_plan_r2r_1d(n, …, FFTW_REDFT01, …)` (DCT-III). -/
noncomputable def redft01 (n : Nat) (x : List ℝ) : List ℝ :=
  (List.range n).map fun k : Nat => x.getD 0 0 +
    2 * ∑ j ∈ Ico 1 n, x.getD j 0 * Real.cos (Real.pi * j * (k + 1 / 2) / n)

/-- The stores of a transform: the values, one after the other, from the cell `d` on. -/
def store {α : Type} : List α → List α → Nat → Except Fault (List α)
  | [], m, _ => .ok m
  | v :: vs, m, d => do
    let m' ← Mem.write m d v
    store vs m' (d + 1)

/-- internal/libfftw_impl.hpp 145-147 (members `plan_`, `nfft_`). -/
structure Engine where
  nfft : Int
  plan : Option Kind

/-- The range of a 32-bit `int`. -/
def FitsInt (n : Int) : Prop := -2147483648 ≤ n ∧ n < 2147483648

open Classical in
/-- fft_engine.hpp 67 and internal/libfftw_impl.hpp 61: the size is narrowed to `int`; a size that does not
fit is a fault. -/
noncomputable def Engine.make (n : Int) : Except Fault Engine :=
  if FitsInt n then .ok ⟨n, none⟩ else .error .overflow

/-- `if (meta::is_null(plan_)) plan_ = fftw_plan…` (70-72, 77-80, 85-88, …): a plan is created only when
there is none; FFTW returns no plan for a size that is not positive, and executing that is a fault. -/
def Engine.prepare (e : Engine) (k : Kind) : Except Fault Engine :=
  match e.plan with
  | some _ => .ok e
  | none => if 0 < e.nfft then .ok { e with plan := some k } else .error .badHandle

/-- `fftw_execute_dft(plan_, src, dst)`: the plan must be one of a complex transform. -/
noncomputable def Engine.executeDft (e : Engine) (s : List ℂ) (p : Nat) (m : List ℂ) (d : Nat) :
    Except Fault (List ℂ) := do
  let x ← Mem.readRange s p (p + e.nfft.toNat)
  match e.plan with
  | some .forward => store (forward e.nfft.toNat x) m d
  | some .backward => store (backward e.nfft.toNat x) m d
  | _ => throw .badHandle

/-- `fftw_execute_dft_r2c(plan_, src, dst)`. -/
noncomputable def Engine.executeR2c (e : Engine) (s : List ℝ) (p : Nat) (m : List ℂ) (d : Nat) :
    Except Fault (List ℂ) := do
  let x ← Mem.readRange s p (p + e.nfft.toNat)
  match e.plan with
  | some .r2c => store (r2c e.nfft.toNat x) m d
  | _ => throw .badHandle

/-- `fftw_execute_dft_c2r(plan_, src, dst)`. -/
noncomputable def Engine.executeC2r (e : Engine) (s : List ℂ) (p : Nat) (m : List ℝ) (d : Nat) :
    Except Fault (List ℝ) := do
  let x ← Mem.readRange s p (p + (e.nfft.toNat / 2 + 1))
  match e.plan with
  | some .c2r => store (c2r e.nfft.toNat x) m d
  | _ => throw .badHandle

/-- `fftw_execute_r2r(plan_, src, dst)`. -/
noncomputable def Engine.executeR2r (e : Engine) (s : List ℝ) (p : Nat) (m : List ℝ) (d : Nat) :
    Except Fault (List ℝ) := do
  let x ← Mem.readRange s p (p + e.nfft.toNat)
  match e.plan with
  | some .dht => store (dhtSum e.nfft.toNat x) m d
  | some .redft10 => store (redft10 e.nfft.toNat x) m d
  | some .redft01 => store (redft01 e.nfft.toNat x) m d
  | _ => throw .badHandle

/-- internal/libfftw_impl.hpp 69-74 and 164-169. -/
noncomputable def Engine.cdft (e : Engine) (s : List ℂ) (p : Nat) (m : List ℂ) (d : Nat) :
    Except Fault (Engine × List ℂ) := do
  let e ← e.prepare .forward
  return (e, ← e.executeDft s p m d)

/-- internal/libfftw_impl.hpp 76-82 and 171-176. -/
noncomputable def Engine.cidft (e : Engine) (s : List ℂ) (p : Nat) (m : List ℂ) (d : Nat) :
    Except Fault (Engine × List ℂ) := do
  let e ← e.prepare .backward
  return (e, ← e.executeDft s p m d)

/-- internal/libfftw_impl.hpp 84-90 and 178-183. -/
noncomputable def Engine.dft (e : Engine) (s : List ℝ) (p : Nat) (m : List ℂ) (d : Nat) :
    Except Fault (Engine × List ℂ) := do
  let e ← e.prepare .r2c
  return (e, ← e.executeR2c s p m d)

/-- internal/libfftw_impl.hpp 92-98 and 185-190. -/
noncomputable def Engine.idft (e : Engine) (s : List ℂ) (p : Nat) (m : List ℝ) (d : Nat) :
    Except Fault (Engine × List ℝ) := do
  let e ← e.prepare .c2r
  return (e, ← e.executeC2r s p m d)

/-- internal/libfftw_impl.hpp 100-106 and 192-198. -/
noncomputable def Engine.dht (e : Engine) (s : List ℝ) (p : Nat) (m : List ℝ) (d : Nat) :
    Except Fault (Engine × List ℝ) := do
  let e ← e.prepare .dht
  return (e, ← e.executeR2r s p m d)

/-- internal/libfftw_impl.hpp 108-114 and 200-206. -/
noncomputable def Engine.dct (e : Engine) (s : List ℝ) (p : Nat) (m : List ℝ) (d : Nat) :
    Except Fault (Engine × List ℝ) := do
  let e ← e.prepare .redft10
  return (e, ← e.executeR2r s p m d)

/-- internal/libfftw_impl.hpp 116-122 and 208-214. -/
noncomputable def Engine.idct (e : Engine) (s : List ℝ) (p : Nat) (m : List ℝ) (d : Nat) :
    Except Fault (Engine × List ℝ) := do
  let e ← e.prepare .redft01
  return (e, ← e.executeR2r s p m d)

/-- internal/libfftw_impl.hpp 124-129 and 131-136: `dst[i] /= scaling` for `i < nfft_` (real and complex). -/
noncomputable def Engine.idftScale {K : Type} [Field K] (e : Engine) (m : List K) (d : Nat) :
    Except Fault (List K) :=
  Mem.transform (fun v => v / (e.nfft : K)) m d (d + e.nfft.toNat) d

/-- internal/libfftw_impl.hpp 138-143. -/
noncomputable def Engine.idctScale (e : Engine) (m : List ℝ) (d : Nat) : Except Fault (List ℝ) :=
  Mem.transform (fun v => v / ((2 * e.nfft : Int) : ℝ)) m d (d + e.nfft.toNat) d

/-- fft_engine.hpp 34-37 (integer division; the detour through `std::floor` is exact). -/
def makeFftSize (n : Int) : Int := Int.tdiv n 2 + 1

/-- fft_engine.hpp 43-46. -/
def makeIfftSize (n : Int) : Int := 2 * (n - 1)

/-- dft.hpp 46-53. -/
noncomputable def cdft (s : List ℂ) (first last : Nat) (m : List ℂ) (d : Nat) : Except Fault (List ℂ) := do
  let n ← Mem.distance first last
  let e ← Engine.make n
  return (← e.cdft s first m d).2

/-- dft.hpp 70-78. -/
noncomputable def cidft (s : List ℂ) (first last : Nat) (m : List ℂ) (d : Nat) : Except Fault (List ℂ) := do
  let n ← Mem.distance first last
  let e ← Engine.make n
  let (e, m) ← e.cidft s first m d
  e.idftScale m d

/-- dft.hpp 93-99. -/
noncomputable def dft (s : List ℝ) (first last : Nat) (m : List ℂ) (d : Nat) : Except Fault (List ℂ) := do
  let n ← Mem.distance first last
  let e ← Engine.make n
  return (← e.dft s first m d).2

/-- dft.hpp 114-121. -/
noncomputable def idft (s : List ℂ) (first last : Nat) (m : List ℝ) (d : Nat) : Except Fault (List ℝ) := do
  let n ← Mem.distance first last
  let e ← Engine.make (makeIfftSize n)
  let (e, m) ← e.idft s first m d
  e.idftScale m d

/-- hartley.hpp 47-52. -/
noncomputable def hartley (s : List ℝ) (first last : Nat) (m : List ℝ) (d : Nat) :
    Except Fault (List ℝ) := do
  let n ← Mem.distance first last
  let e ← Engine.make n
  return (← e.dht s first m d).2

/-- dct.hpp 44-49. -/
noncomputable def dct (s : List ℝ) (first last : Nat) (m : List ℝ) (d : Nat) : Except Fault (List ℝ) := do
  let n ← Mem.distance first last
  let e ← Engine.make n
  return (← e.dct s first m d).2

/-- dct.hpp 67-73. -/
noncomputable def idct (s : List ℝ) (first last : Nat) (m : List ℝ) (d : Nat) : Except Fault (List ℝ) := do
  let n ← Mem.distance first last
  let e ← Engine.make n
  let (e, m) ← e.idct s first m d
  e.idctScale m d

/-- The zero-padded work buffer of conv, xcorr and cepstrum: `nfft` zeros, then `std::copy` of the range
`[first, last)` to its beginning. -/
noncomputable def padded (m : List ℝ) (first last nfft : Nat) : Except Fault (List ℝ) := do
  let x ← Mem.readRange m first last
  store x (List.replicate nfft 0) 0

/-- convolution.hpp 50-75.  The three ranges lie in one block and may overlap: the inputs are copied before
the output is written. -/
noncomputable def conv (m : List ℝ) (first1 last1 first2 d : Nat) : Except Fault (List ℝ) := do
  let size ← Mem.distance first1 last1
  if ¬ size > 0 then throw .assertion
  let nfft := 2 * size
  let fft ← Engine.make nfft
  let ifft ← Engine.make nfft
  let in1 ← padded m first1 last1 nfft
  let in2 ← padded m first2 (first2 + size) nfft
  let bins := (makeFftSize nfft).toNat
  let (fft, data1) ← fft.dft in1 0 (List.replicate bins 0) 0
  let (_, data2) ← fft.dft in2 0 (List.replicate bins 0) 0
  let data := List.zipWith (fun a b => a * b) data1 data2
  let (ifft, out) ← ifft.idft data 0 (List.replicate nfft 0) 0
  let out ← ifft.idftScale out 0
  let res ← Mem.readRange out 0 size
  store res m d

/-- correlation.hpp 34-38. -/
inductive Scale where
  | none | biased | unbiased
deriving DecidableEq, Repr

/-- correlation.hpp 78 and 129: `nfft * (scale == Biased ? nfft : 1)`. -/
def Scale.factor (scale : Scale) (nfft : Nat) : Nat := nfft * (if scale = .biased then nfft else 1)

/-- correlation.hpp 59-81 (autocorrelation). -/
noncomputable def autocorr (m : List ℝ) (first last d : Nat) (scale : Scale) : Except Fault (List ℝ) := do
  let size ← Mem.distance first last
  if ¬ size > 0 then throw .assertion
  let nfft := 2 * size
  let fft ← Engine.make nfft
  let ifft ← Engine.make nfft
  let input ← padded m first last nfft
  let bins := (makeFftSize nfft).toNat
  let (_, data) ← fft.dft input 0 (List.replicate bins 0) 0
  let data := data.map fun v => v * (starRingEnd ℂ) v
  let (_, out) ← ifft.idft data 0 (List.replicate nfft 0) 0
  let res ← Mem.readRange out 0 size
  store (res.map fun v => v / (scale.factor nfft : ℝ)) m d

/-- correlation.hpp 104-132 (cross correlation). -/
noncomputable def xcorr (m : List ℝ) (first1 last1 first2 d : Nat) (scale : Scale) :
    Except Fault (List ℝ) := do
  let size ← Mem.distance first1 last1
  if ¬ size > 0 then throw .assertion
  let nfft := 2 * size
  let fft ← Engine.make nfft
  let ifft ← Engine.make nfft
  let in1 ← padded m first1 last1 nfft
  let in2 ← padded m first2 (first2 + size) nfft
  let bins := (makeFftSize nfft).toNat
  let (fft, data1) ← fft.dft in1 0 (List.replicate bins 0) 0
  let (_, data2) ← fft.dft in2 0 (List.replicate bins 0) 0
  let data := List.zipWith (fun a b => a * (starRingEnd ℂ) b) data1 data2
  let (_, out) ← ifft.idft data 0 (List.replicate nfft 0) 0
  let res ← Mem.readRange out 0 size
  store (res.map fun v => v / (scale.factor nfft : ℝ)) m d

/-- `std::log` of a magnitude: the logarithm of 0 (−∞, which the inverse transform turns into NaN) is a
fault. -/
noncomputable def logAbs (v : ℂ) : Except Fault ℂ :=
  if ‖v‖ = 0 then .error .domain else .ok (Real.log ‖v‖ : ℂ)

/-- cepstrum.hpp 45-67. -/
noncomputable def cepstrum (m : List ℝ) (first last d : Nat) : Except Fault (List ℝ) := do
  let size ← Mem.distance first last
  if ¬ size > 0 then throw .assertion
  let nfft := 2 * size
  let fft ← Engine.make nfft
  let ifft ← Engine.make nfft
  let input ← padded m first last nfft
  let bins := (makeFftSize nfft).toNat
  let (_, data) ← fft.dft input 0 (List.replicate bins 0) 0
  let data ← data.mapM logAbs
  let (ifft, out) ← ifft.idft data 0 (List.replicate nfft 0) 0
  let out ← ifft.idftScale out 0
  let res ← Mem.readRange out 0 size
  store res m d

/-- The two loops of hilbert.hpp 66-72 on the bins: bin `i` after both loops. -/
def hilbertBin (nfft i : Nat) (v : ℂ) : ℂ :=
  let limit1 := if nfft % 2 = 0 then nfft / 2 else (nfft + 1) / 2
  let limit2 := if nfft % 2 = 0 then limit1 + 1 else limit1
  let v := if 1 ≤ i ∧ i < limit1 then v * 2 else v
  if limit2 ≤ i ∧ i < nfft then 0 else v

/-- hilbert.hpp 52-77 (`edsp::real2complex` at 59 makes every sample a complex number). -/
noncomputable def hilbert (s : List ℝ) (first last : Nat) (m : List ℂ) (d : Nat) :
    Except Fault (List ℂ) := do
  let n ← Mem.distance first last
  let x ← Mem.readRange s first last
  let input := x.map fun v : ℝ => (v : ℂ)
  let fft ← Engine.make n
  let (_, data) ← fft.cdft input 0 (List.replicate n 0) 0
  let data := data.mapIdx fun i v => hilbertBin n i v
  let ifft ← Engine.make n
  let (ifft, m) ← ifft.cidft data 0 m d
  ifft.idftScale m d

/-- spectrum.hpp 52-60. -/
noncomputable def spectrum (m : List ℝ) (first last d : Nat) : Except Fault (List ℝ) := do
  let size ← Mem.distance first last
  if ¬ size > 0 then throw .assertion
  let data ← dft m first last (List.replicate (makeFftSize size).toNat 0) 0
  store (data.map fun v => ‖v‖ ^ 2) m d

end Edsp.Spectral
