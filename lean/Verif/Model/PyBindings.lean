import Verif.Model.Memory
import Verif.Spec.Numpy

/-!
# Model of the Python bindings

bindings/python/src.  All wrappers take the address of the first element and the first entry of the shape of
their arrays and pass them to a C or C++ function that expects `size` numbers of type `real_t` (`double`) one
behind the other; neither the strides nor the type of the items are looked at.  The function called is a
parameter: it gets the numbers read (what the functions do with them is the subject of other properties).
Only 64 bit items are modelled.
-/

namespace Edsp.Py

open Edsp.Spec (Word Ndarray)

variable {β : Type}

/-- The `double` with the bits of a 64 bit integer (IEEE 754); NaN and infinities are the fault `domain`. -/
def ofBits (k : Int) : Except Fault Rat :=
  let b := (k % 18446744073709551616).toNat
  let m := b % 4503599627370496
  let e := b / 4503599627370496 % 2048
  let s : Rat := if b / 9223372036854775808 = 0 then 1 else -1
  if e = 0 then .ok (s * m / 2 ^ 1074)
  else if e = 2047 then .error .domain
  else .ok (s * (4503599627370496 + m) * 2 ^ e / 2 ^ 1075)

/-- `reinterpret_cast<real_t*>(input.get_data())` makes this of an item (e.g. bindings/python/src/algorithm.cpp 35). -/
def asReal : Word → Except Fault Rat
  | .real x => .ok x
  | .int k => ofBits k

/-- One cell of the block; every other address is out of bounds. -/
def cell (b : List Word) (p : Int) : Except Fault Rat :=
  if p < 0 then .error .outOfBounds
  else match b[p.toNat]? with
    | some w => asReal w
    | none => .error .outOfBounds

/-- `n` numbers from address `p` on. -/
def readReals (b : List Word) (p : Int) : Nat → Except Fault (List Rat)
  | 0 => .ok []
  | n + 1 => do
    let x ← cell b p
    let xs ← readReals b (p + 1) n
    return x :: xs

/-- The conversion of a size to `int` at the call of a C function. -/
def toInt32 (n : Nat) : Int := ((n : Int) + 2147483648) % 4294967296 - 2147483648

/-- bindings/python/src/feature_statistics.cpp 34-42 (also feature_temporal.cpp 34-58, feature_spectral.cpp 38-46,
converter.cpp 26-44, filter.cpp 25-37, io.cpp 34-42): a C++ function, or a C function with a size of type `long`. -/
def exec (f : List Rat → Except Fault β) (a : Ndarray) : Except Fault β :=
  match a.shape with
  | [n] => do f (← readReals a.block a.data n)
  | _ => .error .exception

/-- bindings/python/src/algorithm.cpp 28-53, statistics.cpp 27-36, spectral.cpp 44-139: a C function with a size of
type `int`. A negative size makes the end of the range an address before the array. -/
def execInt (f : List Rat → Except Fault β) (a : Ndarray) : Except Fault β :=
  match a.shape with
  | [n] => if toInt32 n < 0 then .error .outOfBounds else do f (← readReals a.block a.data (toInt32 n).toNat)
  | _ => .error .exception

/-- `execute_two_inputs` (feature_statistics.cpp 44-53, feature_spectral.cpp 48-57). -/
def exec2 (f : List Rat → List Rat → Except Fault β) (a b : Ndarray) : Except Fault β :=
  if a.shape.length ≠ 1 ∧ b.shape.length ≠ 1 then .error .exception
  else match a.shape with
    | n :: _ => do
      let x ← readReals a.block a.data n
      let y ← readReals b.block b.data n
      f x y
    | [] => .error .outOfBounds

/-- `conv_python`, `correlation_python` (spectral.cpp 27-42). -/
def exec2Int (f : List Rat → List Rat → Except Fault β) (a b : Ndarray) : Except Fault β :=
  if a.shape.length ≠ 1 ∨ b.shape.length ≠ 1 then .error .exception
  else match a.shape with
    | n :: _ =>
      if toInt32 n < 0 then .error .outOfBounds
      else do
        let x ← readReals a.block a.data (toInt32 n).toNat
        let y ← readReals b.block b.data (toInt32 n).toNat
        f x y
    | [] => .error .outOfBounds

/-- `equal_python` (algorithm.cpp 117-131); the C function compares `size` numbers. -/
def equal (a b : Ndarray) : Except Fault Bool :=
  if a.shape.length ≠ 1 ∨ b.shape.length ≠ 1 then .error .exception
  else if a.shape ≠ b.shape then .ok false
  else exec2Int (fun x y => .ok (decide (x = y))) a b

/-- `concatenate_python` (algorithm.cpp 133-149), for sizes that an `int` can hold. -/
def concatenate (a b : Ndarray) : Except Fault (List Rat) :=
  match a.shape, b.shape with
  | [n], [k] => do
    let x ← readReals a.block a.data n
    let y ← readReals b.block b.data k
    return x ++ y
  | _, _ => .error .exception

/-- The loop of real2complex (converter/real2complex.hpp 40-43, called from converter.cpp 46-60 of the bindings with
the *result* array as its source): number `i` is read and stored, followed by 0, at `2 * i`. -/
def r2cLoop (m : List Rat) (i : Nat) : Nat → Except Fault (List Rat)
  | 0 => .ok m
  | n + 1 => do
    let x ← Mem.read m i
    let m1 ← Mem.write m (2 * i) x
    let m2 ← Mem.write m1 (2 * i + 1) 0
    r2cLoop m2 (i + 1) n

/-- `real2complex_python` (converter.cpp 46-60); `junk` is what the fresh array of `n` complex numbers holds. -/
def real2complex (junk : List Rat) (a : Ndarray) : Except Fault (List Rat) :=
  match a.shape with
  | [n] => r2cLoop junk 0 n
  | _ => .error .exception

/-- `decoder_wrapper` (io.cpp 44-52): `got` are the samples that the decoder delivers when asked for `n`; `junk` is
what the fresh array holds. The reshaped array is thrown away, but numpy raises an exception if the shape does
not have exactly `n` elements. Result: shape and items of the array returned. -/
def decoderRead (n channels : Nat) (got junk : List Rat) : Except Fault (List Nat × List Rat) :=
  if channels = 0 then .error .divByZero
  else if got.length / channels * channels ≠ n then .error .exception
  else .ok ([n], got ++ junk.drop got.length)

/-- `get_environment_python` (core.cpp 27-31) over the C function `get_environment` (bindings/c/src/core.c 83-97),
which returns a null pointer if there is no such variable: `std::string` of a null pointer. -/
def getEnvironment (env : List Nat → Option (List Nat)) (name : List Nat) : Except Fault (List Nat × Nat) :=
  match env name with
  | some v => .ok (v, 0)
  | none => .error .badHandle

end Edsp.Py
