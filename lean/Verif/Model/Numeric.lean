import Verif.Model.Fault
import Mathlib.Algebra.Order.Field.Basic
import Mathlib.Algebra.Order.Floor.Ring
import Mathlib.Analysis.SpecialFunctions.Log.Basic

/-!
# Model of include/edsp/math/numeric.hpp

The bit tricks work on `std::int32_t` (`BitVec 32`, signed overflow is a fault), `is_prime` on
`std::uint64_t` (naturals reduced modulo 2^64); the remaining templates are modelled over the integers or
an ordered field.
-/

namespace Edsp.Num

/-- `x - 1` on `std::int32_t`. -/
def dec32 (x : BitVec 32) : Except Fault (BitVec 32) :=
  if x = BitVec.intMin 32 then .error .overflow else .ok (x - 1#32)

/-- `x + 1` on `std::int32_t`. -/
def inc32 (x : BitVec 32) : Except Fault (BitVec 32) :=
  if x = BitVec.intMax 32 then .error .overflow else .ok (x + 1#32)

/-- numeric.hpp 69-72 for `T = std::int32_t` (the cast of line 70 is the identity). -/
def isPowerTwo (x : BitVec 32) : Except Fault Bool :=
  if x ≠ 0#32 then do
    let y ← dec32 x
    return (x &&& y) == 0#32
  else .ok false

/-- numeric.hpp 171-175: `_x |= _x >> s` with the arithmetic shift. -/
def smear (x : BitVec 32) (s : Nat) : BitVec 32 := x ||| x.sshiftRight s

/-- numeric.hpp 165-180 for `T = std::int32_t`. -/
def nextPowerTwo (x : BitVec 32) : Except Fault (BitVec 32) :=
  if x.slt 0#32 then .ok 0#32
  else do
    if ← isPowerTwo x then return x
    else
      let x0 ← dec32 x
      let x1 := smear x0 1
      let x2 := smear x1 2
      let x3 := smear x2 4
      let x4 := smear x3 8
      let x5 := smear x4 16
      inc32 x5

/-- numeric.hpp 49-51 (`%` truncates towards zero). -/
def isOdd (x : Int) : Bool := Int.tmod x 2 == 1

/-- numeric.hpp 59-61. -/
def isEven (x : Int) : Bool := !isOdd x

/-- `a % b` on `std::uint64_t`. -/
def umod (a b : Nat) : Except Fault Nat := if b = 0 then .error .divByZero else .ok (a % b)

/-- The loop of numeric.hpp 141-145; `none` means that the fuel did not suffice. -/
def isPrimeLoop (n : Nat) : Nat → Nat → Option (Except Fault Bool)
  | 0, _ => none
  | fuel + 1, r =>
    if r * r % 2 ^ 64 ≤ n then
      match umod n r with
      | .error e => some (.error e)
      | .ok a =>
        if a = 0 then some (.ok false)
        else
          match umod n ((r + 2) % 2 ^ 64) with
          | .error e => some (.error e)
          | .ok b =>
            if b = 0 then some (.ok false) else isPrimeLoop n fuel ((r + 6) % 2 ^ 64)
    else some (.ok false)

/-- numeric.hpp 130-147; line 146 returns `false`. -/
def isPrime (fuel : Nat) (x : Int) : Option (Except Fault Bool) :=
  let n := (x % 2 ^ 64).toNat
  if n ≤ 1 then some (.ok false)
  else if n ≤ 3 then some (.ok true)
  else if n % 2 = 0 then some (.ok false)
  else if n % 3 = 0 then some (.ok false)
  else isPrimeLoop n fuel 5

section Field
variable {K : Type} [Field K] [LinearOrder K]

/-- numeric.hpp 155-157, with `is_negative` of 39-41. -/
def sign (x : K) : K := if x < 0 then -1 else 1

/-- numeric.hpp 188-190. -/
def square (x : K) : K := x * x

/-- numeric.hpp 198-200. -/
def fract [FloorRing K] (x : K) : K := x - (⌊x⌋ : K)

/-- numeric.hpp 208-210. -/
def inv (x : K) : Except Fault K := if x = 0 then .error .divByZero else .ok (1 / x)

/-- numeric.hpp 218-220. -/
def half (x : K) : K := 1 / 2 * x

/-- numeric.hpp 288-293. -/
def manhattan (x y : K) : K := x - y

/-- numeric.hpp 296-301. -/
def euclidean (x y : K) : K := square (x - y)

end Field

/-- numeric.hpp 304-309. -/
noncomputable def logarithmic (x y : ℝ) : Except Fault ℝ :=
  if y = 0 then .error .divByZero
  else if |x| / |y| ≤ 0 then .error .domain
  else .ok (Real.log (|x| / |y|))

end Edsp.Num
