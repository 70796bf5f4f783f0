import Verif.Model.Sequences
import Verif.Model.Numeric
import Mathlib.Analysis.SpecialFunctions.Log.Base
import Mathlib.Analysis.SpecialFunctions.Pow.Real

/-!
# Model of include/edsp/converter and include/edsp/auditory

Exact real arithmetic; decimal literals are the rationals they denote, `constants<T>::pi` is π.  A logarithm
outside its domain and a division by zero are faults (the C++ result is not finite).
-/

namespace Edsp.Conv

/-- `std::log10`. -/
noncomputable def log10 (x : ℝ) : Except Fault ℝ := if x ≤ 0 then .error .domain else .ok (Real.logb 10 x)

/-- `std::log`. -/
noncomputable def log (x : ℝ) : Except Fault ℝ := if x ≤ 0 then .error .domain else .ok (Real.log x)

/-- Floating point division. -/
noncomputable def div (a b : ℝ) : Except Fault ℝ := if b = 0 then .error .divByZero else .ok (a / b)

/-- converter/db2mag.hpp 39-41. -/
noncomputable def db2mag (db : ℝ) : ℝ := (10 : ℝ) ^ (db / 20)

/-- converter/db2pow.hpp 39-41. -/
noncomputable def db2pow (db : ℝ) : ℝ := (10 : ℝ) ^ (db / 10)

/-- converter/mag2db.hpp 41-44: the check of line 42 is an assertion that disappears in a release build. -/
noncomputable def mag2db (dbg : Bool) (x : ℝ) : Except Fault ℝ := do
  if dbg = true ∧ ¬ x > 0 then throw .assertion
  return 20 * (← log10 x)

/-- converter/pow2db.hpp 41-44. -/
noncomputable def pow2db (dbg : Bool) (x : ℝ) : Except Fault ℝ := do
  if dbg = true ∧ ¬ x > 0 then throw .assertion
  return 10 * (← log10 x)

/-- converter/deg2rad.hpp 41-43. -/
noncomputable def deg2rad (x : ℝ) : ℝ := x * Real.pi / 180

/-- converter/rad2deg.hpp 41-43. -/
noncomputable def rad2deg (x : ℝ) : ℝ := x / Real.pi * 180

/-- auditory/converter/hertz2mel.hpp 43-45 (`log1p`). -/
noncomputable def hertz2mel (f : ℝ) : Except Fault ℝ := do
  return 1127.01048 * (← log (1 + f / 700))

/-- auditory/converter/mel2hertz.hpp 42-44 (`expm1`). -/
noncomputable def mel2hertz (m : ℝ) : ℝ := 700 * (Real.exp (m / 1127.01048) - 1)

/-- auditory/converter/hertz2erb.hpp 41-43. -/
noncomputable def hertz2erb (f : ℝ) : Except Fault ℝ := do
  return 21.4 * (← log10 (1 + 4.37 * f / 1000))

/-- auditory/converter/erb2hertz.hpp 43-45. -/
noncomputable def erb2hertz (e : ℝ) : ℝ := ((10 : ℝ) ^ (e / 21.4) - 1) * 1000 / 4.37

/-- auditory/converter/hertz2cent.hpp 40, cent2hertz.hpp 40. -/
noncomputable def centP : ℝ := 1200 / Real.log 2

/-- auditory/converter/hertz2cent.hpp 41, cent2hertz.hpp 41. -/
noncomputable def centQ : ℝ := 5700 - centP * Real.log 440

/-- auditory/converter/hertz2cent.hpp 39-43. -/
noncomputable def hertz2cent (z : ℝ) : Except Fault ℝ := do
  return Num.sign z * (centP * (← log |z|) + centQ)

/-- auditory/converter/cent2hertz.hpp 39-43. -/
noncomputable def cent2hertz (c : ℝ) : ℝ := Num.sign c * Real.exp ((|c| - centQ) / centP)

/-- auditory/converter/hertz2bark.hpp 46-54. -/
noncomputable def hertz2bark (f : ℝ) : Except Fault ℝ := do
  let bark := (← div (26.81 * f) (1960 + f)) - 0.53
  if bark < 2 then return bark + 0.15 * (2 - bark)
  else if bark > 20.1 then return bark + 0.22 * (bark - 20.1)
  else return bark

/-- auditory/converter/bark2hertz.hpp 47-55. -/
noncomputable def bark2hertz (z : ℝ) : Except Fault ℝ :=
  let bark := if z < 2 then (20 * z - 6) / 17 else if z > 20.1 then (50 * z + 221.1) / 61 else z
  div (1960 * (bark + 0.53)) (26.28 - bark)

/-- `std::transform` in place with an element function that may fail. -/
def mapRange {α : Type} (g : α → Except Fault α) : Nat → List α → Nat → Except Fault (List α)
  | 0, m, _ => .ok m
  | n + 1, m, p => do
    let v ← g (← Mem.read m p)
    let m' ← Mem.write m p v
    mapRange g n m' (p + 1)

/-- auditory/melspace.hpp 42-46, erbspace.hpp 42-46, barkspace.hpp 41-45, centspace.hpp 42-46: the four
functions differ in the converter `g` only. -/
noncomputable def audSpace (g : ℝ → Except Fault ℝ) (m : List ℝ) (first last : Nat) (lo hi : ℝ) :
    Except Fault (List ℝ) := do
  let n ← Mem.distance first last
  let m1 ← Seq.linspace m first lo hi n
  mapRange g n m1 first

/-- converter/complex2real.hpp 44-49: the two outputs are the arrays `d1`, `d2` from their first cell. -/
def complex2real {K : Type} : List (K × K) → Nat → List K → List K → Except Fault (List K × List K)
  | [], _, d1, d2 => .ok (d1, d2)
  | z :: zs, i, d1, d2 => do
    let d1' ← Mem.write d1 i z.1
    let d2' ← Mem.write d2 i z.2
    complex2real zs (i + 1) d1' d2'

/-- converter/real2complex.hpp 41-44. -/
def real2complex {K : Type} [Zero K] : List K → Nat → List (K × K) → Except Fault (List (K × K))
  | [], _, d => .ok d
  | x :: xs, i, d => do
    let d' ← Mem.write d i (x, 0)
    real2complex xs (i + 1) d'

/-- converter/real2complex.hpp 56-61: the length is that of the first range; `im` is read at the same
positions. -/
def real2complex2 {K : Type} : List K → List K → Nat → List (K × K) → Except Fault (List (K × K))
  | [], _, _, d => .ok d
  | x :: xs, im, i, d => do
    let y ← Mem.read im i
    let d' ← Mem.write d i (x, y)
    real2complex2 xs im (i + 1) d'

end Edsp.Conv
