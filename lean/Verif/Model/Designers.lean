import Verif.Model.Biquad
import Mathlib.Analysis.SpecialFunctions.Trigonometric.Basic
import Mathlib.Analysis.SpecialFunctions.Pow.Real
import Mathlib.Analysis.SpecialFunctions.Trigonometric.Deriv

/-!
# Model of the RBJ and Zoelzer designers

include/edsp/filter/internal/rbj_designer.hpp and zoelzer_designer.hpp, over the real numbers
(`std::sin`, `std::cos`, `std::tan`, `std::sqrt`, `std::pow` are the real functions).
Divisions whose divisor may be zero are checked and give a fault.
-/

namespace Edsp

/-- `std::tan` is undefined at the odd multiples of pi/2, where the cosine vanishes. -/
noncomputable def ctan (x : ℝ) : Except Fault ℝ :=
  if Real.cos x = 0 then .error .domain else .ok (Real.sin x / Real.cos x)

/-- Floating division; a zero divisor is a fault. -/
noncomputable def fdiv (a b : ℝ) : Except Fault ℝ :=
  if b = 0 then .error .divByZero else .ok (a / b)

namespace Rbj

/-- rbj_designer.hpp 37-52. -/
noncomputable def lowPass (fc fs Q : ℝ) : Except Fault (Biquad ℝ) := do
  let omega ← fdiv (2 * Real.pi * fc) fs
  let s := Real.sin omega
  let c := Real.cos omega
  let alpha ← fdiv s (2 * Q)
  Biquad.ofCoeffs (1 + alpha) (-2 * c) (1 - alpha) ((1 - c) / 2) (1 - c) ((1 - c) / 2)

/-- rbj_designer.hpp 57-72. -/
noncomputable def highPass (fc fs Q : ℝ) : Except Fault (Biquad ℝ) := do
  let omega ← fdiv (2 * Real.pi * fc) fs
  let s := Real.sin omega
  let c := Real.cos omega
  let alpha ← fdiv s (2 * Q)
  Biquad.ofCoeffs (1 + alpha) (-2 * c) (1 - alpha) ((1 + c) / 2) (-(1 + c)) ((1 + c) / 2)

/-- rbj_designer.hpp 77-92. -/
noncomputable def bandPass (fc fs Q : ℝ) : Except Fault (Biquad ℝ) := do
  let omega ← fdiv (2 * Real.pi * fc) fs
  let s := Real.sin omega
  let c := Real.cos omega
  let alpha ← fdiv s (2 * Q)
  Biquad.ofCoeffs (1 + alpha) (-2 * c) (1 - alpha) (Q * alpha) 0 (-Q * alpha)

/-- rbj_designer.hpp 97-112. -/
noncomputable def allPass (fc fs Q : ℝ) : Except Fault (Biquad ℝ) := do
  let omega ← fdiv (2 * Real.pi * fc) fs
  let s := Real.sin omega
  let c := Real.cos omega
  let alpha ← fdiv s (2 * Q)
  Biquad.ofCoeffs (1 + alpha) (-2 * c) (1 - alpha) (1 - alpha) (-2 * c) (1 + alpha)

/-- rbj_designer.hpp 117-132. -/
noncomputable def lowShelf (fc fs Q gainDb : ℝ) : Except Fault (Biquad ℝ) := do
  let A := Real.sqrt ((10 : ℝ) ^ (gainDb / 20))
  let omega ← fdiv (2 * Real.pi * fc) fs
  let s := Real.sin omega
  let c := Real.cos omega
  let beta ← fdiv (Real.sqrt A) Q
  Biquad.ofCoeffs
    ((A + 1) + (A - 1) * c + beta * s)
    (-2 * ((A - 1) + (A + 1) * c))
    ((A + 1) + (A - 1) * c - beta * s)
    (A * ((A + 1) - (A - 1) * c + beta * s))
    (2 * A * ((A - 1) - (A + 1) * c))
    (A * ((A + 1) - (A - 1) * c - beta * s))

/-- rbj_designer.hpp 137-152. -/
noncomputable def highShelf (fc fs Q gainDb : ℝ) : Except Fault (Biquad ℝ) := do
  let A := Real.sqrt ((10 : ℝ) ^ (gainDb / 20))
  let omega ← fdiv (2 * Real.pi * fc) fs
  let s := Real.sin omega
  let c := Real.cos omega
  let beta ← fdiv (Real.sqrt A) Q
  Biquad.ofCoeffs
    ((A + 1) - (A - 1) * c + beta * s)
    (2 * ((A - 1) - (A + 1) * c))
    ((A + 1) - (A - 1) * c - beta * s)
    (A * ((A + 1) + (A - 1) * c + beta * s))
    (-2 * A * ((A - 1) + (A + 1) * c))
    (A * ((A + 1) + (A - 1) * c - beta * s))

end Rbj

namespace Zoelzer

/-- zoelzer_designer.hpp 38-48. -/
noncomputable def lowPass (fc fs Q : ℝ) : Except Fault (Biquad ℝ) := do
  let K ← ctan (← fdiv (Real.pi * fc) fs)
  let kq ← fdiv K Q
  let norm ← fdiv 1 (1 + kq + K * K)
  let b0 := K * K * norm
  let b1 := 2 * b0
  let b2 := b0
  let a1 := 2 * (K * K - 1) * norm
  let a2 := (1 - kq + K * K) * norm
  Biquad.ofCoeffs 1 a1 a2 b0 b1 b2

/-- zoelzer_designer.hpp 53-63. -/
noncomputable def highPass (fc fs Q : ℝ) : Except Fault (Biquad ℝ) := do
  let K ← ctan (← fdiv (Real.pi * fc) fs)
  let kq ← fdiv K Q
  let norm ← fdiv 1 (1 + kq + K * K)
  let b0 := 1 * norm
  let b1 := -2 * b0
  let b2 := b0
  let a1 := 2 * (K * K - 1) * norm
  let a2 := (1 - kq + K * K) * norm
  Biquad.ofCoeffs 1 a1 a2 b0 b1 b2

/-- zoelzer_designer.hpp 68-78. -/
noncomputable def bandPass (fc fs Q : ℝ) : Except Fault (Biquad ℝ) := do
  let K ← ctan (← fdiv (Real.pi * fc) fs)
  let kq ← fdiv K Q
  let norm ← fdiv 1 (1 + kq + K * K)
  let b0 := kq * norm
  let b1 := 0
  let b2 := -b0
  let a1 := 2 * (K * K - 1) * norm
  let a2 := (1 - kq + K * K) * norm
  Biquad.ofCoeffs 1 a1 a2 b0 b1 b2

/-- `db2mag`, converter/db2mag.hpp. -/
noncomputable def db2mag (g : ℝ) : ℝ := (10 : ℝ) ^ (g / 20)

/-- zoelzer_designer.hpp 83-104. -/
noncomputable def lowShelf (fc fs gainDb : ℝ) : Except Fault (Biquad ℝ) := do
  let V := db2mag gainDb
  let K ← ctan (← fdiv (Real.pi * fc) fs)
  if gainDb ≥ 0 then
    let norm ← fdiv 1 (1 + Real.sqrt 2 * K + K * K)
    let b0 := (1 + Real.sqrt (2 * V) * K + V * K * K) * norm
    let b1 := 2 * (V * K * K - 1) * norm
    let b2 := (1 - Real.sqrt (2 * V) * K + V * K * K) * norm
    let a1 := 2 * (K * K - 1) * norm
    let a2 := (1 - Real.sqrt 2 * K + K * K) * norm
    Biquad.ofCoeffs 1 a1 a2 b0 b1 b2
  else
    let norm ← fdiv 1 (1 + Real.sqrt (2 * V) * K + V * K * K)
    let b0 := (1 + Real.sqrt 2 * K + K * K) * norm
    let b1 := 2 * (K * K - 1) * norm
    let b2 := (1 - Real.sqrt 2 * K + K * K) * norm
    let a1 := 2 * (V * K * K - 1) * norm
    let a2 := (1 - Real.sqrt (2 * V) * K + V * K * K) * norm
    Biquad.ofCoeffs 1 a1 a2 b0 b1 b2

/-- zoelzer_designer.hpp 109-130; note the arguments of line 128. -/
noncomputable def highShelf (fc fs gainDb : ℝ) : Except Fault (Biquad ℝ) := do
  let V := db2mag gainDb
  let K ← ctan (← fdiv (Real.pi * fc) fs)
  if gainDb ≥ 0 then
    let norm ← fdiv 1 (1 + Real.sqrt 2 * K + K * K)
    let b0 := (V + Real.sqrt (2 * V) * K + K * K) * norm
    let b1 := 2 * (K * K - V) * norm
    let b2 := (V - Real.sqrt (2 * V) * K + K * K) * norm
    let a1 := 2 * (K * K - 1) * norm
    let a2 := (1 - Real.sqrt 2 * K + K * K) * norm
    Biquad.ofCoeffs 1 a1 a2 b0 b1 b2
  else
    let norm ← fdiv 1 (V + Real.sqrt (2 * V) * K + K * K)
    let b0 := (1 + Real.sqrt 2 * K + K * K) * norm
    let b1 := 2 * (K * K - 1) * norm
    let b2 := (1 - Real.sqrt 2 * K + K * K) * norm
    let a1 := 2 * (K * K - V) * norm
    let a2 := (V - Real.sqrt (2 * V) * K + K * K) * norm
    Biquad.ofCoeffs b0 b1 b2 a1 a1 a2

end Zoelzer
end Edsp
