import Verif.Model.Memory
import Verif.Model.Statistics
import Verif.Model.Numeric

/-!
# Model of the µ-law compressor

include/edsp/experimental/quantizer/mu_law_compressor.hpp.  The lambdas of lines 54 and 86 use the parameter
`compression_factor`, which they do not capture, so the functions cannot be instantiated as they stand; the model is that
of the bodies as they read, with the parameter captured.  The samples are real numbers; the checks are assertions that
disappear in a release build (meta/expects.hpp 39-44).
-/

namespace Edsp.MuLaw

open Edsp Edsp.Mem Edsp.Stat

/-- The lambda of lines 54-59. -/
noncomputable def compress1 (A : ℝ) (mu : Int) (x : ℝ) : Except Fault ℝ := do
  let ratio ← fdiv |x| A
  fdiv (Num.sign x * A * (← flog (1 + (mu : ℝ) * ratio))) (← flog ((1 + mu : Int) : ℝ))

/-- The lambda of lines 86-91. -/
noncomputable def expand1 (A : ℝ) (mu : Int) (x : ℝ) : Except Fault ℝ := do
  let ratio ← fdiv |x| A
  fdiv (Num.sign x * A * ((← fpow ((1 + mu : Int) : ℝ) ratio) - 1)) (← flog ((1 + mu : Int) : ℝ))

/-- `std::transform` with a function that can fail. -/
def transformN (f : ℝ → Except Fault ℝ) : Nat → List ℝ → Nat → Nat → Except Fault (List ℝ)
  | 0, m, _, _ => .ok m
  | n + 1, m, s, d => do
    let v ← f (← read m s)
    transformN f n (← write m d v) (s + 1) (d + 1)

/-- The checks of lines 51-52 and 83-84, and the loop. -/
noncomputable def run (f : ℝ → Int → ℝ → Except Fault ℝ) (dbg : Bool) (m : List ℝ) (first last d : Nat) (A : ℝ)
    (mu : Int) : Except Fault (List ℝ) := do
  if dbg = true ∧ ¬ A > 0 then throw .assertion
  if dbg = true ∧ ¬ mu > 0 then throw .assertion
  transformN (f A mu) (← distance first last) m first d

/-- Lines 47-61. -/
noncomputable def compression : Bool → List ℝ → Nat → Nat → Nat → ℝ → Int → Except Fault (List ℝ) := run compress1

/-- Lines 79-93. -/
noncomputable def expansion : Bool → List ℝ → Nat → Nat → Nat → ℝ → Int → Except Fault (List ℝ) := run expand1

end Edsp.MuLaw
