import Verif.Spec.Steady

/-! # Specification: how a filter answers constants, alternating samples and sinusoids -/

namespace Edsp.Spec

/-- Fed the signal `x`, the device `filt` (from blocks to blocks) settles to the signal `y`. -/
def Answers (filt : List ℝ → List ℝ) (x y : ℕ → ℝ) : Prop := SettlesTo (fun n => filt ((List.range n).map x)) y

/-- The signal whose samples are all `c`. -/
def constant (c : ℝ) : ℕ → ℝ := fun _ => c

/-- The signal `c, -c, c, -c, …`, the fastest there is. -/
def alternating (c : ℝ) : ℕ → ℝ := fun k => (-1) ^ k * c

end Edsp.Spec
